import Verif.Proofs.Conductors
import Verif.Proofs.SolverState

/-!
# Construction of a driver
-/

set_option linter.unusedSectionVars false

namespace Tulip
open Spec Matrix

section inputs
variable {𝕜 : Type} [Field 𝕜]

/-! ## Maps from attributes to values -/

theorem buildAttrToValueMap_eq (m : NameToAttrMap) (v : 𝕜) :
    buildAttrToValueMap m v = SMap.setAll [] Prod.snd (fun _ => v) m := rfl

theorem buildAttrToValueMap_sorted (m : NameToAttrMap) (v : 𝕜) : (buildAttrToValueMap m v).Sorted :=
  SMap.Sorted.nil.setAll _ _ _

theorem buildAttrToValueMap_find (m : NameToAttrMap) (v : 𝕜) (t : Int) (x : 𝕜) :
    (buildAttrToValueMap m v).find? t = some x ↔ x = v ∧ ∃ kv ∈ m, kv.2 = t := by
  rw [buildAttrToValueMap_eq, SMap.find?_setAll SMap.Sorted.nil]
  simp only [SMap.find?_nil, Option.or_none, Option.map_eq_some_iff]
  constructor
  · rintro ⟨a, ha, rfl⟩
    have := List.mem_of_getLast? ha
    simp only [List.mem_filter, decide_eq_true_eq] at this
    exact ⟨rfl, a, this.1, this.2⟩
  · rintro ⟨rfl, a, ha, e⟩
    have hne : m.filter (fun x => decide (x.2 = t)) ≠ [] := by
      intro h
      have : a ∈ m.filter (fun x => decide (x.2 = t)) := by
        rw [List.mem_filter]; exact ⟨ha, by simpa using e⟩
      rw [h] at this; cases this
    exact ⟨_, List.getLast?_eq_some_getLast hne, rfl⟩

theorem epsrLoop_ok : ∀ (ds : List (Dielectric 𝕜)) (m : AttrToValueMap 𝕜), m.Sorted →
    (∀ d ∈ ds, d.tag ∈ SMap.keys m) →
    epsrLoop ds m = .ok (SMap.setAll m Dielectric.tag Dielectric.relativePermittivity ds) := by
  intro ds
  induction ds with
  | nil => intro m _ _; rfl
  | cons d t ih =>
    intro m hs h
    rw [epsrLoop, if_pos (SMap.contains_iff.mpr (h d List.mem_cons_self)), ih _ (hs.set _ _)]
    · rfl
    · intro d' hd'
      have := h d' (List.mem_cons_of_mem _ hd')
      rw [← SMap.find?_isSome_iff] at this ⊢
      rw [SMap.find?_set hs]
      split
      · rfl
      · exact this

/-- The name map of the dielectrics holds each name once. -/
theorem dielMap_mem {mats : Materials 𝕜} (hn : (mats.dielectrics.map Dielectric.name).Nodup) (k : String) (v : Int) :
    (k, v) ∈ mats.buildNameToAttrMapForDielectric ↔ ∃ d ∈ mats.dielectrics, d.name = k ∧ d.tag = v := by
  unfold Materials.buildNameToAttrMapForDielectric
  rw [← SMap.find?_eq_some_iff (SMap.Sorted.nil.setAll _ _ _)]
  exact find?_setAll_of_nodup _ _ _ hn k v

theorem openMap_mem_of {mats : Materials 𝕜} {k : String} {v : Int}
    (h : (k, v) ∈ mats.buildNameToAttrMapForOpenBoundary) : ∃ o ∈ mats.openBoundaries, o.tag = v := by
  have := SMap.find?_of_mem (SMap.Sorted.nil.setAll _ _ _) h
  unfold Materials.buildNameToAttrMapForOpenBoundary at this
  rw [SMap.find?_setAll SMap.Sorted.nil] at this
  simp only [SMap.find?_nil, Option.or_none, Option.map_eq_some_iff] at this
  obtain ⟨a, ha, rfl⟩ := this
  have := List.mem_of_getLast? ha
  exact ⟨a, (List.mem_filter.mp this).1, rfl⟩

/-- The permittivities passed to the solver. -/
def permittivityMap (mats : Materials 𝕜) (ignoreDielectrics : Bool) : AttrToValueMap 𝕜 :=
  let m := buildAttrToValueMap mats.buildNameToAttrMapForDielectric (1 : 𝕜)
  if ignoreDielectrics then m
  else SMap.setAll m Dielectric.tag Dielectric.relativePermittivity mats.dielectrics

theorem permittivityMap_keys {mats : Materials 𝕜} (hn : (mats.dielectrics.map Dielectric.name).Nodup)
    (b : Bool) (t : Int) : t ∈ SMap.keys (permittivityMap mats b) ↔ ∃ d ∈ mats.dielectrics, d.tag = t := by
  have h1 : t ∈ SMap.keys (buildAttrToValueMap mats.buildNameToAttrMapForDielectric (1 : 𝕜)) ↔
      ∃ d ∈ mats.dielectrics, d.tag = t := by
    rw [← SMap.find?_isSome_iff, Option.isSome_iff_exists]
    constructor
    · rintro ⟨x, hx⟩
      obtain ⟨_, ⟨k, v⟩, hkv, e⟩ := (buildAttrToValueMap_find _ _ _ _).mp hx
      obtain ⟨d, hd, _, e2⟩ := (dielMap_mem hn k v).mp hkv
      exact ⟨d, hd, e2.trans e⟩
    · rintro ⟨d, hd, e⟩
      exact ⟨1, (buildAttrToValueMap_find _ _ _ _).mpr
        ⟨rfl, (d.name, d.tag), (dielMap_mem hn _ _).mpr ⟨d, hd, rfl, rfl⟩, e⟩⟩
  unfold permittivityMap
  cases b with
  | true => exact h1
  | false =>
    simp only [Bool.false_eq_true, if_false]
    rw [SMap.keys_setAll_mem (buildAttrToValueMap_sorted _ _), h1, or_self]

theorem permittivityMap_sorted (mats : Materials 𝕜) (b : Bool) : (permittivityMap mats b).Sorted := by
  unfold permittivityMap
  cases b with
  | true => exact buildAttrToValueMap_sorted _ _
  | false => exact (buildAttrToValueMap_sorted _ _).setAll _ _ _

/-- The inputs of the solver. -/
def inputsOf (mats : Materials 𝕜) (ignoreDielectrics : Bool) : SolverInputs 𝕜 where
  domainPermittivities := permittivityMap mats ignoreDielectrics
  openBoundaries := getAttributesInMap mats.buildNameToAttrMapForOpenBoundary
  dirichletBoundaries := buildAttrToValueMap mats.buildNameToAttrMapForPEC (0 : 𝕜)

theorem buildInputs_ok (model : Model 𝕜) (hn : (model.materials.dielectrics.map Dielectric.name).Nodup)
    (b : Bool) : buildSolverInputsFromModel model b = .ok (inputsOf model.materials b) := by
  unfold buildSolverInputsFromModel inputsOf permittivityMap
  cases b with
  | true => rfl
  | false =>
    simp only [Bool.not_false, if_true]
    rw [epsrLoop_ok _ _ (buildAttrToValueMap_sorted _ _)]
    · rfl
    · intro d hd
      exact (permittivityMap_keys hn true d.tag).mpr ⟨d, hd, rfl⟩

/-! ## The solver is built -/

theorem epsLoop_ok (maxAttr : Int) : ∀ (m : List (Int × 𝕜)) (eps : Int → 𝕜),
    (∀ x ∈ m, 1 ≤ x.1 ∧ x.1 ≤ maxAttr) → ∃ e, epsLoop maxAttr m eps = .ok e
  | [], eps, _ => ⟨eps, rfl⟩
  | (a, er) :: t, eps, h => by
    rw [epsLoop, if_pos (h (a, er) List.mem_cons_self)]
    exact epsLoop_ok maxAttr t _ (fun x hx => h x (List.mem_cons_of_mem _ hx))

variable {F : FEM 𝕜} {mats : Materials 𝕜}

theorem permittivity_ok (hB : Buildable F mats) (b : Bool) :
    ∃ eps, F.permittivity (permittivityMap mats b) = .ok eps := by
  unfold FEM.permittivity
  split
  · exact ⟨_, rfl⟩
  · next h =>
    have hk : ∀ x ∈ permittivityMap mats b, ∃ d ∈ mats.dielectrics, d.tag = x.1 := by
      intro x hx
      exact (permittivityMap_keys hB.names b x.1).mp (List.mem_map_of_mem hx)
    have hdom : F.domAttrs ≠ [] := by
      cases hm : permittivityMap mats b with
      | nil => rw [hm] at h; exact absurd rfl h
      | cons x t =>
        obtain ⟨d, hd, _⟩ := hk x (by rw [hm]; exact List.mem_cons_self)
        obtain ⟨_, a, ha, _⟩ := hB.dielectrics d hd
        exact List.ne_nil_of_mem ha
    obtain ⟨m, e, _, hle⟩ := arrayMax_spec hdom
    rw [e, Outcome.ok_bind]
    apply epsLoop_ok
    intro x hx
    obtain ⟨d, hd, e2⟩ := hk x hx
    obtain ⟨h1, a, ha, h2⟩ := hB.dielectrics d hd
    rw [← e2]
    exact ⟨h1, h2.trans (hle a ha)⟩

theorem dirichlet_keys {ps : List (PEC 𝕜)} (hN : Numbering mats ps) (b : Bool) (t : Int) :
    t ∈ SMap.keys (inputsOf mats b).dirichletBoundaries ↔ ∃ p ∈ mats.pecs, p.tag = t := by
  rw [← SMap.find?_isSome_iff, Option.isSome_iff_exists]
  show (∃ a, SMap.find? (buildAttrToValueMap mats.buildNameToAttrMapForPEC (0 : 𝕜)) t = some a) ↔ _
  constructor
  · rintro ⟨x, hx⟩
    obtain ⟨_, ⟨k, v⟩, hkv, e⟩ := (buildAttrToValueMap_find _ _ _ _).mp hx
    have := (pecMap_perm hN.names_nodup).mem_iff.mp hkv
    obtain ⟨p, hp, e2⟩ := List.mem_map.mp this
    cases e2
    exact ⟨p, hp, e⟩
  · rintro ⟨p, hp, e⟩
    refine ⟨0, (buildAttrToValueMap_find _ _ _ _).mpr ⟨rfl, (p.name, p.tag), ?_, e⟩⟩
    exact (pecMap_perm hN.names_nodup).mem_iff.mpr (List.mem_map.mpr ⟨p, hp, rfl⟩)

theorem inputs_dirichlet_ne {ps : List (PEC 𝕜)} (hN : Numbering mats ps) (b : Bool) :
    (inputsOf mats b).dirichletBoundaries ≠ [] := by
  intro h
  cases hps : ps with
  | nil => exact hN.nonempty hps
  | cons p t =>
    have : p.tag ∈ SMap.keys (inputsOf mats b).dirichletBoundaries :=
      (dirichlet_keys hN b p.tag).mpr ⟨p, hN.all.mem_iff.mp (by rw [hps]; exact List.mem_cons_self), rfl⟩
    rw [h] at this; cases this

theorem inputs_dirichlet_pos {ps : List (PEC 𝕜)} (hN : Numbering mats ps) (hB : Buildable F mats) (b : Bool) :
    ∀ a ∈ SMap.keys (inputsOf mats b).dirichletBoundaries, 0 < a := by
  intro a ha
  obtain ⟨p, hp, e⟩ := (dirichlet_keys hN b a).mp ha
  have := hB.pecs p hp
  omega

theorem make_ok {ps : List (PEC 𝕜)} (hN : Numbering mats ps) (hB : Buildable F mats) (A : Analytic 𝕜) (b : Bool)
    (raw : SolverSolution F) : ∃ s0, Solver.make A F (inputsOf mats b) raw = .ok s0 := by
  unfold Solver.make
  have hk : AttrToValueMap.getAttributesAsArray (inputsOf mats b).dirichletBoundaries ≠ [] := by
    intro h
    exact inputs_dirichlet_ne hN b (List.map_eq_nil_iff.mp h)
  obtain ⟨mk, e1, _⟩ := AttrToMarker_ok hB.bdrAttrs hk (inputs_dirichlet_pos hN hB b)
  obtain ⟨eps, e2⟩ := permittivity_ok hB b
  have e2' : F.permittivity (inputsOf mats b).domainPermittivities = .ok eps := e2
  rw [e1, Outcome.ok_bind, e2', Outcome.ok_bind]
  split
  · exact ⟨_, rfl⟩
  · next h =>
    have hne : (inputsOf mats b).openBoundaries ≠ [] := by intro e; rw [e] at h; exact h rfl
    obtain ⟨mk2, e3, _⟩ := AttrToMarker_ok hB.bdrAttrs hne (by
      intro a ha
      obtain ⟨⟨k, v⟩, hkv, e⟩ := List.mem_map.mp (show a ∈ List.map Prod.snd _ from ha)
      obtain ⟨o, ho, e2⟩ := openMap_mem_of hkv
      have := hB.opens o ho
      simp only at e
      omega)
    rw [e3]
    exact ⟨_, rfl⟩

/-! ## Excitation of one conductor -/

/-- 1 V on the boundary with this tag, 0 V on the others. -/
def unitVolt (t : Int) : Int → 𝕜 := fun a => if a = t then 1 else 0

theorem prescribe_find (V : Int → 𝕜) : ∀ (ks : List Int) (a : Int),
    SMap.find? (prescribe ks V) a = if a ∈ ks then some (V a) else none
  | [], a => by simp [prescribe]
  | k :: ks, a => by
    have := prescribe_find V ks a
    unfold prescribe at this ⊢
    rw [List.map_cons, SMap.find?_cons, this]
    by_cases h : k = a
    · subst h; simp
    · simp [h, Ne.symm h]

theorem prescribe_sorted (V : Int → 𝕜) {ks : List Int} (h : ks.Pairwise (· < ·)) : SMap.Sorted (prescribe ks V) := by
  unfold prescribe SMap.Sorted
  rw [List.pairwise_map]; exact h

theorem inputs_dirichlet_eq (b : Bool) : (inputsOf mats b).dirichletBoundaries =
    prescribe (SMap.keys (inputsOf mats b).dirichletBoundaries) (fun _ => 0) := by
  have hs : SMap.Sorted (inputsOf mats b).dirichletBoundaries := buildAttrToValueMap_sorted _ _
  refine SMap.ext hs (prescribe_sorted _ hs.keys_pairwise) ?_
  intro k
  rw [prescribe_find]
  by_cases h : k ∈ SMap.keys (inputsOf mats b).dirichletBoundaries
  · rw [if_pos h]
    rw [← SMap.find?_isSome_iff, Option.isSome_iff_exists] at h
    obtain ⟨x, hx⟩ := h
    rw [hx, ((buildAttrToValueMap_find _ _ _ _).mp hx).1]
  · rw [if_neg h]
    exact SMap.find?_eq_none_iff.mpr h

theorem excitation_eq {ps : List (PEC 𝕜)} (hN : Numbering mats ps) (b : Bool) {p : PEC 𝕜} (hp : p ∈ mats.pecs) :
    SMap.set (inputsOf mats b).dirichletBoundaries p.tag 1 =
      prescribe (SMap.keys (inputsOf mats b).dirichletBoundaries) (unitVolt p.tag) := by
  have hs : SMap.Sorted (inputsOf mats b).dirichletBoundaries := buildAttrToValueMap_sorted _ _
  refine SMap.ext (hs.set _ _) (prescribe_sorted _ hs.keys_pairwise) ?_
  intro k
  rw [SMap.find?_set hs, prescribe_find]
  have hk := (dirichlet_keys hN b p.tag).mpr ⟨p, hp, rfl⟩
  unfold unitVolt
  by_cases h : p.tag = k
  · subst h
    rw [if_pos rfl, if_pos hk, if_pos rfl]
  · rw [if_neg h]
    conv_lhs => rw [inputs_dirichlet_eq b, prescribe_find]
    simp [Ne.symm h]

end inputs

/-! ## The loop over the conductors -/

namespace Logged
variable {𝕜 : Type} {α β : Type}

@[simp] theorem lift_ok_bind (a : α) (f : α → Logged 𝕜 β) : (lift (.ok a) >>= f) = f a := by
  show bind (lift (.ok a)) f = f a
  unfold bind lift
  simp only [List.nil_append]
  rfl

theorem emit_bind (evs : List (Event 𝕜)) (f : Unit → Logged 𝕜 β) :
    (emit evs >>= f) = ((f ()).1, evs ++ (f ()).2) := rfl

theorem ok_bind' {a : α} {w : List (Event 𝕜)} {x : Logged 𝕜 α} (h : x = (.ok a, w)) (f : α → Logged 𝕜 β) :
    (x >>= f) = ((f a).1, w ++ (f a).2) := by
  subst h; rfl

@[simp] theorem lift_throw_bind (e : Err) (f : α → Logged 𝕜 β) : (lift (.throw e) >>= f) = (.throw e, []) := rfl

theorem bind_fst_ok {x : Logged 𝕜 α} {f : α → Logged 𝕜 β} {b : β} (h : (x >>= f).1 = .ok b) :
    ∃ a, x.1 = .ok a ∧ (f a).1 = .ok b := by
  change (bind x f).1 = .ok b at h
  unfold bind at h
  rcases hx : x.1 with a | e | _ | _ <;> rw [hx] at h <;> simp_all

end Logged

section loop
variable {𝕜 : Type} [Field 𝕜] {F : FEM 𝕜}

/-- Reached from `s0` by calls that keep some boundary prescribed and change no surface charge. -/
def Reached (P : LinSolver 𝕜) (s0 s : Solver F) : Prop :=
  (∃ hist : List (SolverOp F), (∀ op ∈ hist, op.KeepsDirichlet) ∧ runOps P hist s0 = .ok s) ∧ s.sigma = s0.sigma

theorem Reached.solve {P : LinSolver 𝕜} {s0 s s' : Solver F} (h : Reached P s0 s) {v : AttrToValueMap 𝕜}
    (hv : v ≠ []) (hs : (s.setDirichletConditions v).solve P = .ok s') : Reached P s0 s' := by
  obtain ⟨⟨hist, h1, h2⟩, h3⟩ := h
  refine ⟨⟨hist ++ [.setDirichlet v, .solve], ?_, ?_⟩, ?_⟩
  · intro op hop
    rcases List.mem_append.mp hop with h | h
    · exact h1 op h
    · rcases List.mem_cons.mp h with rfl | h
      · exact hv
      · rcases List.mem_cons.mp h with rfl | h
        · trivial
        · cases h
  · rw [runOps_append P _ _ h2]
    show ((s.setDirichletConditions v).solve P >>= fun s => Outcome.ok s) = _
    rw [hs]; rfl
  · rw [(solve_setup hs).2.2.1]; exact h3

theorem Reached.refl {P : LinSolver 𝕜} (s : Solver F) : Reached P s s := ⟨⟨[], by simp, rfl⟩, rfl⟩

/-- Solving succeeds in every state reached. -/
theorem solve_total {A : Analytic 𝕜} {P : LinSolver 𝕜} (hF : ValidBoundary F) (hb : F.bdrAttrs ≠ [])
    {p : SolverInputs 𝕜} {raw : SolverSolution F} {s0 s : Solver F}
    (hmake : Solver.make A F p raw = .ok s0) (hne : p.dirichletBoundaries ≠ [])
    (hpos : ∀ a ∈ SMap.keys p.dirichletBoundaries, 0 < a) (hs : Reached P s0 s) (V : Int → 𝕜) :
    ∃ s', (s.setDirichletConditions (prescribe (SMap.keys p.dirichletBoundaries) V)).solve P = .ok s' := by
  obtain ⟨⟨hist, _, h2⟩, _⟩ := hs
  have hset := runOps_setup _ h2
  have hk : SMap.keys p.dirichletBoundaries ≠ [] := by
    intro h; exact hne (List.map_eq_nil_iff.mp h)
  obtain ⟨h1, _⟩ := make_fields hmake
  obtain ⟨ess, e1, _⟩ := essentialDofs_ok hF hk hpos h1
  obtain ⟨phi0, e2, _⟩ := applyBoundary_ok hF hb (SMap.keys p.dirichletBoundaries) V hpos
  unfold Solver.solve
  have e3 : (s.setDirichletConditions (prescribe (SMap.keys p.dirichletBoundaries) V)).essTdofs = .ok ess := by
    unfold Solver.essTdofs
    rw [if_pos]
    · show F.essentialDofs s.essBdr = _
      rw [hset.essBdr]; exact e1
    · show 0 < (AttrToValueMap.getAttributesAsArray (prescribe _ V)).length
      rw [prescribe_keys]
      exact List.length_pos_iff.mpr hk
  have e2' : F.applyBoundary (s.setDirichletConditions
      (prescribe (SMap.keys p.dirichletBoundaries) V)).params.dirichletBoundaries (fun _ => 0) = .ok phi0 := e2
  rw [e2', Outcome.ok_bind, e3]
  exact ⟨_, rfl⟩

/-- `t` is what the solver holds after being run with 1 V on `tag` and 0 V on the other conductors. -/
def Excited (P : LinSolver 𝕜) (s0 : Solver F) (keys : List Int) (tag : Int) (t : SolverSolution F) : Prop :=
  ∃ s s' : Solver F, Reached P s0 s ∧
    (s.setDirichletConditions (prescribe keys (unitVolt tag))).solve P = .ok s' ∧ t = s'.sol

theorem solveLoop_spec {mats : Materials 𝕜} {ps : List (PEC 𝕜)} (hN : Numbering mats ps) (hB : Buildable F mats)
    {A : Analytic 𝕜} (P : LinSolver 𝕜) (opts : DriverOptions) (b ign : Bool) {raw : SolverSolution F}
    {s0 : Solver F} (hmake : Solver.make A F (inputsOf mats b) raw = .ok s0) :
    ∀ (qs : List (PEC 𝕜)) (done : List (SolverSolution F)) (s : Solver F), Reached P s0 s →
      (∀ j (h : j < qs.length), mats.getPECById ((done.length + j : Nat) : Int) = .ok qs[j]) →
      (∀ q ∈ qs, q ∈ mats.pecs) →
      SMap.keys s.params.dirichletBoundaries = SMap.keys (inputsOf mats b).dirichletBoundaries →
      ∃ (new : List (SolverSolution F)) (s' : Solver F), new.length = qs.length ∧
        solveLoop P mats opts ign (inputsOf mats b).dirichletBoundaries (idMapFrom done.length qs)
          ⟨s, done.map some ++ List.replicate qs.length none⟩ =
          (.ok ⟨s', (done ++ new).map some⟩,
            (qs.zip new).flatMap (fun q => exportFieldSolutions opts q.2 q.1.name ign)) ∧
        Reached P s0 s' ∧
        SMap.keys s'.params.dirichletBoundaries = SMap.keys (inputsOf mats b).dirichletBoundaries ∧
        ∀ j (h : j < qs.length) (h' : j < new.length),
          Excited P s0 (SMap.keys (inputsOf mats b).dirichletBoundaries) qs[j].tag new[j] := by
  intro qs
  induction qs with
  | nil =>
    intro done s hr _ _ hk
    refine ⟨[], s, rfl, ?_, hr, hk, ?_⟩
    · simp only [idMapFrom, solveLoop, List.length_nil, List.replicate_zero, List.append_nil, List.zip_nil_left,
        List.flatMap_nil]
      rfl
    · intro j h; simp at h
  | cons q qs ih =>
    intro done s hr hget hmem hkeys
    have hq := hmem q List.mem_cons_self
    have hne := inputs_dirichlet_ne hN b
    have hpos := inputs_dirichlet_pos hN hB b
    obtain ⟨s1, e1⟩ := solve_total hB.bdr hB.bdrAttrs hmake hne hpos hr (unitVolt q.tag)
    have hv : prescribe (SMap.keys (inputsOf mats b).dirichletBoundaries) (unitVolt (𝕜 := 𝕜) q.tag) ≠ [] := by
      intro h
      exact hne (List.map_eq_nil_iff.mp (List.map_eq_nil_iff.mp h))
    have hr1 := hr.solve hv e1
    have hpk : SMap.keys s1.params.dirichletBoundaries = SMap.keys (inputsOf mats b).dirichletBoundaries := by
      rw [(solve_setup e1).2.1]
      show SMap.keys (prescribe _ _) = _
      exact prescribe_keys _ _
    obtain ⟨new, s', hlen, hrun, hr', hk', hex⟩ := ih (done ++ [s1.sol]) s1 hr1 (by
      intro j h
      have := hget (j + 1) (by simpa using h)
      simp only [List.length_append, List.length_singleton, List.getElem_cons_succ] at this ⊢
      rw [← this]; congr 2; omega) (fun p hp => hmem p (List.mem_cons_of_mem _ hp)) hpk
    refine ⟨s1.sol :: new, s', by simp [hlen], ?_, hr', hk', ?_⟩
    · rw [idMapFrom, solveLoop, excitation_eq hN b hq, e1, Logged.lift_ok_bind]
      have h0 := hget 0 (by simp)
      simp only [Nat.add_zero, List.getElem_cons_zero] at h0
      rw [h0, Logged.lift_ok_bind, Logged.emit_bind]
      have hset : vecSet (done.map some ++ List.replicate (q :: qs).length (none : Option (SolverSolution F)))
          (done.length : Int) (some s1.getSolution) =
          .ok ((done ++ [s1.sol]).map some ++ List.replicate qs.length none) := by
        unfold vecSet
        rw [if_pos]
        · congr 1
          have : ((done.length : Int)).toNat = done.length := by simp
          rw [this, List.length_cons, List.replicate_succ, List.set_append_right _ _ (by simp)]
          simp only [List.length_map, Nat.sub_self, List.set_cons_zero, List.map_append, List.map_cons, List.map_nil,
            List.append_assoc, List.cons_append, List.nil_append]
          rfl
        · refine ⟨by omega, ?_⟩
          simp
      rw [hset]
      simp only [Logged.lift_ok_bind]
      rw [show done.length + 1 = (done ++ [s1.sol]).length by simp, hrun]
      simp only [List.append_assoc, List.cons_append, List.nil_append, List.zip_cons_cons, List.flatMap_cons]
      rfl
    · intro j h h'
      cases j with
      | zero => exact ⟨s, s1, hr, e1, rfl⟩
      | succ j => exact hex j (by simpa using h) (by simpa using h')

/-- What `solveForAllConductors` leaves. -/
structure Solved (E : Engine 𝕜) (mats : Materials 𝕜) (b : Bool) (ps : List (PEC 𝕜)) (sp : SolvedProblem F)
    (s0 : Solver F) (sols : List (SolverSolution F)) : Prop where
  make : Solver.make E.analytic F (inputsOf mats b) (E.raw b F) = .ok s0
  len : sols.length = ps.length
  stored : sp.solutions = sols.map some
  each : ∀ i (h : i < ps.length) (h' : i < sols.length),
    Excited E.pcg s0 (SMap.keys (inputsOf mats b).dirichletBoundaries) ps[i].tag sols[i]
  reached : Reached E.pcg s0 sp.solver
  keys : SMap.keys sp.solver.params.dirichletBoundaries = SMap.keys (inputsOf mats b).dirichletBoundaries

theorem solveForAll_spec (E : Engine 𝕜) {model : Model 𝕜} {ps : List (PEC 𝕜)} (hN : Numbering model.materials ps)
    (hB : Buildable F model.materials) (opts : DriverOptions) (b : Bool) :
    ∃ (sp : SolvedProblem F) (s0 : Solver F) (sols : List (SolverSolution F)),
      solveForAllConductors E F model opts b =
        (.ok sp, (ps.zip sols).flatMap (fun q => exportFieldSolutions opts q.2 q.1.name b)) ∧
      Solved E model.materials b ps sp s0 sols := by
  obtain ⟨s0, hs0⟩ := make_ok hN hB E.analytic b (E.raw b F)
  obtain ⟨hf1, hf2, hf3, _⟩ := make_fields hs0
  obtain ⟨new, s', hlen, hrun, hr, hk, hex⟩ := solveLoop_spec hN hB E.pcg opts b b hs0 ps [] s0 (Reached.refl s0)
    (by intro j h; simp only [List.length_nil, Nat.zero_add]; exact hN.getById h)
    (fun q hq => hN.all.mem_iff.mp hq) (by rw [hf3])
  refine ⟨⟨s', new.map some⟩, s0, new, ?_, ⟨hs0, hlen, rfl, hex, hr, hk⟩⟩
  unfold solveForAllConductors
  rw [buildInputs_ok model hB.names, Logged.lift_ok_bind, hs0, Logged.lift_ok_bind, hN.idMap, Logged.lift_ok_bind,
    idMapFrom_length]
  simpa using hrun

/-- Construction succeeds for numbered conductors. -/
theorem construct_spec (E : Engine 𝕜) {model : Model 𝕜} {opts : DriverOptions} {ps : List (PEC 𝕜)}
    (hN : Numbering model.materials ps) (hB : Buildable (E.fem model opts) model.materials) :
    ∃ (d : Driver (E.fem model opts)) (s0e s0m : Solver (E.fem model opts))
      (se sm : List (SolverSolution (E.fem model opts))),
      Driver.construct E model opts = (.ok d,
        (ps.zip se).flatMap (fun q => exportFieldSolutions opts q.2 q.1.name false) ++
        (ps.zip sm).flatMap (fun q => exportFieldSolutions opts q.2 q.1.name true)) ∧
      d.model = model ∧ d.opts = opts ∧
      Solved E model.materials false ps d.electric s0e se ∧ Solved E model.materials true ps d.magnetic s0m sm := by
  obtain ⟨spe, s0e, se, e1, h1⟩ := solveForAll_spec E hN hB opts false
  obtain ⟨spm, s0m, sm, e2, h2⟩ := solveForAll_spec E hN hB opts true
  refine ⟨⟨model, opts, spe, spm⟩, s0e, s0m, se, sm, ?_, rfl, rfl, h1, h2⟩
  unfold Driver.construct
  rw [hN.check, Logged.lift_ok_bind, Logged.ok_bind' e1, Logged.ok_bind' e2]
  simp only [pure, List.append_nil]
  rfl

end loop
end Tulip
