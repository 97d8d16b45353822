import Verif.Proofs.DriverField
import Verif.Proofs.Fields

/-!
# The problems solved by a driver in terms of the declared materials
-/

set_option linter.unusedSectionVars false

namespace Tulip
open Spec Matrix

section
variable {𝕜 : Type} [Field 𝕜] {F : FEM 𝕜} {mats : Materials 𝕜}

theorem find?_of_unique {α : Type _} {p : α → Bool} {l : List α} {x : α} (hx : x ∈ l) (hp : p x = true)
    (hu : ∀ y ∈ l, p y = true → y = x) : l.find? p = some x := by
  induction l with
  | nil => cases hx
  | cons a t ih =>
    rw [List.find?_cons]
    cases ha : p a with
    | true => rw [hu a List.mem_cons_self ha]
    | false =>
      rcases List.mem_cons.mp hx with rfl | hx
      · rw [hp] at ha; cases ha
      · exact ih hx (fun y hy => hu y (List.mem_cons_of_mem _ hy))

theorem inj_of_nodup_map {α β : Type _} {f : α → β} {l : List α} (h : (l.map f).Nodup) {x y : α} (hx : x ∈ l)
    (hy : y ∈ l) (e : f x = f y) : x = y := List.inj_on_of_nodup_map h hx hy e

theorem declaredEps_of_mem (hW : WellDeclared mats) {d : Dielectric 𝕜} (hd : d ∈ mats.dielectrics) :
    declaredEps mats false d.tag = d.relativePermittivity := by
  unfold declaredEps
  rw [if_neg (by simp), find?_of_unique hd (by simp)]
  intro y hy e
  exact inj_of_nodup_map hW.tags hy hd (by simpa using e)

theorem declaredEps_of_not_mem {a : Int} (h : ∀ d ∈ mats.dielectrics, d.tag ≠ a) (b : Bool) :
    declaredEps mats b a = 1 := by
  unfold declaredEps
  split
  · rfl
  · rw [List.find?_eq_none.mpr (fun d hd => by simpa using h d hd)]

/-- The permittivity map holds the declared permittivity of each dielectric tag and nothing else. -/
theorem permittivityMap_find (hW : WellDeclared mats) (b : Bool) (a : Int) :
    (permittivityMap mats b).find? a =
      if ∃ d ∈ mats.dielectrics, d.tag = a then some (declaredEps mats b a) else none := by
  split
  · next h =>
    obtain ⟨d, hd, rfl⟩ := h
    have h1 : (buildAttrToValueMap mats.buildNameToAttrMapForDielectric (1 : 𝕜)).find? d.tag = some 1 :=
      (buildAttrToValueMap_find _ _ _ _).mpr ⟨rfl, (d.name, d.tag), (dielMap_mem hW.names _ _).mpr ⟨d, hd, rfl, rfl⟩, rfl⟩
    unfold permittivityMap
    cases b with
    | true => exact h1
    | false =>
      simp only [Bool.false_eq_true, if_false]
      rw [SMap.find?_setAll (buildAttrToValueMap_sorted _ _), declaredEps_of_mem hW hd,
        filter_eq_singleton hW.tags hd]
      rfl
  · next h =>
    rw [SMap.find?_eq_none_iff, permittivityMap_keys hW.names]
    exact h

theorem epsLoop_spec (maxAttr : Int) : ∀ (m : List (Int × 𝕜)) (eps e : Int → 𝕜), SMap.Sorted m →
    (∀ a ∈ SMap.keys m, eps a = 1) → epsLoop maxAttr m eps = .ok e →
    ∀ a, e a = (SMap.find? m a).getD (eps a)
  | [], eps, e, _, _, h, a => by cases h; rfl
  | (k, v) :: t, eps, e, hs, h1, h, a => by
    rw [epsLoop] at h
    split at h
    · obtain ⟨hlt, ht⟩ := List.pairwise_cons.mp hs
      have hne : ∀ b ∈ SMap.keys t, b ≠ k := by
        intro b hb e
        obtain ⟨x, hx, rfl⟩ := List.mem_map.mp hb
        have := hlt x hx
        simp only at this
        omega
      rw [epsLoop_spec maxAttr t _ e ht (fun b hb => by
        simp only [if_neg (hne b hb)]
        exact h1 b (List.mem_cons_of_mem _ hb)) h a, SMap.find?_cons]
      have hk : eps k = 1 := h1 k List.mem_cons_self
      by_cases e1 : k = a
      · subst e1
        rw [if_pos rfl, SMap.find?_eq_none_iff.mpr (fun hb => hne _ hb rfl)]
        simp [hk]
      · simp [e1, Ne.symm e1]
    · cases h

/-- Permittivity used by the solver. -/
theorem permittivity_spec (hW : WellDeclared mats) {b : Bool} {eps : Int → 𝕜}
    (h : F.permittivity (permittivityMap mats b) = .ok eps) : eps = declaredEps mats b := by
  funext a
  unfold FEM.permittivity at h
  split at h
  · next h0 =>
    cases h
    symm
    apply declaredEps_of_not_mem
    intro d hd e
    have : d.tag ∈ SMap.keys (permittivityMap mats b) := (permittivityMap_keys hW.names b _).mpr ⟨d, hd, rfl⟩
    rw [List.length_eq_zero_iff.mp h0] at this
    cases this
  · obtain ⟨m, _, h⟩ := Outcome.bind_eq_ok.mp h
    rw [epsLoop_spec m _ _ eps (permittivityMap_sorted mats b) (fun _ _ => rfl) h a, permittivityMap_find hW]
    split
    · rfl
    · next h0 =>
      exact (declaredEps_of_not_mem (fun d hd e => h0 ⟨d, hd, e⟩) b).symm

theorem openTags_perm (hW : WellDeclared mats) :
    (getAttributesInMap mats.buildNameToAttrMapForOpenBoundary).Perm (mats.openBoundaries.map OpenBoundary.tag) := by
  have hm : mats.buildNameToAttrMapForOpenBoundary.Perm
      (mats.openBoundaries.map (fun o => (o.name, o.tag))) := by
    rw [List.perm_ext_iff_of_nodup]
    · rintro ⟨k, v⟩
      unfold Materials.buildNameToAttrMapForOpenBoundary
      rw [← SMap.find?_eq_some_iff (SMap.Sorted.nil.setAll _ _ _), find?_setAll_of_nodup _ _ _ hW.opens]
      simp [List.mem_map]
    · exact (SMap.Sorted.nil.setAll _ _ _).imp (fun h e => absurd (e ▸ h) (lt_irrefl _))
    · exact List.Nodup.of_map (f := Prod.fst) (by rw [List.map_map]; exact hW.opens)
  have := hm.map Prod.snd
  rw [List.map_map] at this
  exact this

/-- Matrix of the discrete problem: Laplacian weighted by the permittivities, plus the boundary term of the
open boundaries. -/
def systemMatrix (A : Analytic 𝕜) (F : FEM 𝕜) (mats : Materials 𝕜) (ignoreDielectrics : Bool) :
    Matrix (Fin F.n) (Fin F.n) 𝕜 := Matrix.of fun i j =>
  (F.dom.map (fun q => q.w * declaredEps mats ignoreDielectrics q.attr * dot2 (q.gradN i) (q.gradN j))).sum +
  ((F.bdr.filter (fun q => mats.openBoundaries.any (fun o => o.tag = q.attr))).map
    (fun q => q.w * A.abc q.pos * (q.N i * q.N j))).sum

theorem systemMatrix_mulVec (A : Analytic 𝕜) (b : Bool) (u : Fin F.n → 𝕜) (i : Fin F.n) :
    (systemMatrix A F mats b *ᵥ u) i =
      weakForm A F (declaredEps mats b) (mats.openBoundaries.map OpenBoundary.tag) u i := by
  have h : systemMatrix A F mats b = F.stiffness (declaredEps mats b) + Matrix.of fun i j =>
      ((F.bdr.filter (fun q => mats.openBoundaries.any (fun o => o.tag = q.attr))).map
        (fun q => q.w * A.abc q.pos * (q.N i * q.N j))).sum := by
    ext i j
    simp only [systemMatrix, FEM.stiffness, Matrix.add_apply, Matrix.of_apply]
  rw [h, add_mulVec, Pi.add_apply, stiffness_mulVec]
  unfold weakForm
  congr 1
  have hf : F.bdr.filter (fun q => mats.openBoundaries.any (fun o => o.tag = q.attr)) =
      F.bdr.filter (fun q => decide (q.attr ∈ mats.openBoundaries.map OpenBoundary.tag)) := by
    apply List.filter_congr
    intro q _
    rw [Bool.eq_iff_iff, decide_eq_true_iff, List.any_eq_true, List.mem_map]
    simp
  rw [← hf]
  exact mulVec_scalar (F.bdr.filter (fun q => mats.openBoundaries.any (fun o => o.tag = q.attr)))
    (fun q => q.w * A.abc q.pos) (fun q => q.N) (fun q => q.N) u i

theorem systemMatrix_diag (A : Analytic 𝕜) (b : Bool) (i : Fin F.n) : systemMatrix A F mats b i i =
    weakForm A F (declaredEps mats b) (mats.openBoundaries.map OpenBoundary.tag) (fun k => if k = i then 1 else 0) i := by
  rw [← systemMatrix_mulVec]
  simp [mulVec, dotProduct]

theorem Spec.WellPosed.system {A : Analytic 𝕜} (h : WellPosed A F mats) (b : Bool) :
    Regular (systemMatrix A F mats b) (fun k => ∃ p ∈ mats.pecs, OnBoundary F p.tag k) :=
  ⟨fun u hu => funext (h.unique b u hu.1 (fun k hk => by rw [← systemMatrix_mulVec]; exact hu.2 k hk)),
    fun i hi => by rw [systemMatrix_diag]; exact h.diagonal b i hi⟩

theorem Spec.WellPosed.of_system {A : Analytic 𝕜}
    (h : ∀ b, Regular (systemMatrix A F mats b) (fun k => ∃ p ∈ mats.pecs, OnBoundary F p.tag k))
    (hd : F.massD.det ≠ 0) : WellPosed A F mats :=
  ⟨fun b u h0 h1 k => congrFun ((h b).1 u ⟨h0, fun k hk => by rw [systemMatrix_mulVec]; exact h1 k hk⟩) k,
    fun b k hk => by rw [← systemMatrix_diag]; exact (h b).2 k hk, projectionUnique_iff.mpr hd⟩

theorem Spec.WellPosed.det {A : Analytic 𝕜} (h : WellPosed A F mats) : F.massD.det ≠ 0 :=
  projectionUnique_iff.mp h.projection

/-- The solver of a driver assembles the system matrix of the declared materials. -/
theorem make_system {E : Engine 𝕜} {b : Bool} {raw : SolverSolution F} {s0 : Solver F} (hB : Buildable F mats)
    (hW : WellDeclared mats) (h : Solver.make E.analytic F (inputsOf mats b) raw = .ok s0) :
    s0.K = systemMatrix E.analytic F mats b ∧ s0.eps = declaredEps mats b := by
  obtain ⟨_, m2, _, _, _, _, m7, m8⟩ := make_fields h
  have he := permittivity_spec hW m2
  refine ⟨?_, he⟩
  have hp := openTags_perm hW
  by_cases h0 : (inputsOf mats b).openBoundaries = []
  · rw [m7 h0, he]
    have h1 : mats.openBoundaries = [] := by
      change getAttributesInMap mats.buildNameToAttrMapForOpenBoundary = [] at h0
      rw [h0] at hp
      exact List.map_eq_nil_iff.mp hp.symm.eq_nil
    ext i j
    simp [FEM.stiffness, systemMatrix, h1]
  · obtain ⟨mk, e1, e2⟩ := m8 h0
    have hpos : ∀ a ∈ (inputsOf mats b).openBoundaries, 0 < a := by
      intro a ha
      obtain ⟨o, ho, rfl⟩ := List.mem_map.mp (hp.mem_iff.mp ha)
      have := hB.opens o ho
      omega
    obtain ⟨mk', e3, _, _, e4, _⟩ := AttrToMarker_ok hB.bdrAttrs h0 hpos
    rw [e3] at e1
    cases e1
    rw [e2, he]
    ext i j
    have hf : F.bdr.filter (fun q => decide (FEM.marked mk q.attr)) =
        F.bdr.filter (fun q => mats.openBoundaries.any (fun o => o.tag = q.attr)) := by
      apply List.filter_congr
      intro q hq
      rw [Bool.eq_iff_iff, decide_eq_true_iff, marked_iff e4 (hB.points q hq), List.any_eq_true]
      change _ ∈ getAttributesInMap mats.buildNameToAttrMapForOpenBoundary ↔ _
      rw [hp.mem_iff, List.mem_map]
      simp
    simp only [Matrix.add_apply, FEM.stiffness, FEM.openMass, systemMatrix, Matrix.of_apply, hf]

/-- The fields of the two vocabularies. -/
theorem FieldFor.prescribed {E : Engine 𝕜} {b : Bool} {raw : SolverSolution F} {s0 : Solver F} {ps : List (PEC 𝕜)}
    (hN : Numbering mats ps) (hB : Buildable F mats) (hW : WellDeclared mats)
    (hm : Solver.make E.analytic F (inputsOf mats b) raw = .ok s0) {V : Int → 𝕜} {t : SolverSolution F}
    (h : FieldFor s0 (SMap.keys (inputsOf mats b).dirichletBoundaries) V t) :
    PrescribedField E.analytic F mats b V t := by
  obtain ⟨hK, heps⟩ := make_system hB hW hm
  obtain ⟨⟨phi0, e1, h1, h2⟩, he, hd⟩ := h
  obtain ⟨phi0', e2, h3, h4⟩ := applyBoundary_ok hB.bdr hB.bdrAttrs _ V (inputs_dirichlet_pos hN hB b)
  rw [e1] at e2
  cases e2
  have hkeys := dirichlet_keys hN b
  have hiff : ∀ k, (∃ a ∈ SMap.keys (inputsOf mats b).dirichletBoundaries, OnBoundary F a k) ↔
      ∃ p ∈ mats.pecs, OnBoundary F p.tag k := by
    intro k
    constructor
    · rintro ⟨a, ha, ho⟩
      obtain ⟨p, hp, rfl⟩ := (hkeys a).mp ha
      exact ⟨p, hp, ho⟩
    · rintro ⟨p, hp, ho⟩
      exact ⟨p.tag, (hkeys _).mpr ⟨p, hp, rfl⟩, ho⟩
  refine ⟨?_, ?_, fun k => congrFun he k, (displacement_iff _ _ _).mpr (by rw [← heps]; exact hd)⟩
  · intro k c hk hc
    rw [h1 k ((hiff k).mpr hk)]
    apply h4 k c ((hiff k).mpr hk)
    intro a ha ho
    obtain ⟨p, hp, rfl⟩ := (hkeys a).mp ha
    exact hc p hp ho
  · intro k hk
    rw [← systemMatrix_mulVec, ← hK]
    refine h2 k (fun h => ?_)
    obtain ⟨p, hp, ho⟩ := (hiff k).mp h
    exact hk p hp ho

theorem Spec.WellPosed.regular {E : Engine 𝕜} {b : Bool} {raw : SolverSolution F} {s0 : Solver F} {ps : List (PEC 𝕜)}
    (h : WellPosed E.analytic F mats) (hN : Numbering mats ps) (hB : Buildable F mats) (hW : WellDeclared mats)
    (hm : Solver.make E.analytic F (inputsOf mats b) raw = .ok s0) :
    Regular s0.K (fun i => ∃ a ∈ SMap.keys (inputsOf mats b).dirichletBoundaries, OnBoundary F a i) := by
  have : (fun i => ∃ a ∈ SMap.keys (inputsOf mats b).dirichletBoundaries, OnBoundary F a i) =
      fun k => ∃ p ∈ mats.pecs, OnBoundary F p.tag k := by
    funext k
    apply propext
    constructor
    · rintro ⟨a, ha, ho⟩
      obtain ⟨p, hp, rfl⟩ := (dirichlet_keys hN b a).mp ha
      exact ⟨p, hp, ho⟩
    · rintro ⟨p, hp, ho⟩
      exact ⟨p.tag, (dirichlet_keys hN b _).mpr ⟨p, hp, rfl⟩, ho⟩
  rw [this, (make_system hB hW hm).1]
  exact h.system b

end
end Tulip
