import Verif.Proofs.DriverEvents

/-!
# A driver that was built holds a field for each conductor
-/

set_option linter.unusedSectionVars false

namespace Tulip
open Spec Matrix

section
variable {𝕜 : Type} [Field 𝕜] {F : FEM 𝕜} {α β : Type}

theorem conductorIdsLoop_readable : ∀ (l : List (String × Int)) {ids : List Int}, conductorIdsLoop l = .ok ids →
    ∀ x ∈ l, ∃ i, getMaterialIdFromName x.1 = .ok i
  | [], _, _ => fun _ h => by cases h
  | (name, a) :: t, ids, h => by
    rw [conductorIdsLoop] at h
    rcases h1 : getMaterialIdFromName name with i | _ | _ | _ <;> rw [h1] at h
    · rw [Outcome.ok_bind] at h
      rcases h2 : conductorIdsLoop t with r | _ | _ | _ <;> rw [h2] at h
      · intro x hx
        rcases List.mem_cons.mp hx with rfl | hx
        · exact ⟨i, h1⟩
        · exact conductorIdsLoop_readable t h2 x hx
      all_goals cases h
    all_goals cases h

/-- The checks of the constructor pass for numbered conductors only. -/
theorem numbering_of_check {mats : Materials 𝕜} (hn : (mats.pecs.map PEC.name).Nodup)
    (h : checkConductors mats = .ok ()) : ∃ ps, Numbering mats ps := by
  have hr : ∀ p ∈ mats.pecs, ∃ i, getMaterialIdFromName p.name = .ok i := by
    have h' := h
    unfold checkConductors at h'
    rcases h1 : conductorIdsLoop mats.buildNameToAttrMapForPEC with ids | _ | _ | _ <;> rw [h1] at h'
    · intro p hp
      exact conductorIdsLoop_readable _ h1 (p.name, p.tag)
        ((pecMap_perm hn).mem_iff.mpr (List.mem_map.mpr ⟨p, hp, rfl⟩))
    all_goals cases h'
  exact (checkConductors_iff hn hr).1.mp h

theorem vecSet_ok {v v' : List α} {i : Int} {x : α} (h : vecSet v i x = .ok v') :
    0 ≤ i ∧ i.toNat < v.length ∧ v' = v.set i.toNat x := by
  unfold vecSet at h
  split at h
  · next hc => cases h; exact ⟨hc.1, hc.2, rfl⟩
  · cases h

theorem lift_bind_ok {x : Outcome α} {f : α → Logged 𝕜 β} {y : β} (h : (Logged.lift x >>= f).1 = .ok y) :
    ∃ a, x = .ok a ∧ (f a).1 = .ok y := Logged.bind_fst_ok h

theorem solveLoop_success (P : LinSolver 𝕜) (mats : Materials 𝕜) (opts : DriverOptions) (b : Bool)
    (base : AttrToValueMap 𝕜) : ∀ (l : List (Int × Int)) (sp : SolvedProblem F) {sp' : SolvedProblem F},
    (solveLoop P mats opts b base l sp).1 = .ok sp' →
      sp'.solutions.length = sp.solutions.length ∧
      (∀ (k : Nat) t, sp.solutions[k]? = some (some t) → ∃ t', sp'.solutions[k]? = some (some t')) ∧
      ∀ kv ∈ l, ∃ t', sp'.solutions[kv.1.toNat]? = some (some t')
  | [], sp, sp', h => by
    cases h
    exact ⟨rfl, fun k t h => ⟨t, h⟩, fun _ h => by cases h⟩
  | (i, a) :: l, sp, sp', h => by
    rw [solveLoop] at h
    obtain ⟨s, _, h⟩ := lift_bind_ok h
    obtain ⟨pec, _, h⟩ := lift_bind_ok h
    obtain ⟨_, _, h⟩ := Logged.bind_fst_ok h
    obtain ⟨v', hv, h⟩ := lift_bind_ok h
    obtain ⟨h0, h1, rfl⟩ := vecSet_ok hv
    obtain ⟨k1, k2, k3⟩ := solveLoop_success P mats opts b base l _ h
    simp only [List.length_set] at k1
    refine ⟨k1, ?_, ?_⟩
    · intro k t hk
      by_cases e : i.toNat = k
      · subst e
        exact k2 _ s.getSolution (by simp [List.getElem?_set, h1])
      · exact k2 k t (by simp only [List.getElem?_set, if_neg e]; exact hk)
    · intro kv hkv
      rcases List.mem_cons.mp hkv with rfl | hkv
      · exact k2 _ s.getSolution (by simp [List.getElem?_set, h1])
      · exact k3 kv hkv

theorem solveForAll_success (E : Engine 𝕜) {model : Model 𝕜} {opts : DriverOptions} {b : Bool} {ps : List (PEC 𝕜)}
    (hN : Numbering model.materials ps) {sp : SolvedProblem F}
    (h : (solveForAllConductors E F model opts b).1 = .ok sp) :
    ∃ sols : List (SolverSolution F), sols.length = ps.length ∧ sp.solutions = sols.map some := by
  unfold solveForAllConductors at h
  obtain ⟨base, _, h⟩ := lift_bind_ok h
  obtain ⟨s, _, h⟩ := lift_bind_ok h
  obtain ⟨c, hc, h⟩ := lift_bind_ok h
  rw [hN.idMap] at hc
  cases hc
  obtain ⟨k1, _, k3⟩ := solveLoop_success _ _ _ _ _ _ _ h
  simp only [List.length_replicate, idMapFrom_length] at k1
  have hall : ∀ k (hk : k < sp.solutions.length), ∃ t, sp.solutions[k] = some t := by
    intro k hk
    have hk' : k < ps.length := by omega
    obtain ⟨t, ht⟩ := k3 ((k : Int), ps[k].tag) ((mem_idMapFrom 0 ps _ _).mpr ⟨k, hk', by simp, rfl⟩)
    simp only [Int.toNat_natCast] at ht
    rw [List.getElem?_eq_getElem hk] at ht
    exact ⟨t, Option.some.inj ht⟩
  have key : ∀ l : List (Option (SolverSolution F)), (∀ x ∈ l, ∃ t, x = some t) → ∃ m : List (SolverSolution F),
      l = m.map some := by
    intro l
    induction l with
    | nil => intro _; exact ⟨[], rfl⟩
    | cons x l ih =>
      intro hx
      obtain ⟨t, rfl⟩ := hx x List.mem_cons_self
      obtain ⟨m, hm⟩ := ih (fun y hy => hx y (List.mem_cons_of_mem _ hy))
      exact ⟨t :: m, by rw [List.map_cons, hm]⟩
  obtain ⟨m, hm⟩ := key sp.solutions (fun x hx => by
    obtain ⟨k, hk, rfl⟩ := List.getElem_of_mem hx
    exact hall k hk)
  refine ⟨m, ?_, hm⟩
  rw [← k1, hm, List.length_map]

/-- An accepted model with numbered conductors: a field is stored for each. -/
theorem construct_ready_of (E : Engine 𝕜) {model : Model 𝕜} {opts : DriverOptions} {ps : List (PEC 𝕜)}
    (hN : Numbering model.materials ps) {d : Driver (E.fem model opts)}
    (h : (Driver.construct E model opts).1 = .ok d) (b : Bool) : ∃ sols, Ready b ps sols d := by
  unfold Driver.construct at h
  obtain ⟨u, hc, h⟩ := lift_bind_ok h
  obtain ⟨el, h1, h⟩ := Logged.bind_fst_ok h
  obtain ⟨mg, h2, h⟩ := Logged.bind_fst_ok h
  cases h
  cases b with
  | false =>
    obtain ⟨sols, l, e⟩ := solveForAll_success E hN h1
    exact ⟨sols, hN, l, e⟩
  | true =>
    obtain ⟨sols, l, e⟩ := solveForAll_success E hN h2
    exact ⟨sols, hN, l, e⟩

theorem construct_ready (E : Engine 𝕜) {model : Model 𝕜} {opts : DriverOptions}
    (hn : (model.materials.pecs.map PEC.name).Nodup) {d : Driver (E.fem model opts)}
    (h : (Driver.construct E model opts).1 = .ok d) :
    ∃ ps, Numbering model.materials ps ∧ ∀ b, ∃ sols, Ready b ps sols d := by
  have h' := h
  unfold Driver.construct at h'
  obtain ⟨u, hc, _⟩ := lift_bind_ok h'
  obtain ⟨ps, hN⟩ := numbering_of_check hn hc
  exact ⟨ps, hN, construct_ready_of E hN h⟩

/-! ## Per-unit-length parameters -/

section
variable {ps : List (PEC 𝕜)} {d : Driver F} {o : Openness}

theorem getGeneralizedCMatrix_single {b : Bool} {sols : List (SolverSolution F)} (hr : Ready b ps sols d)
    (ho : d.model.determineOpenness = .ok o) (hc : ps.length = 1 ∧ o = .closed) :
    Driver.getGeneralizedCMatrix b d = (.throw (.runtimeError
        "The number of conductors must be at least 2 for closed problems."), d, []) := by
  unfold Driver.getGeneralizedCMatrix
  rw [Act.read_bind, hr.numbering.idMap, Act.lift_ok_bind, ho, Act.lift_ok_bind,
    if_pos (by rw [idMapFrom_length]; exact hc)]
  rfl

variable [DecidableEq 𝕜]

theorem getCMatrix_eq {sols : List (SolverSolution F)} (h : Ready false ps sols d)
    (ho : d.model.determineOpenness = .ok o) (hc : ¬ (ps.length = 1 ∧ o = .closed)) :
    (Driver.getCMatrix d).1 = getCFromGeneralizedC (DMat.ofMatrix (symPart (rawCharges ps sols h.len))) o := by
  obtain ⟨d', e, hf⟩ := getGeneralizedCMatrix_spec h ho hc
  unfold Driver.getCMatrix
  rw [Act.bind_ok e, Act.read_bind, forget_model hf, ho, Act.lift_ok_bind]
  rfl

theorem getLMatrix_eq {sols : List (SolverSolution F)} (h : Ready true ps sols d)
    (ho : d.model.determineOpenness = .ok o) (hc : ¬ (ps.length = 1 ∧ o = .closed)) :
    (Driver.getLMatrix d).1 = (do
      let C ← getCFromGeneralizedC (DMat.ofMatrix (symPart (rawCharges ps sols h.len))) o
      C.invert) := by
  obtain ⟨d', e, hf⟩ := getGeneralizedCMatrix_spec h ho hc
  unfold Driver.getLMatrix
  rw [Act.bind_ok e, Act.read_bind, forget_model hf, ho, Act.lift_ok_bind]
  rcases getCFromGeneralizedC (DMat.ofMatrix (symPart (rawCharges ps sols h.len))) o with C | _ | _ | _ <;> rfl

theorem getPULMTL_ok {E : Engine 𝕜} {p : PULParameters 𝕜} (h : (Driver.getPULMTL E d).1 = .ok p) :
    ∃ C L, (Driver.getCMatrix d).1 = .ok C ∧ (Driver.getLMatrix d).1 = .ok L ∧ p.C = C.smul E.eps0SI ∧
      p.L = L.smul E.mu0SI := by
  unfold Driver.getPULMTL Driver.buildPULParametersForModel at h
  rw [bind_def] at h
  have hk := getCMatrix_clean.keeps d
  rcases e : Driver.getCMatrix d with ⟨oc, d', w⟩
  rw [e] at h hk
  cases oc with
  | ok C =>
    simp only at h
    rw [bind_def] at h
    have hi := (getLMatrix_clean.indep d' d hk).1
    rcases e' : Driver.getLMatrix d' with ⟨ol, d'', w'⟩
    rw [e'] at h hi
    cases ol with
    | ok L =>
      cases h
      exact ⟨C, L, rfl, hi.symm, rfl, rfl⟩
    | _ => cases h
  | _ => cases h

theorem getPULMTL_make {E : Engine 𝕜} {C L : DMat 𝕜} (hC : (Driver.getCMatrix d).1 = .ok C)
    (hL : (Driver.getLMatrix d).1 = .ok L) :
    (Driver.getPULMTL E d).1 = .ok { C := C.smul E.eps0SI, L := L.smul E.mu0SI } := by
  unfold Driver.getPULMTL Driver.buildPULParametersForModel
  rw [bind_def]
  have hk := getCMatrix_clean.keeps d
  rcases e : Driver.getCMatrix d with ⟨oc, d', w⟩
  rw [e] at hC hk
  cases hC
  simp only
  rw [bind_def]
  have hi := (getLMatrix_clean.indep d' d hk).1
  rcases e' : Driver.getLMatrix d' with ⟨ol, d'', w'⟩
  rw [e', hL] at hi
  cases hi
  rfl

/-- For closed problems with at least two conductors: the parameters are returned exactly when the reduced
capacitance without dielectrics can be inverted. -/
theorem getPULMTL_closed {E : Engine 𝕜} {n : Nat} {se sm : List (SolverSolution F)} (he : Ready false ps se d)
    (hm : Ready true ps sm d) (ho : d.model.determineOpenness = .ok .closed) (hn : ps.length = n + 2)
    (hdet : (Matrix.of fun i j : Fin (n + 1) => symPart (rawCharges ps sm hm.len) (i.succ.cast hn.symm)
      (j.succ.cast hn.symm)).det ≠ 0) : ∃ p, (Driver.getPULMTL E d).1 = .ok p := by
  have hc : ¬ (ps.length = 1 ∧ Openness.closed = .closed) := by omega
  have hC := getCMatrix_eq he ho hc
  have hL := getLMatrix_eq hm ho hc
  revert hC hL hdet
  generalize symPart (rawCharges ps se he.len) = A
  generalize symPart (rawCharges ps sm hm.len) = B
  revert A B
  generalize ps.length = N at hn
  subst hn
  intro A B hdet hC hL
  rw [getC_closed] at hC hL
  have hdet' : (Matrix.of fun i j : Fin (n + 1) => B i.succ j.succ).det ≠ 0 := hdet
  rw [Outcome.ok_bind, invert_ofMatrix, if_neg hdet'] at hL
  exact ⟨_, getPULMTL_make hC hL⟩

omit [DecidableEq 𝕜] in
theorem symPart_symm {n : Nat} (A : Matrix (Fin n) (Fin n) 𝕜) : (symPart A).IsSymm := by
  ext i j
  simp only [symPart, transpose_apply, of_apply]
  rw [add_comm]

theorem getC_symm {n : Nat} {A : Matrix (Fin (n + 1)) (Fin (n + 1)) 𝕜} (hs : A.IsSymm) {C : Matrix (Fin n) (Fin n) 𝕜}
    (h : getCFromGeneralizedC (DMat.ofMatrix A) o = .ok (DMat.ofMatrix C)) : C.IsSymm := by
  have hinj : ∀ {C D : Matrix (Fin n) (Fin n) 𝕜}, (Outcome.ok (DMat.ofMatrix C) = .ok (DMat.ofMatrix D)) → C = D := by
    intro C D h
    have h1 := Outcome.ok.inj h
    unfold DMat.ofMatrix at h1
    exact eq_of_heq (DMat.mk.inj h1).2.2
  by_cases ho : o = .closed
  · subst ho
    rw [getC_closed] at h
    rw [← hinj h]
    ext i j
    exact hs.apply i.succ j.succ
  · rcases Nat.eq_zero_or_pos n with rfl | hn
    · ext i; exact i.elim0
    · have hden : total A ≠ 0 := by
        intro h0
        rw [getC_open_zero A ho h0 hn hn] at h
        cases h
      rw [getC_open A ho hden] at h
      rw [← hinj h]
      ext i j
      have h2 : ∀ i, ∑ k, A i k = ∑ k, A k i := fun i => Finset.sum_congr rfl (fun k _ => hs.apply k i)
      simp only [transpose_apply, of_apply, h2]
      rw [hs.apply i.succ j.succ]
      ring

end

/-- Without dielectrics other than vacuum both variants hold the same fields. -/
theorem vacuum_fields {E : Engine 𝕜} {mats : Materials 𝕜} {ps : List (PEC 𝕜)} (hN : Numbering mats ps)
    (hB : Buildable F mats) (hW : WellDeclared mats) (hP : ExactSolver E.pcg) (hp : WellPosed E.analytic F mats)
    (h1 : ∀ x ∈ mats.dielectrics, x.relativePermittivity = 1) {sp sp' : SolvedProblem F} {s0 s0' : Solver F}
    {se sm : List (SolverSolution F)} (he : Solved E mats false ps sp s0 se) (hm : Solved E mats true ps sp' s0' sm) :
    se = sm := by
  apply List.ext_getElem (by rw [he.len, hm.len])
  intro i hi hi'
  have hi0 : i < ps.length := by rw [← he.len]; exact hi
  have r := Spec.WellPosed.regular hp hN hB hW he.make
  have r' := Spec.WellPosed.regular hp hN hB hW hm.make
  have f := he.field hN hB hP r hp.det hi0 hi
  have f' := hm.field hN hB hP r' hp.det hi0 hi'
  obtain ⟨k1, k2⟩ := make_system hB hW he.make
  obtain ⟨k1', k2'⟩ := make_system hB hW hm.make
  have hd : declaredEps mats false = declaredEps mats true := by
    funext a
    by_cases h : ∃ x ∈ mats.dielectrics, x.tag = a
    · obtain ⟨x, hx, rfl⟩ := h
      rw [declaredEps_of_mem hW hx, h1 x hx]
      rfl
    · rw [declaredEps_of_not_mem (fun x hx e => h ⟨x, hx, e⟩), declaredEps_of_not_mem (fun x hx e => h ⟨x, hx, e⟩)]
  have hK : s0.K = s0'.K := by
    rw [k1, k1']
    unfold systemMatrix
    rw [hd]
  have hE : s0.eps = s0'.eps := by rw [k2, k2', hd]
  refine FieldFor.unique r hp.det f ⟨?_, f'.e, ?_⟩
  · rw [hK]; exact f'.phi
  · rw [hE]; exact f'.d

end
end Tulip
