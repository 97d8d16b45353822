import Verif.Proofs.DriverSpec
import Verif.Proofs.Floating

/-!
# `getFieldParameters` and `getInCellPotentials` in closed form; undefined behaviour does not occur
-/

set_option linter.unusedSectionVars false

namespace Tulip
open Spec Matrix

section
variable {𝕜 : Type} [Field 𝕜] [DecidableEq 𝕜] {F : FEM 𝕜}

/-- Field superposed for conductor `i` with the potentials of row `i`. -/
def rowField {n : Nat} (R : Matrix (Fin n) (Fin n) 𝕜) (sols : List (SolverSolution F)) (h : sols.length = n)
    (i : Fin n) : SolverSolution F := superposed (R i) (fun j => sols[j.1]'(by rw [h]; exact j.2))

/-- Events of one conductor in the in-cell computation. -/
def rowEvents {n : Nat} (opts : DriverOptions) (b : Bool) (R : Matrix (Fin n) (Fin n) 𝕜)
    (sols : List (SolverSolution F)) (h : sols.length = n) (name : Fin n → String) (i : Fin n) : List (Event 𝕜) :=
  exportFieldSolutions opts (rowField R sols h i) (name i ++ "_prescribed_and_others_floating") b

theorem idMapFrom_cons {ps : List (PEC 𝕜)} {k : Nat} (hk : k < ps.length) :
    idMapFrom k (ps.drop k) = ((k : Int), ps[k].tag) :: idMapFrom (k + 1) (ps.drop (k + 1)) := by
  rw [List.drop_eq_getElem_cons hk]; rfl

theorem finRange_drop {n k : Nat} (hk : k < n) :
    (List.finRange n).drop k = ⟨k, hk⟩ :: (List.finRange n).drop (k + 1) := by
  rw [List.drop_eq_getElem_cons (by simpa using hk)]
  simp

theorem setSolution_congr {s s' : Solver F} (h : s.forget = s'.forget) (t : SolverSolution F) :
    s.setSolution t = s'.setSolution t := setSolution_overwrite t s s' h

/-- All reconstructions succeed: the loop collects them. -/
theorem fieldLoop_ok (E : Engine 𝕜) {b : Bool} {ps : List (PEC 𝕜)} {sols : List (SolverSolution F)}
    (hl : sols.length = ps.length) (R : Matrix (Fin ps.length) (Fin ps.length) 𝕜)
    (rs : Fin ps.length → FieldReconstruction 𝕜) :
    ∀ (m k : Nat) (d : Driver F) (res : SMap Int (FieldReconstruction 𝕜)), Ready b ps sols d → k + m = ps.length →
      (∀ i : Fin ps.length, k ≤ i.1 → reconstruct E d.model d.opts
        ((Driver.problem b d).solver.setSolution (rowField R sols hl i)) (rowMap R i) = .ok (rs i)) →
      res.Sorted →
      ∃ (res' : SMap Int (FieldReconstruction 𝕜)) (d' : Driver F),
        Driver.fieldLoop E b (DMat.ofMatrix R) (idMapFrom 0 ps) (idMapFrom k (ps.drop k)) res d =
          (.ok res', d', ((List.finRange ps.length).drop k).flatMap
            (rowEvents d.opts b R sols hl (fun i => ps[i].name))) ∧
        d'.forget = d.forget ∧ res'.Sorted ∧
        ∀ j : Int, res'.find? j = if h : (k : Int) ≤ j ∧ j.toNat < ps.length then some (rs ⟨j.toNat, h.2⟩)
          else res.find? j := by
  intro m
  induction m with
  | zero =>
    intro k d res hd hk _ hs
    refine ⟨res, d, ?_, rfl, hs, ?_⟩
    · rw [List.drop_of_length_le (by omega), List.drop_of_length_le (by simp; omega)]
      rfl
    · intro j
      rw [dif_neg]
      rintro ⟨h1, h2⟩
      omega
  | succ m ih =>
    intro k d res hd hk hr hs
    have hkl : k < ps.length := by omega
    rw [idMapFrom_cons hkl, finRange_drop hkl]
    have hstep := fieldLoop_step E hd R ⟨k, hkl⟩ ps[k].tag (idMapFrom (k + 1) (ps.drop (k + 1))) res
    simp only at hstep
    rw [show superposed (R ⟨k, hkl⟩) (fun j => sols[j.1]'(by rw [hd.len]; exact j.2)) =
      rowField R sols hl ⟨k, hkl⟩ from rfl, hr ⟨k, hkl⟩ (le_refl k)] at hstep
    simp only at hstep
    have hf : (d.withSolver b ((Driver.problem b d).solver.setSolution (rowField R sols hl ⟨k, hkl⟩))).forget =
        d.forget := withSolver_forget (setSolution_forget _ _)
    obtain ⟨res', d', e1, e2, e3, e4⟩ := ih (k + 1)
      (d.withSolver b ((Driver.problem b d).solver.setSolution (rowField R sols hl ⟨k, hkl⟩)))
      (SMap.set res (k : Int) (rs ⟨k, hkl⟩)) (hd.congr hf) (by omega) (by
        intro i hi
        simp only [withSolver_model, withSolver_opts, withSolver_solver]
        exact hr i (by omega)) (hs.set _ _)
    refine ⟨res', d', ?_, e2.trans hf, e3, ?_⟩
    · rw [hstep, e1]
      simp only [withSolver_opts, List.flatMap_cons]
      rfl
    · intro j
      rw [e4 j, SMap.find?_set hs]
      by_cases h1 : ((k + 1 : Nat) : Int) ≤ j ∧ j.toNat < ps.length
      · rw [dif_pos h1, dif_pos ⟨by omega, h1.2⟩]
      · rw [dif_neg h1]
        by_cases h2 : (k : Int) = j
        · subst h2
          rw [if_pos rfl, dif_pos ⟨le_refl _, by simpa using hkl⟩]
          rfl
        · rw [if_neg h2, dif_neg]
          rintro ⟨h3, h4⟩
          exact h1 ⟨by omega, h4⟩

/-- If the loop succeeds, all reconstructions do; its failures are failures of a reconstruction. -/
theorem fieldLoop_outcome (E : Engine 𝕜) {b : Bool} {ps : List (PEC 𝕜)} {sols : List (SolverSolution F)}
    (hl : sols.length = ps.length) (R : Matrix (Fin ps.length) (Fin ps.length) 𝕜) :
    ∀ (m k : Nat) (d : Driver F) (res : SMap Int (FieldReconstruction 𝕜)), Ready b ps sols d → k + m = ps.length →
      (∀ i : Fin ps.length, k ≤ i.1 → ∃ r, reconstruct E d.model d.opts
        ((Driver.problem b d).solver.setSolution (rowField R sols hl i)) (rowMap R i) = .ok r) ∨
      ∃ i : Fin ps.length, k ≤ i.1 ∧
        (∀ r, reconstruct E d.model d.opts
          ((Driver.problem b d).solver.setSolution (rowField R sols hl i)) (rowMap R i) ≠ .ok r) ∧
        (∀ r, (Driver.fieldLoop E b (DMat.ofMatrix R) (idMapFrom 0 ps) (idMapFrom k (ps.drop k)) res d).1 ≠ .ok r) ∧
        ((Driver.fieldLoop E b (DMat.ofMatrix R) (idMapFrom 0 ps) (idMapFrom k (ps.drop k)) res d).1 = .ub →
          reconstruct E d.model d.opts
            ((Driver.problem b d).solver.setSolution (rowField R sols hl i)) (rowMap R i) = .ub) := by
  intro m
  induction m with
  | zero =>
    intro k d res hd hk
    left
    intro i hi
    exact absurd i.2 (by omega)
  | succ m ih =>
    intro k d res hd hk
    have hkl : k < ps.length := by omega
    rw [idMapFrom_cons hkl]
    have hstep := fieldLoop_step E hd R ⟨k, hkl⟩ ps[k].tag (idMapFrom (k + 1) (ps.drop (k + 1))) res
    simp only at hstep
    rw [show superposed (R ⟨k, hkl⟩) (fun j => sols[j.1]'(by rw [hd.len]; exact j.2)) =
      rowField R sols hl ⟨k, hkl⟩ from rfl] at hstep
    have hf : (d.withSolver b ((Driver.problem b d).solver.setSolution (rowField R sols hl ⟨k, hkl⟩))).forget =
        d.forget := withSolver_forget (setSolution_forget _ _)
    cases hr : reconstruct E d.model d.opts
        ((Driver.problem b d).solver.setSolution (rowField R sols hl ⟨k, hkl⟩)) (rowMap R ⟨k, hkl⟩) with
    | ok r =>
      rw [hr] at hstep
      simp only at hstep
      rcases ih (k + 1) (d.withSolver b ((Driver.problem b d).solver.setSolution (rowField R sols hl ⟨k, hkl⟩)))
        (SMap.set res (k : Int) r) (hd.congr hf) (by omega) with h | ⟨i, hi, h1, h2, h3⟩
      · left
        intro i hi
        rcases Nat.eq_or_lt_of_le hi with h0 | h0
        · have : i = ⟨k, hkl⟩ := Fin.ext h0.symm
          rw [this]
          exact ⟨r, hr⟩
        · obtain ⟨r', h'⟩ := h i h0
          simp only [withSolver_model, withSolver_opts, withSolver_solver] at h'
          exact ⟨r', h'⟩
      · right
        simp only [withSolver_model, withSolver_opts, withSolver_solver] at h1 h3
        refine ⟨i, by omega, h1, ?_, ?_⟩
        · rw [hstep]; exact h2
        · rw [hstep]; exact h3
    | throw e =>
      rw [hr] at hstep
      right
      refine ⟨⟨k, hkl⟩, le_refl k, fun r h => ?_, fun r h => ?_, fun h => ?_⟩
      · rw [hr] at h; cases h
      · rw [hstep] at h; cases h
      · rw [hstep] at h; cases h
    | ub =>
      rw [hr] at hstep
      right
      refine ⟨⟨k, hkl⟩, le_refl k, fun r h => ?_, fun r h => ?_, fun _ => hr⟩
      · rw [hr] at h; cases h
      · rw [hstep] at h; cases h
    | nonfinite =>
      rw [hr] at hstep
      right
      refine ⟨⟨k, hkl⟩, le_refl k, fun r h => ?_, fun r h => ?_, fun h => ?_⟩
      · rw [hr] at h; cases h
      · rw [hstep] at h; cases h
      · rw [hstep] at h; cases h

/-! ## No undefined behaviour -/

theorem divide_ne_ub (x y : 𝕜) : divide x y ≠ .ub := by
  unfold divide; split <;> simp

theorem ofOption_ne_ub {α : Type _} (e : Err) (o : Option α) : Outcome.ofOption e o ≠ .ub := by
  cases o <;> simp [Outcome.ofOption]

theorem bind_ne_ub {α β : Type _} {x : Outcome α} {f : α → Outcome β} (hx : x ≠ .ub) (hf : ∀ a, f a ≠ .ub) :
    (x >>= f) ≠ .ub := by
  cases x with
  | ok a => exact hf a
  | throw e => intro h; cases h
  | ub => exact absurd rfl hx
  | nonfinite => intro h; cases h

theorem getAreaOfMaterial_ne_ub (m : Model 𝕜) (name : String) : m.getAreaOfMaterial name ≠ .ub := by
  unfold Model.getAreaOfMaterial
  simp only
  split
  · simp
  · split
    · simp
    · refine bind_ne_ub ?_ (fun a => by simp)
      unfold Materials.getPEC
      exact ofOption_ne_ub _ _

theorem innerLoop_ne_ub (model : Model 𝕜) (s : Solver F) (mats : NameToAttrMap) :
    ∀ (l : List String) (p a : 𝕜), Driver.innerLoop model s mats l p a ≠ .ub
  | [], p, a => by simp [Driver.innerLoop]
  | name :: t, p, a => by
    rw [Driver.innerLoop]
    refine bind_ne_ub (ofOption_ne_ub _ _) (fun tag => bind_ne_ub (getAreaOfMaterial_ne_ub _ _) (fun area => ?_))
    simp only
    split
    · exact bind_ne_ub (divide_ne_ub _ _) (fun av => innerLoop_ne_ub model s mats t _ _)
    · exact bind_ne_ub (divide_ne_ub _ _) (fun av => innerLoop_ne_ub model s mats t _ _)

theorem getCenterOfCharge_ne_ub (A : Analytic 𝕜) (s : Solver F) : s.getCenterOfCharge A ≠ .ub := by
  unfold Solver.getCenterOfCharge
  split
  · exact bind_ne_ub (divide_ne_ub _ _) (fun x => bind_ne_ub (divide_ne_ub _ _) (fun y => by simp))
  · simp

theorem reconstruct_ne_ub (E : Engine 𝕜) (model : Model 𝕜) (opts : DriverOptions) (s : Solver F) (ps : SMap Int 𝕜) :
    reconstruct E model opts s ps ≠ .ub := by
  unfold reconstruct
  refine bind_ne_ub ?_ (fun av => bind_ne_ub (getCenterOfCharge_ne_ub _ _) (fun c => bind_ne_ub ?_ (fun ab => by simp)))
  · unfold Driver.getInnerRegionAveragePotential
    exact bind_ne_ub (innerLoop_ne_ub _ _ _ _ _ _) (fun t => divide_ne_ub _ _)
  · unfold Solver.getMultipolarCoefficients
    refine bind_ne_ub (getCenterOfCharge_ne_ub _ _) (fun c => ?_)
    split <;> simp

theorem getC_ne_ub {n : Nat} (A : Matrix (Fin (n + 1)) (Fin (n + 1)) 𝕜) (o : Openness) :
    getCFromGeneralizedC (DMat.ofMatrix A) o ≠ .ub ∧
      ∀ M, getCFromGeneralizedC (DMat.ofMatrix A) o = .ok M → ∃ B : Matrix (Fin n) (Fin n) 𝕜, M = DMat.ofMatrix B := by
  by_cases ho : o = .closed
  · subst ho
    rw [getC_closed]
    exact ⟨by simp, fun M h => ⟨_, (Outcome.ok.inj h).symm⟩⟩
  · by_cases hd : total A = 0
    · cases n with
      | zero =>
        rw [getC_single]
        refine ⟨by simp, fun M h => ⟨Matrix.of fun (i : Fin 0) (_ : Fin 0) => i.elim0, (Outcome.ok.inj h).symm⟩⟩
      | succ n =>
        rw [getC_open_zero A ho hd (Nat.succ_pos _) (Nat.succ_pos _)]
        exact ⟨by simp, fun M h => by cases h⟩
    · rw [getC_open A ho hd]
      exact ⟨by simp, fun M h => ⟨_, (Outcome.ok.inj h).symm⟩⟩

theorem floatingFromC_cases {n : Nat} (C : Matrix (Fin n) (Fin n) 𝕜) :
    (∃ R : Matrix (Fin n) (Fin n) 𝕜, floatingFromC (DMat.ofMatrix C) = .ok (DMat.ofMatrix R) ∧
      ∀ i, Spec.FloatingPotentials C i (R i)) ∨ floatingFromC (DMat.ofMatrix C) = .nonfinite := by
  obtain ⟨h1, h2⟩ := floatingFromC_eq C
  by_cases h : ∀ i, ∃! v, Spec.FloatingPotentials C i v
  · exact Or.inl (h1 h)
  · rw [not_forall] at h
    exact Or.inr (h2 h)

/-- The call does not end in undefined behaviour. -/
def Safe {α : Type} (x : Act F α) (d : Driver F) : Prop := (x d).1 ≠ .ub

theorem Safe.bind {α β : Type} {x : Act F α} {f : α → Act F β} {d : Driver F} (hx : Safe x d)
    (hf : ∀ a, (x d).1 = .ok a → Safe (f a) (x d).2.1) : Safe (x >>= f) d := by
  unfold Safe at *
  rw [bind_def]
  rcases h : x d with ⟨o, d', w⟩
  rw [h] at hx hf
  cases o with
  | ok a => exact hf a rfl
  | throw e => simp
  | ub => exact absurd rfl hx
  | nonfinite => simp

theorem Safe.lift {α : Type} {x : Outcome α} (h : x ≠ .ub) (d : Driver F) : Safe (Act.lift (F := F) x) d := h

theorem Safe.pure {α : Type} (x : α) (d : Driver F) : Safe (pure x : Act F α) d := by
  intro h; cases h

theorem Safe.emit (w : List (Event 𝕜)) (d : Driver F) : Safe (Act.emit (F := F) w) d := by
  intro h; cases h

theorem Safe.read_bind {α β : Type} {g : Driver F → α} {f : α → Act F β} {d : Driver F} (h : Safe (f (g d)) d) :
    Safe (Act.read g >>= f) d := by
  unfold Safe; rw [Act.read_bind]; exact h

/-- What is known of a driver after any history: its model, numbering and stored fields. -/
structure Stable (ps : List (PEC 𝕜)) (o : Openness) (d : Driver F) : Prop where
  ready : ∀ b, ∃ sols, Ready b ps sols d
  openness : d.model.determineOpenness = .ok o

theorem Stable.congr {ps : List (PEC 𝕜)} {o : Openness} {d d' : Driver F} (h : Stable ps o d)
    (e : d'.forget = d.forget) : Stable ps o d' where
  ready := fun b => by
    obtain ⟨sols, hs⟩ := h.ready b
    exact ⟨sols, hs.congr e⟩
  openness := by rw [forget_model e]; exact h.openness

section
variable {ps : List (PEC 𝕜)} {o : Openness} {d : Driver F}

theorem getGeneralizedCMatrix_safe (h : Stable ps o d) (b : Bool) : Safe (Driver.getGeneralizedCMatrix b) d ∧
    (∀ M, (Driver.getGeneralizedCMatrix b d).1 = .ok M →
      ∃ n, ∃ A : Matrix (Fin (n + 1)) (Fin (n + 1)) 𝕜, n + 1 = ps.length ∧ M = DMat.ofMatrix A) := by
  obtain ⟨sols, hr⟩ := h.ready b
  by_cases hc : ps.length = 1 ∧ o = .closed
  · have : Driver.getGeneralizedCMatrix b d = (.throw (.runtimeError
        "The number of conductors must be at least 2 for closed problems."), d, []) := by
      unfold Driver.getGeneralizedCMatrix
      rw [Act.read_bind, hr.numbering.idMap, Act.lift_ok_bind, h.openness, Act.lift_ok_bind,
        if_pos (by rw [idMapFrom_length]; exact hc)]
      rfl
    unfold Safe
    rw [this]
    exact ⟨by simp, fun M h => by cases h⟩
  · obtain ⟨d', e, _⟩ := getGeneralizedCMatrix_spec hr h.openness hc
    unfold Safe
    rw [e]
    refine ⟨by simp, fun M hM => ?_⟩
    cases hM
    have hpos : 0 < ps.length := List.length_pos_of_ne_nil hr.numbering.nonempty
    obtain ⟨n, hn⟩ : ∃ n, ps.length = n + 1 := ⟨ps.length - 1, by omega⟩
    revert hn
    generalize symPart (rawCharges ps sols hr.len) = A
    revert A
    generalize ps.length = N
    rintro A rfl
    exact ⟨n, A, rfl, rfl⟩

theorem getCMatrix_safe (h : Stable ps o d) : Safe Driver.getCMatrix d := by
  unfold Driver.getCMatrix
  obtain ⟨h1, h2⟩ := getGeneralizedCMatrix_safe h false
  refine Safe.bind h1 (fun gC hg => Safe.read_bind ?_)
  have hs := h.congr ((getGeneralizedCMatrix_clean false).keeps d)
  rw [hs.openness, Act.lift_ok_bind]
  obtain ⟨n, A, _, rfl⟩ := h2 gC hg
  exact Safe.lift (getC_ne_ub A o).1 _

theorem getLMatrix_safe (h : Stable ps o d) : Safe Driver.getLMatrix d := by
  unfold Driver.getLMatrix
  obtain ⟨h1, h2⟩ := getGeneralizedCMatrix_safe h true
  refine Safe.bind h1 (fun gC hg => Safe.read_bind ?_)
  have hs := h.congr ((getGeneralizedCMatrix_clean true).keeps d)
  rw [hs.openness, Act.lift_ok_bind]
  obtain ⟨n, A, _, rfl⟩ := h2 gC hg
  obtain ⟨h3, h4⟩ := getC_ne_ub A o
  refine Safe.bind (Safe.lift h3 _) (fun C hC => Safe.lift ?_ _)
  obtain ⟨B, rfl⟩ := h4 C hC
  rw [invert_ofMatrix]
  split <;> simp

theorem getPULMTL_safe (E : Engine 𝕜) (h : Stable ps o d) : Safe (Driver.getPULMTL E) d := by
  unfold Driver.getPULMTL Driver.buildPULParametersForModel
  exact Safe.bind (getCMatrix_safe h) (fun C _ => Safe.bind (getLMatrix_safe
    (h.congr (getCMatrix_clean.keeps d))) (fun L _ => Safe.pure _ _))

/-- The floating potentials matrix is square; for open problems it has a row for each conductor. -/
theorem getFloatingPotentialsMatrix_safe (h : Stable ps o d) (b : Bool) :
    Safe (Driver.getFloatingPotentialsMatrix b) d ∧
    (∀ M, (Driver.getFloatingPotentialsMatrix b d).1 = .ok M → o = .open_ →
      ∃ A : Matrix (Fin ps.length) (Fin ps.length) 𝕜, M = DMat.ofMatrix A) := by
  obtain ⟨sols, hr⟩ := h.ready b
  have hlen : d.model.materials.buildNameToAttrMapForPEC.length = ps.length := by
    rw [(pecMap_perm hr.numbering.names_nodup).length_eq, List.length_map, hr.numbering.all.length_eq]
  by_cases h1 : ps.length = 1
  · have e : Driver.getFloatingPotentialsMatrix b d =
        (.ok (DMat.ofMatrix (n := 1) (m := 1) (fun _ _ => 1)), d, []) := by
      unfold Driver.getFloatingPotentialsMatrix
      rw [Act.read_bind, if_pos (hlen.trans h1)]
      rfl
    unfold Safe
    rw [e]
    refine ⟨by simp, fun M hM _ => ?_⟩
    cases hM
    rw [h1]
    exact ⟨fun _ _ => 1, rfl⟩
  · have hne : ¬ d.model.materials.buildNameToAttrMapForPEC.length = 1 := by rw [hlen]; exact h1
    obtain ⟨s1, s2⟩ := getGeneralizedCMatrix_safe h b
    have e0 : Driver.getFloatingPotentialsMatrix b d = (match o with
      | .closed => (do
        let gC ← Driver.getGeneralizedCMatrix b
        let C ← Act.lift (getCFromGeneralizedC gC o)
        Act.lift (floatingFromC C) : Act F (DMat 𝕜))
      | .open_ => do
        let C ← Driver.getGeneralizedCMatrix b
        Act.lift (floatingFromC C)
      | .semiopen =>
        Act.lift (.throw (.runtimeError "Floating potentials not implemented for this kind of openness."))) d := by
      unfold Driver.getFloatingPotentialsMatrix
      rw [Act.read_bind, if_neg hne, h.openness, Act.lift_ok_bind]
      cases o <;> rfl
    unfold Safe
    rw [e0]
    cases o with
    | closed =>
      refine ⟨?_, fun _ _ h => by cases h⟩
      refine Safe.bind s1 (fun gC hg => ?_)
      obtain ⟨n, A, _, rfl⟩ := s2 gC hg
      obtain ⟨h3, h4⟩ := getC_ne_ub A .closed
      refine Safe.bind (Safe.lift h3 _) (fun C hC => Safe.lift ?_ _)
      obtain ⟨B, rfl⟩ := h4 C hC
      rcases floatingFromC_cases B with ⟨R, e, _⟩ | e <;> rw [e] <;> simp
    | semiopen =>
      refine ⟨by simp [Act.lift], fun M hM => ?_⟩
      cases hM
    | open_ =>
      have hs : ∀ gC, (Driver.getGeneralizedCMatrix b d).1 = .ok gC →
          ∃ A : Matrix (Fin ps.length) (Fin ps.length) 𝕜, gC = DMat.ofMatrix A := by
        intro gC hg
        obtain ⟨n, A, hn, rfl⟩ := s2 gC hg
        rw [← hn]
        exact ⟨A, rfl⟩
      constructor
      · refine Safe.bind s1 (fun gC hg => ?_)
        obtain ⟨A, rfl⟩ := hs gC hg
        refine Safe.lift ?_ _
        rcases floatingFromC_cases A with ⟨R, e, _⟩ | e <;> rw [e] <;> simp
      · intro M hM _
        simp only at hM
        rw [bind_def] at hM
        rcases hg : Driver.getGeneralizedCMatrix b d with ⟨og, dg, wg⟩
        rw [hg] at hM hs
        cases og with
        | ok gC =>
          obtain ⟨A, rfl⟩ := hs gC rfl
          simp only [Act.lift] at hM
          rcases floatingFromC_cases A with ⟨R, e, _⟩ | e
          · rw [e] at hM
            exact ⟨R, (Outcome.ok.inj hM).symm⟩
          · rw [e] at hM; cases hM
        | _ => cases hM

theorem getFloatingPotentials_safe (h : Stable ps o d) : Safe Driver.getFloatingPotentials d := by
  unfold Driver.getFloatingPotentials
  exact Safe.bind (getFloatingPotentialsMatrix_safe h false).1 (fun e _ =>
    Safe.bind (getFloatingPotentialsMatrix_safe
      (h.congr ((getFloatingPotentialsMatrix_clean false).keeps d)) true).1 (fun m _ => Safe.pure _ _))

theorem getFieldParameters_safe (E : Engine 𝕜) (h : Stable ps o d) (ho : o = .open_) (b : Bool) :
    Safe (Driver.getFieldParameters E b) d := by
  unfold Driver.getFieldParameters
  obtain ⟨s1, s2⟩ := getFloatingPotentialsMatrix_safe h b
  refine Safe.bind s1 (fun fp hfp => Safe.read_bind ?_)
  have hs := h.congr ((getFloatingPotentialsMatrix_clean b).keeps d)
  obtain ⟨R, rfl⟩ := s2 fp hfp ho
  obtain ⟨sols, hr⟩ := hs.ready b
  rw [hr.numbering.idMap, Act.lift_ok_bind]
  intro hub
  have hub0 : (Driver.fieldLoop E b (DMat.ofMatrix R) (idMapFrom 0 ps) (idMapFrom 0 (ps.drop 0)) []
    (Driver.getFloatingPotentialsMatrix b d).2.1).1 = .ub := by rw [List.drop_zero]; exact hub
  rcases fieldLoop_outcome E hr.len R ps.length 0 (Driver.getFloatingPotentialsMatrix b d).2.1 [] hr (by omega) with
    h1 | ⟨i, _, _, _, h4⟩
  · choose rs hrs using fun i => h1 i (Nat.zero_le _)
    obtain ⟨res', d', e, _⟩ := fieldLoop_ok E hr.len R rs ps.length 0 (Driver.getFloatingPotentialsMatrix b d).2.1 []
      hr (by omega) (fun i _ => hrs i) SMap.Sorted.nil
    rw [e] at hub0
    cases hub0
  · exact absurd (h4 hub0) (reconstruct_ne_ub _ _ _ _ _)

theorem getInCellPotentials_safe [LinearOrder 𝕜] (E : Engine 𝕜) (h : Stable ps o d) :
    Safe (Driver.getInCellPotentials E) d := by
  unfold Driver.getInCellPotentials
  refine Safe.read_bind ?_
  rw [h.openness, Act.lift_ok_bind]
  split
  · exact Safe.lift (by simp) _
  · next hne =>
    have ho : o = .open_ := by simpa using hne
    refine Safe.bind (Safe.lift ?_ _) (fun eb _ => Safe.bind (Safe.lift ?_ _) (fun box _ =>
      Safe.bind (getFieldParameters_safe E h ho false) (fun e _ =>
        Safe.bind (getFieldParameters_safe E (h.congr ((getFieldParameters_clean E false).keeps d)) ho true)
          (fun m _ => Safe.pure _ _))))
    · unfold Model.getBoundingBoxOfMaterial
      split <;> simp
    · unfold Driver.finiteBox
      split <;> simp

theorem run_safe [LinearOrder 𝕜] (E : Engine 𝕜) (h : Stable ps o d) : Safe (Driver.run E) d := by
  unfold Driver.run
  refine Safe.read_bind ?_
  rw [h.openness, Act.lift_ok_bind]
  cases o with
  | closed => exact Safe.bind (getPULMTL_safe E h) (fun p _ => Safe.read_bind (Safe.emit _ _))
  | open_ => exact Safe.bind (getInCellPotentials_safe E h) (fun p _ => Safe.read_bind (Safe.emit _ _))
  | semiopen => exact Safe.lift (by simp) _

end
end
end Tulip
