import Verif.Proofs.DriverQuery
import Verif.Proofs.DMat
import Verif.Proofs.Fields

/-!
# Closed forms of the matrix queries
-/

set_option linter.unusedSectionVars false

namespace Tulip
open Spec Matrix

section
variable {𝕜 : Type} [Field 𝕜] {F : FEM 𝕜}

/-- A driver with numbered conductors and a stored solution for each of them. -/
structure Ready (b : Bool) (ps : List (PEC 𝕜)) (sols : List (SolverSolution F)) (d : Driver F) : Prop where
  numbering : Numbering d.model.materials ps
  len : sols.length = ps.length
  stored : (Driver.problem b d).solutions = sols.map some

theorem Ready.congr {b : Bool} {ps : List (PEC 𝕜)} {sols : List (SolverSolution F)} {d d' : Driver F}
    (h : Ready b ps sols d) (e : d'.forget = d.forget) : Ready b ps sols d' where
  numbering := by rw [forget_model e]; exact h.numbering
  len := h.len
  stored := by rw [forget_solutions e]; exact h.stored

theorem solutionAt_ok {sP : SolvedProblem F} {sols : List (SolverSolution F)} (h : sP.solutions = sols.map some)
    {i : Nat} (hi : i < sols.length) : Driver.solutionAt sP i = .ok sols[i] := by
  unfold Driver.solutionAt vecGet
  rw [h, if_pos (by omega)]
  simp [hi]

theorem idMapFrom_find {ps : List (PEC 𝕜)} {i : Nat} (hi : i < ps.length) :
    SMap.find? (idMapFrom 0 ps) (i : Int) = some ps[i].tag := by
  apply SMap.find?_of_mem (idMapFrom_sorted 0 ps)
  rw [mem_idMapFrom]
  exact ⟨i, hi, by simp, rfl⟩

theorem setI_ok {n m : Nat} (f : Fin n → Fin m → 𝕜) {i j : Nat} (hi : i < n) (hj : j < m) (v : 𝕜) :
    DMat.setI ⟨n, m, f⟩ i j v = .ok ⟨n, m, fun a b => if a.1 = i ∧ b.1 = j then v else f a b⟩ := by
  unfold DMat.setI DMat.set
  rw [if_pos ⟨by omega, by omega⟩]
  simp [hi, hj]

theorem getI_ok {n m : Nat} (A : Matrix (Fin n) (Fin m) 𝕜) {i j : Nat} (hi : i < n) (hj : j < m) :
    DMat.getI (DMat.ofMatrix A) i j = .ok (A ⟨i, hi⟩ ⟨j, hj⟩) := by
  unfold DMat.getI
  rw [if_pos ⟨by omega, by omega⟩]
  simp only [Int.toNat_natCast]
  exact get_ofMatrix A i j hi hj

theorem chargesLoop_spec (s : Solver F) (ps : List (PEC 𝕜)) (i : Nat) (hi : i < ps.length) :
    ∀ (m k : Nat) (f : Fin ps.length → Fin ps.length → 𝕜), k + m = ps.length →
      Driver.chargesLoop s (idMapFrom 0 ps) i (idMapFrom k (ps.drop k)) ⟨ps.length, ps.length, f⟩ =
        .ok ⟨ps.length, ps.length, fun a c => if a.1 = i ∧ k ≤ c.1 then s.getChargeInBoundary ps[c].tag else f a c⟩ := by
  intro m
  induction m with
  | zero =>
    intro k f hk
    rw [List.drop_of_length_le (by omega)]
    show Outcome.ok _ = _
    congr 2
    funext a c
    rw [if_neg]
    have := c.2
    omega
  | succ m ih =>
    intro k f hk
    rw [List.drop_eq_getElem_cons (by omega : k < ps.length), idMapFrom, Driver.chargesLoop,
      idMapFrom_find (by omega : k < ps.length), Outcome.ofOption_some, Outcome.ok_bind,
      setI_ok f hi (by omega : k < ps.length), Outcome.ok_bind, ih (k + 1) _ (by omega)]
    congr 2
    funext a c
    by_cases h1 : a.1 = i
    · by_cases h2 : c.1 = k
      · rw [if_neg (by omega), if_pos ⟨h1, h2⟩, if_pos ⟨h1, by omega⟩]
        congr 2
        simp only [Fin.getElem_fin]
        congr 1
        exact h2.symm
      · by_cases h3 : k ≤ c.1
        · rw [if_pos ⟨h1, by omega⟩, if_pos ⟨h1, h3⟩]
        · rw [if_neg (by omega), if_neg (by omega), if_neg (by omega)]
    · rw [if_neg (by omega), if_neg (by omega), if_neg (by omega)]

/-- Charge on conductor `j` with conductor `i` at one volt. -/
def rawCharges (ps : List (PEC 𝕜)) (sols : List (SolverSolution F)) (h : sols.length = ps.length) :
    Matrix (Fin ps.length) (Fin ps.length) 𝕜 :=
  Matrix.of fun i j => chargeOn (sols[i.1]'(by rw [h]; exact i.2)) ps[j].tag

/-- Symmetric part. -/
def symPart {n : Nat} (A : Matrix (Fin n) (Fin n) 𝕜) : Matrix (Fin n) (Fin n) 𝕜 :=
  Matrix.of fun i j => (A i j + A j i) / 2

theorem generalizedLoop_spec {b : Bool} {ps : List (PEC 𝕜)} {sols : List (SolverSolution F)}
    (hl : sols.length = ps.length) : ∀ (m k : Nat) (f : Fin ps.length → Fin ps.length → 𝕜) (d : Driver F),
      Ready b ps sols d → k + m = ps.length →
      ∃ d' : Driver F, Driver.generalizedLoop b (idMapFrom 0 ps) (idMapFrom k (ps.drop k)) ⟨ps.length, ps.length, f⟩ d =
        (.ok ⟨ps.length, ps.length, fun a c => if k ≤ a.1 then rawCharges ps sols hl a c else f a c⟩, d',
          ((ps.zip sols).drop k).flatMap (fun q => exportFieldSolutions d.opts q.2 q.1.name b)) ∧
        d'.forget = d.forget := by
  intro m
  induction m with
  | zero =>
    intro k f d hd hk
    refine ⟨d, ?_, rfl⟩
    rw [List.drop_of_length_le (by omega), List.drop_of_length_le (by simp; omega)]
    show (Outcome.ok _, d, _) = _
    refine congrArg₂ Prod.mk ?_ rfl
    congr 2
    funext a c
    rw [if_neg]
    have := a.2
    omega
  | succ m ih =>
    intro k f d hd hk
    have hk1 : k < ps.length := by omega
    have hk2 : k < sols.length := by omega
    rw [List.drop_eq_getElem_cons hk1, List.drop_eq_getElem_cons (by simp; omega : k < (ps.zip sols).length), idMapFrom,
      Driver.generalizedLoop, Act.read_bind, solutionAt_ok hd.stored hk2, Act.lift_ok_bind,
      Act.bind_ok (updateSolver_eq b _ d), Act.read_bind]
    simp only [withSolver_solver]
    have hc := chargesLoop_spec ((Driver.problem b d).solver.setSolution sols[k]) ps k hk1 ps.length 0 f (by omega)
    rw [List.drop_zero] at hc
    rw [hc, Act.lift_ok_bind, Act.read_bind]
    simp only [withSolver_model]
    rw [hd.numbering.getById hk1, Act.lift_ok_bind, Act.read_bind]
    simp only [withSolver_opts]
    obtain ⟨d', h1, h2⟩ := ih (k + 1) (fun a c => if a.1 = k ∧ 0 ≤ c.1 then
        ((Driver.problem b d).solver.setSolution sols[k]).getChargeInBoundary ps[c].tag else f a c)
      (d.withSolver b ((Driver.problem b d).solver.setSolution sols[k]))
      (hd.congr (withSolver_forget rfl)) (by omega)
    rw [Act.bind_ok (a := ()) (d' := d.withSolver b ((Driver.problem b d).solver.setSolution sols[k]))
      (w := exportFieldSolutions d.opts ((Driver.problem b d).solver.setSolution sols[k]).sol ps[k].name b) rfl, h1]
    refine ⟨d', ?_, h2.trans (withSolver_forget rfl)⟩
    dsimp only
    refine congrArg₂ Prod.mk ?_ ?_
    · congr 2
      funext a c
      by_cases h3 : k + 1 ≤ a.1
      · rw [if_pos h3, if_pos (by omega)]
      · rw [if_neg h3]
        by_cases h4 : a.1 = k
        · rw [if_pos ⟨h4, by omega⟩, if_pos (by omega)]
          unfold rawCharges chargeOn Solver.getChargeInBoundary
          simp only [Matrix.of_apply, h4, ← flux_neg_one]
          rfl
        · rw [if_neg (by omega), if_neg (by omega)]
    · refine congrArg₂ Prod.mk rfl ?_
      simp only [List.nil_append, withSolver_opts, List.flatMap_cons, List.getElem_zip]
      rfl

theorem getGeneralizedCMatrix_spec {b : Bool} {ps : List (PEC 𝕜)} {sols : List (SolverSolution F)} {d : Driver F}
    (h : Ready b ps sols d) {o : Openness} (ho : d.model.determineOpenness = .ok o)
    (hc : ¬ (ps.length = 1 ∧ o = .closed)) :
    ∃ d' : Driver F, Driver.getGeneralizedCMatrix b d =
      (.ok (DMat.ofMatrix (symPart (rawCharges ps sols h.len))), d',
        (ps.zip sols).flatMap (fun q => exportFieldSolutions d.opts q.2 q.1.name b)) ∧ d'.forget = d.forget := by
  obtain ⟨d', h1, h2⟩ := generalizedLoop_spec h.len ps.length 0 (fun _ _ => 0) d h (by omega)
  refine ⟨d', ?_, h2⟩
  unfold Driver.getGeneralizedCMatrix
  rw [Act.read_bind, h.numbering.idMap, Act.lift_ok_bind, ho, Act.lift_ok_bind, idMapFrom_length, if_neg hc]
  rw [List.drop_zero, List.drop_zero] at h1
  have h1' : Driver.generalizedLoop b (idMapFrom 0 ps) (idMapFrom 0 ps) (DMat.zero ps.length ps.length) d = _ := h1
  rw [Act.bind_ok h1']
  have : (⟨ps.length, ps.length, fun a c => if 0 ≤ a.1 then rawCharges ps sols h.len a c else 0⟩ : DMat 𝕜) =
      DMat.ofMatrix (rawCharges ps sols h.len) := by
    unfold DMat.ofMatrix
    congr 1
  rw [this, symmetrize_ofMatrix]
  simp only [Act.lift, List.append_nil]
  rfl

end
end Tulip
