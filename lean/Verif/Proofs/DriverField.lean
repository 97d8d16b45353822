import Verif.Proofs.DriverMatrix
import Verif.Proofs.Floating
import Verif.Proofs.Flux

/-!
# Stored fields and their superpositions
-/

set_option linter.unusedSectionVars false

namespace Tulip
open Spec Matrix

section
variable {𝕜 : Type} [Field 𝕜] {F : FEM 𝕜}

/-- `t` is the discrete field with potentials `V` on the boundaries `keys` (in the order in which they are
applied) and no surface charges. -/
structure FieldFor (s0 : Solver F) (keys : List Int) (V : Int → 𝕜) (t : SolverSolution F) : Prop where
  phi : ∃ phi0, F.applyBoundary (prescribe keys V) (fun _ => 0) = .ok phi0 ∧
    DirichletSolution s0.K (fun i => ∃ a ∈ keys, OnBoundary F a i) phi0 (fun _ => 0) t.phi
  e : t.e = fun i => -(F.grad *ᵥ t.phi) i
  d : F.massD *ᵥ t.d = F.mixed s0.eps *ᵥ t.e

theorem FieldFor.unique {s0 : Solver F} {keys : List Int} {V : Int → 𝕜} {t t' : SolverSolution F}
    (hreg : Regular s0.K (fun i => ∃ a ∈ keys, OnBoundary F a i)) (hD : F.massD.det ≠ 0)
    (h : FieldFor s0 keys V t) (h' : FieldFor s0 keys V t') : t = t' := by
  obtain ⟨p1, a1, b1⟩ := h.phi
  obtain ⟨p2, a2, b2⟩ := h'.phi
  rw [a1] at a2
  cases a2
  have e1 := dirichlet_unique hreg b1 b2
  have e2 : t.e = t'.e := by rw [h.e, h'.e, e1]
  have e3 : t.d = t'.d := by
    apply mulVec_injective_of_det hD
    rw [h.d, h'.d, e2]
  cases t; cases t'; simp_all

theorem FieldFor.congr {s0 : Solver F} {keys : List Int} {V V' : Int → 𝕜} {t : SolverSolution F}
    (h : FieldFor s0 keys V t) (hV : ∀ a ∈ keys, V a = V' a) : FieldFor s0 keys V' t := by
  have : prescribe keys V = prescribe keys V' := by
    unfold prescribe
    apply List.map_congr_left
    intro a ha
    rw [hV a ha]
  exact ⟨this ▸ h.phi, h.e, h.d⟩

/-- `α t + β u` -/
def combine (α : 𝕜) (t : SolverSolution F) (β : 𝕜) (u : SolverSolution F) : SolverSolution F where
  phi := fun i => α * t.phi i + β * u.phi i
  e := fun i => α * t.e i + β * u.e i
  d := fun i => α * t.d i + β * u.d i

theorem FieldFor.combine {s0 : Solver F} {keys : List Int} {V W : Int → 𝕜} {t u : SolverSolution F}
    (h : FieldFor s0 keys V t) (h' : FieldFor s0 keys W u) (α β : 𝕜) :
    FieldFor s0 keys (fun a => α * V a + β * W a) (combine α t β u) := by
  obtain ⟨p1, a1, b1⟩ := h.phi
  obtain ⟨p2, a2, b2⟩ := h'.phi
  refine ⟨⟨fun i => α * p1 i + β * p2 i, ?_, ?_⟩, ?_, ?_⟩
  · have a3 := applyBoundary_comb V W α β keys a1 a2
    have hz : (fun i : Fin F.n => α * (0 : 𝕜) + β * 0) = fun _ => 0 := by funext i; simp
    rw [hz] at a3
    exact a3
  · have := dirichlet_linear b1 b2 α β
    simp only [mul_zero, add_zero] at this
    exact this
  · show (fun i => α * t.e i + β * u.e i) = fun i => -(F.grad *ᵥ fun i => α * t.phi i + β * u.phi i) i
    rw [mulVec_comb, h.e, h'.e]
    funext i; ring
  · show (F.massD *ᵥ fun i => α * t.d i + β * u.d i) = F.mixed s0.eps *ᵥ fun i => α * t.e i + β * u.e i
    rw [mulVec_comb, mulVec_comb, h.d, h'.d]

/-- What a solver of a driver with exact linear algebra stores. -/
theorem solve_field {A : Analytic 𝕜} {P : LinSolver 𝕜} (hP : ExactSolver P) (hF : ValidBoundary F)
    (hb : F.bdrAttrs ≠ []) {p : SolverInputs 𝕜} {raw : SolverSolution F} {s0 s s' : Solver F}
    (hmake : Solver.make A F p raw = .ok s0) (hneu : p.neumannBoundaries = []) (hne : p.dirichletBoundaries ≠ [])
    (hpos : ∀ a ∈ SMap.keys p.dirichletBoundaries, 0 < a)
    (hreg : Regular s0.K (fun i => ∃ a ∈ SMap.keys p.dirichletBoundaries, OnBoundary F a i))
    (hD : F.massD.det ≠ 0) (hr : Reached P s0 s) {V : Int → 𝕜}
    (hs : (s.setDirichletConditions (prescribe (SMap.keys p.dirichletBoundaries) V)).solve P = .ok s') :
    FieldFor s0 (SMap.keys p.dirichletBoundaries) V s'.sol := by
  obtain ⟨⟨hist, hh, hrun⟩, hsig⟩ := hr
  obtain ⟨g, a1, _⟩ := applyBoundary_ok hF hb (SMap.keys p.dirichletBoundaries) V hpos
  have hv : prescribe (SMap.keys p.dirichletBoundaries) V ≠ [] := by
    intro h
    exact hne (List.map_eq_nil_iff.mp (List.map_eq_nil_iff.mp h))
  obtain ⟨s1, b1, c1, d1, f1, _⟩ := solve_after hP hF hmake hne hpos hh hrun hreg hD hv a1
  rw [hs] at b1
  cases b1
  have hs0 : s0.sigma = fun _ => 0 := by
    obtain ⟨_, _, _, _, _, m6, _⟩ := make_fields hmake
    rw [hneu] at m6
    exact (Outcome.ok.inj m6).symm
  have hrhs : F.surfMass *ᵥ s.sigma = fun _ => 0 := by
    rw [hsig, hs0]; funext k; simp [mulVec, dotProduct]
  rw [hrhs] at c1
  exact ⟨⟨g, a1, c1⟩, d1, f1⟩

/-- Fields stored by a driver. -/
theorem Solved.field {E : Engine 𝕜} {mats : Materials 𝕜} {b : Bool} {ps : List (PEC 𝕜)} {sp : SolvedProblem F}
    {s0 : Solver F} {sols : List (SolverSolution F)} (h : Solved E mats b ps sp s0 sols) (hN : Numbering mats ps)
    (hB : Buildable F mats) (hP : ExactSolver E.pcg)
    (hreg : Regular s0.K (fun i => ∃ a ∈ SMap.keys (inputsOf mats b).dirichletBoundaries, OnBoundary F a i))
    (hD : F.massD.det ≠ 0) {i : Nat} (hi : i < ps.length) (hi' : i < sols.length) :
    FieldFor s0 (SMap.keys (inputsOf mats b).dirichletBoundaries) (unitVolt ps[i].tag) sols[i] := by
  obtain ⟨s, s', h1, h2, h3⟩ := h.each i hi hi'
  rw [h3]
  exact solve_field hP hB.bdr hB.bdrAttrs h.make rfl (inputs_dirichlet_ne hN b) (inputs_dirichlet_pos hN hB b) hreg hD
    h1 h2

/-! ## Superposition -/

/-- The field `∑ c_j t_j`. -/
def superposed {n : Nat} (c : Fin n → 𝕜) (t : Fin n → SolverSolution F) : SolverSolution F where
  phi := fun k => ∑ j, c j * (t j).phi k
  e := fun k => ∑ j, c j * (t j).e k
  d := fun k => ∑ j, c j * (t j).d k

theorem superpose_fold {n : Nat} (c : Fin n → 𝕜) (t : Fin n → SolverSolution F) : ∀ (l : List (Fin n)) (s : Solver F),
    l.foldl (fun s j => Driver.addScaled (c j) (t j) s) s =
      { s with sol := ⟨fun k => s.sol.phi k + (l.map fun j => c j * (t j).phi k).sum,
                       fun k => s.sol.e k + (l.map fun j => c j * (t j).e k).sum,
                       fun k => s.sol.d k + (l.map fun j => c j * (t j).d k).sum⟩ } := by
  intro l
  induction l with
  | nil => intro s; simp
  | cons j l ih =>
    intro s
    rw [List.foldl_cons, ih]
    unfold Driver.addScaled
    simp only [List.map_cons, List.sum_cons, add_assoc]

theorem superposeLoop_spec {b : Bool} {ps : List (PEC 𝕜)} {sols : List (SolverSolution F)}
    (hl : sols.length = ps.length) (R : Matrix (Fin ps.length) (Fin ps.length) 𝕜) (i : Fin ps.length) :
    ∀ (m k : Nat) (d : Driver F), Ready b ps sols d → k + m = ps.length →
      Driver.superposeLoop b (DMat.ofMatrix R) (i.1 : Int) (idMapFrom k (ps.drop k)) d =
        (.ok (), d.withSolver b (((List.finRange ps.length).drop k).foldl
          (fun s j => Driver.addScaled (R i j) (sols[j.1]'(by rw [hl]; exact j.2)) s) (Driver.problem b d).solver), []) := by
  intro m
  induction m with
  | zero =>
    intro k d hd hk
    rw [List.drop_of_length_le (by omega), List.drop_of_length_le (by simp; omega)]
    show (Outcome.ok (), d, _) = _
    simp only [List.foldl_nil]
    cases b <;> rfl
  | succ m ih =>
    intro k d hd hk
    have hk1 : k < ps.length := by omega
    have hk2 : k < sols.length := by omega
    rw [List.drop_eq_getElem_cons hk1, idMapFrom, Driver.superposeLoop, getI_ok R i.2 hk1, Act.lift_ok_bind,
      Act.read_bind, solutionAt_ok hd.stored hk2, Act.lift_ok_bind, Act.bind_ok (updateSolver_eq b _ d),
      ih (k + 1) _ (hd.congr (withSolver_forget (addScaled_forget _ _ _))) (by omega)]
    rw [List.drop_eq_getElem_cons (by simpa using hk1 : k < (List.finRange ps.length).length), List.foldl_cons]
    simp only [withSolver_solver, List.append_nil, List.getElem_finRange]
    refine congrArg₂ Prod.mk rfl (congrArg₂ Prod.mk ?_ rfl)
    cases b <;> rfl

theorem potentialsLoop_spec {ps : List (PEC 𝕜)} (R : Matrix (Fin ps.length) (Fin ps.length) 𝕜) (i : Fin ps.length) :
    ∀ (m k : Nat) (acc : SMap Int 𝕜), acc.Sorted → k + m = ps.length →
      ∃ r : SMap Int 𝕜, Driver.potentialsLoop (DMat.ofMatrix R) (i.1 : Int) (idMapFrom k (ps.drop k)) acc = .ok r ∧
        r.Sorted ∧ ∀ j : Int, r.find? j = if h : (k : Int) ≤ j ∧ j.toNat < ps.length then some (R i ⟨j.toNat, h.2⟩)
          else acc.find? j := by
  intro m
  induction m with
  | zero =>
    intro k acc hs hk
    refine ⟨acc, ?_, hs, ?_⟩
    · rw [List.drop_of_length_le (by omega)]; rfl
    · intro j
      rw [dif_neg (by omega)]
  | succ m ih =>
    intro k acc hs hk
    have hk1 : k < ps.length := by omega
    obtain ⟨r, h1, h2, h3⟩ := ih (k + 1) (SMap.set acc (k : Int) (R i ⟨k, hk1⟩)) (hs.set _ _) (by omega)
    refine ⟨r, ?_, h2, ?_⟩
    · rw [List.drop_eq_getElem_cons hk1, idMapFrom, Driver.potentialsLoop, getI_ok R i.2 hk1, Outcome.ok_bind, h1]
    · intro j
      rw [h3, SMap.find?_set hs]
      by_cases h4 : ((k + 1 : Nat) : Int) ≤ j ∧ j.toNat < ps.length
      · rw [dif_pos h4, dif_pos ⟨by omega, h4.2⟩]
      · rw [dif_neg h4]
        by_cases h5 : (k : Int) = j
        · subst h5
          rw [if_pos rfl, dif_pos ⟨by omega, by simpa using hk1⟩]
          simp
        · rw [if_neg h5, dif_neg (by omega)]

theorem superposed_field {n : Nat} {s0 : Solver F} {keys : List Int} (c : Fin n → 𝕜) {t : Fin n → SolverSolution F}
    {V : Fin n → Int → 𝕜} (hn : 0 < n) (h : ∀ j, FieldFor s0 keys (V j) (t j)) :
    FieldFor s0 keys (fun a => ∑ j, c j * V j a) (superposed c t) := by
  have key : ∀ l : List (Fin n), FieldFor s0 keys (fun a => (l.map fun j => c j * V j a).sum)
      ⟨fun k => (l.map fun j => c j * (t j).phi k).sum, fun k => (l.map fun j => c j * (t j).e k).sum,
        fun k => (l.map fun j => c j * (t j).d k).sum⟩ := by
    intro l
    induction l with
    | nil =>
      have := (h ⟨0, hn⟩).combine (h ⟨0, hn⟩) 0 0
      unfold combine at this
      simpa using this
    | cons j l ih =>
      have := (h j).combine ih (c j) 1
      unfold combine at this
      simpa using this
  have := key (List.finRange n)
  unfold superposed
  simp only [Fin.sum_univ_def]
  exact this

variable [DecidableEq 𝕜]

/-- What is stored for a conductor, given the solver with the superposed field. -/
def reconstruct (E : Engine 𝕜) (model : Model 𝕜) (opts : DriverOptions) (s : Solver F) (ps : SMap Int 𝕜) :
    Outcome (FieldReconstruction 𝕜) := do
  let av ← Driver.getInnerRegionAveragePotential model s true
  let c ← s.getCenterOfCharge E.analytic
  let ab ← s.getMultipolarCoefficients E.analytic opts.multipolarExpansionOrder
  .ok { innerRegionAveragePotential := av, expansionCenter := c, ab := ab, conductorPotentials := ps }

/-- The potentials of the conductors in row `i`. -/
def rowMap {n : Nat} (R : Matrix (Fin n) (Fin n) 𝕜) (i : Fin n) : SMap Int 𝕜 :=
  (List.finRange n).map (fun j => ((j.1 : Int), R i j))

theorem rowMap_sorted {n : Nat} (R : Matrix (Fin n) (Fin n) 𝕜) (i : Fin n) : (rowMap R i).Sorted := by
  unfold rowMap SMap.Sorted
  rw [List.pairwise_map]
  exact (List.pairwise_lt_finRange n).imp (fun h => by simpa using h)

theorem rowMap_find {n : Nat} (R : Matrix (Fin n) (Fin n) 𝕜) (i : Fin n) (j : Int) :
    (rowMap R i).find? j = if h : 0 ≤ j ∧ j.toNat < n then some (R i ⟨j.toNat, h.2⟩) else none := by
  split
  · next h =>
    apply SMap.find?_of_mem (rowMap_sorted R i)
    unfold rowMap
    rw [List.mem_map]
    exact ⟨⟨j.toNat, h.2⟩, List.mem_finRange _, by simp only; rw [Int.toNat_of_nonneg h.1]⟩
  · next h =>
    rw [SMap.find?_eq_none_iff]
    unfold SMap.keys rowMap
    simp only [List.map_map, List.mem_map, List.mem_finRange, Function.comp, true_and, not_exists]
    intro k hk
    apply h
    subst hk
    exact ⟨by omega, by simp⟩

theorem potentials_eq {ps : List (PEC 𝕜)} (R : Matrix (Fin ps.length) (Fin ps.length) 𝕜) (i : Fin ps.length) :
    Driver.potentialsLoop (DMat.ofMatrix R) (i.1 : Int) (idMapFrom 0 ps) [] = .ok (rowMap R i) := by
  obtain ⟨r, h1, h2, h3⟩ := potentialsLoop_spec R i ps.length 0 [] SMap.Sorted.nil (by omega)
  rw [List.drop_zero] at h1
  rw [h1]
  congr 1
  refine SMap.ext h2 (rowMap_sorted R i) ?_
  intro k
  rw [h3, rowMap_find]
  simp

/-- One turn of the loop over the conductors. -/
theorem fieldLoop_step (E : Engine 𝕜) {b : Bool} {ps : List (PEC 𝕜)} {sols : List (SolverSolution F)} {d : Driver F}
    (hd : Ready b ps sols d) (R : Matrix (Fin ps.length) (Fin ps.length) 𝕜) (i : Fin ps.length) (tag : Int)
    (t : List (Int × Int)) (res : SMap Int (FieldReconstruction 𝕜)) :
    let s := (Driver.problem b d).solver.setSolution
      (superposed (R i) (fun j => sols[j.1]'(by rw [hd.len]; exact j.2)))
    let evs := exportFieldSolutions d.opts s.sol (ps[i].name ++ "_prescribed_and_others_floating") b
    Driver.fieldLoop E b (DMat.ofMatrix R) (idMapFrom 0 ps) (((i.1 : Int), tag) :: t) res d =
      match reconstruct E d.model d.opts s (rowMap R i) with
      | .ok r =>
        let x := Driver.fieldLoop E b (DMat.ofMatrix R) (idMapFrom 0 ps) t (SMap.set res (i.1 : Int) r) (d.withSolver b s)
        (x.1, x.2.1, evs ++ x.2.2)
      | .throw e => (.throw e, d.withSolver b s, evs)
      | .ub => (.ub, d.withSolver b s, evs)
      | .nonfinite => (.nonfinite, d.withSolver b s, evs) := by
  intro s evs
  rw [Driver.fieldLoop, Act.bind_ok (updateSolver_eq b _ d)]
  have hsup := superposeLoop_spec hd.len R i ps.length 0 (d.withSolver b (Driver.scaleZero (Driver.problem b d).solver))
    (hd.congr (withSolver_forget (by rw [scaleZero_eq]; rfl))) (by omega)
  rw [List.drop_zero, List.drop_zero] at hsup
  have hs : (d.withSolver b (Driver.scaleZero (Driver.problem b d).solver)).withSolver b
      ((List.finRange ps.length).foldl (fun s j => Driver.addScaled (R i j) (sols[j.1]'(by rw [hd.len]; exact j.2)) s)
        (Driver.problem b (d.withSolver b (Driver.scaleZero (Driver.problem b d).solver))).solver) = d.withSolver b s := by
    rw [superpose_fold (R i) (fun j => sols[j.1]'(by rw [hd.len]; exact j.2))]
    simp only [withSolver_solver, scaleZero_eq]
    have : (⟨(Driver.problem b d).solver.forget.params, (Driver.problem b d).solver.forget.essBdr,
        (Driver.problem b d).solver.forget.eps, (Driver.problem b d).solver.forget.K,
        (Driver.problem b d).solver.forget.elim, (Driver.problem b d).solver.forget.sigma,
        ⟨fun k => (Driver.problem b d).solver.forget.sol.phi k + ((List.finRange ps.length).map fun j => R i j *
            (sols[j.1]'(by rw [hd.len]; exact j.2)).phi k).sum,
          fun k => (Driver.problem b d).solver.forget.sol.e k + ((List.finRange ps.length).map fun j => R i j *
            (sols[j.1]'(by rw [hd.len]; exact j.2)).e k).sum,
          fun k => (Driver.problem b d).solver.forget.sol.d k + ((List.finRange ps.length).map fun j => R i j *
            (sols[j.1]'(by rw [hd.len]; exact j.2)).d k).sum⟩⟩ : Solver F) = s := by
      unfold s superposed Solver.setSolution Solver.forget
      simp only [zero_add, Fin.sum_univ_def]
    rw [← this]
    cases b <;> rfl
  rw [hs] at hsup
  rw [Act.bind_ok hsup, Act.read_bind, Act.read_bind, Act.read_bind]
  simp only [withSolver_model, withSolver_opts, withSolver_solver]
  rw [hd.numbering.getById i.2, Act.lift_ok_bind,
    Act.bind_ok (a := ()) (d' := d.withSolver b s) (w := evs) rfl]
  unfold reconstruct
  rcases h1 : Driver.getInnerRegionAveragePotential d.model s true with av | e | _ | _
  · simp only [Act.lift_ok_bind, Outcome.ok_bind, List.nil_append]
    rcases h2 : s.getCenterOfCharge E.analytic with c | e | _ | _
    · simp only [Act.lift_ok_bind, Outcome.ok_bind]
      rcases h3 : s.getMultipolarCoefficients E.analytic d.opts.multipolarExpansionOrder with ab | e | _ | _
      · simp only [Act.lift_ok_bind, Outcome.ok_bind]
        rw [potentials_eq]
        simp only [Act.lift_ok_bind]
      · simp only [Outcome.throw_bind, Act.lift_throw_bind, List.append_nil]
      · simp only [Outcome.ub_bind]; rw [bind_def]; simp [Act.lift]
      · simp only [Outcome.nonfinite_bind]; rw [bind_def]; simp [Act.lift]
    · simp only [Outcome.throw_bind, Act.lift_throw_bind, List.append_nil]
    · simp only [Outcome.ub_bind]; rw [bind_def]; simp [Act.lift]
    · simp only [Outcome.nonfinite_bind]; rw [bind_def]; simp [Act.lift]
  · simp only [Outcome.throw_bind, Act.lift_throw_bind, List.append_nil, List.nil_append]
  · simp only [Outcome.ub_bind]; rw [bind_def]; simp [Act.lift]
  · simp only [Outcome.nonfinite_bind]; rw [bind_def]; simp [Act.lift]

end
end Tulip
