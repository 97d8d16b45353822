import Verif.Proofs.Flux

/-!
# C55–C57: charges, centre of charge, markers
-/

namespace Tulip.Props
open Tulip Tulip.Spec
variable {𝕜 : Type _} [Field 𝕜] {F : FEM 𝕜}

/-! ## C57 -/

/-- **C57.** For attribute lists of a mesh with positive boundary attributes: no attributes give an empty
marker; positive attributes give a marker that covers every attribute of the list and of the mesh and is 1
exactly at the listed ones, 0 elsewhere; a lone -1 marks every boundary attribute of the mesh; any other
list with a non-positive attribute is rejected. -/
theorem C57_markers (bdrAttrs attrs : List Int) (hb : bdrAttrs ≠ []) (hpos : ∀ a ∈ bdrAttrs, 0 < a) :
    (attrs = [] → AttrToMarker bdrAttrs attrs = .ok []) ∧
    (attrs ≠ [] → (∀ a ∈ attrs, 0 < a) → ∃ mk, AttrToMarker bdrAttrs attrs = .ok mk ∧
      (∀ a, a ∈ attrs ∨ a ∈ bdrAttrs → a ≤ mk.length) ∧
      ∀ k : Nat, k < mk.length → mk[k]? = some (if ((k : Int) + 1) ∈ attrs then 1 else 0)) ∧
    (attrs = [-1] → ∃ mk, AttrToMarker bdrAttrs attrs = .ok mk ∧ (∀ x ∈ mk, x = 1) ∧
      (∀ a ∈ bdrAttrs, a ≤ mk.length) ∧ (mk.length : Int) ∈ bdrAttrs) ∧
    (attrs ≠ [-1] → (∃ a ∈ attrs, a ≤ 0) → AttrToMarker bdrAttrs attrs = .throw .mfemVerify) := by
  refine ⟨?_, ?_, ?_, ?_⟩
  · rintro rfl; rfl
  · intro hne hp
    obtain ⟨mk, h1, h2, h3, h4, _⟩ := AttrToMarker_ok hb hne hp
    refine ⟨mk, h1, fun a h => h.elim (h2 a) (h3 a), ?_⟩
    intro k hk
    have := h4 k
    rw [List.getD_eq_getElem?_getD, List.getElem?_eq_getElem hk] at this
    rw [List.getElem?_eq_getElem hk]
    simpa using this
  · rintro rfl
    obtain ⟨m, e, hm, hle⟩ := arrayMax_spec hb
    have hmp := hpos m hm
    refine ⟨List.replicate m.toNat 1, ?_, ?_, ?_, ?_⟩
    · unfold AttrToMarker
      rw [if_neg (by simp), e]
      simp only [arrayMax, List.foldl_nil, Outcome.ok_bind, if_true]
      rw [max_eq_right (by omega)]
    · intro x hx; exact (List.mem_replicate.mp hx).2
    · intro a ha; rw [List.length_replicate]; have := hle a ha; omega
    · rw [List.length_replicate]
      have : ((m.toNat : Nat) : Int) = m := by omega
      rw [this]; exact hm
  · intro hne hex
    have hane : attrs ≠ [] := by rintro rfl; obtain ⟨a, h, _⟩ := hex; cases h
    obtain ⟨m1, e1, hm1, hle1⟩ := arrayMax_spec hane
    obtain ⟨m2, e2, hm2, hle2⟩ := arrayMax_spec hb
    unfold AttrToMarker
    rw [if_neg (by simpa using hane), e1, e2]
    simp only [Outcome.ok_bind]
    rw [if_neg hne]
    apply markLoop_throw _ _ hex
    intro a ha hp
    rw [List.length_replicate]
    have := hle1 a ha
    omega

example : AttrToMarker [1, 2, 4] [2] = .ok [0, 1, 0, 0] ∧ AttrToMarker [1, 2] [-1] = .ok [1, 1] ∧
    AttrToMarker [1, 2] [-1, 2] = .throw .mfemVerify := by decide

/-! ## C56 -/

/-- **C56, what holds.** `getTotalCharge` is *minus* the sum of the boundary charges, for every list of
distinct attributes that covers the boundary. -/
theorem C56_total_partial (s : Solver F) (as : List Int) (hnd : as.Nodup)
    (hcov : ∀ q ∈ F.bdr, q.attr ∈ as) :
    s.getTotalCharge = -(as.map s.getChargeInBoundary).sum := by
  have h1 : s.getTotalCharge = (F.bdr.map (fun q => pointFlux q s.sol.d)).sum := by
    unfold Solver.getTotalCharge
    rw [flux_eq]; simp
  have h2 : ∀ a, s.getChargeInBoundary a =
      ((F.bdr.filter (fun q => q.attr = a)).map (fun q => -1 * pointFlux q s.sol.d)).sum := by
    intro a
    unfold Solver.getChargeInBoundary
    rw [flux_eq]
  have h3 := sum_by_attr (fun q : BdrPt 𝕜 F.n F.nd => q.attr) (fun q => -1 * pointFlux q s.sol.d) F.bdr as hnd
  rw [List.filter_eq_self.mpr (by intro q hq; simpa using hcov q hq)] at h3
  have h4 : (as.map s.getChargeInBoundary).sum = (F.bdr.map (fun q => -1 * pointFlux q s.sol.d)).sum := by
    rw [h3]; congr 1; apply List.map_congr_left; intro a _; exact h2 a
  rw [h4, h1, List.sum_map_mul_left]; ring

/-- A one-boundary discretisation with one flux degree of freedom. -/
def oneFEM : FEM ℚ where
  n := 1
  ne := 1
  nd := 1
  bdrAttrs := [1]
  domAttrs := [1]
  bdrElems := [(1, [0])]
  node := fun _ => (0, 0)
  dom := [{ attr := 1, w := 1, N := fun _ => 1, gradN := fun _ => (0, 0), W := fun _ => (1, 0),
            R := fun _ => (1, 0) }]
  bdr := [{ attr := 1, w := 1, pos := (0, 0), N := fun _ => 1, fl := fun _ => 1 }]
  grad := 0

/-- A state of a solver on `oneFEM` with unit flux. -/
def oneSolver : Solver oneFEM where
  params := { dirichletBoundaries := [(1, 1)] }
  essBdr := [1]
  eps := fun _ => 1
  K := 1
  elim := none
  sigma := fun _ => 0
  sol := { phi := fun _ => 1, e := fun _ => 0, d := fun _ => 1 }

/-- **C56 fails**: with a single boundary the total charge is not the charge of that boundary (opposite
sign). -/
theorem C56_refuted : oneSolver.getTotalCharge = 1 ∧ oneSolver.getChargeInBoundary 1 = -1 := by
  decide +kernel

/-! ## C55 -/

section center
variable [DecidableEq 𝕜]

/-- Order-1 moments are the coordinates relative to the centre. -/
def FirstMoments (A : Analytic 𝕜) : Prop :=
  ∀ x c, A.moment x 1 0 c = x.1 - c.1 ∧ A.moment x 1 1 c = x.2 - c.2

/-- Net charge on the prescribed boundaries. -/
def netCharge (s : Solver F) : 𝕜 := (s.chargedBoundaries.map s.getChargeInBoundary).sum

theorem netCharge_eq (s : Solver F) (hnd : s.chargedBoundaries.Nodup) :
    netCharge s = F.flux (fun a => s.chargedBoundaries.contains a) (fun _ => -1) s.sol.d := by
  unfold netCharge
  rw [flux_eq, sum_by_attr (fun q : BdrPt 𝕜 F.n F.nd => q.attr) _ F.bdr _ hnd]
  congr 1
  apply List.map_congr_left
  intro a _
  unfold Solver.getChargeInBoundary
  rw [flux_eq]

theorem sum_map_sub' {α : Type _} (l : List α) (f g : α → 𝕜) :
    (l.map (fun a => f a - g a)).sum = (l.map f).sum - (l.map g).sum := by
  induction l with
  | nil => simp
  | cons a l ih => simp only [List.map_cons, List.sum_cons, ih]; ring

theorem moment_shift {A : Analytic 𝕜} (hA : FirstMoments A) (s : Solver F)
    (hnd : s.chargedBoundaries.Nodup) (c : 𝕜 × 𝕜) :
    s.getChargeMomentComponent A 1 0 c = s.getChargeMomentComponent A 1 0 (0, 0) - c.1 * netCharge s ∧
    s.getChargeMomentComponent A 1 1 c = s.getChargeMomentComponent A 1 1 (0, 0) - c.2 * netCharge s := by
  unfold Solver.getChargeMomentComponent
  rw [netCharge_eq s hnd]
  simp only [flux_eq]
  constructor
  · simp only [(hA _ _).1, if_neg (one_ne_zero)]
    rw [← List.sum_map_mul_left, ← sum_map_sub']
    congr 1
    apply List.map_congr_left
    intro q _
    ring
  · simp only [(hA _ _).2, if_neg (one_ne_zero)]
    rw [← List.sum_map_mul_left, ← sum_map_sub']
    congr 1
    apply List.map_congr_left
    intro q _
    ring

/-- Proof of C55. For a solver with one open boundary `o`, not itself prescribed, all other flux leaving through
prescribed boundaries: if the total flux vanishes and the net charge does not, `getCenterOfCharge` returns a
point about which both order-1 coefficients vanish, and the order-0 coefficient is the net charge on the
prescribed boundaries; so do the lists of coefficients of every order. -/
theorem center_state (A : Analytic 𝕜) (hA : FirstMoments A) (s : Solver F) (o : Int)
    (ho : s.params.openBoundaries = [o]) (hoc : o ∉ s.chargedBoundaries)
    (hnd : s.chargedBoundaries.Nodup)
    (hcov : ∀ q ∈ F.bdr, q.attr ∈ s.chargedBoundaries ∨ q.attr = o ∨ ∑ k, q.fl k * s.sol.d k = 0)
    (hgauss : s.getTotalCharge = 0)
    (hQ : (s.chargedBoundaries.map s.getChargeInBoundary).sum ≠ 0) :
    ∃ c, s.getCenterOfCharge A = .ok c ∧
      s.getChargeMomentComponent A 1 0 c = 0 ∧ s.getChargeMomentComponent A 1 1 c = 0 ∧
      s.getChargeMomentComponent A 0 0 c = (s.chargedBoundaries.map s.getChargeInBoundary).sum ∧
      ∀ order : Nat, ∃ ab, s.getMultipolarCoefficients A order = .ok ab ∧ ab.length = order + 1 ∧
        ab[0]? = some ((s.chargedBoundaries.map s.getChargeInBoundary).sum, 0) ∧
        (1 ≤ order → ab[1]? = some (0, 0)) := by
  have hnet : s.getTotalCharge - s.getChargeInBoundary o = netCharge s := by
    have h1 : netCharge s + s.getChargeInBoundary o = - s.getTotalCharge := by
      have hnd' : (o :: s.chargedBoundaries).Nodup := List.nodup_cons.mpr ⟨hoc, hnd⟩
      have h3 := sum_by_attr (fun q : BdrPt 𝕜 F.n F.nd => q.attr) (fun q => -1 * pointFlux q s.sol.d) F.bdr
        _ hnd'
      have h2 : ∀ a, s.getChargeInBoundary a =
          ((F.bdr.filter (fun q => q.attr = a)).map (fun q => -1 * pointFlux q s.sol.d)).sum := by
        intro a
        unfold Solver.getChargeInBoundary
        rw [flux_eq]
      have h4 : netCharge s + s.getChargeInBoundary o =
          ((o :: s.chargedBoundaries).map (fun a =>
            ((F.bdr.filter (fun q => q.attr = a)).map (fun q => -1 * pointFlux q s.sol.d)).sum)).sum := by
        rw [List.map_cons, List.sum_cons, ← h2 o, add_comm]
        unfold netCharge
        congr 2
        apply List.map_congr_left
        intro a _; exact h2 a
      rw [h4, ← h3]
      have h5 : s.getTotalCharge = (F.bdr.map (fun q => pointFlux q s.sol.d)).sum := by
        unfold Solver.getTotalCharge
        rw [flux_eq]; simp
      rw [h5]
      have h6 : ∀ l : List (BdrPt 𝕜 F.n F.nd), (∀ q ∈ l, q.attr ∈ s.chargedBoundaries ∨ q.attr = o ∨
          pointFlux q s.sol.d = 0) →
          ((l.filter (fun q => (o :: s.chargedBoundaries).contains q.attr)).map
            (fun q => -1 * pointFlux q s.sol.d)).sum = -(l.map (fun q => pointFlux q s.sol.d)).sum := by
        intro l
        induction l with
        | nil => simp
        | cons q l ih =>
          intro h
          have ih' := ih (fun q hq => h q (List.mem_cons_of_mem _ hq))
          by_cases hq : q.attr ∈ (o :: s.chargedBoundaries)
          · rw [List.filter_cons_of_pos (by simpa using hq)]
            simp only [List.map_cons, List.sum_cons]
            rw [ih']; ring
          · rw [List.filter_cons_of_neg (by simpa using hq), ih']
            have hz : pointFlux q s.sol.d = 0 := by
              rcases h q (by simp) with h | h | h
              · exact absurd (List.mem_cons_of_mem _ h) hq
              · exact absurd (by rw [h]; simp) hq
              · exact h
            simp only [List.map_cons, List.sum_cons, hz, zero_add]
      exact h6 F.bdr hcov
    rw [hgauss, neg_zero] at h1
    rw [hgauss]
    linear_combination -h1
  have hQ' : netCharge s ≠ 0 := hQ
  refine ⟨(s.getChargeMomentComponent A 1 0 (0, 0) / netCharge s,
    s.getChargeMomentComponent A 1 1 (0, 0) / netCharge s), ?_⟩
  have hc : s.getCenterOfCharge A = .ok (s.getChargeMomentComponent A 1 0 (0, 0) / netCharge s,
      s.getChargeMomentComponent A 1 1 (0, 0) / netCharge s) := by
    unfold Solver.getCenterOfCharge
    rw [ho]
    simp only [hnet]
    unfold divide
    rw [if_neg hQ', if_neg hQ']
    rfl
  have hm := moment_shift hA s hnd (s.getChargeMomentComponent A 1 0 (0, 0) / netCharge s,
    s.getChargeMomentComponent A 1 1 (0, 0) / netCharge s)
  have m0 : ∀ c, s.getChargeMomentComponent A 0 0 c =
      (s.chargedBoundaries.map s.getChargeInBoundary).sum := by
    intro c
    unfold Solver.getChargeMomentComponent
    rw [if_pos rfl, if_pos rfl, foldl_add_eq_sum, zero_add]
  have m1 := hm.1.trans (show _ = (0 : 𝕜) by simp only; rw [div_mul_cancel₀ _ hQ', sub_self])
  have m2 := hm.2.trans (show _ = (0 : 𝕜) by simp only; rw [div_mul_cancel₀ _ hQ', sub_self])
  refine ⟨hc, m1, m2, m0 _, ?_⟩
  intro order
  unfold Solver.getMultipolarCoefficients
  rw [hc]
  simp only [Outcome.ok_bind]
  rw [if_neg (by omega)]
  have hn : ((order : Int) + 1).toNat = order + 1 := by omega
  refine ⟨_, rfl, by simp [hn], ?_, ?_⟩
  · rw [hn, List.getElem?_map, List.getElem?_range (by omega)]
    simp only [Option.map_some, m0]
    congr 2
  · intro h1
    rw [hn, List.getElem?_map, List.getElem?_range (by omega)]
    simp only [Option.map_some, m1, m2]

/-- two boundaries: a charged one at (3, 1) and the open one, equal and opposite fluxes -/
def twoFEM : FEM ℚ where
  n := 1
  ne := 1
  nd := 1
  bdrAttrs := [1, 2]
  domAttrs := [1]
  bdrElems := [(1, [0])]
  node := fun _ => (0, 0)
  dom := []
  bdr := [{ attr := 1, w := 1, pos := (3, 1), N := fun _ => 1, fl := fun _ => 1 },
          { attr := 2, w := 1, pos := (9, 9), N := fun _ => 1, fl := fun _ => -1 }]
  grad := 0

/-- a solver state on it -/
def twoSolver : Solver twoFEM where
  params := { dirichletBoundaries := [(1, 1)], openBoundaries := [2] }
  essBdr := [1, 0]
  eps := fun _ => 1
  K := 1
  elim := none
  sigma := fun _ => 0
  sol := { phi := fun _ => 1, e := fun _ => 0, d := fun _ => 5 }

/-- the functions of the plane used for order 1 -/
def coords : Analytic ℚ where
  abc := fun _ => 0
  moment := fun x _ d c => if d = 0 then x.1 - c.1 else x.2 - c.2

/-- the hypotheses hold there, and the centre is the position of the charge -/
example : FirstMoments coords ∧ twoSolver.params.openBoundaries = [2] ∧ 2 ∉ twoSolver.chargedBoundaries ∧
    twoSolver.chargedBoundaries.Nodup ∧
    (∀ q ∈ twoFEM.bdr, q.attr ∈ twoSolver.chargedBoundaries ∨ q.attr = 2 ∨
      ∑ k, q.fl k * twoSolver.sol.d k = 0) ∧ twoSolver.getTotalCharge = 0 ∧
    (twoSolver.chargedBoundaries.map twoSolver.getChargeInBoundary).sum ≠ 0 ∧
    twoSolver.getCenterOfCharge coords = .ok (3, 1) := by
  refine ⟨fun x c => ⟨rfl, rfl⟩, rfl, by decide, by decide, ?_, by decide +kernel, by decide +kernel,
    by decide +kernel⟩
  intro q hq
  rcases List.mem_cons.mp hq with rfl | hq
  · exact Or.inl (by decide)
  · rcases List.mem_cons.mp hq with rfl | hq
    · exact Or.inr (Or.inl rfl)
    · cases hq

/-- Proof of C55 without Gauss' law. The centre is computed with the charge `Q + 2 T` where `Q` is the net
charge and `T` the total flux, so it is biased unless the discrete total flux is exactly zero. -/
theorem bias_state (A : Analytic 𝕜) (s : Solver F) (o : Int) (ho : s.params.openBoundaries = [o])
    (hoc : o ∉ s.chargedBoundaries) (hnd : s.chargedBoundaries.Nodup)
    (hcov : ∀ q ∈ F.bdr, q.attr ∈ s.chargedBoundaries ∨ q.attr = o) (c : 𝕜 × 𝕜)
    (hc : s.getCenterOfCharge A = .ok c) :
    c.1 * ((s.chargedBoundaries.map s.getChargeInBoundary).sum + 2 * s.getTotalCharge) =
      s.getChargeMomentComponent A 1 0 (0, 0) := by
  have h1 := C56_total_partial s (o :: s.chargedBoundaries) (List.nodup_cons.mpr ⟨hoc, hnd⟩) (by
    intro q hq
    rcases hcov q hq with h | h
    · exact List.mem_cons_of_mem _ h
    · rw [h]; simp)
  rw [List.map_cons, List.sum_cons] at h1
  have h2 : (s.chargedBoundaries.map s.getChargeInBoundary).sum + 2 * s.getTotalCharge =
      s.getTotalCharge - s.getChargeInBoundary o := by linear_combination h1
  rw [h2]
  unfold Solver.getCenterOfCharge at hc
  rw [ho] at hc
  simp only [divide] at hc
  by_cases hz : s.getTotalCharge - s.getChargeInBoundary o = 0
  · rw [if_pos hz] at hc; cases hc
  · rw [if_neg hz, if_neg hz] at hc
    simp only [Outcome.ok_bind] at hc
    cases hc
    exact div_mul_cancel₀ _ hz

end center
end Tulip.Props
