import Verif.Props.LimitSquare
import Verif.Proofs.Pieces

/-!
# C105: making a conductor smaller
-/

namespace Tulip.Props
open Tulip Tulip.Spec MeasureTheory Set

section
variable {T T' : Triangulation ℝ} {mats : Materials ℝ} {ps : List (PEC ℝ)} {k : Int}

/-- **C105, potentials.** When a conductor has been made smaller, the cross-section has potentials of all energies it had before, with the
same potentials of the conductors. -/
theorem C105_potentials (hT : Proper T) (ha : Embedded T) (ha' : Embedded T') (hk : ∃ c ∈ mats.pecs, c.tag = k) (hs : Shrunk T T' mats k) (b : Bool)
    (V : Int → ℝ) : potentialEnergies T mats b V ⊆ potentialEnergies T' mats b V := by
  rintro W ⟨v, hv, rfl⟩
  obtain ⟨L, hL, hsl⟩ := potential_slopes hv
  refine ⟨_, extended_potential (boundary_covered hT) hs hk hv, (extended_energy ha.apart ha'.apart hs.toEnlarged _ hsl hL ?_).symm⟩
  obtain ⟨c, hc, rfl⟩ := hk
  exact hv.conductors c hc

/-- **C105.** Making a conductor of a closed model smaller does not raise the energy. `W` is what a run reports for the former cross-section
on any mesh. On every mesh of the new one that is fine enough, with triangles that are not too flat, the energy reported for the same
potentials of the conductors is not above `W` (up to any tolerance), whatever the orders of the elements, their shape functions,
quadrature rules, and the calls before. -/
theorem C105_runs (hN : Numbering mats ps) (hc : mats.openBoundaries = []) {A : Analytic ℝ} {P : LinSolver ℝ} (hP : ExactSolver P) {S : Shapes T} {Q : Rule ℝ} {p : Nat}
    {s : Solver (T.femWith S Q)} {b : Bool} (h : ClosedRun T A P mats b S Q p s) (ha' : Embedded T') (hk : ∃ c ∈ mats.pecs, c.tag = k)
    (hs : Shrunk T T' mats k) (V : Int → ℝ) :
    ∃ W, Reports P mats s V W ∧ ∀ (flatness ε : ℝ), 0 < ε → ∃ size > 0,
      ∀ (M : Triangulation ℝ) (A' : Analytic ℝ) (P' : LinSolver ℝ) (S' : Shapes M) (Q' : Rule ℝ) (p' : Nat) (s' : Solver (M.femWith S' Q')),
        ExactSolver P' → ClosedRun M A' P' mats b S' Q' p' s' → SameCrossSection T' M → Fine M flatness size →
        ∃ W', Reports P' mats s' V W' ∧ W' ≤ W + ε := by
  obtain ⟨u, W, -, e1, e2, e3⟩ := C101_energy hP hN hc h V
  refine ⟨W, e1, fun flatness ε hε => ?_⟩
  exact C101_upper hN hc h.sensible.permittivities ha' b V (C105_potentials h.proper h.embedded ha' hk hs b V ⟨u, e2, e3⟩) flatness hε

/-- **C105, limits.** The least energy, which the energies reported converge to, is not raised. -/
theorem C105_least (hN : Numbering mats ps) (hc : mats.openBoundaries = []) {A : Analytic ℝ} {P : LinSolver ℝ} (hP : ExactSolver P) {S : Shapes T} {Q : Rule ℝ} {p : Nat}
    {s : Solver (T.femWith S Q)} {b : Bool} (h : ClosedRun T A P mats b S Q p s) (ha' : Embedded T') (hk : ∃ c ∈ mats.pecs, c.tag = k)
    (hs : Shrunk T T' mats k) (V : Int → ℝ) : sInf (potentialEnergies T' mats b V) ≤ sInf (potentialEnergies T mats b V) := by
  obtain ⟨u, W, -, -, e2, e3⟩ := C101_energy hP hN hc h V
  exact csInf_le_csInf (energies_below h.sensible.permittivities T' b V) ⟨W, u, e2, e3⟩ (C105_potentials h.proper h.embedded ha' hk hs b V)

/-- **C105, nested meshes.** If every triangle of the new mesh is part of a triangle of the former one or in the space the conductor leaves,
and the order of the elements is not lowered, then the energy reported is not raised, not even a little. -/
theorem C105_nested (hN : Numbering mats ps) (hc : mats.openBoundaries = []) {A A' : Analytic ℝ} {P P' : LinSolver ℝ} (hP : ExactSolver P) (hP' : ExactSolver P')
    {S : Shapes T} {Q : Rule ℝ} {p : Nat} {s : Solver (T.femWith S Q)} {b : Bool} (h : ClosedRun T A P mats b S Q p s)
    {S' : Shapes T'} {Q' : Rule ℝ} {p' : Nat} {s' : Solver (T'.femWith S' Q')} (h' : ClosedRun T' A' P' mats b S' Q' p' s')
    (hk : ∃ c ∈ mats.pecs, c.tag = k) (hs : Shrunk T T' mats k) (hn : Nested T T') (hp : p ≤ p') (V : Int → ℝ) :
    ∃ W W', Reports P mats s V W ∧ Reports P' mats s' V W' ∧ W' ≤ W := by
  obtain ⟨s1, W, D, e1, e2, e3, e4⟩ := closedRun_reports hP hN hc h V
  obtain ⟨s1', W', D', e1', e2', e3', e4'⟩ := closedRun_reports hP' hN hc h' V
  refine ⟨W, W', ⟨s1, e1, e2⟩, ⟨s1', e1', e2'⟩, ?_⟩
  obtain ⟨v, k1, k2, k3⟩ := galerkin_potential h.proper h.embedded h.order h.exact e3.potential e3.conductors (declaredEps mats b)
  obtain ⟨L, hL, hsl⟩ := potential_slopes k1
  have hk' : ∀ x ∈ boundaryPart T k, v x = V k := by
    obtain ⟨c, hc, rfl⟩ := hk
    exact k1.conductors c hc
  obtain ⟨G, hG⟩ := nested_pieces h'.proper hs.toEnlarged hn hsl hL hk'
    (fun t ht => ((toPlane_degree t _).trans (e3.potential.degree t ht)).trans hp) k2
  rw [e4, e4', ← k3, ← extended_energy h.embedded.apart h'.embedded.apart hs.toEnlarged _ hsl hL hk']
  exact pieces_least h'.proper h'.embedded h'.order h'.rule h'.exact h'.sensible.permittivities hc e3' (fun q hq => (hG q hq).1)
    (fun q hq => (hG q hq).2) (extended_potential (boundary_covered h.proper) hs hk k1).conductors

end

end Tulip.Props
