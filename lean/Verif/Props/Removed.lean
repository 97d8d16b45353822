import Verif.Props.Shrunk

/-!
# C107: removing a conductor
-/

namespace Tulip.Props
open Tulip Tulip.Spec MeasureTheory Set

section
variable {T T' : Triangulation ℝ} {mats mats' : Materials ℝ} {ps ps' : List (PEC ℝ)} {k : Int}

theorem declaredEps_of (h : mats'.dielectrics = mats.dielectrics) (b : Bool) : declaredEps mats' b = declaredEps mats b := by
  funext a
  unfold declaredEps
  rw [h]

/-- **C107, potentials.** When a conductor has been removed, the cross-section has potentials of all energies it had before, with the
same potentials of the other conductors, whatever the potential of the one removed. -/
theorem C107_potentials (hT : Proper T) (ha : Embedded T) (ha' : Embedded T') (hk : ∃ c ∈ mats.pecs, c.tag = k) (hs : Removed T T' mats mats' k) (b : Bool)
    (V : Int → ℝ) : potentialEnergies T mats b V ⊆ potentialEnergies T' mats' b V := by
  rintro W ⟨v, hv, rfl⟩
  obtain ⟨L, hL, hsl⟩ := potential_slopes hv
  refine ⟨_, extended_removed (boundary_covered hT) hs hk hv, ?_⟩
  rw [declaredEps_of hs.dielectrics]
  refine (extended_energy ha.apart ha'.apart hs.toEnlarged _ hsl hL ?_).symm
  obtain ⟨c, hc, rfl⟩ := hk
  exact hv.conductors c hc

/-- **C107.** Removing a conductor of a closed model does not raise the energy, whatever its potential has been. `W` is what a run reports
for the former cross-section on any mesh. On every mesh of the new one that is fine enough, with triangles that are not too flat, the
energy reported for the same potentials of the other conductors is not above `W` (up to any tolerance), whatever the orders of the
elements, their shape functions, quadrature rules, and the calls before. -/
theorem C107_runs (hN : Numbering mats ps) (hN' : Numbering mats' ps') (hc : mats.openBoundaries = []) (hc' : mats'.openBoundaries = [])
    {A : Analytic ℝ} {P : LinSolver ℝ} (hP : ExactSolver P) {S : Shapes T} {Q : Rule ℝ} {p : Nat}
    {s : Solver (T.femWith S Q)} {b : Bool} (h : ClosedRun T A P mats b S Q p s) (ha' : Embedded T') (hk : ∃ c ∈ mats.pecs, c.tag = k)
    (hs : Removed T T' mats mats' k) (V : Int → ℝ) :
    ∃ W, Reports P mats s V W ∧ ∀ (flatness ε : ℝ), 0 < ε → ∃ size > 0,
      ∀ (M : Triangulation ℝ) (A' : Analytic ℝ) (P' : LinSolver ℝ) (S' : Shapes M) (Q' : Rule ℝ) (p' : Nat) (s' : Solver (M.femWith S' Q')),
        ExactSolver P' → ClosedRun M A' P' mats' b S' Q' p' s' → SameCrossSection T' M → Fine M flatness size →
        ∃ W', Reports P' mats' s' V W' ∧ W' ≤ W + ε := by
  obtain ⟨u, W, -, e1, e2, e3⟩ := C101_energy hP hN hc h V
  refine ⟨W, e1, fun flatness ε hε => ?_⟩
  refine C101_upper hN' hc' (fun d hd => h.sensible.permittivities d (hs.dielectrics ▸ hd)) ha' b V
    (C107_potentials h.proper h.embedded ha' hk hs b V ⟨u, e2, e3⟩) flatness hε

/-- **C107, limits.** The least energy, which the energies reported converge to, is not raised. -/
theorem C107_least (hN : Numbering mats ps) (hc : mats.openBoundaries = []) {A : Analytic ℝ} {P : LinSolver ℝ} (hP : ExactSolver P) {S : Shapes T} {Q : Rule ℝ} {p : Nat}
    {s : Solver (T.femWith S Q)} {b : Bool} (h : ClosedRun T A P mats b S Q p s) (ha' : Embedded T') (hk : ∃ c ∈ mats.pecs, c.tag = k)
    (hs : Removed T T' mats mats' k) (V : Int → ℝ) : sInf (potentialEnergies T' mats' b V) ≤ sInf (potentialEnergies T mats b V) := by
  obtain ⟨u, W, -, -, e2, e3⟩ := C101_energy hP hN hc h V
  exact csInf_le_csInf (energies_below (fun d hd => h.sensible.permittivities d (hs.dielectrics ▸ hd)) T' b V) ⟨W, u, e2, e3⟩
    (C107_potentials h.proper h.embedded ha' hk hs b V)

/-- **C107, nested meshes.** If every triangle of the new mesh is part of a triangle of the former one or in the space the conductor leaves,
and the order of the elements is not lowered, then the energy reported is not raised, not even a little. -/
theorem C107_nested (hN : Numbering mats ps) (hN' : Numbering mats' ps') (hc : mats.openBoundaries = []) (hc' : mats'.openBoundaries = [])
    {A A' : Analytic ℝ} {P P' : LinSolver ℝ} (hP : ExactSolver P) (hP' : ExactSolver P')
    {S : Shapes T} {Q : Rule ℝ} {p : Nat} {s : Solver (T.femWith S Q)} {b : Bool} (h : ClosedRun T A P mats b S Q p s)
    {S' : Shapes T'} {Q' : Rule ℝ} {p' : Nat} {s' : Solver (T'.femWith S' Q')} (h' : ClosedRun T' A' P' mats' b S' Q' p' s')
    (hk : ∃ c ∈ mats.pecs, c.tag = k) (hs : Removed T T' mats mats' k) (hn : Nested T T') (hp : p ≤ p') (V : Int → ℝ) :
    ∃ W W', Reports P mats s V W ∧ Reports P' mats' s' V W' ∧ W' ≤ W := by
  obtain ⟨s1, W, D, e1, e2, e3, e4⟩ := closedRun_reports hP hN hc h V
  obtain ⟨s1', W', D', e1', e2', e3', e4'⟩ := closedRun_reports hP' hN' hc' h' V
  refine ⟨W, W', ⟨s1, e1, e2⟩, ⟨s1', e1', e2'⟩, ?_⟩
  obtain ⟨v, k1, k2, k3⟩ := galerkin_potential h.proper h.embedded h.order h.exact e3.potential e3.conductors (declaredEps mats b)
  obtain ⟨L, hL, hsl⟩ := potential_slopes k1
  have hk' : ∀ x ∈ boundaryPart T k, v x = V k := by
    obtain ⟨c, hc, rfl⟩ := hk
    exact k1.conductors c hc
  obtain ⟨G, hG⟩ := nested_pieces h'.proper hs.toEnlarged hn hsl hL hk'
    (fun t ht => ((toPlane_degree t _).trans (e3.potential.degree t ht)).trans hp) k2
  rw [e4, e4', ← k3, ← extended_energy h.embedded.apart h'.embedded.apart hs.toEnlarged _ hsl hL hk', ← declaredEps_of hs.dielectrics]
  exact pieces_least h'.proper h'.embedded h'.order h'.rule h'.exact h'.sensible.permittivities hc' e3' (fun q hq => (hG q hq).1)
    (fun q hq => (hG q hq).2) (extended_removed (boundary_covered h.proper) hs hk k1).conductors

end

end Tulip.Props
