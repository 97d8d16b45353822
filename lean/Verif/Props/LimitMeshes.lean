import Verif.Proofs.HalvedRuns
import Verif.Proofs.ElementsExist
import Verif.Proofs.ExactRules

/-!
# C101: there are runs as near the least energy as one wants
-/

namespace Tulip.Props
open Tulip Tulip.Spec MeasureTheory Set

section
variable {T : Triangulation ℝ} {mats : Materials ℝ} {ps : List (PEC ℝ)}

/-- No two triangles of a mesh in the plane have the same vertices. -/
theorem embedded_distinct (hT : Proper T) (hE : Embedded T) :
    ∀ t ∈ T.tris, ∀ t' ∈ T.tris, (∀ v, IsVertex t v → IsVertex t' v) → t = t' := by
  intro t ht t' ht' hall
  by_contra hne
  have hsub : triangle T t ⊆ triangle T t' := by
    refine convexHull_min (fun z hz => ?_) (triangle_convex t')
    rcases hz with rfl | rfl | rfl
    · exact vertex_mem (hall _ (.inl rfl))
    · exact vertex_mem (hall _ (.inr (.inl rfl)))
    · exact vertex_mem (hall _ (.inr (.inr rfl)))
  have hd : Disjoint (interior (triangle T t)) (interior (triangle T t')) :=
    haveI : Std.Symm (fun t t' : Tri T.nv => Disjoint (interior (triangle T t)) (interior (triangle T t'))) := ⟨fun _ _ h => h.symm⟩
    hE.apart.forall ht ht' hne
  obtain ⟨z, hz⟩ := triangle_interior (hT.area t ht)
  exact Set.disjoint_left.mp hd hz (interior_mono hsub hz)

/-- Closed runs exist on every mesh in the plane, at every order. -/
theorem closedRun_exists (hN : Numbering mats ps) (hT : Proper T) (hE : Embedded T) (hm : Sensible T mats) (hj : JoinedToConductors T mats)
    (ha : ConductorsApart T mats) (A : Analytic ℝ) (P : LinSolver ℝ) (b : Bool) {p : Nat} (hp : 1 ≤ p) :
    ∃ (S : Shapes T) (Q : Rule ℝ) (s : Solver (T.femWith S Q)), ClosedRun T A P mats b S Q p s := by
  obtain ⟨S, h1, h2⟩ := bernstein_exist hT hp
  obtain ⟨Q, h3, h4⟩ := Quadrature.exact_rule_exists (𝕜 := ℝ) p (2 * p)
  obtain ⟨s0, h5⟩ := make_ok (F := T.femWith S Q) hN (elements_buildable hT hm) A b ⟨fun _ => 0, fun _ => 0, fun _ => 0⟩
  refine ⟨S, Q, s0, hp, h1, h2 (embedded_distinct hT hE), h3, h4, hT, hE, hm, hj, ha, ⟨mats, T.toMesh, 0⟩, inputsOf mats b, [], rfl,
    buildInputs_ok _ hm.names b, ⟨_, s0, h5, rfl, fun _ h => absurd h List.not_mem_nil⟩, fun i => ?_⟩
  rfl

/-- **C101, part 4.** The limit is attained by runs of the solver: start with any mesh of the cross-section. For every order
and every tolerance there is a mesh of the same cross-section, with shape functions and a quadrature rule of that order, and a
solver on it that reports an energy within the tolerance of the least one. So the least energy is the infimum of the
energies reported. -/
theorem C101_reached (hN : Numbering mats ps) (hc : mats.openBoundaries = []) (hT : Proper T) (hE : Embedded T) (hm : Sensible T mats)
    (hj : JoinedToConductors T mats) (ha : ConductorsApart T mats) (A : Analytic ℝ) {P : LinSolver ℝ} (hP : ExactSolver P) (b : Bool)
    (V : Int → ℝ) {p : Nat} (hp : 1 ≤ p) {ε : ℝ} (hε : 0 < ε) :
    ∃ (T' : Triangulation ℝ) (S : Shapes T') (Q : Rule ℝ) (s : Solver (T'.femWith S Q)) (W : ℝ), SameCrossSection T T' ∧
      ClosedRun T' A P mats b S Q p s ∧ Reports P mats s V W ∧
      sInf (potentialEnergies T mats b V) ≤ W ∧ W ≤ sInf (potentialEnergies T mats b V) + ε := by
  obtain ⟨κ, hκ⟩ := fine_meshes ⟨hT, hE, hm, hj, ha⟩
  obtain ⟨δ, hδ, key⟩ := C101_converges hN hc hm.permittivities hE b V κ hε
  obtain ⟨T', h1, h2, h3⟩ := hκ δ hδ
  obtain ⟨S, Q, s, h4⟩ := closedRun_exists hN h1.proper h1.embedded h1.sensible h1.joined h1.apart A P b hp
  obtain ⟨W, e1, e2, e3⟩ := key T' A P S Q p s hP h4 h2 h3
  exact ⟨T', S, Q, s, W, h2, h4, e1, e2, e3⟩

/-- **C101, part 3.** Two meshes of the same cross-section that are both fine enough: the energies reported differ by as
little as one wants, whatever orders, shape functions, rules and histories. -/
theorem C101_agree (hN : Numbering mats ps) (hc : mats.openBoundaries = [])
    (hm : ∀ d ∈ mats.dielectrics, 0 < d.relativePermittivity) {T0 : Triangulation ℝ} (h0 : Embedded T0) (b : Bool) (V : Int → ℝ) (flatness : ℝ)
    {ε : ℝ} (hε : 0 < ε) :
    ∃ size > 0, ∀ (T T' : Triangulation ℝ) (A A' : Analytic ℝ) (P P' : LinSolver ℝ) (S : Shapes T) (S' : Shapes T') (Q Q' : Rule ℝ) (p p' : Nat)
      (s : Solver (T.femWith S Q)) (s' : Solver (T'.femWith S' Q')), ExactSolver P → ExactSolver P' → ClosedRun T A P mats b S Q p s →
      ClosedRun T' A' P' mats b S' Q' p' s' → SameCrossSection T0 T → SameCrossSection T0 T' → Fine T flatness size → Fine T' flatness size →
      ∃ W W', Reports P mats s V W ∧ Reports P' mats s' V W' ∧ |W - W'| ≤ ε := by
  obtain ⟨δ, hδ, key⟩ := C101_converges hN hc hm h0 b V flatness hε
  refine ⟨δ, hδ, fun T T' A A' P P' S S' Q Q' p p' s s' hP hP' h h' hs hs' hF hF' => ?_⟩
  obtain ⟨W, e1, e2, e3⟩ := key T A P S Q p s hP h hs hF
  obtain ⟨W', e1', e2', e3'⟩ := key T' A' P' S' Q' p' s' hP' h' hs' hF'
  exact ⟨W, W', e1, e1', abs_sub_le_iff.mpr ⟨by linarith, by linarith⟩⟩

end
end Tulip.Props
