import Verif.Props.Order
import Verif.Proofs.Barycentric

/-!
# C101: the limit of fine meshes
-/

namespace Tulip.Props
open Tulip Tulip.Spec MeasureTheory Set

section
variable {T T' T'' : Triangulation ℝ} {mats : Materials ℝ} {b : Bool} {V : Int → ℝ}

theorem sameCrossSection_refl (hE : T.tris.Pairwise (fun t t' => Disjoint (interior (triangle T t)) (interior (triangle T t')))) :
    SameCrossSection T T := by
  refine ⟨rfl, fun t ht t' ht' hn => ?_, fun _ => rfl⟩
  by_contra hne
  haveI : Std.Symm (fun t t' : Tri T.nv => Disjoint (interior (triangle T t)) (interior (triangle T t'))) := ⟨fun _ _ h => h.symm⟩
  obtain ⟨x, h1, h2⟩ := hn
  exact Set.disjoint_left.mp (hE.forall ht ht' fun e => hne (congrArg Tri.attr e)) h1 h2

theorem sameCrossSection_trans (h : SameCrossSection T T') (h' : SameCrossSection T' T'') : SameCrossSection T T'' := by
  refine ⟨h.region.trans h'.region, fun t ht t' ht' hn => ?_, fun tag => (h.boundary tag).trans (h'.boundary tag)⟩
  have hsub : interior (triangle T t) ∩ interior (triangle T'' t') ⊆ covered T' := fun x hx => by
    rw [← h.region]
    exact ⟨t, ht, interior_subset hx.1⟩
  obtain ⟨q, hq, x, ⟨hx1, hx2⟩, hx3⟩ := meets_interior (isOpen_interior.inter isOpen_interior) hn hsub
  exact (h.material t ht q hq ⟨x, hx1, hx3⟩).trans (h'.material q hq t' ht' ⟨x, hx3, hx2⟩)

theorem potentialEnergy_nonneg {eps : Int → ℝ} (he : ∀ a, 0 ≤ eps a) (v : ℝ × ℝ → ℝ) : 0 ≤ potentialEnergy T eps v := by
  refine List.sum_nonneg fun x hx => ?_
  obtain ⟨t, -, rfl⟩ := List.mem_map.mp hx
  exact mul_nonneg (div_nonneg (he _) two_pos.le) (integral_nonneg fun x => by positivity)

/-- The energies of the potentials do not depend on the mesh. -/
theorem potentialEnergies_same (ha : Apart T) (ha' : Apart T') (hs : SameCrossSection T T') : potentialEnergies T mats b V = potentialEnergies T' mats b V := by
  have key : ∀ {T T' : Triangulation ℝ}, Apart T → Apart T' → SameCrossSection T T' → potentialEnergies T mats b V ⊆ potentialEnergies T' mats b V := by
    rintro T T' ha ha' hs W ⟨v, hv, rfl⟩
    obtain ⟨L, hL, hsl⟩ := potential_slopes hv
    exact ⟨v, potential_same hs hv, energy_same ha ha' hs _ hsl hL⟩
  exact subset_antisymm (key ha ha' hs) (key ha' ha (sameCrossSection_symm hs))

variable {A : Analytic ℝ} {P : LinSolver ℝ} {ps : List (PEC ℝ)} {S : Shapes T} {Q : Rule ℝ} {p : Nat} {s : Solver (T.femWith S Q)}

/-- What a run reports. -/
theorem closedRun_reports (hP : ExactSolver P) (hN : Numbering mats ps) (hc : mats.openBoundaries = []) (h : ClosedRun T A P mats b S Q p s) (V : Int → ℝ) :
    ∃ (s1 : Solver (T.femWith S Q)) (W : ℝ) (D : _), (s.setDirichletConditions (prescribe (mats.pecs.map PEC.tag) V)).solve P = .ok s1 ∧
      s1.getTotalEnergy = .ok W ∧ GalerkinField T A Q p mats b V (nodalComb S s1.getSolution.phi) D ∧
      W = 2⁻¹ * fieldProduct T Q (declaredEps mats b) (fun t => T.gradient t (nodalComb S s1.getSolution.phi t))
        (fun t => T.gradient t (nodalComb S s1.getSolution.phi t)) := by
  obtain ⟨model, inp, hist, rfl, hin, hs, hq⟩ := h.reached
  obtain ⟨s1, W, e1, e2, -, e4, e5⟩ := solve_energy hP hN h.order h.elements h.complete h.rule h.proper h.sensible h.joined h.apart hc hin hs hq V
  exact ⟨s1, W, _, e1, e2, e4, e5⟩

theorem reports_unique {W W' : ℝ} (h : Reports P mats s V W) (h' : Reports P mats s V W') : W = W' := by
  obtain ⟨s1, e1, e2⟩ := h
  obtain ⟨s2, e1', e2'⟩ := h'
  obtain rfl := Outcome.ok.inj (e1.symm.trans e1')
  exact Outcome.ok.inj (e2.symm.trans e2')

/-- **C101, part 1.** The potential found for a closed model is a potential on the cross-section, with the prescribed values
on the conductors, and the energy reported is its energy, a Lebesgue integral over the cross-section. So it is not below the
least energy of such potentials. -/
theorem C101_energy (hP : ExactSolver P) (hN : Numbering mats ps) (hc : mats.openBoundaries = []) (h : ClosedRun T A P mats b S Q p s)
    (V : Int → ℝ) : ∃ u W, Finds P mats s V u ∧ Reports P mats s V W ∧ Potential T mats V u ∧ W = potentialEnergy T (declaredEps mats b) u := by
  obtain ⟨s1, W, D, e1, e2, e3, e4⟩ := closedRun_reports hP hN hc h V
  obtain ⟨v, k1, k2, k3⟩ := galerkin_potential h.proper h.embedded h.order h.exact e3.potential e3.conductors (declaredEps mats b)
  refine ⟨v, W, ⟨s1, e1, fun t ht y z hy hz hyz => ?_⟩, ⟨s1, e1, e2⟩, k1, by rw [e4, k3]⟩
  have hd := (h.proper.area t ht).ne'
  have hx : (1 - y - z) • T.coord t.a + y • T.coord t.b + z • T.coord t.c ∈ triangle T t := by
    rw [mem_triangle hd]
    obtain ⟨a1, a2, a3⟩ := bary_unique hd (show (1 - y - z) + y + z = 1 by ring)
    rw [a1, a2, a3]
    exact ⟨by linarith, hy, hz⟩
  rw [k2 t ht _ hx]
  have hpos : (1 - y - z) • T.coord t.a + y • T.coord t.b + z • T.coord t.c = position T t ![y, z] := by
    unfold position linearOn
    refine Prod.ext ?_ ?_ <;> simp <;> ring
  rw [hpos]
  show MvPolynomial.eval ![(position T t ![y, z]).1, (position T t ![y, z]).2] (toPlane T t (nodalComb S s1.getSolution.phi t)) = _
  rw [← fromPlane_point, fromPlane_toPlane hd]
  unfold nodalComb
  simp [map_sum, MvPolynomial.eval_C]

end

section
variable {mats : Materials ℝ} {ps : List (PEC ℝ)}

/-- **C101, part 2.** Let `W0` be the energy of any potential on the cross-section. On every mesh of the cross-section that is
fine enough, with triangles that are not too flat, the energy reported is at most a little above `W0`, whatever the order of
the elements, their shape functions, quadrature rules, and the calls before. -/
theorem C101_upper (hN : Numbering mats ps) (hc : mats.openBoundaries = [])
    (hm : ∀ d ∈ mats.dielectrics, 0 < d.relativePermittivity) {T0 : Triangulation ℝ} (h0 : Embedded T0) (b : Bool) (V : Int → ℝ) {W0 : ℝ}
    (hW0 : W0 ∈ potentialEnergies T0 mats b V) (flatness : ℝ) {ε : ℝ} (hε : 0 < ε) :
    ∃ size > 0, ∀ (T : Triangulation ℝ) (A : Analytic ℝ) (P : LinSolver ℝ) (S : Shapes T) (Q : Rule ℝ) (p : Nat) (s : Solver (T.femWith S Q)),
      ExactSolver P → ClosedRun T A P mats b S Q p s → SameCrossSection T0 T → Fine T flatness size →
      ∃ W, Reports P mats s V W ∧ W ≤ W0 + ε := by
  obtain ⟨v, hv, rfl⟩ := hW0
  obtain ⟨δ, hδ, key⟩ := galerkin_upper h0.apart hv hm hc b flatness hε
  refine ⟨δ, hδ, fun T A P S Q p s hP h hs hF => ?_⟩
  obtain ⟨s1, W, D, e1, e2, e3, e4⟩ := closedRun_reports hP hN hc h V
  refine ⟨W, ⟨s1, e1, e2⟩, ?_⟩
  rw [e4]
  exact key T A Q p _ D h.proper h.embedded.apart hF (sameCrossSection_symm hs) h.order h.rule h.exact e3

theorem energies_below (hm : ∀ d ∈ mats.dielectrics, 0 < d.relativePermittivity) (T0 : Triangulation ℝ) (b : Bool) (V : Int → ℝ) :
    BddBelow (potentialEnergies T0 mats b V) := ⟨0, fun W hW => by
  obtain ⟨v, -, rfl⟩ := hW
  exact potentialEnergy_nonneg (fun a => (declaredEps_pos hm b a).le) v⟩

/-- **C101.** As meshes of a cross-section become finer (without becoming flat), the energies reported converge to the least
energy of all potentials with the prescribed values on the conductors: Dirichlet's principle, without reference to meshes or
elements. They do so from above. -/
theorem C101_converges (hN : Numbering mats ps) (hc : mats.openBoundaries = [])
    (hm : ∀ d ∈ mats.dielectrics, 0 < d.relativePermittivity) {T0 : Triangulation ℝ} (h0 : Embedded T0) (b : Bool) (V : Int → ℝ) (flatness : ℝ)
    {ε : ℝ} (hε : 0 < ε) :
    ∃ size > 0, ∀ (T : Triangulation ℝ) (A : Analytic ℝ) (P : LinSolver ℝ) (S : Shapes T) (Q : Rule ℝ) (p : Nat) (s : Solver (T.femWith S Q)),
      ExactSolver P → ClosedRun T A P mats b S Q p s → SameCrossSection T0 T → Fine T flatness size →
      ∃ W, Reports P mats s V W ∧ sInf (potentialEnergies T0 mats b V) ≤ W ∧ W ≤ sInf (potentialEnergies T0 mats b V) + ε := by
  have hbdd := energies_below hm T0 b V
  by_cases hne : (potentialEnergies T0 mats b V).Nonempty
  · obtain ⟨W0, hW0, hlt⟩ := exists_lt_of_csInf_lt hne (lt_add_of_pos_right (sInf (potentialEnergies T0 mats b V)) (half_pos hε))
    obtain ⟨δ, hδ, key⟩ := C101_upper hN hc hm h0 b V hW0 flatness (half_pos hε)
    refine ⟨δ, hδ, fun T A P S Q p s hP h hs hF => ?_⟩
    obtain ⟨W, e1, e2⟩ := key T A P S Q p s hP h hs hF
    obtain ⟨u, W', -, e1', e3, e4⟩ := C101_energy hP hN hc h V
    obtain rfl := reports_unique e1 e1'
    refine ⟨W, e1, csInf_le hbdd ?_, by linarith⟩
    rw [potentialEnergies_same h0.apart h.embedded.apart hs]
    exact ⟨u, e3, e4⟩
  · refine ⟨1, one_pos, fun T A P S Q p s hP h hs hF => ?_⟩
    obtain ⟨u, W', -, e1', e3, e4⟩ := C101_energy hP hN hc h V
    refine absurd ⟨W', ?_⟩ hne
    rw [potentialEnergies_same h0.apart h.embedded.apart hs]
    exact ⟨u, e3, e4⟩

end
end Tulip.Props
