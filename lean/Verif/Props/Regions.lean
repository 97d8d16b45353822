import Verif.Props.Triangles
import Verif.Proofs.Regions

/-!
# C88: regions with no connection
-/

set_option linter.unusedSectionVars false

namespace Tulip.Props
open Tulip Tulip.Spec Matrix

section
variable {𝕜 : Type} [Field 𝕜] [DecidableEq 𝕜] [LinearOrder 𝕜] [IsStrictOrderedRing 𝕜]

/-- **C88, fields.** In any discretisation: in a part without connection with the rest, potential, E and D are determined
by the potentials of the conductors there, the materials there and the open boundaries. -/
theorem C88_fields {A : Analytic 𝕜} {F : FEM 𝕜} {mats mats' : Materials 𝕜} {b b' : Bool} {P : Part F} (hP : P.Isolated)
    (hw : WellPosed A F mats) (hs : Separate F mats) (hpec : mats'.pecs = mats.pecs)
    (hopen : mats'.openBoundaries = mats.openBoundaries)
    (heps : ∀ q ∈ F.dom, ¬ P.Outside q → declaredEps mats b q.attr = declaredEps mats' b' q.attr) {V V' : Int → 𝕜}
    (hV : ∀ p ∈ mats.pecs, ∀ k, P.nodes k → OnBoundary F p.tag k → V p.tag = V' p.tag) {t t' : SolverSolution F}
    (ht : PrescribedField A F mats b V t) (ht' : PrescribedField A F mats' b' V' t') :
    (∀ k, P.nodes k → t.phi k = t'.phi k) ∧ (∀ k, P.edges k → t.e k = t'.e k) ∧ (∀ k, P.fluxes k → t.d k = t'.d k) :=
  isolated_fields hP hw hs hpec hopen heps hV ht ht'

/-- What C79 says of a triangle case, with matrices indexed by the number of conductors and fields over the mesh. -/
theorem triangle_case (E : Engine 𝕜) {T : Triangulation 𝕜} {model : Model 𝕜} {opts : DriverOptions} {ps : List (PEC 𝕜)}
    (h : TriangleCase E T model opts ps) {d : Driver (E.fem model opts)} (hd : (Driver.construct E model opts).1 = .ok d)
    {o : Openness} (ho : model.determineOpenness = .ok o) (hc : ¬ (ps.length = 1 ∧ o = .closed)) (b : Bool) {N : Nat}
    (hl : ps.length = N) :
    (∀ V : Int → 𝕜, ∃ t : SolverSolution T.fem, PrescribedField E.analytic T.fem model.materials b V t) ∧
    WellPosed E.analytic T.fem model.materials ∧ Separate T.fem model.materials ∧
    ∃ M : Matrix (Fin N) (Fin N) 𝕜, ((Query.generalizedC b).exec E d).1 = .ok (.matrix (DMat.ofMatrix M)) ∧
      ∀ (i j : Fin N) (t u : SolverSolution T.fem),
        PrescribedField E.analytic T.fem model.materials b (oneVolt (ps[i.1]'(by omega)).tag) t →
        PrescribedField E.analytic T.fem model.materials b (oneVolt (ps[j.1]'(by omega)).tag) u →
        M i j = (chargeOn t (ps[j.1]'(by omega)).tag + chargeOn u (ps[i.1]'(by omega)).tag) / 2 := by
  subst hl
  obtain ⟨h1, _, d', hd', h2⟩ := C79_triangles E h.mesh h.order h.disc h.solver h.numbering h.proper h.sensible h.joined
    h.apart h.absorb (opts := opts)
  have : d = d' := Outcome.ok.inj (hd.symm.trans hd')
  subst this
  have hF : E.fem model opts = T.fem := by
    unfold Engine.fem
    rw [h.mesh, h.order, h.disc]
  obtain ⟨M, e, _, hM⟩ := h2 b o ho hc
  refine ⟨fun V => ?_, (triangles_elliptic h.proper h.sensible h.joined h.absorb).wellPosed, triangles_separate h.apart,
    M, e, ?_⟩
  · have : ∀ G, E.fem model opts = G → ∃ t : SolverSolution G, PrescribedField E.analytic G model.materials b V t := by
      rintro G rfl
      exact (h1 b V).exists
    exact this _ hF
  · have : ∀ G, E.fem model opts = G → ∀ (i j : Fin ps.length) (t u : SolverSolution G),
        PrescribedField E.analytic G model.materials b (oneVolt ps[i].tag) t →
        PrescribedField E.analytic G model.materials b (oneVolt ps[j].tag) u →
        M i j = (chargeOn t ps[j].tag + chargeOn u ps[i].tag) / 2 := by
      rintro G rfl
      exact hM
    exact this _ hF

/-- **C88, shielding.** Conductors that touch no common region of the mesh have no mutual capacitance: their entry in the
generalized matrix is 0, with and without dielectrics. -/
theorem C88_shielded (E : Engine 𝕜) {T : Triangulation 𝕜} {model : Model 𝕜} {opts : DriverOptions} {ps : List (PEC 𝕜)}
    (h : TriangleCase E T model opts ps) {d : Driver (E.fem model opts)} (hd : (Driver.construct E model opts).1 = .ok d)
    {o : Openness} (ho : model.determineOpenness = .ok o) (hc : ¬ (ps.length = 1 ∧ o = .closed)) (b : Bool) :
    ∃ M : Matrix (Fin ps.length) (Fin ps.length) 𝕜,
      ((Query.generalizedC b).exec E d).1 = .ok (.matrix (DMat.ofMatrix M)) ∧
      ∀ i j : Fin ps.length, ¬ ShareRegion T ps[i].tag ps[j].tag → M i j = 0 := by
  obtain ⟨hex, hw, hs, M, e, hM⟩ := triangle_case E h hd ho hc b rfl
  refine ⟨M, e, fun i j hij => ?_⟩
  obtain ⟨t, ht⟩ := hex (oneVolt ps[i].tag)
  obtain ⟨u, hu⟩ := hex (oneVolt ps[j].tag)
  have hji : ¬ ShareRegion T ps[j].tag ps[i].tag := fun ⟨v, w, h1, h2, h3⟩ => hij ⟨w, v, h2, h1, sameRegion_symm h3⟩
  have key : ∀ {x y : Int} {t : SolverSolution T.fem}, ¬ ShareRegion T x y →
      PrescribedField E.analytic T.fem model.materials b (oneVolt y) t → chargeOn t x = 0 := by
    intro x y t hxy ht
    refine charge_shielded hw hs h.proper.segs ht fun p _ hp => ?_
    unfold oneVolt
    rw [if_neg]
    intro e
    rw [e] at hp
    exact hxy hp
  rw [hM i j t u ht hu]
  have h1 := key hji ht
  have h2 := key hij hu
  simp only [Fin.getElem_fin] at h1 h2
  rw [h1, h2]
  simp

/-- **C88, materials elsewhere.** Two models that differ only in dielectrics: an entry of the generalized matrix (of one
with or without dielectrics, and of the other) is the same if the permittivities are the same in the regions that both
conductors touch. -/
theorem C88_elsewhere (E : Engine 𝕜) {T : Triangulation 𝕜} {model model' : Model 𝕜} {opts : DriverOptions}
    {ps : List (PEC 𝕜)} (h : TriangleCase E T model opts ps) (h' : TriangleCase E T model' opts ps)
    (hpec : model'.materials.pecs = model.materials.pecs)
    (hopen : model'.materials.openBoundaries = model.materials.openBoundaries)
    {d : Driver (E.fem model opts)} (hd : (Driver.construct E model opts).1 = .ok d)
    {d' : Driver (E.fem model' opts)} (hd' : (Driver.construct E model' opts).1 = .ok d')
    {o : Openness} (ho : model.determineOpenness = .ok o) (hc : ¬ (ps.length = 1 ∧ o = .closed)) (b b' : Bool) :
    ∃ M M' : Matrix (Fin ps.length) (Fin ps.length) 𝕜,
      ((Query.generalizedC b).exec E d).1 = .ok (.matrix (DMat.ofMatrix M)) ∧
      ((Query.generalizedC b').exec E d').1 = .ok (.matrix (DMat.ofMatrix M')) ∧
      ∀ i j : Fin ps.length, (∀ x ∈ T.tris, Sees T ps[i].tag x → Sees T ps[j].tag x →
        declaredEps model.materials b x.attr = declaredEps model'.materials b' x.attr) → M i j = M' i j := by
  have ho' : model'.determineOpenness = .ok o := by
    rw [← ho]
    unfold Model.determineOpenness
    rw [hopen, h'.mesh, h.mesh]
  obtain ⟨hex, hw, hs, M, e, hM⟩ := triangle_case E h hd ho hc b rfl
  obtain ⟨hex', hw', hs', M', e', hM'⟩ := triangle_case E h' hd' ho' hc b' rfl
  refine ⟨M, M', e, e', fun i j hij => ?_⟩
  obtain ⟨t, ht⟩ := hex (oneVolt ps[i].tag)
  obtain ⟨u, hu⟩ := hex (oneVolt ps[j].tag)
  obtain ⟨t', ht'⟩ := hex' (oneVolt ps[i].tag)
  obtain ⟨u', hu'⟩ := hex' (oneVolt ps[j].tag)
  rw [hM i j t u ht hu, hM' i j t' u' ht' hu']
  have h1 := charge_elsewhere hw hw' hs hpec hopen h.proper.segs (tag := ps[j].tag) (fun x hx a b => hij x hx b a) ht ht'
  have h2 := charge_elsewhere hw hw' hs hpec hopen h.proper.segs (tag := ps[i].tag) (fun x hx a b => hij x hx a b) hu hu'
  simp only [Fin.getElem_fin] at h1 h2
  rw [h1, h2]

/-- A matrix that does not couple two groups has an inverse that does not. -/
theorem inv_uncoupled {n : Nat} {M : Matrix (Fin n) (Fin n) 𝕜} (G : Fin n → Prop)
    (hM : ∀ i j, G i → ¬ G j → M i j = 0 ∧ M j i = 0) {i j : Fin n} (hi : G i) (hj : ¬ G j) :
    M⁻¹ i j = 0 ∧ M⁻¹ j i = 0 := by
  classical
  have hDD : ∀ k, (if G k then (1 : 𝕜) else -1) * (if G k then (1 : 𝕜) else -1) = 1 := by intro k; split <;> ring
  have hD2 : Matrix.diagonal (fun k => if G k then (1 : 𝕜) else -1) * Matrix.diagonal (fun k => if G k then (1 : 𝕜) else -1) =
      1 := by
    rw [Matrix.diagonal_mul_diagonal]
    simp only [hDD]
    exact Matrix.diagonal_one
  obtain ⟨D, hD⟩ : ∃ D : Matrix (Fin n) (Fin n) 𝕜, D = Matrix.diagonal (fun k => if G k then (1 : 𝕜) else -1) := ⟨_, rfl⟩
  rw [← hD] at hD2
  have hDM : D * M * D = M := by
    rw [hD]
    ext i j
    rw [Matrix.mul_diagonal, Matrix.diagonal_mul]
    by_cases h1 : G i <;> by_cases h2 : G j
    · simp [h1, h2]
    · simp [h1, h2, (hM i j h1 h2).1]
    · simp [h1, h2, (hM j i h2 h1).2]
    · simp [h1, h2]
  have hinv : D * M⁻¹ * D = M⁻¹ := by
    have hDi : D⁻¹ = D := Matrix.inv_eq_right_inv hD2
    have := congrArg (fun X : Matrix (Fin n) (Fin n) 𝕜 => X⁻¹) hDM
    simp only [Matrix.mul_inv_rev, hDi] at this
    rw [← Matrix.mul_assoc] at this
    exact this
  have hent : ∀ i j, M⁻¹ i j = (if G i then (1 : 𝕜) else -1) * M⁻¹ i j * (if G j then (1 : 𝕜) else -1) := by
    intro i j
    conv_lhs => rw [← hinv]
    rw [hD, Matrix.mul_diagonal, Matrix.diagonal_mul]
  have h1 := hent i j
  have h2 := hent j i
  simp only [hi, hj, if_true, if_false] at h1 h2
  exact ⟨by linarith, by linarith⟩

/-- **C88, lines.** In a closed model whose conductors 1, 2, ... fall into two groups that touch no common region, the
capacitance and inductance matrices have no entries between the groups. -/
theorem C88_line (E : Engine 𝕜) {T : Triangulation 𝕜} {model : Model 𝕜} {opts : DriverOptions} {ps : List (PEC 𝕜)}
    (h : TriangleCase E T model opts ps) (hclosed : model.determineOpenness = .ok .closed) {d : Driver (E.fem model opts)}
    (hd : (Driver.construct E model opts).1 = .ok d) {p : PULParameters 𝕜} (hp : (Query.pulMTL.exec E d).1 = .ok (.pul p))
    {n : Nat} (hn : ps.length = n + 1) (hn1 : n ≠ 0) (G : Fin n → Prop)
    (hG : ∀ i j : Fin n, G i → ¬ G j → ¬ ShareRegion T (ps[i.1 + 1]'(by omega)).tag (ps[j.1 + 1]'(by omega)).tag) :
    ∃ C L : Matrix (Fin n) (Fin n) 𝕜, p.C = DMat.ofMatrix C ∧ p.L = DMat.ofMatrix L ∧
      ∀ i j, G i → ¬ G j → C i j = 0 ∧ C j i = 0 ∧ L i j = 0 ∧ L j i = 0 := by
  obtain ⟨n', g, g0, C, C0, hn', k1, k2, k3, k4, eC, _, _, eL, _, _⟩ := C35_inductance E h.numbering hd hclosed hp
  have : n' = n := by omega
  subst this
  have hc : ¬ (ps.length = 1 ∧ Openness.closed = .closed) := by
    rintro ⟨h1, _⟩
    omega
  have zero : ∀ (b : Bool) (g : Matrix (Fin (n' + 1)) (Fin (n' + 1)) 𝕜),
      ((Query.generalizedC b).exec E d).1 = .ok (.matrix (DMat.ofMatrix g)) → ∀ i j : Fin n', G i → ¬ G j →
        g i.succ j.succ = 0 ∧ g j.succ i.succ = 0 := by
    intro b g hg i j hi hj
    have key : ∀ N (hN : ps.length = N) (g : Matrix (Fin N) (Fin N) 𝕜),
        ((Query.generalizedC b).exec E d).1 = .ok (.matrix (DMat.ofMatrix g)) → ∀ x y : Fin N,
        ¬ ShareRegion T (ps[x.1]'(by omega)).tag (ps[y.1]'(by omega)).tag → g x y = 0 := by
      rintro N rfl g hg x y hxy
      obtain ⟨M, e, hM⟩ := C88_shielded E h hd hclosed hc b
      rw [ofMatrix_eq (Answer.matrix.inj (Outcome.ok.inj (hg.symm.trans e)))]
      exact hM x y hxy
    have hs := hG i j hi hj
    refine ⟨key _ hn g hg i.succ j.succ ?_, key _ hn g hg j.succ i.succ ?_⟩
    · simpa only [Fin.val_succ] using hs
    · rintro ⟨v, w, h1, h2, h3⟩
      simp only [Fin.val_succ] at h1 h2
      exact hs ⟨w, v, h2, h1, sameRegion_symm h3⟩
  obtain ⟨C', e1, e2, _⟩ := C32_closed g
  have := ofMatrix_eq (Outcome.ok.inj (k3.symm.trans e1))
  subst this
  obtain ⟨C0', f1, f2, _⟩ := C32_closed g0
  have := ofMatrix_eq (Outcome.ok.inj (k4.symm.trans f1))
  subst this
  refine ⟨_, _, eC, eL, fun i j hi hj => ?_⟩
  obtain ⟨a1, a2⟩ := zero false g k1 i j hi hj
  obtain ⟨b1, b2⟩ := inv_uncoupled G (M := C0) (fun i j hi hj => by
    obtain ⟨c1, c2⟩ := zero true g0 k2 i j hi hj
    exact ⟨(f2 i j).trans c1, (f2 j i).trans c2⟩) hi hj
  simp only [Matrix.smul_apply, smul_eq_mul, e2, a1, a2, b1, b2, mul_zero, and_self]

end
end Tulip.Props
