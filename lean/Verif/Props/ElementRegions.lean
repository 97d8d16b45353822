import Verif.Props.Elements
import Verif.Props.Regions
import Verif.Proofs.ElementRegions

/-!
# C92: regions with no connection, with elements of any order
-/

set_option linter.unusedSectionVars false

namespace Tulip.Props
open Tulip Tulip.Spec Matrix

section
variable {𝕜 : Type} [Field 𝕜] [DecidableEq 𝕜] [LinearOrder 𝕜] [IsStrictOrderedRing 𝕜] {T : Triangulation 𝕜} {S : Shapes T}
  {Q : Rule 𝕜} {p : Nat}

/-- **C92, charges.** The charge on a conductor depends only on the potentials of the conductors with which it shares a
region. -/
theorem C92_charges {A : Analytic 𝕜} {mats : Materials 𝕜} (h : Elements S p) (hA : Adequate Q p) (hT : Proper T)
    (hS : Sensible T mats) (hj : JoinedToConductors T mats) (ha : ConductorsApart T mats) (ho : OpenAbsorb A T mats) (b : Bool)
    {tag : Int} {V V' : Int → 𝕜} {t t' : SolverSolution (T.femWith S Q)} (ht : PrescribedField A (T.femWith S Q) mats b V t)
    (ht' : PrescribedField A (T.femWith S Q) mats b V' t')
    (hV : ∀ p ∈ mats.pecs, ShareRegion T tag p.tag → V p.tag = V' p.tag) : chargeOn t tag = chargeOn t' tag :=
  charge_localWith h (fun t ht => (hT.area t ht).ne') (elements_elliptic h hT hA hS hj ho).wellPosed (elements_separate h ha)
    hT.segs ht ht' hV

/-- **C92, shielding.** Conductors that touch no common region of the mesh have no mutual capacitance: their entry in the
generalized matrix is 0, with and without dielectrics, with elements of any order. -/
theorem C92_shielded (E : Engine 𝕜) {model : Model 𝕜} {opts : DriverOptions} {ps : List (PEC 𝕜)}
    (h : ElementCase E S Q p model opts ps) {d : Driver (E.fem model opts)} (hd : (Driver.construct E model opts).1 = .ok d)
    {o : Openness} (ho : model.determineOpenness = .ok o) (hc : ¬ (ps.length = 1 ∧ o = .closed)) (b : Bool) :
    ∃ M : Matrix (Fin ps.length) (Fin ps.length) 𝕜,
      ((Query.generalizedC b).exec E d).1 = .ok (.matrix (DMat.ofMatrix M)) ∧
      ∀ i j : Fin ps.length, ¬ ShareRegion T ps[i].tag ps[j].tag → M i j = 0 := by
  obtain ⟨hex, hw, hs, M, e, hM⟩ := element_case E h hd ho hc b rfl
  refine ⟨M, e, fun i j hij => ?_⟩
  obtain ⟨t, ht⟩ := hex (oneVolt ps[i].tag)
  obtain ⟨u, hu⟩ := hex (oneVolt ps[j].tag)
  have hji : ¬ ShareRegion T ps[j].tag ps[i].tag := fun ⟨v, w, h1, h2, h3⟩ => hij ⟨w, v, h2, h1, sameRegion_symm h3⟩
  have key : ∀ {x y : Int} {t : SolverSolution (T.femWith S Q)}, ¬ ShareRegion T x y →
      PrescribedField E.analytic (T.femWith S Q) model.materials b (oneVolt y) t → chargeOn t x = 0 := by
    intro x y t hxy ht
    refine charge_shieldedWith h.elements (fun t ht => (h.proper.area t ht).ne') hw hs h.proper.segs ht fun p _ hp => ?_
    unfold oneVolt
    rw [if_neg]
    intro e
    rw [e] at hp
    exact hxy hp
  rw [hM i j t u ht hu]
  have h1 := key hji ht
  have h2 := key hij hu
  simp only [Fin.getElem_fin] at h1 h2
  rw [h1, h2]
  simp

/-- **C92, materials elsewhere.** Two models that differ only in dielectrics: an entry of the generalized matrix (of one
with or without dielectrics, and of the other) is the same if the permittivities are the same in the regions that both
conductors touch. -/
theorem C92_elsewhere (E : Engine 𝕜) {model model' : Model 𝕜} {opts : DriverOptions}
    {ps : List (PEC 𝕜)} (h : ElementCase E S Q p model opts ps) (h' : ElementCase E S Q p model' opts ps)
    (hpec : model'.materials.pecs = model.materials.pecs)
    (hopen : model'.materials.openBoundaries = model.materials.openBoundaries)
    {d : Driver (E.fem model opts)} (hd : (Driver.construct E model opts).1 = .ok d)
    {d' : Driver (E.fem model' opts)} (hd' : (Driver.construct E model' opts).1 = .ok d')
    {o : Openness} (ho : model.determineOpenness = .ok o) (hc : ¬ (ps.length = 1 ∧ o = .closed)) (b b' : Bool) :
    ∃ M M' : Matrix (Fin ps.length) (Fin ps.length) 𝕜,
      ((Query.generalizedC b).exec E d).1 = .ok (.matrix (DMat.ofMatrix M)) ∧
      ((Query.generalizedC b').exec E d').1 = .ok (.matrix (DMat.ofMatrix M')) ∧
      ∀ i j : Fin ps.length, (∀ x ∈ T.tris, Sees T ps[i].tag x → Sees T ps[j].tag x →
        declaredEps model.materials b x.attr = declaredEps model'.materials b' x.attr) → M i j = M' i j := by
  have ho' : model'.determineOpenness = .ok o := by
    rw [← ho]
    unfold Model.determineOpenness
    rw [hopen, h'.mesh, h.mesh]
  obtain ⟨hex, hw, hs, M, e, hM⟩ := element_case E h hd ho hc b rfl
  obtain ⟨hex', hw', hs', M', e', hM'⟩ := element_case E h' hd' ho' hc b' rfl
  refine ⟨M, M', e, e', fun i j hij => ?_⟩
  obtain ⟨t, ht⟩ := hex (oneVolt ps[i].tag)
  obtain ⟨u, hu⟩ := hex (oneVolt ps[j].tag)
  obtain ⟨t', ht'⟩ := hex' (oneVolt ps[i].tag)
  obtain ⟨u', hu'⟩ := hex' (oneVolt ps[j].tag)
  rw [hM i j t u ht hu, hM' i j t' u' ht' hu']
  have h1 := charge_elsewhereWith h.elements (fun t ht => (h.proper.area t ht).ne') hw hw' hs hpec hopen h.proper.segs (tag := ps[j].tag) (fun x hx a b => hij x hx b a) ht ht'
  have h2 := charge_elsewhereWith h.elements (fun t ht => (h.proper.area t ht).ne') hw hw' hs hpec hopen h.proper.segs (tag := ps[i].tag) (fun x hx a b => hij x hx a b) hu hu'
  simp only [Fin.getElem_fin] at h1 h2
  rw [h1, h2]

/-- **C92, lines.** In a closed model whose conductors 1, 2, ... fall into two groups that touch no common region, the
capacitance and inductance matrices have no entries between the groups. -/
theorem C92_line (E : Engine 𝕜) {model : Model 𝕜} {opts : DriverOptions} {ps : List (PEC 𝕜)}
    (h : ElementCase E S Q p model opts ps) (hclosed : model.determineOpenness = .ok .closed) {d : Driver (E.fem model opts)}
    (hd : (Driver.construct E model opts).1 = .ok d) {r : PULParameters 𝕜} (hp : (Query.pulMTL.exec E d).1 = .ok (.pul r))
    {n : Nat} (hn : ps.length = n + 1) (hn1 : n ≠ 0) (G : Fin n → Prop)
    (hG : ∀ i j : Fin n, G i → ¬ G j → ¬ ShareRegion T (ps[i.1 + 1]'(by omega)).tag (ps[j.1 + 1]'(by omega)).tag) :
    ∃ C L : Matrix (Fin n) (Fin n) 𝕜, r.C = DMat.ofMatrix C ∧ r.L = DMat.ofMatrix L ∧
      ∀ i j, G i → ¬ G j → C i j = 0 ∧ C j i = 0 ∧ L i j = 0 ∧ L j i = 0 := by
  obtain ⟨n', g, g0, C, C0, hn', k1, k2, k3, k4, eC, _, _, eL, _, _⟩ := C35_inductance E h.numbering hd hclosed hp
  have : n' = n := by omega
  subst this
  have hc : ¬ (ps.length = 1 ∧ Openness.closed = .closed) := by
    rintro ⟨h1, _⟩
    omega
  have zero : ∀ (b : Bool) (g : Matrix (Fin (n' + 1)) (Fin (n' + 1)) 𝕜),
      ((Query.generalizedC b).exec E d).1 = .ok (.matrix (DMat.ofMatrix g)) → ∀ i j : Fin n', G i → ¬ G j →
        g i.succ j.succ = 0 ∧ g j.succ i.succ = 0 := by
    intro b g hg i j hi hj
    have key : ∀ N (hN : ps.length = N) (g : Matrix (Fin N) (Fin N) 𝕜),
        ((Query.generalizedC b).exec E d).1 = .ok (.matrix (DMat.ofMatrix g)) → ∀ x y : Fin N,
        ¬ ShareRegion T (ps[x.1]'(by omega)).tag (ps[y.1]'(by omega)).tag → g x y = 0 := by
      rintro N rfl g hg x y hxy
      obtain ⟨M, e, hM⟩ := C92_shielded E h hd hclosed hc b
      rw [ofMatrix_eq (Answer.matrix.inj (Outcome.ok.inj (hg.symm.trans e)))]
      exact hM x y hxy
    have hs := hG i j hi hj
    refine ⟨key _ hn g hg i.succ j.succ ?_, key _ hn g hg j.succ i.succ ?_⟩
    · simpa only [Fin.val_succ] using hs
    · rintro ⟨v, w, h1, h2, h3⟩
      simp only [Fin.val_succ] at h1 h2
      exact hs ⟨w, v, h2, h1, sameRegion_symm h3⟩
  obtain ⟨C', e1, e2, _⟩ := C32_closed g
  have := ofMatrix_eq (Outcome.ok.inj (k3.symm.trans e1))
  subst this
  obtain ⟨C0', f1, f2, _⟩ := C32_closed g0
  have := ofMatrix_eq (Outcome.ok.inj (k4.symm.trans f1))
  subst this
  refine ⟨_, _, eC, eL, fun i j hi hj => ?_⟩
  obtain ⟨a1, a2⟩ := zero false g k1 i j hi hj
  obtain ⟨b1, b2⟩ := inv_uncoupled G (M := C0) (fun i j hi hj => by
    obtain ⟨c1, c2⟩ := zero true g0 k2 i j hi hj
    exact ⟨(f2 i j).trans c1, (f2 j i).trans c2⟩) hi hj
  simp only [Matrix.smul_apply, smul_eq_mul, e2, a1, a2, b1, b2, mul_zero, and_self]

end
end Tulip.Props
