import Verif.Props.Galerkin
import Verif.Props.Redeclared
import Verif.Proofs.CongruentField

/-!
# C96: congruent cross-sections, and symmetry
-/

set_option linter.unusedSectionVars false

namespace Tulip.Props
open Tulip Tulip.Spec Matrix MvPolynomial

section
variable {𝕜 : Type} [Field 𝕜] [LinearOrder 𝕜] [IsStrictOrderedRing 𝕜] {T T' : Triangulation 𝕜} {S : Shapes T} {S' : Shapes T'}
  {Q Q' : Rule 𝕜} {p : Nat} {number : Fin T.nv ≃ Fin T'.nv} {twin : Tri T.nv → Tri T'.nv}
  {side : Seg 𝕜 T.nv → Seg 𝕜 T'.nv} {label : Equiv.Perm Int} {g : PlaneMap 𝕜}

theorem outward_through (d : Fin S.nd → 𝕜) (tag : Int) : outwardFlux (T.femWith S Q) d tag = fluxThrough T Q tag (fluxComb S d) := by
  refine Eq.trans (bdr_sum_with (S := S) (fun a => decide (a = tag)) (fun q => scalarAt q.fl d)) ?_
  refine congrArg List.sum (List.map_congr_left fun s _ => ?_)
  refine congrArg List.sum (List.map_congr_left fun t _ => ?_)
  refine congrArg List.sum (List.map_congr_left fun r _ => ?_)
  unfold fluxComb
  dsimp only
  rw [eval_comb, eval_comb, Finset.sum_mul, Finset.sum_mul, ← Finset.sum_sub_distrib, Finset.mul_sum]
  refine Finset.sum_congr rfl fun k _ => ?_
  show d k * (r.1 * (eval (Triangulation.onSide t s.a s.b (1 - r.2) r.2) (S.R t k).1 * ((T.coord s.b).2 - (T.coord s.a).2) -
    eval (Triangulation.onSide t s.a s.b (1 - r.2) r.2) (S.R t k).2 * ((T.coord s.b).1 - (T.coord s.a).1))) = _
  ring

/-- Charges in the fields of congruent meshes. -/
theorem charges_carried {E E' : Engine 𝕜} {model model' : Model 𝕜} {opts opts' : DriverOptions} {ps ps' : List (PEC 𝕜)} (hp : 1 ≤ p)
    (h : ElementCase E S Q p model opts ps) (h' : ElementCase E' S' Q' p model' opts' ps') (hS : Complete S p) (hS' : Complete S' p)
    (hQ : ExactRule Q (2 * p)) (hQ' : ExactRule Q' (2 * p)) (hc : Conforming T) (hc' : Conforming T')
    (ho : model.materials.openBoundaries = []) (ho' : model'.materials.openBoundaries = [])
    (hg : Carried g T T' number twin side label) (ht : ∀ x, x ∈ ps'.map PEC.tag ↔ x ∈ ps.map (fun c => label c.tag)) {b : Bool}
    (he : ∀ t ∈ T.tris, declaredEps model'.materials b (twin t).attr = declaredEps model.materials b t.attr) {V V' : Int → 𝕜}
    (hV : ∀ tag, V' (label tag) = V tag) {sol : SolverSolution (T.femWith S Q)} {sol' : SolverSolution (T'.femWith S' Q')}
    (hs : PrescribedField E.analytic (T.femWith S Q) model.materials b V sol)
    (hs' : PrescribedField E'.analytic (T'.femWith S' Q') model'.materials b V' sol') (tag : Int) :
    chargeOn sol' (label tag) = chargeOn sol tag := by
  have G' := (galerkin_iff (u := sol'.phi) (d := sol'.d) h'.elements hS' hp h'.proper (elements_separate h'.elements h'.apart) hs'.e).mp hs'
  have G := (galerkin_iff (u := sol.phi) (d := sol.d) h.elements hS hp h.proper (elements_separate h.elements h.apart) hs.e).mp hs
  have key := hg.galerkin (A := E.analytic) (mats := model.materials) (V := V) h.proper h'.proper hc hQ hQ' (fun c hcm => ?_) (fun c' hc' => ?_) hV he ho ho' G'
  · have u := ((C94_field (A := E.analytic) (mats := model.materials) hp h.elements hS h.rule h.proper h.sensible h.joined h.apart h.absorb b V).2.2
      _ _ _ _ G key)
    refine congrArg Neg.neg ((outward_through (S := S') (Q := Q') sol'.d (label tag)).trans (Eq.trans ?_ (outward_through (S := S) (Q := Q) sol.d tag).symm))
    rw [← hg.flux h.proper h'.proper hc' hQ hQ' tag (fun t ht => (hS'.raviartThomas hp sol'.d).degree ht)]
    unfold fluxThrough
    refine segs_congr _ fun s t ht => ?_
    rw [(u t ht).2]
  · have : label c.tag ∈ ps'.map PEC.tag := by
      rw [ht]
      exact List.mem_map.mpr ⟨c, h.numbering.all.mem_iff.mpr hcm, rfl⟩
    obtain ⟨c', hc', e⟩ := List.mem_map.mp this
    exact ⟨c', h'.numbering.all.mem_iff.mp hc', e⟩
  · have : c'.tag ∈ ps.map (fun c => label c.tag) := by
      rw [← ht]
      exact List.mem_map_of_mem (h'.numbering.all.mem_iff.mpr hc')
    obtain ⟨c, hcm, e⟩ := List.mem_map.mp this
    exact ⟨c, h.numbering.all.mem_iff.mp hcm, e.symm⟩

theorem elements_fields {E : Engine 𝕜} {model : Model 𝕜} {opts : DriverOptions} {ps : List (PEC 𝕜)}
    (h : ElementCase E S Q p model opts ps) {d : Driver (E.fem model opts)} (hd : (Driver.construct E model opts).1 = .ok d) (b : Bool) :
    ∃ sols : List (SolverSolution (E.fem model opts)), Ready b ps sols d ∧
      ∀ i (hi : i < ps.length) (hi' : i < sols.length),
        PrescribedField E.analytic (E.fem model opts) model.materials b (oneVolt ps[i].tag) sols[i] := by
  have hF := h.fem
  have hB : Buildable (E.fem model opts) model.materials := by rw [hF]; exact elements_buildable h.proper h.sensible
  have he : Elliptic E.analytic (E.fem model opts) model.materials := by
    rw [hF]
    exact elements_elliptic h.elements h.proper h.rule h.sensible h.joined h.absorb
  exact construct_fields E h.numbering hB ⟨h.sensible.names, h.sensible.tags, h.sensible.openNames⟩ h.solver he.wellPosed hd b

theorem charges_carried_at {E E' : Engine 𝕜} {model model' : Model 𝕜} {opts opts' : DriverOptions} {ps ps' : List (PEC 𝕜)} (hp : 1 ≤ p)
    (h : ElementCase E S Q p model opts ps) (h' : ElementCase E' S' Q' p model' opts' ps') (hS : Complete S p) (hS' : Complete S' p)
    (hQ : ExactRule Q (2 * p)) (hQ' : ExactRule Q' (2 * p)) (hc : Conforming T) (hc' : Conforming T')
    (ho : model.materials.openBoundaries = []) (ho' : model'.materials.openBoundaries = [])
    (hg : Carried g T T' number twin side label) (ht : ∀ x, x ∈ ps'.map PEC.tag ↔ x ∈ ps.map (fun c => label c.tag)) {b : Bool}
    (he : ∀ t ∈ T.tris, declaredEps model'.materials b (twin t).attr = declaredEps model.materials b t.attr) (a : Int)
    {sol : SolverSolution (E.fem model opts)} {sol' : SolverSolution (E'.fem model' opts')}
    (hs : PrescribedField E.analytic (E.fem model opts) model.materials b (oneVolt a) sol)
    (hs' : PrescribedField E'.analytic (E'.fem model' opts') model'.materials b (oneVolt (label a)) sol') (tag : Int) :
    chargeOn sol' (label tag) = chargeOn sol tag := by
  have key : ∀ (F F' : FEM 𝕜) (_ : F = T.femWith S Q) (_ : F' = T'.femWith S' Q') (sol : SolverSolution F) (sol' : SolverSolution F'),
      PrescribedField E.analytic F model.materials b (oneVolt a) sol →
      PrescribedField E'.analytic F' model'.materials b (oneVolt (label a)) sol' → chargeOn sol' (label tag) = chargeOn sol tag := by
    rintro F F' rfl rfl sol sol' hs hs'
    exact charges_carried hp h h' hS hS' hQ hQ' hc hc' ho ho' hg ht he (fun x => by simp only [oneVolt, label.injective.eq_iff]) hs hs' tag
  exact key _ _ h.fem h'.fem _ _ hs hs'

/-- **C96.** Closed cross-sections of the same shape: meshes that a turn, a reflection, a scaling, a shift take into each
other, with any other numbering of vertices and order of triangles, of triangle corners and of segments, other labels, any
basis of the spaces and any exact quadrature rules, with the same permittivities in corresponding triangles. What is
computed from the generalized capacitance matrices is the same. -/
theorem C96_congruent {E E' : Engine 𝕜} (hE : SameLaws E E') {model model' : Model 𝕜} {opts opts' : DriverOptions} {ps ps' : List (PEC 𝕜)} (hp : 1 ≤ p)
    (h : ElementCase E S Q p model opts ps) (h' : ElementCase E' S' Q' p model' opts' ps') (hS : Complete S p) (hS' : Complete S' p)
    (hQ : ExactRule Q (2 * p)) (hQ' : ExactRule Q' (2 * p)) (hc : Conforming T) (hc' : Conforming T')
    (ho : model.materials.openBoundaries = []) (ho' : model'.materials.openBoundaries = [])
    (hg : Carried g T T' number twin side label) (ht : ps'.map PEC.tag = ps.map (fun c => label c.tag))
    (he : ∀ b, ∀ t ∈ T.tris, declaredEps model'.materials b (twin t).attr = declaredEps model.materials b t.attr) :
    ∃ d d', (Driver.construct E model opts).1 = .ok d ∧ (Driver.construct E' model' opts').1 = .ok d' ∧
      ∀ (history history' : List Query) (q : Query), q.FromMatrices →
        (q.exec E' (afterQueries E' history' d')).1 = (q.exec E (afterQueries E history d)).1 := by
  have hB : Buildable (E.fem model opts) model.materials := by rw [h.fem]; exact elements_buildable h.proper h.sensible
  have hB' : Buildable (E'.fem model' opts') model'.materials := by rw [h'.fem]; exact elements_buildable h'.proper h'.sensible
  obtain ⟨d, _, _, _, _, e, _⟩ := construct_spec E h.numbering hB
  obtain ⟨d', _, _, _, _, e', _⟩ := construct_spec E' h'.numbering hB'
  have hd : (Driver.construct E model opts).1 = .ok d := by rw [e]
  have hd' : (Driver.construct E' model' opts').1 = .ok d' := by rw [e']
  refine ⟨d, d', hd, hd', fun history history' q hq => ?_⟩
  rw [(C39_history E' d' history' q).1, (C39_history E d history q).1]
  have hl : ps'.length = ps.length := by simpa using congrArg List.length ht
  have tag : ∀ i (hi : i < ps.length), (ps'[i]'(by rw [hl]; exact hi)).tag = label ps[i].tag := by
    intro i hi
    have := congrArg (fun l => l[i]?) ht
    simp only [List.getElem?_map, List.getElem?_eq_getElem hi, List.getElem?_eq_getElem (show i < ps'.length by rw [hl]; exact hi), Option.map_some] at this
    exact Option.some.inj this
  refine (Alike.exec hE.eps0.symm hE.mu0.symm (alike_of_charges (ps := ps) (ps' := ps') hl ?_ fun b => ?_) hq).symm
  · rw [(construct_opts hd).2, (construct_opts hd').2]
    unfold Model.determineOpenness
    rw [ho, ho']
    rfl
  · obtain ⟨sols, hr, k⟩ := elements_fields h hd b
    obtain ⟨sols', hr', k'⟩ := elements_fields h' hd' b
    refine ⟨sols, sols', hr, hr', fun i j hi hj => ?_⟩
    have f := k i hi (by rw [hr.len]; exact hi)
    have f' := k' i (by rw [hl]; exact hi) (by rw [hr'.len, hl]; exact hi)
    rw [tag i hi] at f'
    rw [tag j hj]
    exact charges_carried_at hp h h' hS hS' hQ hQ' hc hc' ho ho' hg (fun x => by rw [ht]) (he b) _ f f' _

/-- **C96, symmetry.** A closed cross-section that a turn, a reflection or a shift takes into itself, conductor `i` into
conductor `σ i`, has a generalized capacitance matrix with the same symmetry; if conductor 0 goes into itself, so have the
capacitance and inductance matrices. -/
theorem C96_symmetric {E : Engine 𝕜} {model : Model 𝕜} {opts : DriverOptions} {ps : List (PEC 𝕜)} (hp : 1 ≤ p)
    (h : ElementCase E S Q p model opts ps) (hS : Complete S p) (hQ : ExactRule Q (2 * p)) (hc : Conforming T)
    (ho : model.materials.openBoundaries = []) {number : Fin T.nv ≃ Fin T.nv} {twin : Tri T.nv → Tri T.nv} {side : Seg 𝕜 T.nv → Seg 𝕜 T.nv}
    (hg : Carried g T T number twin side label) {n : Nat} (hn : 1 ≤ n) (hl : ps.length = n + 1) {σ : Equiv.Perm (Fin (n + 1))}
    (hσ : ∀ i : Fin (n + 1), (ps[(σ i).1]'(by rw [hl]; exact (σ i).2)).tag = label (ps[i.1]'(by rw [hl]; exact i.2)).tag)
    (he : ∀ b, ∀ t ∈ T.tris, declaredEps model.materials b (twin t).attr = declaredEps model.materials b t.attr) :
    ∃ d, (Driver.construct E model opts).1 = .ok d ∧
      (∀ b, ∃ M : Matrix (Fin (n + 1)) (Fin (n + 1)) 𝕜, ((Query.generalizedC b).exec E d).1 = .ok (.matrix (DMat.ofMatrix M)) ∧
        ∀ i j, M (σ i) (σ j) = M i j) ∧
      ∀ (r : PULParameters 𝕜) (ρ : Equiv.Perm (Fin n)), (∀ i, σ i.succ = (ρ i).succ) → (Query.pulMTL.exec E d).1 = .ok (.pul r) →
        ∃ C L : Matrix (Fin n) (Fin n) 𝕜, r.C = DMat.ofMatrix C ∧ r.L = DMat.ofMatrix L ∧
          ∀ i j, C (ρ i) (ρ j) = C i j ∧ L (ρ i) (ρ j) = L i j := by
  have hB : Buildable (E.fem model opts) model.materials := by rw [h.fem]; exact elements_buildable h.proper h.sensible
  obtain ⟨d, _, _, _, _, e, _⟩ := construct_spec E h.numbering hB
  have hd : (Driver.construct E model opts).1 = .ok d := by rw [e]
  have hop : model.determineOpenness = .ok .closed := by
    unfold Model.determineOpenness
    rw [ho]
    rfl
  have hop' : d.model.determineOpenness = .ok .closed := by rw [(construct_opts hd).2]; exact hop
  have hset : ∀ x, x ∈ ps.map PEC.tag ↔ x ∈ ps.map (fun c => label c.tag) := by
    intro x
    simp only [List.mem_map]
    constructor
    · rintro ⟨c, hcm, rfl⟩
      obtain ⟨i, hi, rfl⟩ := List.mem_iff_getElem.mp hcm
      have hi' : i < n + 1 := by rw [← hl]; exact hi
      have := hσ (σ.symm ⟨i, hi'⟩)
      simp only [Equiv.apply_symm_apply] at this
      exact ⟨_, List.getElem_mem _, this.symm⟩
    · rintro ⟨c, hcm, rfl⟩
      obtain ⟨i, hi, rfl⟩ := List.mem_iff_getElem.mp hcm
      exact ⟨_, List.getElem_mem _, hσ ⟨i, by rw [← hl]; exact hi⟩⟩
  have gen : ∀ b, ∃ M : Matrix (Fin (n + 1)) (Fin (n + 1)) 𝕜, ((Query.generalizedC b).exec E d).1 = .ok (.matrix (DMat.ofMatrix M)) ∧
      ∀ i j, M (σ i) (σ j) = M i j := by
    intro b
    obtain ⟨sols, hr, k⟩ := elements_fields h hd b
    obtain ⟨d1, k1, _⟩ := getGeneralizedCMatrix_spec hr hop' (by rw [hl]; omega)
    refine ⟨(symPart (rawCharges ps sols hr.len)).submatrix (Fin.cast hl.symm) (Fin.cast hl.symm), ?_, fun i j => ?_⟩
    · rw [exec_generalizedC, k1]
      show Outcome.ok (Answer.matrix _) = _
      rw [ofMatrix_congr hl (B := (symPart (rawCharges ps sols hr.len)).submatrix (Fin.cast hl.symm) (Fin.cast hl.symm)) fun i j hi hj => rfl]
    · have key : ∀ i j : Fin (n + 1), chargeOn (sols[(σ i).1]'(by rw [hr.len, hl]; exact (σ i).2)) (ps[(σ j).1]'(by rw [hl]; exact (σ j).2)).tag =
          chargeOn (sols[i.1]'(by rw [hr.len, hl]; exact i.2)) (ps[j.1]'(by rw [hl]; exact j.2)).tag := by
        intro i j
        have f := k i.1 (by rw [hl]; exact i.2) (by rw [hr.len, hl]; exact i.2)
        have f' := k (σ i).1 (by rw [hl]; exact (σ i).2) (by rw [hr.len, hl]; exact (σ i).2)
        rw [hσ i] at f'
        rw [hσ j]
        exact charges_carried_at hp h h hS hS hQ hQ hc hc ho ho hg hset (he b) _ f f' _
      unfold symPart rawCharges
      simp only [Matrix.submatrix_apply, Matrix.of_apply, Fin.getElem_fin, Fin.val_cast]
      rw [key i j, key j i]
  refine ⟨d, hd, gen, fun r ρ hρ hr => ?_⟩
  obtain ⟨m, G, G0, C, C0, hm, g1, g2, hC, hC0, h1, _, hdet, h2, _⟩ := C35_inductance E h.numbering hd hop hr
  have : m = n := by omega
  subst this
  have h0 : σ 0 = 0 := by
    rcases Fin.eq_zero_or_eq_succ (σ 0) with e | ⟨i, e⟩
    · exact e
    · have := hρ (ρ.symm i)
      rw [Equiv.apply_symm_apply, ← e, σ.injective.eq_iff] at this
      exact absurd this (Fin.succ_ne_zero _)
  have same : ∀ b (G : Matrix (Fin (m + 1)) (Fin (m + 1)) 𝕜), ((Query.generalizedC b).exec E d).1 = .ok (.matrix (DMat.ofMatrix G)) →
      Spec.renumbered ρ G = G := by
    intro b G hG
    obtain ⟨M, k1, k2⟩ := gen b
    rw [hG] at k1
    have e : G = M := ofMatrix_eq (Answer.matrix.inj (Outcome.ok.inj k1))
    subst e
    have hren : ∀ i, Spec.renumber ρ i = σ i := by
      intro i
      refine Fin.cases ?_ (fun j => ?_) i
      · exact h0.symm
      · exact (hρ j).symm
    ext i j
    unfold Spec.renumbered
    rw [Matrix.submatrix_apply, hren, hren, k2]
  have sub : ∀ (G : Matrix (Fin (m + 1)) (Fin (m + 1)) 𝕜) (C : Matrix (Fin m) (Fin m) 𝕜), Spec.renumbered ρ G = G →
      getCFromGeneralizedC (DMat.ofMatrix G) .closed = .ok (DMat.ofMatrix C) → C.submatrix ρ ρ = C := by
    intro G C hG hC
    have := getC_renumbered hC ρ
    rw [hG, hC] at this
    exact (ofMatrix_eq (Outcome.ok.inj this)).symm
  have sC := sub G C (same _ _ g1) hC
  have sC0 := sub G0 C0 (same _ _ g2) hC0
  have sI : (C0⁻¹).submatrix ρ ρ = C0⁻¹ := by rw [← inv_submatrix, sC0]
  refine ⟨_, _, h1, h2, fun i j => ⟨?_, ?_⟩⟩
  · rw [Matrix.smul_apply, Matrix.smul_apply, ← congrFun (congrFun sC i) j]
    rfl
  · rw [Matrix.smul_apply, Matrix.smul_apply, ← congrFun (congrFun sI i) j]
    rfl

end
end Tulip.Props
