import Verif.Proofs.Elements
import Verif.Proofs.Regions

/-!
# Fields in regions with no connection, with elements of any order
-/

set_option linter.unusedSectionVars false

namespace Tulip
open Matrix Spec MvPolynomial

section
variable {𝕜 : Type} [Field 𝕜] {T : Triangulation 𝕜} {S : Shapes T} {Q : Rule 𝕜} {p : Nat}

/-- The degrees of freedom whose functions do not vanish in all triangles with a property. -/
def partWith (Q : Rule 𝕜) (S : Shapes T) (G : Fin T.nv → Prop) : Part (T.femWith S Q) where
  nodes := fun i => ∃ t ∈ T.tris, G t.a ∧ S.N t i ≠ 0
  edges := fun k => ∃ t ∈ T.tris, G t.a ∧ S.W t k ≠ 0
  fluxes := fun k => ∃ t ∈ T.tris, G t.a ∧ S.R t k ≠ 0

/-- Triangles with a common vertex are in the same region. -/
theorem region_common {G : Fin T.nv → Prop} (hG : ∀ v w, Adjacent T v w → G v → G w) {t t' : Tri T.nv} (ht : t ∈ T.tris)
    (ht' : t' ∈ T.tris) (h : ∃ v, IsVertex t v ∧ IsVertex t' v) (hg : G t.a) : G t'.a := by
  obtain ⟨v, h1, h2⟩ := h
  exact hG _ _ ⟨t', ht', h2, Or.inl rfl⟩ (hG _ _ ⟨t, ht, Or.inl rfl, h1⟩ hg)

theorem gradient_zero (t : Tri T.nv) : T.gradient t (0 : MvPolynomial (Fin 2) 𝕜) = (0, 0) := by
  unfold Triangulation.gradient
  simp

theorem partWith_inside (h : Elements S p) {G : Fin T.nv → Prop} {t : Tri T.nv} (ht : t ∈ T.tris) (hg : G t.a) (r : 𝕜 × 𝕜 × 𝕜) :
    (partWith Q S G).Inside (T.domPoint S t r) where
  nodes := fun (k : Fin S.n) hk => by
    have e : S.N t k = 0 := by
      by_contra hne
      exact hk ⟨t, ht, hg, hne⟩
    show (eval _ (T.gradient t (S.N t k)).1, eval _ (T.gradient t (S.N t k)).2) = _
    rw [e, gradient_zero]
    simp
  edges := fun (k : Fin S.ne) hk => by
    have e : S.W t k = 0 := by
      by_contra hne
      exact hk ⟨t, ht, hg, hne⟩
    show (eval _ (S.W t k).1, eval _ (S.W t k).2) = _
    rw [e]
    simp
  fluxes := fun (k : Fin S.nd) hk => by
    have e : S.R t k = 0 := by
      by_contra hne
      exact hk ⟨t, ht, hg, hne⟩
    show (eval _ (S.R t k).1, eval _ (S.R t k).2) = _
    rw [e]
    simp

theorem partWith_outside' (h : Elements S p) {G : Fin T.nv → Prop} (hG : ∀ v w, Adjacent T v w → G v → G w) {t : Tri T.nv}
    (ht : t ∈ T.tris) (hg : ¬ G t.a) (r : 𝕜 × 𝕜 × 𝕜) :
    (partWith Q S G).Outside (T.domPoint S t r) where
  nodes := fun (k : Fin S.n) ⟨t', ht', hg', hk⟩ => by
    have e : S.N t k = 0 := by
      by_contra hne
      exact hg (region_common hG ht' ht (h.localN _ ht' _ ht k hk hne) hg')
    show (eval _ (T.gradient t (S.N t k)).1, eval _ (T.gradient t (S.N t k)).2) = _
    rw [e, gradient_zero]
    simp
  edges := fun (k : Fin S.ne) ⟨t', ht', hg', hk⟩ => by
    have e : S.W t k = 0 := by
      by_contra hne
      exact hg (region_common hG ht' ht (h.localW _ ht' _ ht k hk hne) hg')
    show (eval _ (S.W t k).1, eval _ (S.W t k).2) = _
    rw [e]
    simp
  fluxes := fun (k : Fin S.nd) ⟨t', ht', hg', hk⟩ => by
    have e : S.R t k = 0 := by
      by_contra hne
      exact hg (region_common hG ht' ht (h.localR _ ht' _ ht k hk hne) hg')
    show (eval _ (S.R t k).1, eval _ (S.R t k).2) = _
    rw [e]
    simp

/-- The gradient of a function of one side of the boundary of a region has no part on the other side. -/
theorem partWith_grad (h : Elements S p) {G : Fin T.nv → Prop} (hG : ∀ v w, Adjacent T v w → G v → G w) (k : Fin S.ne) (i : Fin S.n)
    (hk : S.grad k i ≠ 0) : (partWith Q S G).edges k ↔ (partWith Q S G).nodes i := by
  classical
  by_contra hne
  have key := h.basisW (fun k => if ((partWith Q S G).edges k ↔ (partWith Q S G).nodes i) then 0 else S.grad k i) ?_ k
  · rw [if_neg hne] at key
    exact hk key
  intro t ht
  have hgr := h.gradient t ht i
  have out : (∃ t' ∈ T.tris, G t'.a ∧ S.N t' i ≠ 0) → ¬ G t.a → S.N t i = 0 := by
    rintro ⟨t', ht', hg', hi⟩ hg
    by_contra hne
    exact hg (region_common hG ht' ht (h.localN _ ht' _ ht i hi hne) hg')
  have outW : ∀ k, ¬ G t.a → (partWith Q S G).edges k → S.W t k = 0 := by
    rintro k hg ⟨t', ht', hg', hi⟩
    by_contra hne
    exact hg (region_common hG ht' ht (h.localW _ ht' _ ht k hi hne) hg')
  have inW : ∀ k, G t.a → ¬ (partWith Q S G).edges k → S.W t k = 0 := by
    intro k hg hk
    by_contra hne
    exact hk ⟨t, ht, hg, hne⟩
  by_cases hn : (partWith Q S G).nodes i ↔ G t.a
  · have hz : ∀ k, (if ((partWith Q S G).edges k ↔ (partWith Q S G).nodes i) then 0 else S.grad k i) = 0 ∨ S.W t k = 0 := by
      intro k
      by_cases he : (partWith Q S G).edges k ↔ (partWith Q S G).nodes i
      · exact Or.inl (if_pos he)
      · right
        by_cases hg : G t.a
        · exact inW k hg fun hk => he ⟨fun _ => hn.mpr hg, fun _ => hk⟩
        · by_contra hne
          exact hne (outW k hg (by
            by_contra hk
            exact he ⟨fun h => absurd h hk, fun h => absurd (hn.mp h) hg⟩))
    constructor <;>
    · refine Finset.sum_eq_zero fun k _ => ?_
      rcases hz k with e | e <;> rw [e] <;> simp
  · have hN : S.N t i = 0 := by
      by_cases hg : G t.a
      · by_contra hne
        exact hn ⟨fun _ => hg, fun _ => ⟨t, ht, hg, hne⟩⟩
      · refine out ?_ hg
        by_contra hi
        exact hn ⟨fun h => absurd h hi, fun h => absurd h hg⟩
    rw [hN, gradient_zero] at hgr
    have same : ∀ k, (if ((partWith Q S G).edges k ↔ (partWith Q S G).nodes i) then 0 else S.grad k i) = S.grad k i ∨ S.W t k = 0 := by
      intro k
      by_cases he : (partWith Q S G).edges k ↔ (partWith Q S G).nodes i
      · right
        by_cases hg : G t.a
        · exact inW k hg fun hk => hn ⟨fun _ => hg, fun _ => he.mp hk⟩
        · refine outW k hg (he.mpr ?_)
          by_contra hi
          exact hn ⟨fun h => absurd h hi, fun h => absurd h hg⟩
      · exact Or.inl (if_neg he)
    constructor
    · refine (Finset.sum_congr rfl fun k _ => ?_).trans (congrArg Prod.fst hgr)
      rcases same k with e | e <;> rw [e]
      simp
    · refine (Finset.sum_congr rfl fun k _ => ?_).trans (congrArg Prod.snd hgr)
      rcases same k with e | e <;> rw [e]
      simp

theorem partWith_isolated (h : Elements S p) {G : Fin T.nv → Prop} (hG : ∀ v w, Adjacent T v w → G v → G w) :
    (partWith Q S G).Isolated where
  dom := by
    intro q hq
    obtain ⟨t, ht, r, _, rfl⟩ := mem_domWith.mp hq
    by_cases hg : G t.a
    · exact Or.inl (partWith_inside h ht hg r)
    · exact Or.inr (partWith_outside' h hG ht hg r)
  bdr := by
    intro q hq
    obtain ⟨s, hs, t, ht, hst, _, r, _, rfl⟩ := mem_bdrWith hq
    by_cases hg : G t.a
    · refine Or.inl fun (k : Fin S.n) hk => ?_
      have e : S.N t k = 0 := by
        by_contra hne
        exact hk ⟨t, ht, hg, hne⟩
      show eval _ (S.N t k) = 0
      rw [e, map_zero]
    · refine Or.inr fun (k : Fin S.n) ⟨t', ht', hg', hk⟩ => ?_
      have e : S.N t k = 0 := by
        by_contra hne
        exact hg (region_common hG ht' ht (h.localN _ ht' _ ht k hk hne) hg')
      show eval _ (S.N t k) = 0
      rw [e, map_zero]
  grad := fun k i hk => partWith_grad h hG k i hk

theorem partWith_outside (h : Elements S p) {G : Fin T.nv → Prop} (hG : ∀ v w, Adjacent T v w → G v → G w)
    {q : DomPt 𝕜 S.n S.ne S.nd} (hq : q ∈ (T.femWith S Q).dom) (ho : ¬ (partWith Q S G).Outside q) :
    ∃ t ∈ T.tris, q.attr = t.attr ∧ G t.a := by
  obtain ⟨t, ht, r, _, rfl⟩ := mem_domWith.mp hq
  refine ⟨t, ht, rfl, ?_⟩
  by_contra hg
  exact ho (partWith_outside' h hG ht hg r)

/-- A degree of freedom of a region on a boundary segment: the segment is in the region. -/
theorem partWith_onSeg (h : Elements S p) (hT : ∀ t ∈ T.tris, T.det t ≠ 0) {G : Fin T.nv → Prop}
    (hG : ∀ v w, Adjacent T v w → G v → G w) {s : Seg 𝕜 T.nv} (hs : s ∈ T.segs) (hside : IsSide T s.a s.b) {k : Fin S.n}
    (hk : (partWith Q S G).nodes k) (hks : k ∈ S.onSeg s) : G s.a := by
  obtain ⟨t, ht, hst⟩ := hside
  obtain ⟨t', ht', hg, hne⟩ := hk
  have hN : S.N t k ≠ 0 := by
    have := h.not_constant hs ht (hT t ht) hst hks 0
    rwa [C_0] at this
  have := region_common hG ht' ht (h.localN _ ht' _ ht k hne hN) hg
  exact hG _ _ ⟨t, ht, Or.inl rfl, (side_vertices hst).1⟩ this

/-- Charges on a boundary whose vertices are in the part are determined by D in the part. -/
theorem chargeOn_partWith {G : Fin T.nv → Prop} (hG : ∀ v w, Adjacent T v w → G v → G w) {tag : Int}
    (hS : ∀ v, OnTag T tag v → G v) {t t' : SolverSolution (T.femWith S Q)}
    (h : ∀ k, (partWith Q S G).fluxes k → t.d k = t'.d k) : chargeOn t tag = chargeOn t' tag := by
  unfold chargeOn outwardFlux
  congr 2
  refine List.map_congr_left fun q hq => ?_
  obtain ⟨hq, ha⟩ := List.mem_filter.mp hq
  obtain ⟨s, hs, x, hx, hsx, _, r, _, rfl⟩ := mem_bdrWith hq
  have htag : s.attr = tag := by exact (of_decide_eq_true ha : s.attr = tag)
  have hg : G x.a := hG _ _ ⟨x, hx, (side_vertices hsx).1, Or.inl rfl⟩ (hS _ ⟨s, hs, htag, Or.inl rfl⟩)
  unfold scalarAt
  refine Finset.sum_congr rfl fun (k : Fin S.nd) _ => ?_
  by_cases hk : S.R x k = 0
  · have e : (T.bdrPoint S s x r).fl k = 0 := by
      show r.1 * (eval _ (S.R x k).1 * _ - eval _ (S.R x k).2 * _) = 0
      rw [hk]
      simp
    rw [e, mul_zero, mul_zero]
  · rw [h k ⟨x, hx, hg, hk⟩]

variable {mats mats' : Materials 𝕜} {A : Analytic 𝕜} {b b' : Bool}

/-- There is no field in regions where only conductors at 0 V are. -/
theorem field_shieldedWith (h : Elements S p) (hT : ∀ t ∈ T.tris, T.det t ≠ 0) (hw : WellPosed A (T.femWith S Q) mats)
    (hs : Separate (T.femWith S Q) mats) (hseg : ∀ s ∈ T.segs, IsSide T s.a s.b)
    {V : Int → 𝕜} {t : SolverSolution (T.femWith S Q)} (ht : PrescribedField A (T.femWith S Q) mats b V t) {G : Fin T.nv → Prop}
    (hG : ∀ v w, Adjacent T v w → G v → G w) (hV : ∀ p ∈ mats.pecs, ∀ v, G v → OnTag T p.tag v → V p.tag = 0) :
    (∀ k, (partWith Q S G).nodes k → t.phi k = 0) ∧ ∀ k, (partWith Q S G).fluxes k → t.d k = 0 := by
  have := isolated_fields (V' := fun _ => 0) (b' := b) (mats' := mats) (partWith_isolated (Q := Q) h hG) hw hs rfl rfl
    (fun _ _ _ => rfl) (fun p hp k hk ho => by
      obtain ⟨s, hs, e, hks⟩ := onBoundaryWith_iff.mp ho
      exact hV p hp s.a (partWith_onSeg h hT hG hs (hseg s hs) hk hks) ⟨s, hs, e, Or.inl rfl⟩) ht zero_prescribed
  exact ⟨this.1, this.2.2⟩

/-- No charge on a conductor in regions where only conductors at 0 V are. -/
theorem charge_shieldedWith (h : Elements S p) (hT : ∀ t ∈ T.tris, T.det t ≠ 0) (hw : WellPosed A (T.femWith S Q) mats)
    (hs : Separate (T.femWith S Q) mats) (hseg : ∀ s ∈ T.segs, IsSide T s.a s.b)
    {tag : Int} {V : Int → 𝕜} {t : SolverSolution (T.femWith S Q)} (ht : PrescribedField A (T.femWith S Q) mats b V t)
    (hV : ∀ p ∈ mats.pecs, ShareRegion T tag p.tag → V p.tag = 0) : chargeOn t tag = 0 := by
  have hd := (field_shieldedWith h hT hw hs hseg ht (G := Touched T tag) (fun v w h => touched_adjacent h)
    (fun p hp v ⟨w, h1, h2⟩ ho => hV p hp ⟨w, v, h1, ho, h2⟩)).2
  rw [chargeOn_partWith (t' := ⟨fun _ => 0, fun _ => 0, fun _ => 0⟩) (G := Touched T tag) (fun v w h => touched_adjacent h)
    (fun v hv => ⟨v, hv, .refl⟩) hd]
  simp [chargeOn, outwardFlux, scalarAt]

/-- Materials in regions that the two conductors do not both touch do not matter. -/
theorem charge_elsewhereWith (h : Elements S p) (hT : ∀ t ∈ T.tris, T.det t ≠ 0) (hw : WellPosed A (T.femWith S Q) mats)
    (hw' : WellPosed A (T.femWith S Q) mats') (hs : Separate (T.femWith S Q) mats)
    (hpec : mats'.pecs = mats.pecs) (hopen : mats'.openBoundaries = mats.openBoundaries)
    (hseg : ∀ s ∈ T.segs, IsSide T s.a s.b) {tag tag' : Int}
    (heps : ∀ x ∈ T.tris, Sees T tag x → Sees T tag' x → declaredEps mats b x.attr = declaredEps mats' b' x.attr)
    {t t' : SolverSolution (T.femWith S Q)} (ht : PrescribedField A (T.femWith S Q) mats b (oneVolt tag') t)
    (ht' : PrescribedField A (T.femWith S Q) mats' b' (oneVolt tag') t') : chargeOn t tag = chargeOn t' tag := by
  have hs' : Separate (T.femWith S Q) mats' := by
    unfold Separate
    rw [hpec]
    exact hs
  have hS1 : ∀ v w, Adjacent T v w → ¬ Touched T tag' v → ¬ Touched T tag' w := fun v w h h1 h2 =>
    h1 ((touched_iff h).mpr h2)
  have hV : ∀ (p : PEC 𝕜) (v : Fin T.nv), ¬ Touched T tag' v → OnTag T p.tag v → oneVolt tag' p.tag = (0 : 𝕜) := by
    intro p v h ho
    unfold oneVolt
    rw [if_neg]
    rintro rfl
    exact h ⟨v, ho, .refl⟩
  have h1 := (field_shieldedWith h hT hw hs hseg ht hS1 (fun p _ v => hV p v)).2
  have h1' := (field_shieldedWith h hT hw' hs' hseg ht' hS1 (fun p _ v => hV p v)).2
  have hS2 : ∀ v w, Adjacent T v w → (Touched T tag v ∧ Touched T tag' v) → Touched T tag w ∧ Touched T tag' w :=
    fun v w h hv => ⟨touched_adjacent h hv.1, touched_adjacent h hv.2⟩
  have h2 := (isolated_fields (partWith_isolated (Q := Q) h hS2) hw hs hpec hopen (fun q hq ho => by
    obtain ⟨x, hx, e, ⟨v, hv, hr⟩, w, hw, hr'⟩ := partWith_outside h hS2 hq ho
    rw [e]
    exact heps x hx ⟨v, x.a, hv, Or.inl rfl, hr⟩ ⟨w, x.a, hw, Or.inl rfl, hr'⟩) (fun p _ k _ _ => rfl) ht ht').2.2
  refine chargeOn_partWith (G := Touched T tag) (fun v w h => touched_adjacent h) (fun v hv => ⟨v, hv, .refl⟩) fun k hk => ?_
  obtain ⟨x, hx, hk, hR⟩ := hk
  by_cases h : Touched T tag' x.a
  · exact h2 k ⟨x, hx, ⟨hk, h⟩, hR⟩
  · rw [h1 k ⟨x, hx, h, hR⟩, h1' k ⟨x, hx, h, hR⟩]

/-- The charge on a conductor depends only on the potentials of the conductors with which it shares a region. -/
theorem charge_localWith (h : Elements S p) (hT : ∀ t ∈ T.tris, T.det t ≠ 0) (hw : WellPosed A (T.femWith S Q) mats)
    (hs : Separate (T.femWith S Q) mats) (hseg : ∀ s ∈ T.segs, IsSide T s.a s.b) {tag : Int} {V V' : Int → 𝕜}
    {t t' : SolverSolution (T.femWith S Q)} (ht : PrescribedField A (T.femWith S Q) mats b V t)
    (ht' : PrescribedField A (T.femWith S Q) mats b V' t')
    (hV : ∀ p ∈ mats.pecs, ShareRegion T tag p.tag → V p.tag = V' p.tag) : chargeOn t tag = chargeOn t' tag := by
  have hG : ∀ v w, Adjacent T v w → Touched T tag v → Touched T tag w := fun v w h => touched_adjacent h
  have := isolated_fields (mats' := mats) (partWith_isolated (Q := Q) h hG) hw hs rfl rfl
    (fun _ _ _ => rfl) (fun p hp k hk ho => by
      obtain ⟨s, hs, e, hks⟩ := onBoundaryWith_iff.mp ho
      obtain ⟨w, h1, h2⟩ := partWith_onSeg h hT hG hs (hseg s hs) hk hks
      exact hV p hp ⟨w, s.a, h1, ⟨s, hs, e, Or.inl rfl⟩, h2⟩) ht ht'
  exact chargeOn_partWith hG (fun v hv => ⟨v, hv, .refl⟩) this.2.2

end

end Tulip
