import Verif.Spec.Regions
import Verif.Proofs.Prescribed
import Verif.Proofs.Passive
import Verif.Proofs.Triangles
import Verif.Proofs.RenumberTriangles

/-!
# Fields in regions with no connection
-/

set_option linter.unusedSectionVars false

namespace Tulip
open Matrix Spec

section
variable {𝕜 : Type} [Field 𝕜] {F : FEM 𝕜} {mats mats' : Materials 𝕜} {A : Analytic 𝕜} {b b' : Bool}

theorem sum_map_diff {α : Type _} (l : List α) (f g h : α → 𝕜) (he : ∀ a ∈ l, f a = g a - h a) :
    (l.map f).sum = (l.map g).sum - (l.map h).sum := by
  induction l with
  | nil => simp
  | cons a l ih =>
    simp only [List.map_cons, List.sum_cons]
    rw [he a (by simp), ih (fun x hx => he x (List.mem_cons_of_mem _ hx))]
    ring

open Classical in
/-- The difference of two fields in a part, 0 elsewhere. -/
noncomputable def cut {n : Nat} (S : Fin n → Prop) (u v : Fin n → 𝕜) (k : Fin n) : 𝕜 := if S k then u k - v k else 0

theorem vectorAt_cut_in {n : Nat} {S : Fin n → Prop} {B : Fin n → 𝕜 × 𝕜} (h : ∀ k, ¬ S k → B k = (0, 0)) (u v : Fin n → 𝕜) :
    vectorAt B (cut S u v) = vectorAt B u - vectorAt B v := by
  classical
  unfold vectorAt
  refine Prod.ext ?_ ?_ <;>
  · simp only [Prod.fst_sub, Prod.snd_sub]
    rw [← Finset.sum_sub_distrib]
    refine Finset.sum_congr rfl fun k _ => ?_
    unfold cut
    split
    · ring
    · next hk => rw [h k hk]; simp

theorem vectorAt_cut_out {n : Nat} {S : Fin n → Prop} {B : Fin n → 𝕜 × 𝕜} (h : ∀ k, S k → B k = (0, 0)) (u v : Fin n → 𝕜) :
    vectorAt B (cut S u v) = (0, 0) := by
  classical
  unfold vectorAt
  refine Prod.ext ?_ ?_ <;>
  · dsimp only
    refine Finset.sum_eq_zero fun k _ => ?_
    unfold cut
    split
    · next hk => rw [h k hk]; simp
    · simp

theorem scalarAt_cut_in {n : Nat} {S : Fin n → Prop} {B : Fin n → 𝕜} (h : ∀ k, ¬ S k → B k = 0) (u v : Fin n → 𝕜) :
    scalarAt B (cut S u v) = scalarAt B u - scalarAt B v := by
  classical
  unfold scalarAt
  rw [← Finset.sum_sub_distrib]
  refine Finset.sum_congr rfl fun k _ => ?_
  unfold cut
  split
  · ring
  · next hk => rw [h k hk]; simp

theorem scalarAt_cut_out {n : Nat} {S : Fin n → Prop} {B : Fin n → 𝕜} (h : ∀ k, S k → B k = 0) (u v : Fin n → 𝕜) :
    scalarAt B (cut S u v) = 0 := by
  classical
  unfold scalarAt
  refine Finset.sum_eq_zero fun k _ => ?_
  unfold cut
  split
  · next hk => rw [h k hk]; simp
  · simp

/-- Fields agree on an isolated part if the conductors there have the same potentials and the materials there are the
same. -/
theorem isolated_fields {P : Part F} (hP : P.Isolated) (hw : WellPosed A F mats) (hs : Separate F mats)
    (hpec : mats'.pecs = mats.pecs) (hopen : mats'.openBoundaries = mats.openBoundaries)
    (heps : ∀ q ∈ F.dom, ¬ P.Outside q → declaredEps mats b q.attr = declaredEps mats' b' q.attr)
    {V V' : Int → 𝕜} (hV : ∀ p ∈ mats.pecs, ∀ k, P.nodes k → OnBoundary F p.tag k → V p.tag = V' p.tag)
    {t t' : SolverSolution F} (ht : PrescribedField A F mats b V t) (ht' : PrescribedField A F mats' b' V' t') :
    (∀ k, P.nodes k → t.phi k = t'.phi k) ∧ (∀ k, P.edges k → t.e k = t'.e k) ∧ (∀ k, P.fluxes k → t.d k = t'.d k) := by
  have hdom : ∀ q ∈ F.dom, (P.Inside q ∧ declaredEps mats b q.attr = declaredEps mats' b' q.attr) ∨ P.Outside q := by
    intro q hq
    by_cases h : P.Outside q
    · exact Or.inr h
    · exact Or.inl ⟨(hP.dom q hq).resolve_right h, heps q hq h⟩
  have hs' : Separate F mats' := by
    unfold Separate
    rw [hpec]
    exact hs
  have hphi : ∀ k, P.nodes k → t.phi k = t'.phi k := by
    have key := hw.unique b (cut P.nodes t.phi t'.phi) ?_ ?_
    · intro k hk
      have := key k
      unfold cut at this
      rw [if_pos hk] at this
      exact sub_eq_zero.mp this
    · rintro k ⟨p, hp, hk⟩
      unfold cut
      split
      · next h =>
        rw [ht.at_conductor hs hp hk, ht'.at_conductor hs' (by rw [hpec]; exact hp) hk, hV p hp k h hk, sub_self]
      · rfl
    · intro k hk
      have h1 := ht.equations k (fun p hp h => hk ⟨p, hp, h⟩)
      have h2 := ht'.equations k (fun p hp h => hk ⟨p, by rw [← hpec]; exact hp, h⟩)
      by_cases hin : P.nodes k
      · have : weakForm A F (declaredEps mats b) (mats.openBoundaries.map OpenBoundary.tag) (cut P.nodes t.phi t'.phi) k =
            weakForm A F (declaredEps mats b) (mats.openBoundaries.map OpenBoundary.tag) t.phi k -
            weakForm A F (declaredEps mats' b') (mats'.openBoundaries.map OpenBoundary.tag) t'.phi k := by
          unfold weakForm
          rw [hopen, add_sub_add_comm]
          congr 1
          · refine sum_map_diff _ _ _ _ fun q hq => ?_
            rcases hdom q hq with ⟨h, he⟩ | h
            · rw [vectorAt_cut_in h.nodes, ← he]
              unfold inner2
              simp only [Prod.fst_sub, Prod.snd_sub]
              ring
            · rw [h.nodes k hin]
              unfold inner2
              simp
          · refine sum_map_diff _ _ _ _ fun q hq => ?_
            rcases hP.bdr q (List.mem_of_mem_filter hq) with h | h
            · rw [scalarAt_cut_in h]
              ring
            · rw [h k hin]
              simp
        rw [this, h1, h2, sub_self]
      · unfold weakForm
        rw [List.sum_eq_zero, List.sum_eq_zero, add_zero]
        · intro x hx
          obtain ⟨q, hq, rfl⟩ := List.mem_map.mp hx
          rcases hP.bdr q (List.mem_of_mem_filter hq) with h | h
          · rw [h k hin]; simp
          · rw [scalarAt_cut_out h]; simp
        · intro x hx
          obtain ⟨q, hq, rfl⟩ := List.mem_map.mp hx
          rcases hP.dom q hq with h | h
          · rw [h.nodes k hin]; simp [inner2]
          · rw [vectorAt_cut_out h.nodes]; simp [inner2]
  have he : ∀ k, P.edges k → t.e k = t'.e k := by
    intro k hk
    rw [ht.e, ht'.e]
    congr 1
    refine Finset.sum_congr rfl fun i _ => ?_
    by_cases h : F.grad k i = 0
    · rw [h]; simp
    · rw [hphi i ((hP.grad k i h).mp hk)]
  refine ⟨hphi, he, ?_⟩
  have key := hw.projection (cut P.fluxes t.d t'.d) ?_
  · intro k hk
    have := key k
    unfold cut at this
    rw [if_pos hk] at this
    exact sub_eq_zero.mp this
  · intro k
    by_cases hin : P.fluxes k
    · have h1 := ht.d k
      have h2 := ht'.d k
      have hR : (F.dom.map (fun q => q.w * inner2 (q.R k) (vectorAt q.R (cut P.fluxes t.d t'.d)))).sum =
          (F.dom.map (fun q => q.w * inner2 (q.R k) (vectorAt q.R t.d))).sum -
          (F.dom.map (fun q => q.w * inner2 (q.R k) (vectorAt q.R t'.d))).sum := by
        refine sum_map_diff _ _ _ _ fun q hq => ?_
        rcases hP.dom q hq with h | h
        · rw [vectorAt_cut_in h.fluxes]
          unfold inner2
          simp only [Prod.fst_sub, Prod.snd_sub]
          ring
        · rw [h.fluxes k hin]
          simp [inner2]
      rw [hR, h1, h2, sub_eq_zero]
      congr 1
      refine List.map_congr_left fun q hq => ?_
      rcases hdom q hq with ⟨h, heq⟩ | h
      · have : vectorAt q.W t.e = vectorAt q.W t'.e := by
          unfold vectorAt
          refine Prod.ext ?_ ?_ <;>
          · dsimp only
            refine Finset.sum_congr rfl fun i _ => ?_
            by_cases hi : P.edges i
            · rw [he i hi]
            · rw [h.edges i hi]; simp
        rw [this, heq]
      · rw [h.fluxes k hin]
        simp [inner2]
    · refine List.sum_eq_zero fun x hx => ?_
      obtain ⟨q, hq, rfl⟩ := List.mem_map.mp hx
      rcases hP.dom q hq with h | h
      · rw [h.fluxes k hin]; simp [inner2]
      · rw [vectorAt_cut_out h.fluxes]; simp [inner2]

end

section
variable {𝕜 : Type} [Field 𝕜] {T : Triangulation 𝕜}

theorem adjacent_symm {v w : Fin T.nv} (h : Adjacent T v w) : Adjacent T w v := by
  obtain ⟨t, ht, h1, h2⟩ := h
  exact ⟨t, ht, h2, h1⟩

theorem sameRegion_symm {v w : Fin T.nv} (h : SameRegion T v w) : SameRegion T w v := by
  induction h with
  | refl => exact .refl
  | tail _ h ih => exact (Relation.ReflTransGen.single (adjacent_symm h)).trans ih

theorem side_adjacent {v w : Fin T.nv} (h : IsSide T v w) : Adjacent T v w := by
  obtain ⟨t, ht, hs⟩ := h
  refine ⟨t, ht, ?_⟩
  simp only [Tri.sides, List.mem_cons, Prod.mk.injEq, List.not_mem_nil, or_false] at hs
  unfold IsVertex
  rcases hs with ⟨rfl, rfl⟩ | ⟨rfl, rfl⟩ | ⟨rfl, rfl⟩ <;> simp

theorem edge_adjacent {e : Fin T.nv × Fin T.nv} (h : e ∈ T.edges) : Adjacent T e.1 e.2 := by
  obtain ⟨v, w, hs, rfl⟩ := mem_edges'.mp h
  rcases upward_cases (v, w) with e | ⟨e, _⟩ <;> rw [e]
  · exact side_adjacent hs
  · exact adjacent_symm (side_adjacent hs)

/-- The degrees of freedom at vertices with a property. -/
def partOf (S : Fin T.nv → Prop) : Part T.fem where
  nodes := S
  edges := fun k => S (T.edges[k]'k.2).1
  fluxes := fun k => S (T.edges[k]'k.2).1

theorem whitney_off_fst {t : Tri T.nv} {x y z : 𝕜} {e : Fin T.nv × Fin T.nv} (h : ¬ IsVertex t e.1) :
    T.whitney t x y z e = (0, 0) := by
  unfold Triangulation.whitney
  rw [hat_off h, gradHat_off h]
  simp

theorem mem_bdr_points {q : BdrPt 𝕜 T.nv T.edges.length} (h : q ∈ T.fem.bdr) : ∃ s ∈ T.segs, ∃ x y f, q = T.segPoint s x y f := by
  obtain ⟨s, hs, hq⟩ := List.mem_flatMap.mp h
  refine ⟨s, hs, ?_⟩
  simp only [List.mem_cons, List.not_mem_nil, or_false] at hq
  rcases hq with rfl | rfl | rfl <;> exact ⟨_, _, _, rfl⟩

theorem partOf_isolated {S : Fin T.nv → Prop} (hS : ∀ v w, Adjacent T v w → S v → S w)
    (hseg : ∀ s ∈ T.segs, IsSide T s.a s.b) : (partOf S).Isolated where
  dom := by
    intro q hq
    obtain ⟨t, ht, hq⟩ := mem_dom.mp hq
    have hv : ∀ v w, IsVertex t v → IsVertex t w → S v → S w := fun v w h1 h2 => hS v w ⟨t, ht, h1, h2⟩
    have ha : IsVertex t t.a := Or.inl rfl
    have hin : ∀ x y z : 𝕜, (partOf S).Inside (T.point t x y z) ∨ (partOf S).Outside (T.point t x y z) := by
      intro x y z
      by_cases h : S t.a
      · refine Or.inl ⟨fun k hk => gradHat_off fun hi => hk (hv _ _ ha hi h), fun k hk => ?_, fun k hk => ?_⟩
        · exact whitney_off_fst fun hi => hk (hv _ _ ha hi h)
        · have := whitney_off_fst (x := x) (y := y) (z := z) (t := t) (e := T.edges[k]'k.2) fun hi => hk (hv _ _ ha hi h)
          show ((T.whitney t x y z (T.edges[k]'k.2)).2, -(T.whitney t x y z (T.edges[k]'k.2)).1) = _
          rw [this]
          simp
      · refine Or.inr ⟨fun k hk => gradHat_off fun hi => h (hv _ _ hi ha hk), fun k hk => ?_, fun k hk => ?_⟩
        · exact whitney_off_fst fun hi => h (hv _ _ hi ha hk)
        · have := whitney_off_fst (x := x) (y := y) (z := z) (t := t) (e := T.edges[k]'k.2) fun hi => h (hv _ _ hi ha hk)
          show ((T.whitney t x y z (T.edges[k]'k.2)).2, -(T.whitney t x y z (T.edges[k]'k.2)).1) = _
          rw [this]
          simp
    rcases hq with rfl | rfl | rfl <;> exact hin _ _ _
  bdr := by
    intro q hq
    obtain ⟨s, hs, x, y, f, rfl⟩ := mem_bdr_points hq
    have hab := side_adjacent (hseg s hs)
    have hN : ∀ k : Fin T.nv, k ≠ s.a → k ≠ s.b → (T.segPoint s x y f).N k = 0 := by
      intro k h1 h2
      show (if k = s.a then _ else if k = s.b then _ else _) = _
      rw [if_neg h1, if_neg h2]
    by_cases h : S s.a
    · refine Or.inl fun k hk => hN k ?_ ?_
      · rintro rfl; exact hk h
      · rintro rfl; exact hk (hS _ _ hab h)
    · refine Or.inr fun k hk => hN k ?_ ?_
      · rintro rfl; exact h hk
      · rintro rfl; exact h (hS _ _ (adjacent_symm hab) hk)
  grad := by
    intro (k : Fin T.edges.length) (i : Fin T.nv) h
    have he := edge_adjacent (List.getElem_mem k.2)
    change (if i = (T.edges[k]'k.2).2 then (1 : 𝕜) else 0) - (if i = (T.edges[k]'k.2).1 then 1 else 0) ≠ 0 at h
    change S (T.edges[k]'k.2).1 ↔ S i
    by_cases h2 : i = (T.edges[k]'k.2).2
    · rw [h2]
      exact ⟨hS _ _ he, hS _ _ (adjacent_symm he)⟩
    · by_cases h1 : i = (T.edges[k]'k.2).1
      · rw [h1]
      · rw [if_neg h2, if_neg h1, sub_zero] at h
        exact absurd rfl h

/-- Charges on a boundary whose vertices are in the part are determined by D in the part. -/
theorem chargeOn_part {S : Fin T.nv → Prop} {tag : Int} (hS : ∀ v, OnTag T tag v → S v) {t t' : SolverSolution T.fem}
    (h : ∀ k, (partOf S).fluxes k → t.d k = t'.d k) : chargeOn t tag = chargeOn t' tag := by
  unfold chargeOn outwardFlux
  congr 2
  refine List.map_congr_left fun q hq => ?_
  obtain ⟨hq, ha⟩ := List.mem_filter.mp hq
  obtain ⟨s, hs, x, y, f, rfl⟩ := mem_bdr_points hq
  have hat : ∀ k : Fin T.edges.length, T.edges[k] ≠ (s.a, s.b) → T.edges[k] ≠ (s.b, s.a) → (T.segPoint s x y f).fl k = 0 := by
    intro k h1 h2
    show (if T.edges[k] = (s.a, s.b) then _ else if T.edges[k] = (s.b, s.a) then _ else _) = _
    rw [if_neg h1, if_neg h2]
  have htag : s.attr = tag := by
    exact (of_decide_eq_true ha : s.attr = tag)
  unfold scalarAt
  refine Finset.sum_congr rfl fun (k : Fin T.edges.length) _ => ?_
  by_cases h1 : T.edges[k] = (s.a, s.b)
  · rw [h k (by show S (T.edges[k]'k.2).1; exact (congrArg (fun e => S e.1) h1).mpr (hS _ ⟨s, hs, htag, Or.inl rfl⟩))]
  · by_cases h2 : T.edges[k] = (s.b, s.a)
    · rw [h k (by show S (T.edges[k]'k.2).1; exact (congrArg (fun e => S e.1) h2).mpr (hS _ ⟨s, hs, htag, Or.inr rfl⟩))]
    · rw [hat k h1 h2]; simp

/-- The vertices in regions that a boundary touches. -/
def Touched (T : Triangulation 𝕜) (tag : Int) (v : Fin T.nv) : Prop := ∃ w, OnTag T tag w ∧ SameRegion T w v

theorem touched_adjacent {tag : Int} {v w : Fin T.nv} (h : Adjacent T v w) (hv : Touched T tag v) : Touched T tag w := by
  obtain ⟨x, h1, h2⟩ := hv
  exact ⟨x, h1, h2.tail h⟩

theorem touched_iff {tag : Int} {v w : Fin T.nv} (h : Adjacent T v w) : Touched T tag v ↔ Touched T tag w :=
  ⟨touched_adjacent h, touched_adjacent (adjacent_symm h)⟩

theorem partOf_outside {S : Fin T.nv → Prop} (hS : ∀ v w, Adjacent T v w → S v → S w)
    {q : DomPt 𝕜 T.nv T.edges.length T.edges.length} (hq : q ∈ T.fem.dom) (h : ¬ (partOf S).Outside q) :
    ∃ t ∈ T.tris, q.attr = t.attr ∧ S t.a := by
  obtain ⟨t, ht, hq⟩ := mem_dom.mp hq
  have hv : ∀ v w, IsVertex t v → IsVertex t w → S v → S w := fun v w h1 h2 => hS v w ⟨t, ht, h1, h2⟩
  have ha : IsVertex t t.a := Or.inl rfl
  refine ⟨t, ht, by rcases hq with rfl | rfl | rfl <;> rfl, ?_⟩
  by_contra hn
  refine h ?_
  have hout : ∀ x y z : 𝕜, (partOf S).Outside (T.point t x y z) := by
    intro x y z
    refine ⟨fun k hk => gradHat_off fun hi => hn (hv _ _ hi ha hk), fun k hk => ?_, fun k hk => ?_⟩
    · exact whitney_off_fst fun hi => hn (hv _ _ hi ha hk)
    · have := whitney_off_fst (x := x) (y := y) (z := z) (t := t) (e := T.edges[k]'k.2) fun hi => hn (hv _ _ hi ha hk)
      show ((T.whitney t x y z (T.edges[k]'k.2)).2, -(T.whitney t x y z (T.edges[k]'k.2)).1) = _
      rw [this]
      simp
  rcases hq with rfl | rfl | rfl <;> exact hout _ _ _

variable {mats mats' : Materials 𝕜} {A : Analytic 𝕜} {b b' : Bool}

theorem zero_prescribed {F : FEM 𝕜} : PrescribedField A F mats b (fun _ => 0) ⟨fun _ => 0, fun _ => 0, fun _ => 0⟩ where
  values := fun k c ⟨p, hp, hk⟩ h => h p hp hk
  equations := fun k _ => by simp [weakForm, vectorAt, scalarAt, inner2]
  e := by simp
  d := by intro k; simp [vectorAt, inner2]

/-- There is no field in regions where only conductors at 0 V are. -/
theorem field_shielded (hw : WellPosed A T.fem mats) (hs : Separate T.fem mats) (hseg : ∀ s ∈ T.segs, IsSide T s.a s.b)
    {V : Int → 𝕜} {t : SolverSolution T.fem} (ht : PrescribedField A T.fem mats b V t) {S : Fin T.nv → Prop}
    (hS : ∀ v w, Adjacent T v w → S v → S w) (hV : ∀ p ∈ mats.pecs, ∀ v, S v → OnTag T p.tag v → V p.tag = 0) :
    (∀ v, S v → t.phi v = 0) ∧ ∀ k, (partOf S).fluxes k → t.d k = 0 := by
  have := isolated_fields (V' := fun _ => 0) (b' := b) (mats' := mats) (partOf_isolated hS hseg) hw hs rfl rfl
    (fun _ _ _ => rfl) (fun p hp k hk ho => hV p hp k hk (onBoundary_iff.mp ho)) ht zero_prescribed
  exact ⟨this.1, this.2.2⟩

/-- No charge on a conductor in regions where only conductors at 0 V are. -/
theorem charge_shielded (hw : WellPosed A T.fem mats) (hs : Separate T.fem mats) (hseg : ∀ s ∈ T.segs, IsSide T s.a s.b)
    {tag : Int} {V : Int → 𝕜} {t : SolverSolution T.fem} (ht : PrescribedField A T.fem mats b V t)
    (hV : ∀ p ∈ mats.pecs, ShareRegion T tag p.tag → V p.tag = 0) : chargeOn t tag = 0 := by
  have h := (field_shielded hw hs hseg ht (S := Touched T tag) (fun v w h => touched_adjacent h)
    (fun p hp v ⟨w, h1, h2⟩ ho => hV p hp ⟨w, v, h1, ho, h2⟩)).2
  rw [chargeOn_part (t' := ⟨fun _ => 0, fun _ => 0, fun _ => 0⟩) (S := Touched T tag) (fun v hv => ⟨v, hv, .refl⟩) h]
  simp [chargeOn, outwardFlux, scalarAt]

/-- Materials in regions that the two conductors do not both touch do not matter. -/
theorem charge_elsewhere (hw : WellPosed A T.fem mats) (hw' : WellPosed A T.fem mats') (hs : Separate T.fem mats)
    (hpec : mats'.pecs = mats.pecs) (hopen : mats'.openBoundaries = mats.openBoundaries)
    (hseg : ∀ s ∈ T.segs, IsSide T s.a s.b) {tag tag' : Int}
    (heps : ∀ x ∈ T.tris, Sees T tag x → Sees T tag' x → declaredEps mats b x.attr = declaredEps mats' b' x.attr)
    {t t' : SolverSolution T.fem} (ht : PrescribedField A T.fem mats b (oneVolt tag') t)
    (ht' : PrescribedField A T.fem mats' b' (oneVolt tag') t') : chargeOn t tag = chargeOn t' tag := by
  have hs' : Separate T.fem mats' := by
    unfold Separate
    rw [hpec]
    exact hs
  have hS1 : ∀ v w, Adjacent T v w → ¬ Touched T tag' v → ¬ Touched T tag' w := fun v w h h1 h2 =>
    h1 ((touched_iff h).mpr h2)
  have hV : ∀ (p : PEC 𝕜) (v : Fin T.nv), ¬ Touched T tag' v → OnTag T p.tag v → oneVolt tag' p.tag = (0 : 𝕜) := by
    intro p v h ho
    unfold oneVolt
    rw [if_neg]
    rintro rfl
    exact h ⟨v, ho, .refl⟩
  have h1 := (field_shielded hw hs hseg ht hS1 (fun p _ v => hV p v)).2
  have h1' := (field_shielded hw' hs' hseg ht' hS1 (fun p _ v => hV p v)).2
  have hS2 : ∀ v w, Adjacent T v w → (Touched T tag v ∧ Touched T tag' v) → Touched T tag w ∧ Touched T tag' w :=
    fun v w h hv => ⟨touched_adjacent h hv.1, touched_adjacent h hv.2⟩
  have h2 := (isolated_fields (partOf_isolated hS2 hseg) hw hs hpec hopen (fun q hq ho => by
    obtain ⟨x, hx, e, ⟨v, hv, hr⟩, w, hw, hr'⟩ := partOf_outside hS2 hq ho
    rw [e]
    exact heps x hx ⟨v, x.a, hv, Or.inl rfl, hr⟩ ⟨w, x.a, hw, Or.inl rfl, hr'⟩) (fun p _ k _ _ => rfl) ht ht').2.2
  refine chargeOn_part (S := Touched T tag) (fun v hv => ⟨v, hv, .refl⟩) fun k hk => ?_
  by_cases h : Touched T tag' (T.edges[k]'k.2).1
  · exact h2 k ⟨hk, h⟩
  · rw [h1 k h, h1' k h]

end

end Tulip
