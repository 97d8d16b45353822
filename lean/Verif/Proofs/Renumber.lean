import Verif.Proofs.Relabel
import Verif.Proofs.MatrixQueries
import Verif.Proofs.Prescribed

/-!
# Discretisations with other numbers
-/

set_option linter.unusedSectionVars false

namespace Tulip
open Spec Matrix

variable {𝕜 : Type} [Field 𝕜]

theorem vectorAt_reindex {n n' : Nat} (e : Fin n ≃ Fin n') (B : Fin n' → 𝕜 × 𝕜) (u : Fin n' → 𝕜) :
    vectorAt B u = vectorAt (fun k => B (e k)) (fun k => u (e k)) := by
  unfold vectorAt
  exact Prod.ext (Equiv.sum_comp e (fun k => u k * (B k).1)).symm (Equiv.sum_comp e (fun k => u k * (B k).2)).symm

theorem scalarAt_reindex {n n' : Nat} (e : Fin n ≃ Fin n') (B : Fin n' → 𝕜) (u : Fin n' → 𝕜) :
    scalarAt B u = scalarAt (fun k => B (e k)) (fun k => u (e k)) :=
  (Equiv.sum_comp e (fun k => u k * B k)).symm

theorem vectorAt_sign {n : Nat} (s : Fin n → 𝕜) (B : Fin n → 𝕜 × 𝕜) (u : Fin n → 𝕜) :
    vectorAt (fun k => s k • B k) u = vectorAt B (fun k => s k * u k) := by
  refine Prod.ext ?_ ?_
  · show ∑ k, u k * (s k * (B k).1) = ∑ k, s k * u k * (B k).1
    exact Finset.sum_congr rfl fun k _ => by ring
  · show ∑ k, u k * (s k * (B k).2) = ∑ k, s k * u k * (B k).2
    exact Finset.sum_congr rfl fun k _ => by ring

theorem scalarAt_sign {n : Nat} (s : Fin n → 𝕜) (B : Fin n → 𝕜) (u : Fin n → 𝕜) :
    scalarAt (fun k => s k * B k) u = scalarAt B (fun k => s k * u k) :=
  Finset.sum_congr rfl fun k _ => by ring

theorem inner2_smul (c : 𝕜) (a b : 𝕜 × 𝕜) : inner2 (c • a) b = c * inner2 a b := by
  show c * a.1 * b.1 + c * a.2 * b.2 = c * (a.1 * b.1 + a.2 * b.2)
  ring

variable {F F' : FEM 𝕜} {r : Renaming F F'}

theorem Spec.SameDiscretisation.dom_perm {β : Type} (h : SameDiscretisation r)
    (G : Int → 𝕜 → (Fin F.n → 𝕜) → (Fin F.n → 𝕜 × 𝕜) → (Fin F.ne → 𝕜 × 𝕜) → (Fin F.nd → 𝕜 × 𝕜) → β) :
    (F'.dom.map (fun q => G q.attr q.w (fun k => q.N (r.node k)) (fun k => q.gradN (r.node k)) (fun k => q.W (r.edge k))
      (fun k => q.R (r.flux k)))).Perm
    (F.dom.map (fun q => G q.attr q.w q.N q.gradN (fun k => r.edgeSign k • q.W k) (fun k => r.fluxSign k • q.R k))) := by
  have := h.dom.map (fun x => G x.1 x.2.1 x.2.2.1 x.2.2.2.1 x.2.2.2.2.1 x.2.2.2.2.2)
  rw [List.map_map, List.map_map] at this
  exact this

theorem Spec.SameDiscretisation.bdr_perm {β : Type} (h : SameDiscretisation r)
    (G : Int → 𝕜 → 𝕜 × 𝕜 → (Fin F.n → 𝕜) → (Fin F.nd → 𝕜) → β) :
    (F'.bdr.map (fun q => G q.attr q.w q.pos (fun k => q.N (r.node k)) (fun k => q.fl (r.flux k)))).Perm
    (F.bdr.map (fun q => G q.attr q.w q.pos q.N (fun k => r.fluxSign k * q.fl k))) := by
  have := h.bdr.map (fun x => G x.1 x.2.1 x.2.2.1 x.2.2.2.1 x.2.2.2.2)
  rw [List.map_map, List.map_map] at this
  exact this

theorem sum_filter_map {α : Type} (l : List α) (p : α → Bool) (f : α → 𝕜) :
    ((l.filter p).map f).sum = (l.map (fun x => if p x = true then f x else 0)).sum := by
  induction l with
  | nil => rfl
  | cons a t ih =>
    rw [List.map_cons, List.sum_cons, ← ih, List.filter_cons]
    split
    · rw [List.map_cons, List.sum_cons]
    · rw [zero_add]

theorem Spec.SameDiscretisation.bdr_sum (h : SameDiscretisation r) (P : Int → Bool)
    (G : Int → 𝕜 → 𝕜 × 𝕜 → (Fin F.n → 𝕜) → (Fin F.nd → 𝕜) → 𝕜) :
    ((F'.bdr.filter (fun q => P q.attr)).map (fun q => G q.attr q.w q.pos (fun k => q.N (r.node k))
      (fun k => q.fl (r.flux k)))).sum =
    ((F.bdr.filter (fun q => P q.attr)).map (fun q => G q.attr q.w q.pos q.N (fun k => r.fluxSign k * q.fl k))).sum := by
  rw [sum_filter_map, sum_filter_map]
  exact (h.bdr_perm (fun a w p N f => if P a = true then G a w p N f else 0)).sum_eq

theorem Spec.SameDiscretisation.dom_sum (h : SameDiscretisation r) (P : Int → Bool)
    (G : Int → 𝕜 → (Fin F.n → 𝕜) → (Fin F.n → 𝕜 × 𝕜) → (Fin F.ne → 𝕜 × 𝕜) → (Fin F.nd → 𝕜 × 𝕜) → 𝕜) :
    ((F'.dom.filter (fun q => P q.attr)).map (fun q => G q.attr q.w (fun k => q.N (r.node k))
      (fun k => q.gradN (r.node k)) (fun k => q.W (r.edge k)) (fun k => q.R (r.flux k)))).sum =
    ((F.dom.filter (fun q => P q.attr)).map (fun q => G q.attr q.w q.N q.gradN (fun k => r.edgeSign k • q.W k)
      (fun k => r.fluxSign k • q.R k))).sum := by
  rw [sum_filter_map, sum_filter_map]
  exact (h.dom_perm (fun a w N g W R => if P a = true then G a w N g W R else 0)).sum_eq

theorem Spec.SameDiscretisation.edge_sq (h : SameDiscretisation r) (k : Fin F.ne) : r.edgeSign k * r.edgeSign k = 1 := by
  rcases h.edgeSign k with e | e <;> rw [e] <;> ring

theorem Spec.SameDiscretisation.flux_sq (h : SameDiscretisation r) (k : Fin F.nd) : r.fluxSign k * r.fluxSign k = 1 := by
  rcases h.fluxSign k with e | e <;> rw [e] <;> ring

theorem Spec.SameDiscretisation.flux_ne (h : SameDiscretisation r) (k : Fin F.nd) : r.fluxSign k ≠ 0 :=
  fun h0 => by have := h.flux_sq k; rw [h0, mul_zero] at this; exact zero_ne_one this

theorem Spec.SameDiscretisation.onBoundary (h : SameDiscretisation r) (a : Int) (k : Fin F.n) :
    OnBoundary F' a (r.node k) ↔ OnBoundary F a k := by
  constructor
  · rintro ⟨b, hb, ha, hk⟩
    obtain ⟨c, hc, e⟩ := List.mem_map.mp (h.bdrElems.mem_iff.mp (List.mem_map_of_mem hb))
    obtain ⟨e1, e2⟩ := Prod.mk.inj e
    refine ⟨c, hc, e1.trans ha, ?_⟩
    have : r.node k ∈ (c.2.map r.node : Multiset (Fin F'.n)) := by rw [e2]; exact hk
    obtain ⟨k', hk', e⟩ := List.mem_map.mp (show r.node k ∈ c.2.map r.node from this)
    rw [← r.node.injective e]
    exact hk'
  · rintro ⟨b, hb, ha, hk⟩
    obtain ⟨c, hc, e⟩ := List.mem_map.mp (h.bdrElems.mem_iff.mpr (List.mem_map_of_mem hb))
    obtain ⟨e1, e2⟩ := Prod.mk.inj e
    refine ⟨c, hc, e1.trans ha, ?_⟩
    have : r.node k ∈ (b.2.map r.node : Multiset (Fin F'.n)) := List.mem_map_of_mem hk
    rw [← e2] at this
    exact this

/-- The coefficients of a field of `F'`, in the numbering of `F`. -/
def Spec.Renaming.back (r : Renaming F F') (t : SolverSolution F') : SolverSolution F where
  phi := fun k => t.phi (r.node k)
  e := fun k => r.edgeSign k * t.e (r.edge k)
  d := fun k => r.fluxSign k * t.d (r.flux k)

theorem weakForm_renamed (h : SameDiscretisation r) (A : Analytic 𝕜) (eps : Int → 𝕜) (opens : List Int)
    (u : Fin F'.n → 𝕜) (i : Fin F.n) :
    weakForm A F' eps opens u (r.node i) = weakForm A F eps opens (fun k => u (r.node k)) i := by
  unfold weakForm
  congr 1
  · refine Eq.trans ?_ (h.dom_perm (fun a w _ g _ _ => w * eps a * inner2 (g i) (vectorAt g (fun k => u (r.node k))))).sum_eq
    exact congrArg List.sum (List.map_congr_left fun q _ => by rw [vectorAt_reindex r.node])
  · refine Eq.trans ?_ (h.bdr_sum (fun a => decide (a ∈ opens))
      (fun _ w p N _ => w * A.abc p * (N i * scalarAt N (fun k => u (r.node k)))))
    exact congrArg List.sum (List.map_congr_left fun q _ => by rw [scalarAt_reindex r.node])

theorem projection_renamed (h : SameDiscretisation r) (d : Fin F'.nd → 𝕜) (k : Fin F.nd) :
    (F'.dom.map (fun q => q.w * inner2 (q.R (r.flux k)) (vectorAt q.R d))).sum =
      r.fluxSign k * (F.dom.map (fun q => q.w * inner2 (q.R k) (vectorAt q.R (fun k => r.fluxSign k * d (r.flux k))))).sum := by
  refine Eq.trans ?_ ((h.dom_perm (fun _ w _ _ _ R => w * inner2 (R k) (vectorAt R (fun k => d (r.flux k))))).sum_eq.trans ?_)
  · exact congrArg List.sum (List.map_congr_left fun q _ => by rw [vectorAt_reindex r.flux])
  · rw [← List.sum_map_mul_left]
    refine congrArg List.sum (List.map_congr_left fun q _ => ?_)
    rw [inner2_smul, vectorAt_sign]
    ring

theorem displacement_renamed (h : SameDiscretisation r) (eps : Int → 𝕜) (e : Fin F'.ne → 𝕜) (d : Fin F'.nd → 𝕜) :
    Displacement F' eps e d ↔
      Displacement F eps (fun k => r.edgeSign k * e (r.edge k)) (fun k => r.fluxSign k * d (r.flux k)) := by
  unfold Displacement
  rw [← r.flux.forall_congr_right]
  refine forall_congr' fun k => ?_
  rw [projection_renamed h]
  have h2 : (F'.dom.map (fun q => q.w * eps q.attr * inner2 (q.R (r.flux k)) (vectorAt q.W e))).sum =
      r.fluxSign k * (F.dom.map (fun q => q.w * eps q.attr *
        inner2 (q.R k) (vectorAt q.W (fun k => r.edgeSign k * e (r.edge k))))).sum := by
    refine Eq.trans ?_ ((h.dom_perm (fun a w _ _ W R => w * eps a * inner2 (R k) (vectorAt W (fun k => e (r.edge k))))).sum_eq.trans ?_)
    · exact congrArg List.sum (List.map_congr_left fun q _ => by rw [vectorAt_reindex r.edge])
    · rw [← List.sum_map_mul_left]
      refine congrArg List.sum (List.map_congr_left fun q _ => ?_)
      rw [inner2_smul, vectorAt_sign]
      ring
  rw [h2]
  exact mul_right_inj' (h.flux_ne k)

theorem field_renamed (h : SameDiscretisation r) {A : Analytic 𝕜} {mats : Materials 𝕜} {b : Bool} {V : Int → 𝕜}
    {t : SolverSolution F'} (ht : PrescribedField A F' mats b V t) : PrescribedField A F mats b V (r.back t) where
  values k c hk hc := by
    refine ht.values (r.node k) c ?_ ?_
    · obtain ⟨p, hp, ho⟩ := hk
      exact ⟨p, hp, (h.onBoundary _ _).mpr ho⟩
    · exact fun p hp ho => hc p hp ((h.onBoundary _ _).mp ho)
  equations k hk := (weakForm_renamed h A _ _ t.phi k).symm.trans
    (ht.equations (r.node k) fun p hp ho => hk p hp ((h.onBoundary _ _).mp ho))
  e k := by
    show r.edgeSign k * t.e (r.edge k) = _
    rw [ht.e, ← Equiv.sum_comp r.node, mul_neg, Finset.mul_sum]
    congr 1
    refine Finset.sum_congr rfl fun i _ => ?_
    rw [h.grad]
    show _ = F.grad k i * t.phi (r.node i)
    linear_combination F.grad k i * t.phi (r.node i) * h.edge_sq k
  d := (displacement_renamed h _ _ _).mp ht.d

theorem wellPosed_renamed (h : SameDiscretisation r) {A : Analytic 𝕜} {mats : Materials 𝕜} (hw : WellPosed A F mats) :
    WellPosed A F' mats where
  unique b u h0 h1 := by
    rw [← r.node.forall_congr_right]
    refine hw.unique b (fun k => u (r.node k)) ?_ ?_
    · rintro k ⟨p, hp, ho⟩
      exact h0 _ ⟨p, hp, (h.onBoundary _ _).mpr ho⟩
    · intro k hk
      rw [← weakForm_renamed h]
      refine h1 _ fun ⟨p, hp, ho⟩ => hk ⟨p, hp, (h.onBoundary _ _).mp ho⟩
  diagonal b := by
    rw [← r.node.forall_congr_right]
    rintro k ⟨p, hp, ho⟩
    rw [weakForm_renamed h]
    have e : (fun j => if r.node j = r.node k then (1 : 𝕜) else 0) = fun j => if j = k then 1 else 0 := by
      funext j
      simp only [r.node.injective.eq_iff]
    rw [e]
    exact hw.diagonal b k ⟨p, hp, (h.onBoundary _ _).mp ho⟩
  projection d hd := by
    rw [← r.flux.forall_congr_right]
    have := hw.projection (fun k => r.fluxSign k * d (r.flux k)) (fun k => by
      have := hd (r.flux k)
      rw [projection_renamed h] at this
      exact (mul_eq_zero.mp this).resolve_left (h.flux_ne k))
    exact fun k => (mul_eq_zero.mp (this k)).resolve_left (h.flux_ne k)

theorem separate_renamed (h : SameDiscretisation r) {mats : Materials 𝕜} (hs : Separate F mats) : Separate F' mats := by
  intro p hp q hq
  rw [← r.node.forall_congr_right]
  intro k h1 h2
  exact hs p hp q hq k ((h.onBoundary _ _).mp h1) ((h.onBoundary _ _).mp h2)

theorem buildable_renamed (h : SameDiscretisation r) {mats : Materials 𝕜} (hB : Buildable F mats) : Buildable F' mats where
  bdr := by
    refine ⟨?_, fun a ha => hB.bdr.2 a ((h.bdrAttrs a).mp ha)⟩
    intro b hb
    obtain ⟨c, hc, e⟩ := List.mem_map.mp (h.bdrElems.mem_iff.mp (List.mem_map_of_mem hb))
    rw [h.bdrAttrs, ← (Prod.mk.inj e).1]
    exact hB.bdr.1 c hc
  bdrAttrs := by
    obtain ⟨a, ha⟩ := List.exists_mem_of_ne_nil _ hB.bdrAttrs
    exact List.ne_nil_of_mem ((h.bdrAttrs a).mpr ha)
  points := by
    intro q hq
    obtain ⟨c, hc, e⟩ := List.mem_map.mp (h.bdr.mem_iff.mp (List.mem_map_of_mem hq))
    rw [← (Prod.mk.inj e).1]
    exact hB.points c hc
  pecs := hB.pecs
  opens := hB.opens
  names := hB.names
  dielectrics d hd := by
    obtain ⟨h1, a, ha, h2⟩ := hB.dielectrics d hd
    exact ⟨h1, a, (h.domAttrs a).mpr ha, h2⟩

theorem outwardFlux_renamed (h : SameDiscretisation r) (d : Fin F'.nd → 𝕜) (a : Int) :
    outwardFlux F' d a = outwardFlux F (fun k => r.fluxSign k * d (r.flux k)) a := by
  unfold outwardFlux
  refine Eq.trans ?_ ((h.bdr_sum (fun b => decide (b = a)) (fun _ _ _ _ f => scalarAt f (fun k => d (r.flux k)))).trans ?_)
  · exact congrArg List.sum (List.map_congr_left fun q _ => by rw [scalarAt_reindex r.flux])
  · exact congrArg List.sum (List.map_congr_left fun q _ => by rw [scalarAt_sign])

theorem chargeOn_renamed (h : SameDiscretisation r) (t : SolverSolution F') (a : Int) :
    chargeOn t a = chargeOn (r.back t) a := congrArg Neg.neg (outwardFlux_renamed h t.d a)

end Tulip
