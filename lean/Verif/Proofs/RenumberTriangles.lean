import Verif.Proofs.Triangles
import Verif.Proofs.Renumber
import Mathlib.Data.List.Perm.Basic
import Mathlib.Data.List.NodupEquivFin

/-!
# Meshes of triangles with other numbers
-/

set_option linter.unusedSectionVars false

namespace Tulip
open Spec

/-! ## Lists -/

/-- Lists with the same keys up to order can be put side by side. -/
theorem perm_pairs {α β γ : Type} {f : α → γ} {g : β → γ} {l : List α} {m : List β} (h : (l.map f).Perm (m.map g)) :
    ∃ m', List.Forall₂ (fun a b => f a = g b) l m' ∧ m'.Perm m := by
  have h2 : List.Forall₂ (fun x b => x = g b) (m.map g) m := by
    rw [List.forall₂_map_left_iff]
    exact List.forall₂_same.mpr fun _ _ => rfl
  obtain ⟨m', h3, h4⟩ := List.perm_comp_forall₂ h h2
  rw [List.forall₂_map_left_iff] at h3
  exact ⟨m', h3, h4⟩

theorem flatMap_pairs {α β γ : Type} {R : α → β → Prop} {F : α → List γ} {G : β → List γ} {l : List α} {m : List β}
    (h : List.Forall₂ R l m) (hFG : ∀ a ∈ l, ∀ b ∈ m, R a b → (F a).Perm (G b)) : (l.flatMap F).Perm (m.flatMap G) := by
  induction h with
  | nil => exact .refl _
  | cons hab _ ih =>
    rw [List.flatMap_cons, List.flatMap_cons]
    exact (hFG _ List.mem_cons_self _ List.mem_cons_self hab).append
      (ih fun a ha b hb => hFG a (List.mem_cons_of_mem _ ha) b (List.mem_cons_of_mem _ hb))

theorem perm_flatMap {α β γ δ : Type} {f : α → γ} {g : β → γ} {l : List α} {m : List β} (h : (l.map f).Perm (m.map g))
    {F : α → List δ} {G : β → List δ} (hFG : ∀ a ∈ l, ∀ b ∈ m, f a = g b → (F a).Perm (G b)) :
    (l.flatMap F).Perm (m.flatMap G) := by
  obtain ⟨m', h1, h2⟩ := perm_pairs h
  exact (flatMap_pairs h1 fun a ha b hb => hFG a ha b (h2.mem_iff.mp hb)).trans (h2.flatMap_right G)

theorem cycle3 {α : Type} {a b c x y z : α} (h : ([a, b, c] : Cycle α) = ([x, y, z] : Cycle α)) :
    (a = x ∧ b = y ∧ c = z) ∨ (a = y ∧ b = z ∧ c = x) ∨ (a = z ∧ b = x ∧ c = y) := by
  obtain ⟨n, h⟩ := Cycle.coe_eq_coe.mp h
  rw [← List.rotate_mod] at h
  have : n % [a, b, c].length < 3 := Nat.mod_lt _ (by simp)
  revert h this
  generalize n % [a, b, c].length = k
  intro h hk
  match k, hk with
  | 0, _ => simp at h; tauto
  | 1, _ => simp [List.rotate] at h; tauto
  | 2, _ => simp [List.rotate] at h; tauto

theorem cycle3_map {α : Type} {a b c : α} : ([b, c, a] : Cycle α) = ([a, b, c] : Cycle α) :=
  Cycle.coe_eq_coe.mpr (List.IsRotated.symm ⟨1, rfl⟩)

/-! ## Turning a triangle -/

section
variable {𝕜 : Type} [Field 𝕜]

/-- the triangle listed from its second vertex on -/
def Tri.turn {nv : Nat} (t : Tri nv) : Tri nv := ⟨t.attr, t.b, t.c, t.a⟩

variable {T : Triangulation 𝕜}

theorem det_turn (t : Tri T.nv) : T.det t.turn = T.det t := by
  unfold Triangulation.det Tri.turn
  ring

theorem hat_turn {t : Tri T.nv} (h : T.det t ≠ 0) (x y z : 𝕜) : T.hat t.turn x y z = T.hat t z x y := by
  obtain ⟨h1, h2, h3⟩ := det_ne h
  funext k
  unfold Triangulation.hat Tri.turn
  by_cases ka : k = t.a
  · subst ka; simp [h1, h3.symm]
  · simp [ka]

theorem gradHat_turn {t : Tri T.nv} (h : T.det t ≠ 0) : T.gradHat t.turn = T.gradHat t := by
  obtain ⟨h1, h2, h3⟩ := det_ne h
  funext k
  unfold Triangulation.gradHat
  rw [det_turn]
  unfold Tri.turn
  by_cases ka : k = t.a
  · subst ka; simp [h1, h3.symm]
  · simp [ka]

theorem point_turn {t : Tri T.nv} (h : T.det t ≠ 0) (x y z : 𝕜) : T.point t.turn x y z = T.point t z x y := by
  unfold Triangulation.point Triangulation.whitney
  rw [hat_turn h, gradHat_turn h, det_turn]
  rfl

/-- the quadrature points of a triangle -/
def Triangulation.points (T : Triangulation 𝕜) (t : Tri T.nv) : List (DomPt 𝕜 T.nv T.edges.length T.edges.length) :=
  [T.point t (1/2) (1/2) 0, T.point t 0 (1/2) (1/2), T.point t (1/2) 0 (1/2)]

/-- the quadrature points of a segment -/
def Triangulation.segPoints (T : Triangulation 𝕜) (s : Seg 𝕜 T.nv) : List (BdrPt 𝕜 T.nv T.edges.length) :=
  [T.segPoint s 1 0 (1/6), T.segPoint s (1/2) (1/2) (4/6), T.segPoint s 0 1 (1/6)]

theorem points_turn {t : Tri T.nv} (h : T.det t ≠ 0) : (T.points t.turn).Perm (T.points t) := by
  unfold Triangulation.points
  rw [point_turn h, point_turn h, point_turn h]
  exact (List.perm_append_comm (l₁ := [T.point t 0 (1/2) (1/2), T.point t (1/2) 0 (1/2)]) (l₂ := [T.point t (1/2) (1/2) 0]))

theorem points_cycle {s t : Tri T.nv} (h : T.det t ≠ 0) (ha : s.attr = t.attr)
    (hc : ([s.a, s.b, s.c] : Cycle (Fin T.nv)) = ([t.a, t.b, t.c] : Cycle (Fin T.nv))) :
    T.det s = T.det t ∧ (T.points s).Perm (T.points t) := by
  obtain ⟨sa, s1, s2, s3⟩ := s
  obtain ⟨ta, t1, t2, t3⟩ := t
  simp only at ha hc
  subst ha
  rcases cycle3 hc with ⟨rfl, rfl, rfl⟩ | ⟨rfl, rfl, rfl⟩ | ⟨rfl, rfl, rfl⟩
  · exact ⟨rfl, .refl _⟩
  · exact ⟨det_turn ⟨sa, s3, s1, s2⟩, points_turn h⟩
  · have h1 := det_turn (T := T) ⟨sa, s2, s3, s1⟩
    have h2 := det_turn (T := T) (Tri.turn ⟨sa, s2, s3, s1⟩)
    exact ⟨h2.trans h1, (points_turn (by rw [h1]; exact h)).trans (points_turn h)⟩

/-! ## Edges -/

/-- an edge from the lower to the higher vertex -/
def upward {n : Nat} (e : Fin n × Fin n) : Fin n × Fin n := if e.1 ≤ e.2 then e else (e.2, e.1)

theorem upward_swap {n : Nat} (e : Fin n × Fin n) : upward e.swap = upward e := by
  obtain ⟨v, w⟩ := e
  simp only [upward, Prod.swap]
  split <;> split
  · next h1 h2 => rw [le_antisymm h1 h2]
  · rfl
  · rfl
  · next h1 h2 => exact absurd (le_total v w) (not_or.mpr ⟨h2, h1⟩)

theorem upward_cases {n : Nat} (e : Fin n × Fin n) : upward e = e ∨ (upward e = e.swap ∧ e.1 ≠ e.2) := by
  unfold upward
  split
  · exact .inl rfl
  · next h => exact .inr ⟨rfl, fun e => h e.le⟩

theorem upward_of_le {n : Nat} {e : Fin n × Fin n} (h : e.1 ≤ e.2) : upward e = e := if_pos h

theorem mem_edges' {e : Fin T.nv × Fin T.nv} : e ∈ T.edges ↔ ∃ v w, IsSide T v w ∧ e = upward (v, w) := by
  rw [mem_edges]
  constructor
  · rintro ⟨t, ht, s, hs, rfl⟩
    exact ⟨s.1, s.2, ⟨t, ht, hs⟩, rfl⟩
  · rintro ⟨v, w, ⟨t, ht, hs⟩, rfl⟩
    exact ⟨t, ht, _, hs, rfl⟩

section
variable {T' : Triangulation 𝕜} {σ : Fin T.nv ≃ Fin T'.nv} (h : Renumbered T T' σ)
include h

theorem Spec.Renumbered.side (v w : Fin T.nv) : IsSide T' (σ v) (σ w) ↔ IsSide T v w := by
  constructor
  · rintro ⟨t', ht', hs⟩
    obtain ⟨t, ht, e⟩ := List.mem_map.mp (h.tris.mem_iff.mp (List.mem_map_of_mem ht'))
    refine ⟨t, ht, ?_⟩
    simp only [Tri.sides, List.mem_cons, Prod.mk.injEq, List.not_mem_nil, or_false] at hs ⊢
    rcases cycle3 (Prod.mk.inj e).2 with ⟨e1, e2, e3⟩ | ⟨e1, e2, e3⟩ | ⟨e1, e2, e3⟩ <;>
    · simp only [← e1, ← e2, ← e3, σ.injective.eq_iff] at hs
      tauto
  · rintro ⟨t, ht, hs⟩
    obtain ⟨t', ht', e⟩ := List.mem_map.mp (h.tris.symm.mem_iff.mp (List.mem_map_of_mem ht))
    refine ⟨t', ht', ?_⟩
    simp only [Tri.sides, List.mem_cons, Prod.mk.injEq, List.not_mem_nil, or_false] at hs ⊢
    rcases cycle3 (Prod.mk.inj e).2 with ⟨e1, e2, e3⟩ | ⟨e1, e2, e3⟩ | ⟨e1, e2, e3⟩ <;>
    · simp only [e1, e2, e3, σ.injective.eq_iff]
      tauto

theorem Spec.Renumbered.edge_mem {e : Fin T.nv × Fin T.nv} (he : e ∈ T.edges) : upward (σ e.1, σ e.2) ∈ T'.edges := by
  obtain ⟨v, w, hs, rfl⟩ := mem_edges'.mp he
  refine mem_edges'.mpr ⟨σ v, σ w, (h.side v w).mpr hs, ?_⟩
  rcases upward_cases (v, w) with e | ⟨e, _⟩
  · rw [e]
  · rw [e]; exact upward_swap (σ v, σ w)

theorem Spec.Renumbered.edge_mem' {e : Fin T'.nv × Fin T'.nv} (he : e ∈ T'.edges) :
    upward (σ.symm e.1, σ.symm e.2) ∈ T.edges := by
  obtain ⟨v, w, hs, rfl⟩ := mem_edges'.mp he
  refine mem_edges'.mpr ⟨σ.symm v, σ.symm w, (h.side _ _).mp (by simpa using hs), ?_⟩
  rcases upward_cases (v, w) with e | ⟨e, _⟩
  · rw [e]
  · rw [e]; exact upward_swap (σ.symm v, σ.symm w)

end

theorem upward_map {n m : Nat} (τ : Fin n ≃ Fin m) {e : Fin n × Fin n} (h : e.1 ≤ e.2) :
    upward (τ.symm (upward (τ e.1, τ e.2)).1, τ.symm (upward (τ e.1, τ e.2)).2) = e := by
  rcases upward_cases (τ e.1, τ e.2) with k | ⟨k, _⟩
  · rw [k]; simpa using upward_of_le h
  · rw [k]
    have : (τ.symm ((τ e.1, τ e.2) : Fin m × Fin m).swap.1, τ.symm ((τ e.1, τ e.2) : Fin m × Fin m).swap.2) = e.swap := by
      simp [Prod.swap]
    rw [this, upward_swap, upward_of_le h]

/-- how edges correspond -/
def edgeEquiv {T' : Triangulation 𝕜} {σ : Fin T.nv ≃ Fin T'.nv} (h : Renumbered T T' σ) :
    {e // e ∈ T.edges} ≃ {e // e ∈ T'.edges} where
  toFun e := ⟨upward (σ e.1.1, σ e.1.2), h.edge_mem e.2⟩
  invFun e := ⟨upward (σ.symm e.1.1, σ.symm e.1.2), h.edge_mem' e.2⟩
  left_inv e := Subtype.ext (upward_map σ (edges_le e.2))
  right_inv e := Subtype.ext (upward_map σ.symm (edges_le e.2))

/-- how degrees of freedom on edges correspond -/
def edgeIndex {T' : Triangulation 𝕜} {σ : Fin T.nv ≃ Fin T'.nv} (h : Renumbered T T' σ) :
    Fin T.edges.length ≃ Fin T'.edges.length :=
  (List.Nodup.getEquiv _ edges_nodup).trans ((edgeEquiv h).trans (List.Nodup.getEquiv _ edges_nodup).symm)

theorem edgeIndex_spec {T' : Triangulation 𝕜} {σ : Fin T.nv ≃ Fin T'.nv} (h : Renumbered T T' σ)
    (k : Fin T.edges.length) : T'.edges[edgeIndex h k] = upward (σ (T.edges[k]).1, σ (T.edges[k]).2) := by
  have := congrArg Subtype.val ((List.Nodup.getEquiv _ (edges_nodup (T := T'))).apply_symm_apply
    (edgeEquiv h (List.Nodup.getEquiv _ edges_nodup k)))
  exact this

open Classical in
/-- 1 if the edge keeps its direction, -1 otherwise -/
noncomputable def edgeTurn {T' : Triangulation 𝕜} {σ : Fin T.nv ≃ Fin T'.nv} (_ : Renumbered T T' σ) (k : Fin T.edges.length) : 𝕜 :=
  if σ (T.edges[k]).1 ≤ σ (T.edges[k]).2 then 1 else -1

/-- The correspondence of the degrees of freedom. -/
noncomputable def triRenaming {T' : Triangulation 𝕜} {σ : Fin T.nv ≃ Fin T'.nv} (h : Renumbered T T' σ) : Renaming T.fem T'.fem where
  node := σ
  edge := edgeIndex h
  flux := edgeIndex h
  edgeSign := edgeTurn h
  fluxSign := edgeTurn h

theorem edgeTurn_spec {T' : Triangulation 𝕜} {σ : Fin T.nv ≃ Fin T'.nv} (h : Renumbered T T' σ) (k : Fin T.edges.length) :
    (T'.edges[edgeIndex h k] = (σ (T.edges[k]).1, σ (T.edges[k]).2) ∧ edgeTurn h k = 1) ∨
    (T'.edges[edgeIndex h k] = (σ (T.edges[k]).2, σ (T.edges[k]).1) ∧ edgeTurn h k = -1 ∧ (T.edges[k]).1 ≠ (T.edges[k]).2) := by
  rw [edgeIndex_spec]
  unfold edgeTurn upward
  split
  · exact .inl ⟨rfl, rfl⟩
  · next hn => exact .inr ⟨rfl, rfl, fun e => hn (by rw [e])⟩

/-! ## Points -/

section
variable {T' : Triangulation 𝕜} {σ : Fin T.nv ≃ Fin T'.nv} (h : Renumbered T T' σ)

/-- values at a point of the renumbered mesh, for corresponding degrees of freedom -/
def domKey' (q : DomPt 𝕜 T'.nv T'.edges.length T'.edges.length) : Int × 𝕜 × (Fin T.nv → 𝕜) × (Fin T.nv → 𝕜 × 𝕜) ×
    (Fin T.edges.length → 𝕜 × 𝕜) × (Fin T.edges.length → 𝕜 × 𝕜) :=
  (q.attr, q.w, fun k => q.N (σ k), fun k => q.gradN (σ k), fun k => q.W (edgeIndex h k), fun k => q.R (edgeIndex h k))

/-- values at a point, up to direction -/
noncomputable def domKey (q : DomPt 𝕜 T.nv T.edges.length T.edges.length) : Int × 𝕜 × (Fin T.nv → 𝕜) × (Fin T.nv → 𝕜 × 𝕜) ×
    (Fin T.edges.length → 𝕜 × 𝕜) × (Fin T.edges.length → 𝕜 × 𝕜) :=
  (q.attr, q.w, q.N, q.gradN, fun k => edgeTurn h k • q.W k, fun k => edgeTurn h k • q.R k)

/-- values at a boundary point of the renumbered mesh -/
def bdrKey' (q : BdrPt 𝕜 T'.nv T'.edges.length) : Int × 𝕜 × (𝕜 × 𝕜) × (Fin T.nv → 𝕜) × (Fin T.edges.length → 𝕜) :=
  (q.attr, q.w, q.pos, fun k => q.N (σ k), fun k => q.fl (edgeIndex h k))

/-- values at a boundary point, up to direction -/
noncomputable def bdrKey (q : BdrPt 𝕜 T.nv T.edges.length) : Int × 𝕜 × (𝕜 × 𝕜) × (Fin T.nv → 𝕜) × (Fin T.edges.length → 𝕜) :=
  (q.attr, q.w, q.pos, q.N, fun k => edgeTurn h k * q.fl k)

end

/-- the triangle with other numbers -/
def Tri.renumber {n m : Nat} (σ : Fin n ≃ Fin m) (t : Tri n) : Tri m := ⟨t.attr, σ t.a, σ t.b, σ t.c⟩

section
variable {T' : Triangulation 𝕜} {σ : Fin T.nv ≃ Fin T'.nv} (h : Renumbered T T' σ)
include h

theorem det_renumber (t : Tri T.nv) : T'.det (t.renumber σ) = T.det t := by
  unfold Triangulation.det Tri.renumber
  simp only [h.coord]

theorem hat_renumber (t : Tri T.nv) (x y z : 𝕜) (k : Fin T.nv) : T'.hat (t.renumber σ) x y z (σ k) = T.hat t x y z k := by
  unfold Triangulation.hat Tri.renumber
  simp only [σ.injective.eq_iff]

theorem gradHat_renumber (t : Tri T.nv) (k : Fin T.nv) : T'.gradHat (t.renumber σ) (σ k) = T.gradHat t k := by
  unfold Triangulation.gradHat
  rw [det_renumber h]
  unfold Tri.renumber
  simp only [σ.injective.eq_iff, h.coord]

theorem whitney_renumber (t : Tri T.nv) (x y z : 𝕜) (k : Fin T.edges.length) :
    T'.whitney (t.renumber σ) x y z T'.edges[edgeIndex h k] = edgeTurn h k • T.whitney t x y z T.edges[k] := by
  have e : ∀ v w, T'.whitney (t.renumber σ) x y z (σ v, σ w) = T.whitney t x y z (v, w) := by
    intro v w
    unfold Triangulation.whitney
    simp only [hat_renumber h, gradHat_renumber h]
  rcases edgeTurn_spec h k with ⟨e1, e2⟩ | ⟨e1, e2, _⟩
  · rw [e1, e2, e, one_smul]
  · rw [e1, e2, e, whitney_swap, neg_one_smul]
    rfl

theorem point_renumber (t : Tri T.nv) (x y z : 𝕜) :
    domKey' h (T'.point (t.renumber σ) x y z) = domKey h (T.point t x y z) := by
  simp only [domKey, domKey', Triangulation.point, Prod.mk.injEq]
  refine ⟨rfl, by rw [det_renumber h], funext fun k => hat_renumber h t x y z k, funext fun k => gradHat_renumber h t k,
    funext fun k => whitney_renumber h t x y z k, funext fun k => ?_⟩
  rw [whitney_renumber h]
  simp

theorem segPoint_renumber (s : Seg 𝕜 T.nv) (x y f : 𝕜) :
    bdrKey' h (T'.segPoint ⟨s.attr, σ s.a, σ s.b, s.len⟩ x y f) = bdrKey h (T.segPoint s x y f) := by
  simp only [bdrKey, bdrKey', Triangulation.segPoint, Prod.mk.injEq, h.coord, σ.injective.eq_iff, true_and]
  funext k
  rcases edgeTurn_spec h k with ⟨e1, e2⟩ | ⟨e1, e2, hne⟩
  · rw [e1, e2, one_mul]
    simp only [σ.injective.eq_iff, Prod.ext_iff]
  · rw [e1, e2]
    simp only [σ.injective.eq_iff, Prod.ext_iff]
    by_cases c1 : (T.edges[k]).2 = s.a ∧ (T.edges[k]).1 = s.b
    · have c2 : ¬ ((T.edges[k]).1 = s.a ∧ (T.edges[k]).2 = s.b) := fun c2 => hne (c2.1.trans c1.1.symm)
      rw [if_pos c1, if_neg c2, if_pos ⟨c1.2, c1.1⟩]
      ring
    · rw [if_neg c1]
      by_cases c2 : (T.edges[k]).1 = s.a ∧ (T.edges[k]).2 = s.b
      · rw [if_pos ⟨c2.2, c2.1⟩, if_pos c2]; ring
      · rw [if_neg fun c => c2 ⟨c.2, c.1⟩, if_neg c2, if_neg fun c => c1 ⟨c.2, c.1⟩]; ring

theorem tri_bdrElems : ((T'.segs.map (fun s => (s.attr, [s.a, s.b]))).map (fun b => (b.1, (b.2 : Multiset (Fin T'.nv))))).Perm
    ((T.segs.map (fun s => (s.attr, [s.a, s.b]))).map (fun b => (b.1, (b.2.map σ : Multiset (Fin T'.nv))))) := by
  have := h.segs.map (fun x => (x.1, (([x.2.1, x.2.2.1] : List (Fin T'.nv)) : Multiset (Fin T'.nv))))
  rw [List.map_map, List.map_map] at this ⊢
  exact this

theorem tri_dom (hd : ∀ t ∈ T.tris, T.det t ≠ 0) :
    ((T'.tris.flatMap T'.points).map (domKey' h)).Perm ((T.tris.flatMap T.points).map (domKey h)) := by
  rw [List.map_flatMap, List.map_flatMap]
  refine perm_flatMap h.tris fun t' ht' t ht e => ?_
  obtain ⟨e1, e2⟩ := Prod.mk.inj e
  have hp := (points_cycle (T := T') (s := t') (t := t.renumber σ) (by rw [det_renumber h]; exact hd t ht) e1 e2).2
  refine (hp.map _).trans (List.Perm.of_eq ?_)
  simp only [Triangulation.points, List.map_cons, List.map_nil, point_renumber h]

theorem tri_bdr : ((T'.segs.flatMap T'.segPoints).map (bdrKey' h)).Perm ((T.segs.flatMap T.segPoints).map (bdrKey h)) := by
  rw [List.map_flatMap, List.map_flatMap]
  refine perm_flatMap h.segs fun s' hs' s hs e => ?_
  have e : s' = ⟨s.attr, σ s.a, σ s.b, s.len⟩ := by
    obtain ⟨a, b, c, d⟩ := s'
    simpa using e
  subst e
  refine List.Perm.of_eq ?_
  simp only [Triangulation.segPoints, List.map_cons, List.map_nil, segPoint_renumber h]

theorem tri_grad (k : Fin T.edges.length) (i : Fin T.nv) :
    (if σ i = (T'.edges[edgeIndex h k]).2 then (1 : 𝕜) else 0) - (if σ i = (T'.edges[edgeIndex h k]).1 then 1 else 0) =
      edgeTurn h k * ((if i = (T.edges[k]).2 then 1 else 0) - (if i = (T.edges[k]).1 then 1 else 0)) := by
  rcases edgeTurn_spec h k with ⟨e1, e2⟩ | ⟨e1, e2, _⟩
  · rw [e1, e2]; simp only [σ.injective.eq_iff]; ring
  · rw [e1, e2]; simp only [σ.injective.eq_iff]; ring

/-- The discretisations have corresponding degrees of freedom. -/
theorem renumbered_discretisation (hd : ∀ t ∈ T.tris, T.det t ≠ 0) : SameDiscretisation (triRenaming h) where
  edgeSign k := by
    rcases edgeTurn_spec h k with ⟨_, e⟩ | ⟨_, e, _⟩
    · exact .inl e
    · exact .inr e
  fluxSign k := by
    rcases edgeTurn_spec h k with ⟨_, e⟩ | ⟨_, e, _⟩
    · exact .inl e
    · exact .inr e
  bdrAttrs a := by
    show a ∈ (T'.segs.map Seg.attr).dedup ↔ a ∈ (T.segs.map Seg.attr).dedup
    rw [List.mem_dedup, List.mem_dedup]
    have := h.segs.map Prod.fst
    rw [List.map_map, List.map_map] at this
    exact this.mem_iff
  domAttrs a := by
    show a ∈ (T'.tris.map Tri.attr).dedup ↔ a ∈ (T.tris.map Tri.attr).dedup
    rw [List.mem_dedup, List.mem_dedup]
    have := h.tris.map Prod.fst
    rw [List.map_map, List.map_map] at this
    exact this.mem_iff
  bdrElems := tri_bdrElems h
  node := h.coord
  dom := tri_dom h hd
  bdr := tri_bdr h
  grad := tri_grad h

end
/-! ## The mesh -/

/-- the numbers as integers -/
def nameOf {n m : Nat} (σ : Fin n ≃ Fin m) (v : Int) : Int := if h : v.toNat < n then (σ ⟨v.toNat, h⟩).1 else v

theorem nameOf_fin {n m : Nat} (σ : Fin n ≃ Fin m) (v : Fin n) : nameOf σ (v.1 : Int) = ((σ v).1 : Int) := by
  unfold nameOf
  have : ((v.1 : Int)).toNat < n := by simp
  rw [dif_pos this]
  congr

theorem mesh_vertex {v : Int} (h : IsMeshVertex T.toMesh v) : ∃ k : Fin T.nv, v = k.1 := by
  obtain ⟨e, he, hv⟩ := h
  rcases List.mem_append.mp he with he | he
  · obtain ⟨t, _, rfl⟩ := List.mem_map.mp he
    simp only [List.mem_cons, List.not_mem_nil, or_false] at hv
    rcases hv with rfl | rfl | rfl
    exacts [⟨t.a, rfl⟩, ⟨t.b, rfl⟩, ⟨t.c, rfl⟩]
  · obtain ⟨t, _, rfl⟩ := List.mem_map.mp he
    simp only [List.mem_cons, List.not_mem_nil, or_false] at hv
    rcases hv with rfl | rfl
    exacts [⟨t.a, rfl⟩, ⟨t.b, rfl⟩]

theorem coord_fin (k : Fin T.nv) : T.toMesh.coord (k.1 : Int) = T.coord k := by
  show (if h : _ then _ else _) = _
  have : ((k.1 : Int)).toNat < T.nv := by simp
  rw [dif_pos this]
  congr

theorem renumbered_mesh {T' : Triangulation 𝕜} {σ : Fin T.nv ≃ Fin T'.nv} (h : Renumbered T T' σ)
    (hd : ∀ t ∈ T.tris, T.det t ≠ 0) : RenamedMesh (nameOf σ) T.toMesh T'.toMesh where
  different v w hv hw e := by
    obtain ⟨v, rfl⟩ := mesh_vertex hv
    obtain ⟨w, rfl⟩ := mesh_vertex hw
    rw [nameOf_fin, nameOf_fin] at e
    have : v = w := σ.injective (Fin.ext (by exact_mod_cast e))
    rw [this]
  elems := by
    show ((T'.tris.map _).map _).Perm ((T.tris.map _).map _)
    rw [List.map_map, List.map_map, ← List.flatMap_pure_eq_map, ← List.flatMap_pure_eq_map]
    refine perm_flatMap h.tris fun t' ht' t ht e => List.Perm.of_eq ?_
    obtain ⟨e1, e2⟩ := Prod.mk.inj e
    have hv := (points_cycle (T := T') (s := t') (t := t.renumber σ) (by rw [det_renumber h]; exact hd t ht) e1 e2).1
    have hc := congrArg (Cycle.map (fun k : Fin T'.nv => (k.1 : Int))) e2
    simp only [Cycle.map_coe, List.map_cons, List.map_nil] at hc
    show [_] = [_]
    simp only [Function.comp_apply, List.map_cons, List.map_nil, nameOf_fin, hc, e1, hv, det_renumber h]
  bdr := by
    show (T'.segs.map _).Perm ((T.segs.map _).map _)
    rw [List.map_map, ← List.flatMap_pure_eq_map, ← List.flatMap_pure_eq_map]
    refine perm_flatMap h.segs fun s' hs' s hs e => List.Perm.of_eq ?_
    simp only [Prod.mk.injEq] at e
    obtain ⟨e1, e2, e3, e4⟩ := e
    show [_] = [_]
    simp only [Function.comp_apply, List.map_cons, List.map_nil, nameOf_fin, e1, e2, e3, e4]
  coord v hv := by
    obtain ⟨v, rfl⟩ := mesh_vertex hv
    rw [nameOf_fin, coord_fin, coord_fin, h.coord]

end
end Tulip
