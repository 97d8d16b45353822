import Verif.Proofs.Tiernan
import Verif.Proofs.Split
import Mathlib.Data.List.Rotate
import Mathlib.Data.List.Chain
import Mathlib.Data.List.MinMax
import Mathlib.Data.List.Zip
import Mathlib.Logic.Relation
import Mathlib.Data.List.Duplicate

/-!
# From the machine to elementary cycles
-/

namespace Tulip
open Spec

section cyclic
variable {α : Type _}

theorem cyclicPairs_eq_zip_rotate (c : List α) : cyclicPairs c = c.zip (c.rotate 1) := by
  cases c with
  | nil => rfl
  | cons a t => simp [cyclicPairs]

theorem cyclicPairs_rotate (c : List α) (k : Nat) :
    cyclicPairs (c.rotate k) = (cyclicPairs c).rotate k := by
  rw [cyclicPairs_eq_zip_rotate, cyclicPairs_eq_zip_rotate, List.rotate_rotate, Nat.add_comm k 1,
    ← List.rotate_rotate]
  simp only [List.zip]
  exact (List.zipWith_rotate_distrib _ _ _ _ (by simp)).symm

theorem ElemCycle.rotate {E : List (α × α)} {c : List α} (h : ElemCycle E c) (k : Nat) :
    ElemCycle E (c.rotate k) := by
  refine ⟨by simpa using h.two_le, by simpa using h.nodup, ?_⟩
  intro e he
  rw [cyclicPairs_rotate] at he
  exact h.edges e (by simpa using he)

/-- Consecutive pairs of `a :: t` followed by `b`. -/
theorem zip_pairs_iff_chain (R : α → α → Prop) (t : List α) : ∀ a b,
    (∀ e ∈ (a :: t).zip (t ++ [b]), R e.1 e.2) ↔ List.IsChain R (a :: (t ++ [b])) := by
  induction t with
  | nil => intro a b; simp
  | cons x t ih =>
    intro a b
    simp only [List.cons_append, List.zip_cons_cons, List.mem_cons, forall_eq_or_imp,
      List.isChain_cons_cons]
    rw [ih x b]

theorem cyclicPairs_iff_chain (R : α → α → Prop) (a : α) (t : List α) :
    (∀ e ∈ cyclicPairs (a :: t), R e.1 e.2) ↔ List.IsChain R (a :: (t ++ [a])) := by
  rw [← zip_pairs_iff_chain]
  rfl

theorem cyclicPairs_map {β : Type _} (f : α → β) (c : List α) :
    cyclicPairs (c.map f) = (cyclicPairs c).map (fun e => (f e.1, f e.2)) := by
  cases c with
  | nil => rfl
  | cons a t =>
    rw [cyclicPairs_eq_zip_rotate, cyclicPairs_eq_zip_rotate, ← List.map_rotate, List.zip_map]
    rfl

theorem mem_of_mem_cyclicPairs {c : List α} {e : α × α} (h : e ∈ cyclicPairs c) :
    e.1 ∈ c ∧ e.2 ∈ c := by
  rw [cyclicPairs_eq_zip_rotate] at h
  have := List.of_mem_zip h
  simpa using this

end cyclic

/-- The reversed search paths are exactly the repetition-free chains from the root through larger
vertices. -/
theorem rp_iff (adj : Nat → List Nat) (root : Nat) (rp : List Nat) :
    RP adj root rp ↔ ∃ t, rp = t ++ [root] ∧ rp.Nodup ∧ (∀ x ∈ t, root < x) ∧
      List.IsChain (fun a b => a ∈ adj b) rp := by
  constructor
  · intro h
    induction h with
    | base => exact ⟨[], by simp⟩
    | @step u v rest h1 h2 h3 h4 ih =>
      obtain ⟨t, e, nd, hl, hc⟩ := ih
      refine ⟨v :: t, by rw [e]; rfl, List.nodup_cons.mpr ⟨h4, nd⟩, ?_, ?_⟩
      · intro x hx
        rcases List.mem_cons.mp hx with rfl | hx
        · exact h3
        · exact hl x hx
      · exact List.isChain_cons_cons.mpr ⟨h2, hc⟩
  · rintro ⟨t, rfl, nd, hl, hc⟩
    induction t with
    | nil => exact .base
    | cons v t ih =>
      rw [List.cons_append] at nd hc
      obtain ⟨hv, nd'⟩ := List.nodup_cons.mp nd
      have ih' := ih nd' (fun x hx => hl x (by simp [hx])) hc.tail
      rw [List.cons_append]
      cases hrest : t ++ [root] with
      | nil => simp at hrest
      | cons u rest =>
        rw [hrest] at hc ih' hv
        exact .step ih' (List.isChain_cons_cons.mp hc).1 (hl v (by simp)) hv

/-- Paths reported by the search = elementary cycles written from their smallest vertex. -/
theorem reported_iff (adj : Nat → List Nat) (E : List (Nat × Nat))
    (hE : ∀ a b, b ∈ adj a ↔ (a, b) ∈ E) (c : List Nat) :
    (∃ v, RP adj v c.reverse ∧ canWrapPath adj v c.reverse = true ∧ 2 ≤ c.length) ↔
      ElemCycle E c ∧ ∃ h t, c = h :: t ∧ ∀ x ∈ t, h < x := by
  constructor
  · rintro ⟨v, h1, h2, h3⟩
    obtain ⟨t, e, nd, hl, hc⟩ := (rp_iff adj v c.reverse).mp h1
    have hcv : c = v :: t.reverse := by
      have := congrArg List.reverse e
      simpa using this
    refine ⟨⟨h3, by simpa using nd, ?_⟩, v, t.reverse, hcv, by simpa using hl⟩
    rw [hcv]
    have := (cyclicPairs_iff_chain (fun a b => (a, b) ∈ E) v t.reverse).mpr
    refine fun e he => this ?_ e he
    have hch : List.IsChain (fun a b => (a, b) ∈ E) (v :: t.reverse) := by
      have h4 := List.isChain_reverse.mpr hc
      rw [List.reverse_reverse, hcv] at h4
      refine h4.imp ?_
      intro a b hab
      exact (hE a b).mp hab
    rw [show v :: (t.reverse ++ [v]) = (v :: t.reverse) ++ [v] from rfl, List.isChain_append]
    refine ⟨hch, by simp, ?_⟩
    intro x hx y hy
    simp at hy
    subst hy
    rw [hcv] at h2
    have hx' : ∃ r, (v :: t.reverse).reverse = x :: r := by
      have : (v :: t.reverse).reverse.head? = some x := by
        rw [List.head?_reverse]; exact hx
      cases hr : (v :: t.reverse).reverse with
      | nil => simp at hr
      | cons y r => rw [hr] at this; simp at this; subst this; exact ⟨r, rfl⟩
    obtain ⟨r, hr⟩ := hx'
    rw [hr] at h2
    simp only [canWrapPath, List.contains_iff_mem] at h2
    exact (hE _ _).mp h2
  · rintro ⟨hc, h, t, rfl, hl⟩
    have hch := (cyclicPairs_iff_chain (fun a b => (a, b) ∈ E) h t).mp (fun e he => hc.edges e he)
    rw [show h :: (t ++ [h]) = (h :: t) ++ [h] from rfl, List.isChain_append] at hch
    obtain ⟨c1, _, c2⟩ := hch
    refine ⟨h, ?_, ?_, hc.two_le⟩
    · rw [rp_iff]
      refine ⟨t.reverse, by simp, List.nodup_reverse.mpr hc.nodup, by simpa using hl, ?_⟩
      rw [List.isChain_reverse]
      refine c1.imp ?_
      intro a b hab
      exact (hE a b).mpr hab
    · cases hr : (h :: t).reverse with
      | nil => simp at hr
      | cons y r =>
        simp only [canWrapPath, List.contains_iff_mem]
        rw [hE]
        refine c2 y ?_ h (by simp)
        rw [← List.head?_reverse, hr]; simp

/-- Two rotations of a repetition-free list with the same head are equal. -/
theorem rotated_eq_of_head {α : Type _} {c d : List α} (nd : c.Nodup) (hr : c ~r d)
    (hh : c.head? = d.head?) : c = d := by
  obtain ⟨k, rfl⟩ := hr
  cases hc : c with
  | nil => simp
  | cons a t =>
    have hpos : 0 < c.length := by rw [hc]; simp
    have hlt : k % c.length < c.length := Nat.mod_lt _ hpos
    have h2 : (c.rotate k).head? = c[k % c.length]? := by
      rw [List.head?_eq_getElem?, List.getElem?_rotate hpos]; simp
    rw [h2, List.head?_eq_getElem?, List.getElem?_eq_getElem hpos, List.getElem?_eq_getElem hlt,
      Option.some.injEq] at hh
    have := (List.Nodup.getElem_inj_iff nd).mp hh
    rw [← hc, ← List.rotate_mod, ← this, List.rotate_zero]

/-- Every nonempty list of numbers has a rotation starting at its minimum. -/
theorem exists_rotation_min (c : List Nat) (hne : c ≠ []) :
    ∃ k h t, c.rotate k = h :: t ∧ ∀ x ∈ c, h ≤ x := by
  obtain ⟨m, hm, hmin⟩ : ∃ m ∈ c, ∀ x ∈ c, m ≤ x := by
    refine ⟨c.min hne, List.min_mem hne, ?_⟩
    intro x hx
    exact List.min_le_of_mem hx
  obtain ⟨i, hi, rfl⟩ := List.getElem_of_mem hm
  refine ⟨i, c[i], (c.rotate i).tail, ?_, hmin⟩
  have hpos : 0 < c.length := by omega
  have h2 : (c.rotate i).head? = some c[i] := by
    rw [List.head?_eq_getElem?, List.getElem?_rotate hpos]
    simp [Nat.mod_eq_of_lt hi]
  cases hr : c.rotate i with
  | nil => rw [hr] at h2; simp at h2
  | cons a t => rw [hr] at h2; simp at h2; subst h2; rfl

/-- A closed walk contains an elementary cycle (self-loops excluded). -/
theorem exists_elemCycle {α : Type _} (E : List (α × α)) (hself : ∀ a, (a, a) ∉ E) :
    ∀ (n : Nat) (w : List α), w.length = n → w ≠ [] → (∀ e ∈ cyclicPairs w, e ∈ E) →
      ∃ c, ElemCycle E c := by
  intro n
  induction n using Nat.strong_induction_on with
  | _ n ih =>
  intro w hn hne hw
  by_cases nd : w.Nodup
  · refine ⟨w, ?_, nd, hw⟩
    rcases w with _ | ⟨a, _ | ⟨b, t⟩⟩
    · exact absurd rfl hne
    · exact absurd (hw (a, a) (by simp [cyclicPairs])) (hself a)
    · simp
  · rw [← List.exists_duplicate_iff_not_nodup] at nd
    obtain ⟨x, hx⟩ := nd
    obtain ⟨l1, l2, l3, rfl⟩ : ∃ l1 l2 l3, w = l1 ++ x :: (l2 ++ x :: l3) := by
      clear hw hn ih hne
      induction hx with
      | cons_mem h =>
        obtain ⟨s, t, rfl⟩ := List.append_of_mem h
        exact ⟨[], s, t, rfl⟩
      | cons_duplicate _ ih =>
        obtain ⟨a, b, c, e⟩ := ih
        rw [e]
        exact ⟨_ :: a, b, c, rfl⟩
    refine ih (x :: l2).length ?_ (x :: l2) rfl (by simp) ?_
    · simp only [List.length_append, List.length_cons] at hn ⊢; omega
    · -- the piece between the two occurrences is a closed walk
      have hchain : List.IsChain (fun a b => (a, b) ∈ E) (l1 ++ x :: (l2 ++ x :: l3)) := by
        cases hl : l1 ++ x :: (l2 ++ x :: l3) with
        | nil => simp
        | cons a t =>
          rw [hl] at hw
          have := (cyclicPairs_iff_chain (fun a b => (a, b) ∈ E) a t).mp (fun e he => hw e he)
          exact this.left_of_append (l₁ := a :: t) (l₂ := [a])
      have h1 := hchain.right_of_append
      rw [show x :: (l2 ++ x :: l3) = (x :: (l2 ++ [x])) ++ l3 by simp] at h1
      have h2 := h1.left_of_append
      exact fun e he => (cyclicPairs_iff_chain (fun a b => (a, b) ∈ E) x l2).mpr h2 e he

/-- A vertex that reaches itself lies on a closed walk. -/
theorem exists_closedWalk {α : Type _} (E : List (α × α)) {v : α}
    (h : Relation.TransGen (Adj E) v v) : ∃ w : List α, w ≠ [] ∧ ∀ e ∈ cyclicPairs w, e ∈ E := by
  have key : ∀ {a b}, Relation.TransGen (Adj E) a b →
      ∃ t : List α, List.IsChain (fun a b => (a, b) ∈ E) (a :: (t ++ [b])) := by
    intro a b hab
    induction hab with
    | single h => exact ⟨[], by simpa [Adj] using h⟩
    | @tail b c _ hbc ih =>
      obtain ⟨t, ht⟩ := ih
      refine ⟨t ++ [b], ?_⟩
      rw [show a :: (t ++ [b] ++ [c]) = (a :: (t ++ [b])) ++ [c] by simp, List.isChain_append]
      refine ⟨ht, by simp, ?_⟩
      intro x hx y hy
      simp at hy
      subst hy
      have : (a :: (t ++ [b])).getLast? = some b := by
        rw [show a :: (t ++ [b]) = (a :: t) ++ [b] by simp, List.getLast?_concat]
      rw [this] at hx
      simp at hx
      subst hx
      exact hbc
  obtain ⟨t, ht⟩ := key h
  exact ⟨v :: t, by simp, fun e he => (cyclicPairs_iff_chain (fun a b => (a, b) ∈ E) v t).mpr ht e he⟩

/-- An elementary cycle gives a vertex that reaches itself. -/
theorem transGen_of_elemCycle {E : List (Int × Int)} {c : List Int} (h : ElemCycle E c) :
    ∃ v, Relation.TransGen (Adj E) v v := by
  rcases c with _ | ⟨a, _ | ⟨b, t⟩⟩
  · have := h.two_le; simp at this
  · have := h.two_le; simp at this
  · have he : (a, b) ∈ E := h.edges (a, b) (by simp [cyclicPairs])
    have hr := DGraph.reach_cyclic h.edges (a, b) (by simp [cyclicPairs])
    exact ⟨a, Relation.TransGen.head' he hr⟩

namespace DGraph

theorem WF.elemCycle_map {g : DGraph} (h : g.WF) {c : List Nat} (hlt : ∀ x ∈ c, x < g.verts.length) :
    ElemCycle g.edges c ↔ ElemCycle g.getEdgesAsPairs (c.map g.idOf) := by
  have hinj : ∀ x ∈ c, ∀ y ∈ c, g.idOf x = g.idOf y → x = y :=
    fun x hx y hy e => h.idOf_inj (hlt x hx) (hlt y hy) e
  constructor
  · rintro ⟨h1, h2, h3⟩
    refine ⟨by simpa using h1, List.Nodup.map_on hinj h2, ?_⟩
    intro e he
    rw [cyclicPairs_map] at he
    obtain ⟨d, hd, rfl⟩ := List.mem_map.mp he
    exact List.mem_map.mpr ⟨d, h3 d hd, rfl⟩
  · rintro ⟨h1, h2, h3⟩
    refine ⟨by simpa using h1, h2.of_map, ?_⟩
    intro e he
    have := h3 (g.idOf e.1, g.idOf e.2) (by rw [cyclicPairs_map]; exact List.mem_map.mpr ⟨e, he, rfl⟩)
    obtain ⟨d, hd, hde⟩ := List.mem_map.mp this
    obtain ⟨d1, d2, _⟩ := h.edges_lt d hd
    obtain ⟨m1, m2⟩ := mem_of_mem_cyclicPairs he
    have e1 := h.idOf_inj d1 (hlt _ m1) (congrArg Prod.fst hde)
    have e2 := h.idOf_inj d2 (hlt _ m2) (congrArg Prod.snd hde)
    have : d = e := Prod.ext e1 e2
    exact this ▸ hd

theorem WF.elemCycle_lt {g : DGraph} (h : g.WF) {c : List Nat} (hc : ElemCycle g.edges c) :
    ∀ x ∈ c, x < g.verts.length := by
  intro x hx
  obtain ⟨i, hi, rfl⟩ := List.getElem_of_mem hx
  have hi' : i < (cyclicPairs c).length := by rw [cyclicPairs_length]; exact hi
  have hm := List.getElem_mem hi'
  have := (h.edges_lt _ (hc.edges _ hm)).1
  have e : ((cyclicPairs c)[i]).1 = c[i] := by
    simp [cyclicPairs_eq_zip_rotate]
  rwa [e] at this

theorem WF.elemCycle_verts {g : DGraph} (h : g.WF) {c : List Int}
    (hc : ElemCycle g.getEdgesAsPairs c) : ∀ x ∈ c, x ∈ g.verts := by
  intro x hx
  obtain ⟨i, hi, rfl⟩ := List.getElem_of_mem hx
  have hi' : i < (cyclicPairs c).length := by rw [cyclicPairs_length]; exact hi
  have hm := List.getElem_mem hi'
  have := (h.pairs_mem_verts _ (hc.edges _ hm)).1
  have e : ((cyclicPairs c)[i]).1 = c[i] := by
    simp [cyclicPairs_eq_zip_rotate]
  rwa [e] at this

/-- `findCycles` on any graph satisfying the class invariant. -/
theorem WF.findCycles_spec {g : DGraph} (h : g.WF) :
    ∃ cs, g.findCycles = some cs ∧ cs.Nodup ∧
      ∀ c, c ∈ cs ↔ ElemCycle g.getEdgesAsPairs c ∧
        ∃ a t, c = a :: t ∧ ∀ x ∈ t, g.descOf a < g.descOf x := by
  obtain ⟨res, e, nd, m⟩ := tiernanAllCycles_spec g.outTargets g.verts.length
    (fun a b hb => h.outTargets_lt a b hb)
  have m' : ∀ c, c ∈ res ↔ ElemCycle g.edges c ∧ ∃ a t, c = a :: t ∧ ∀ x ∈ t, a < x := by
    intro c
    rw [m, ← reported_iff g.outTargets g.edges (fun a b => mem_outTargets)]
    constructor
    · rintro ⟨v, _, h⟩; exact ⟨v, h⟩
    · rintro ⟨v, h1, h2, h3⟩
      refine ⟨v, ?_, h1, h2, h3⟩
      have hc := (reported_iff g.outTargets g.edges (fun a b => mem_outTargets) c).mp ⟨v, h1, h2, h3⟩
      have hv : v ∈ c := by
        have := h1.root_suffix.mem (List.mem_singleton.mpr rfl)
        simpa using this
      exact h.elemCycle_lt hc.1 v hv
  refine ⟨res.map (fun p => p.map g.idOf), by simp [findCycles, e], ?_, ?_⟩
  · refine List.Nodup.map_on ?_ nd
    intro x hx y hy hxy
    have hx' := h.elemCycle_lt ((m' x).mp hx).1
    have hy' := h.elemCycle_lt ((m' y).mp hy).1
    have key : ∀ (x : List Nat), (∀ z ∈ x, z < g.verts.length) →
        (x.map g.idOf).map g.descOf = x := by
      intro x hx
      rw [List.map_map]
      conv_rhs => rw [← List.map_id x]
      exact List.map_congr_left (fun z hz => h.descOf_idOf (hx z hz))
    rw [← key x hx', ← key y hy', hxy]
  · intro c
    constructor
    · intro hc
      obtain ⟨p, hp, rfl⟩ := List.mem_map.mp hc
      obtain ⟨h1, a, t, rfl, h2⟩ := (m' p).mp hp
      have hlt := h.elemCycle_lt h1
      refine ⟨(h.elemCycle_map hlt).mp h1, g.idOf a, t.map g.idOf, rfl, ?_⟩
      intro x hx
      obtain ⟨y, hy, rfl⟩ := List.mem_map.mp hx
      rw [h.descOf_idOf (hlt a (by simp)), h.descOf_idOf (hlt y (by simp [hy]))]
      exact h2 y hy
    · rintro ⟨h1, a, t, rfl, h2⟩
      have hv := h.elemCycle_verts h1
      have hback : ((a :: t).map g.descOf).map g.idOf = a :: t := by
        rw [List.map_map]
        conv_rhs => rw [← List.map_id (a :: t)]
        exact List.map_congr_left (fun z hz => h.idOf_descOf (hv z hz))
      refine List.mem_map.mpr ⟨(a :: t).map g.descOf, ?_, hback⟩
      rw [m']
      refine ⟨?_, g.descOf a, t.map g.descOf, rfl, ?_⟩
      · rw [h.elemCycle_map, hback]
        · exact h1
        · intro x hx
          obtain ⟨y, hy, rfl⟩ := List.mem_map.mp hx
          exact h.descOf_lt (hv y hy)
      · intro x hx
        obtain ⟨y, hy, rfl⟩ := List.mem_map.mp hx
        exact h2 y hy

/-- Each elementary cycle is represented exactly once up to rotation. -/
theorem WF.findCycles_unique {g : DGraph} (h : g.WF) {cs : List (List Int)}
    (hcs : g.findCycles = some cs) {c : List Int} (hc : ElemCycle g.getEdgesAsPairs c) :
    ∃! d, d ∈ cs ∧ d ~r c := by
  obtain ⟨cs', e, _, m⟩ := h.findCycles_spec
  rw [hcs] at e
  have := Option.some.inj e
  subst this
  have hv := h.elemCycle_verts hc
  have hne : c.map g.descOf ≠ [] := by
    intro hn
    have := hc.two_le
    rw [List.map_eq_nil_iff.mp hn] at this
    simp at this
  obtain ⟨k, a, t, hrot, hmin⟩ := exists_rotation_min (c.map g.descOf) hne
  have hck := ElemCycle.rotate hc k
  have hinj : ∀ x ∈ c, ∀ y ∈ c, g.descOf x = g.descOf y → x = y := by
    intro x hx y hy e
    rw [← h.idOf_descOf (hv x hx), ← h.idOf_descOf (hv y hy), e]
  have hmem : c.rotate k ∈ cs := by
    rw [m]
    refine ⟨hck, ?_⟩
    rw [← List.map_rotate] at hrot
    cases hr : c.rotate k with
    | nil => rw [hr] at hrot; simp at hrot
    | cons b s =>
      refine ⟨b, s, rfl, ?_⟩
      intro x hx
      rw [hr] at hrot
      have hb : g.descOf b = a := by simp at hrot; exact hrot.1
      have hxc : x ∈ c := by
        have : x ∈ c.rotate k := by rw [hr]; simp [hx]
        simpa using this
      have hbc : b ∈ c := by
        have : b ∈ c.rotate k := by rw [hr]; simp
        simpa using this
      have hle := hmin (g.descOf x) (List.mem_map_of_mem hxc)
      rw [← hb] at hle
      refine lt_of_le_of_ne hle ?_
      intro e
      have := hinj b hbc x hxc e
      subst this
      have nd := hck.nodup
      rw [hr] at nd
      exact (List.nodup_cons.mp nd).1 hx
  refine ⟨c.rotate k, ⟨hmem, List.IsRotated.symm ⟨k, rfl⟩⟩, ?_⟩
  rintro d ⟨hd, hdr⟩
  obtain ⟨hd1, b, s, rfl, hb⟩ := (m d).mp hd
  obtain ⟨_, b', s', e', hb'⟩ := (m _).mp hmem
  apply rotated_eq_of_head hd1.nodup
  · exact hdr.trans ⟨k, rfl⟩
  · rw [e']
    simp only [List.head?_cons, Option.some.injEq]
    by_contra hne'
    have m1 : b' ∈ s := by
      have : b' ∈ b :: s := by
        rw [hdr.mem_iff]
        have : b' ∈ c.rotate k := by rw [e']; simp
        simpa using this
      rcases List.mem_cons.mp this with h | h
      · exact absurd h.symm hne'
      · exact h
    have m2 : b ∈ s' := by
      have : b ∈ b' :: s' := by
        rw [← e']
        have : b ∈ c := hdr.mem_iff.mp (by simp)
        simpa using this
      rcases List.mem_cons.mp this with h | h
      · exact absurd h hne'
      · exact h
    have := hb b' m1
    have := hb' b m2
    omega

/-- Order of insertion: descriptors are positions in the list of first occurrences. -/
theorem foldl_insNew_idxOf (ids : List Int) :
    (∀ x, x ∈ ids.foldl insNew [] ↔ x ∈ ids) ∧
    ∀ x ∈ ids, ∀ y ∈ ids, ((ids.foldl insNew []).idxOf x < (ids.foldl insNew []).idxOf y ↔
      ids.idxOf x < ids.idxOf y) := by
  induction ids using List.reverseRecOn with
  | nil => simp
  | append_singleton ids a ih =>
    obtain ⟨hm, ho⟩ := ih
    rw [List.foldl_append]
    simp only [List.foldl_cons, List.foldl_nil]
    have hmem : ∀ x, x ∈ insNew (ids.foldl insNew []) a ↔ x ∈ ids ++ [a] := by
      intro x; rw [mem_insNew, hm]; simp
    refine ⟨hmem, ?_⟩
    by_cases ha : a ∈ ids
    · have e : insNew (ids.foldl insNew []) a = ids.foldl insNew [] := by
        exact if_pos ((hm a).mpr ha)
      rw [e]
      have hin : ∀ x ∈ ids ++ [a], x ∈ ids := by
        intro x hx
        rcases List.mem_append.mp hx with h | h
        · exact h
        · simp at h; subst h; exact ha
      intro x hx y hy
      rw [List.idxOf_append_of_mem (hin x hx), List.idxOf_append_of_mem (hin y hy)]
      exact ho x (hin x hx) y (hin y hy)
    · have ha' : a ∉ ids.foldl insNew [] := fun h => ha ((hm a).mp h)
      have e : insNew (ids.foldl insNew []) a = ids.foldl insNew [] ++ [a] := by
        exact if_neg ha'
      rw [e]
      have idx : ∀ (l : List Int), a ∉ l → (l ++ [a]).idxOf a = l.length := by
        intro l hl
        rw [List.idxOf_append_of_notMem hl]; simp
      intro x hx y hy
      rcases List.mem_append.mp hx with h1 | h1 <;> rcases List.mem_append.mp hy with h2 | h2
      · rw [List.idxOf_append_of_mem h1, List.idxOf_append_of_mem h2,
          List.idxOf_append_of_mem ((hm x).mpr h1), List.idxOf_append_of_mem ((hm y).mpr h2)]
        exact ho x h1 y h2
      · simp at h2; subst h2
        rw [idx _ ha, idx _ ha', List.idxOf_append_of_mem h1, List.idxOf_append_of_mem ((hm x).mpr h1)]
        exact iff_of_true (List.idxOf_lt_length_of_mem ((hm x).mpr h1)) (List.idxOf_lt_length_of_mem h1)
      · simp at h1; subst h1
        rw [idx _ ha, idx _ ha', List.idxOf_append_of_mem h2, List.idxOf_append_of_mem ((hm y).mpr h2)]
        have := List.idxOf_lt_length_of_mem ((hm y).mpr h2)
        have := List.idxOf_lt_length_of_mem h2
        omega
      · simp at h1 h2; subst h1; subst h2
        simp

theorem foldl_insNew_pairs (es : List (Int × Int)) (l : List Int) :
    es.foldl (fun l e => insNew (insNew l e.1) e.2) l =
      (es.flatMap (fun e => [e.1, e.2])).foldl insNew l := by
  induction es generalizing l with
  | nil => rfl
  | cons e t ih => rw [List.foldl_cons, ih, List.flatMap_cons, List.foldl_append]; rfl

theorem apply_verts {g : DGraph} (hg : g.WF) (op : GraphOp) :
    (g.apply op).verts = (acceptedIds op).foldl insNew g.verts := by
  cases op with
  | addVertex v => simp [apply, acceptedIds, addVertex_verts hg]
  | addEdge a b =>
    by_cases h : a = b
    · subst h; simp [apply, acceptedIds, acceptedEdges, addEdge_self]
    · simp [apply, acceptedIds, acceptedEdges, addEdge_verts hg h, h]
  | addClosedPath vs =>
    show (g.addClosedPath vs).1.verts = _
    rw [(addClosedPath_spec hg vs).2.2.1, foldl_insNew_pairs]
    rfl

theorem run_verts (ops : List GraphOp) :
    (run ops).verts = (ops.flatMap acceptedIds).foldl insNew [] := by
  have key : ∀ (ops : List GraphOp) (g : DGraph), g.WF →
      (ops.foldl apply g).verts = (ops.flatMap acceptedIds).foldl insNew g.verts := by
    intro ops
    induction ops with
    | nil => intro g _; rfl
    | cons o t ih =>
      intro g hg
      rw [List.foldl_cons, ih _ (apply_wf hg o), apply_verts hg, List.flatMap_cons, List.foldl_append]
  exact key ops empty wf_empty

/-- A vertex has a smaller descriptor iff its id occurred first in the history. -/
theorem run_descOf_lt (ops : List GraphOp) {x y : Int} (hx : x ∈ (run ops).verts)
    (hy : y ∈ (run ops).verts) :
    (run ops).descOf x < (run ops).descOf y ↔
      (ops.flatMap acceptedIds).idxOf x < (ops.flatMap acceptedIds).idxOf y := by
  have hw := run_wf ops
  have hd : ∀ z ∈ (run ops).verts, (run ops).descOf z = (run ops).verts.idxOf z := by
    intro z hz
    have h1 := hw.descOf_spec hz
    have h2 : (run ops).verts[(run ops).verts.idxOf z]? = some z := by
      rw [List.getElem?_eq_getElem (List.idxOf_lt_length_of_mem hz)]; simp
    exact (List.getElem?_inj (hw.descOf_lt hz) hw.nodup).mp (h1.trans h2.symm)
  rw [hd x hx, hd y hy, run_verts]
  rw [run_mem_verts] at hx hy
  exact (foldl_insNew_idxOf _).2 x hx y hy

end DGraph
end Tulip
