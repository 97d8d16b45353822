import Verif.Proofs.Components
import Verif.Proofs.GraphBasic

/-!
# `DirectedGraph::split`
-/

namespace Tulip
open Spec

namespace DGraph

theorem WF.outTargets_lt {g : DGraph} (h : g.WF) (a : Nat) : ∀ b ∈ g.outTargets a, b < g.verts.length := by
  intro b hb
  exact (h.edges_lt _ (mem_outTargets.mp hb)).2.1

theorem reach_of_sreach {g : DGraph} {u v : Nat} (h : SReach g.outTargets u v) :
    Reach g.getEdgesAsPairs (g.idOf u) (g.idOf v) := by
  induction h with
  | refl => exact .refl
  | tail _ hs ih =>
    refine .tail ih ?_
    exact List.mem_map.mpr ⟨_, mem_outTargets.mp hs, rfl⟩

theorem WF.sreach_of_reach {g : DGraph} (h : g.WF) {u : Nat} (hu : u < g.verts.length) {y : Int}
    (hr : Reach g.getEdgesAsPairs (g.idOf u) y) :
    ∃ v, v < g.verts.length ∧ g.idOf v = y ∧ SReach g.outTargets u v := by
  induction hr with
  | refl => exact ⟨u, hu, rfl, .refl⟩
  | @tail b c _ hs ih =>
    obtain ⟨v, hv, rfl, hr⟩ := ih
    obtain ⟨d, hd, he⟩ := List.mem_map.mp hs
    obtain ⟨h1, h2, _⟩ := h.edges_lt d hd
    have e1 := h.idOf_inj h1 hv (congrArg Prod.fst he)
    subst e1
    exact ⟨d.2, h2, congrArg Prod.snd he, .tail hr (mem_outTargets.mpr hd)⟩

theorem WF.sreach_iff {g : DGraph} (h : g.WF) {u v : Nat} (hu : u < g.verts.length)
    (hv : v < g.verts.length) :
    SReach g.outTargets u v ↔ Reach g.getEdgesAsPairs (g.idOf u) (g.idOf v) := by
  constructor
  · exact reach_of_sreach
  · intro hr
    obtain ⟨w, hw, e, hr⟩ := h.sreach_of_reach hu hr
    rwa [h.idOf_inj hw hv e] at hr

/-- Contents of one part, for an arbitrary labelling. -/
theorem splitPart_spec {g : DGraph} (h : g.WF) (comp : Nat → Option Nat) (c : Nat) :
    (g.splitPart comp c).WF ∧
    (g.splitPart comp c).getEdgesAsPairs =
      g.getEdgesAsPairs.filter
        (fun e => decide (comp (g.descOf e.1) = some c ∧ comp (g.descOf e.2) = some c)) ∧
    (∀ x, x ∈ (g.splitPart comp c).verts ↔
      x ∈ (g.splitPart comp c).getEdgesAsPairs.flatMap (fun e => [e.1, e.2])) := by
  have hfold : g.splitPart comp c =
      ((g.edges.filter (fun e => decide (comp (g.descOf (g.idOf e.1)) = some c ∧
        comp (g.descOf (g.idOf e.2)) = some c))).map (fun e => (g.idOf e.1, g.idOf e.2))).foldl
        (fun r e => (r.addEdge e.1 e.2).1) empty := by
    unfold splitPart
    exact foldl_cond_addEdge g.edges (fun e => (g.idOf e.1, g.idOf e.2))
      (fun e => comp (g.descOf (g.idOf e.1)) = some c ∧ comp (g.descOf (g.idOf e.2)) = some c) empty
  have hlist : (g.edges.filter (fun e => decide (comp (g.descOf (g.idOf e.1)) = some c ∧
        comp (g.descOf (g.idOf e.2)) = some c))).map (fun e => (g.idOf e.1, g.idOf e.2)) =
      g.getEdgesAsPairs.filter
        (fun e => decide (comp (g.descOf e.1) = some c ∧ comp (g.descOf e.2) = some c)) := by
    conv_rhs => rw [getEdgesAsPairs, List.filter_map]
    rfl
  rw [hlist] at hfold
  obtain ⟨w, p, v⟩ := foldl_addEdge_spec wf_empty _
    (fun e he => h.pairs_ne e (List.mem_of_mem_filter he))
  rw [← hfold] at w p v
  have p' : (g.splitPart comp c).getEdgesAsPairs = g.getEdgesAsPairs.filter
        (fun e => decide (comp (g.descOf e.1) = some c ∧ comp (g.descOf e.2) = some c)) := by
    rw [p]; simp [getEdgesAsPairs, empty]
  refine ⟨w, p', ?_⟩
  intro x
  rw [v x, p']
  simp [empty]

/-- The labelling used by `split`, with its defining properties. -/
theorem WF.labels {g : DGraph} (h : g.WF) : ∃ root, CCInv g.outTargets g.verts.length
    (List.range g.verts.length) (connectedComponents g.outTargets g.verts.length).1
    (connectedComponents g.outTargets g.verts.length).2 root :=
  connectedComponents_inv _ _ (fun a b hb => h.outTargets_lt a b hb)

/-- A part can only contain vertices with its label. -/
theorem splitPart_vert_label {g : DGraph} (h : g.WF) {comp : Nat → Option Nat} {c : Nat} {x : Int}
    (hx : x ∈ (g.splitPart comp c).verts) : x ∈ g.verts ∧ comp (g.descOf x) = some c := by
  obtain ⟨w, p, v⟩ := splitPart_spec h comp c
  have := (v x).mp hx
  rw [p] at this
  simp only [List.mem_flatMap, List.mem_filter, List.mem_cons, List.not_mem_nil, or_false,
    decide_eq_true_eq] at this
  obtain ⟨e, ⟨he, h1, h2⟩, rfl | rfl⟩ := this
  · exact ⟨(h.pairs_mem_verts e he).1, h1⟩
  · exact ⟨(h.pairs_mem_verts e he).2, h2⟩

theorem splitPart_disjoint {g : DGraph} (h : g.WF) {comp : Nat → Option Nat} {c c' : Nat}
    (hcc : c ≠ c') {x : Int} (hx : x ∈ (g.splitPart comp c).verts) :
    x ∉ (g.splitPart comp c').verts := by
  intro hx'
  have h1 := (splitPart_vert_label h hx).2
  have h2 := (splitPart_vert_label h hx').2
  rw [h1] at h2
  exact hcc (Option.some.inj h2)

/-- Edges whose ends are mutually reachable get one label. -/
theorem CCInv.edge_label {g : DGraph} {seen : List Nat} {comp : Nat → Option Nat} {cnt : Nat}
    {root : Nat → Nat} (hi : CCInv g.outTargets g.verts.length seen comp cnt root) {u v k l : Nat}
    (hu : comp u = some k) (hv : comp v = some l)
    (h1 : SReach g.outTargets u v) (h2 : SReach g.outTargets v u) : k = l := by
  rcases lt_trichotomy k l with hlt | he | hlt
  · exact absurd ((hi.reach u k hu).trans h1) (hi.first v l hv k hlt)
  · exact he
  · exact absurd ((hi.reach v l hv).trans h2) (hi.first u k hu l hlt)

/-- If every edge can be undone, reachability is connectedness. -/
theorem connected_iff_reach {E : List (Int × Int)} (hs : ∀ e ∈ E, Reach E e.2 e.1) (a b : Int) :
    Connected E a b ↔ Reach E a b := by
  constructor
  · intro h
    induction h with
    | refl => exact .refl
    | @tail x y _ h ih =>
      rcases h with h | h
      · exact .tail ih h
      · exact ih.trans (hs _ h)
  · intro h
    exact Relation.ReflTransGen.mono (fun a b h => Or.inl h) _ _ h

theorem reach_symm {E : List (Int × Int)} (hs : ∀ e ∈ E, Reach E e.2 e.1) {a b : Int}
    (h : Reach E a b) : Reach E b a := by
  induction h with
  | refl => exact .refl
  | tail _ h ih => exact (hs _ h).trans ih

/-- Cyclic pairs of a list can be undone by going round. -/
theorem reach_cyclic {E : List (Int × Int)} {vs : List Int} (h : ∀ e ∈ cyclicPairs vs, e ∈ E) :
    ∀ e ∈ cyclicPairs vs, Reach E e.2 e.1 := by
  have step : ∀ i, i < vs.length → ∀ k, Reach E (vs.getD i 0) (vs.getD ((i + k) % vs.length) 0) := by
    intro i hi k
    induction k with
    | zero => rw [Nat.add_zero, Nat.mod_eq_of_lt hi]; exact .refl
    | succ k ih =>
      refine .tail ih ?_
      have hlt : (i + k) % vs.length < vs.length := Nat.mod_lt _ (by omega)
      have := cyclicPairs_getElem? vs _ hlt
      have e : ((i + k) % vs.length + 1) % vs.length = (i + (k + 1)) % vs.length := by
        rw [Nat.mod_add_mod]; rfl
      rw [e] at this
      exact h _ (List.mem_of_getElem? this)
  intro e he
  obtain ⟨i, hi⟩ := List.getElem?_of_mem he
  have hlt : i < vs.length := by
    have := (List.getElem?_eq_some_iff.mp hi).1
    rwa [cyclicPairs_length] at this
  have h1 := cyclicPairs_getElem? vs i hlt
  rw [hi] at h1
  have h2 := Option.some.inj h1
  subst h2
  simp only
  have hlt2 : (i + 1) % vs.length < vs.length := Nat.mod_lt _ (by omega)
  have := step _ hlt2 (vs.length - 1)
  have e : ((i + 1) % vs.length + (vs.length - 1)) % vs.length = i := by
    rw [Nat.mod_add_mod]
    have : i + 1 + (vs.length - 1) = i + vs.length := by omega
    rw [this, Nat.add_mod_right, Nat.mod_eq_of_lt hlt]
  rwa [e] at this

open Classical in
/-- `split` of a graph in which every edge can be undone and every vertex is on an edge. -/
theorem split_spec {g : DGraph} (h : g.WF)
    (hs : ∀ e ∈ g.getEdgesAsPairs, Reach g.getEdgesAsPairs e.2 e.1)
    (hc : ∀ x ∈ g.verts, ∃ e ∈ g.getEdgesAsPairs, x = e.1 ∨ x = e.2) :
    (∀ p ∈ g.split, p.WF ∧ ∃ r, r ∈ p.verts ∧
      (∀ x, x ∈ p.verts ↔ x ∈ g.verts ∧ Connected g.getEdgesAsPairs r x) ∧
      p.getEdgesAsPairs =
        g.getEdgesAsPairs.filter (fun e => decide (Connected g.getEdgesAsPairs r e.1))) ∧
    g.split.Pairwise (fun p q => ∀ x ∈ p.verts, x ∉ q.verts) ∧
    (∀ x ∈ g.verts, ∃ p ∈ g.split, x ∈ p.verts) := by
  obtain ⟨root, hi⟩ := h.labels
  unfold split
  by_cases h0 : g.verts.length = 0
  · rw [if_pos h0]
    have : g.verts = [] := List.length_eq_zero_iff.mp h0
    simp [this]
  rw [if_neg h0]
  simp only
  generalize hcc : connectedComponents g.outTargets g.verts.length = cc at hi ⊢
  obtain ⟨comp, cnt⟩ := cc
  simp only at hi ⊢
  have label : ∀ x ∈ g.verts, ∃ k, k < cnt ∧ comp (g.descOf x) = some k := by
    intro x hx
    have := hi.seen (g.descOf x) (by simpa using h.descOf_lt hx)
    obtain ⟨k, hk⟩ := Option.ne_none_iff_exists'.mp this
    exact ⟨k, (hi.lt _ _ hk).1, hk⟩
  have same : ∀ x ∈ g.verts, ∀ y ∈ g.verts,
      (Connected g.getEdgesAsPairs x y ↔ comp (g.descOf x) = comp (g.descOf y)) := by
    intro x hx y hy
    have dx := h.descOf_lt hx
    have dy := h.descOf_lt hy
    obtain ⟨k, _, hk⟩ := label x hx
    obtain ⟨l, _, hl⟩ := label y hy
    rw [connected_iff_reach hs]
    constructor
    · intro hr
      have r1 : SReach g.outTargets (g.descOf x) (g.descOf y) := by
        rw [h.sreach_iff dx dy, h.idOf_descOf hx, h.idOf_descOf hy]; exact hr
      have r2 : SReach g.outTargets (g.descOf y) (g.descOf x) := by
        rw [h.sreach_iff dy dx, h.idOf_descOf hx, h.idOf_descOf hy]; exact reach_symm hs hr
      rw [hk, hl, CCInv.edge_label hi hk hl r1 r2]
    · intro e
      rw [hk, hl] at e
      have e' := Option.some.inj e
      subst e'
      have r1 := reach_of_sreach (hi.reach _ _ hk)
      have r2 := reach_of_sreach (hi.reach _ _ hl)
      rw [h.idOf_descOf hx] at r1
      rw [h.idOf_descOf hy] at r2
      exact (reach_symm hs r1).trans r2
  by_cases h1 : cnt = 1
  · rw [if_pos h1]
    have all : ∀ x ∈ g.verts, ∀ y ∈ g.verts, Connected g.getEdgesAsPairs x y := by
      intro x hx y hy
      rw [same x hx y hy]
      obtain ⟨k, hk0, hk⟩ := label x hx
      obtain ⟨l, hl0, hl⟩ := label y hy
      rw [hk, hl]; congr 1; omega
    refine ⟨?_, by simp, ?_⟩
    · intro p hp
      simp only [List.mem_singleton] at hp
      subst hp
      have hr : p.idOf 0 ∈ p.verts := idOf_mem (by omega)
      refine ⟨h, p.idOf 0, hr, ?_, ?_⟩
      · intro x
        constructor
        · intro hx; exact ⟨hx, all _ hr x hx⟩
        · exact fun hx => hx.1
      · symm
        rw [List.filter_eq_self]
        intro e he
        exact decide_eq_true (all _ hr _ (h.pairs_mem_verts e he).1)
    · intro x hx
      exact ⟨g, by simp, hx⟩
  · rw [if_neg h1]
    have edge_same : ∀ e ∈ g.getEdgesAsPairs, comp (g.descOf e.1) = comp (g.descOf e.2) := by
      intro e he
      obtain ⟨m1, m2⟩ := h.pairs_mem_verts e he
      rw [← same _ m1 _ m2]
      exact .single (Or.inl he)
    have vert_iff : ∀ c x, x ∈ (g.splitPart comp c).verts ↔
        x ∈ g.verts ∧ comp (g.descOf x) = some c := by
      intro c x
      constructor
      · exact splitPart_vert_label h
      · rintro ⟨hx, hl⟩
        obtain ⟨_, p, v⟩ := splitPart_spec h comp c
        rw [v x, p]
        obtain ⟨e, he, hxe⟩ := hc x hx
        have hsame := edge_same e he
        simp only [List.mem_flatMap, List.mem_filter, List.mem_cons, List.not_mem_nil, or_false,
          decide_eq_true_eq]
        refine ⟨e, ⟨he, ?_⟩, hxe⟩
        rcases hxe with rfl | rfl
        · exact ⟨hl, hsame ▸ hl⟩
        · exact ⟨hsame ▸ hl, hl⟩
    refine ⟨?_, ?_, ?_⟩
    · intro p hp
      obtain ⟨c, hclt, rfl⟩ := List.mem_map.mp hp
      rw [List.mem_range] at hclt
      obtain ⟨hrc, hrs⟩ := hi.root_comp c hclt
      have hrlt : root c < g.verts.length := by simpa using hrs
      have hrm : g.idOf (root c) ∈ g.verts := idOf_mem hrlt
      have hrd : comp (g.descOf (g.idOf (root c))) = some c := by
        rw [h.descOf_idOf hrlt]; exact hrc
      obtain ⟨w, p, v⟩ := splitPart_spec h comp c
      refine ⟨w, g.idOf (root c), ?_, ?_, ?_⟩
      · rw [vert_iff]
        exact ⟨hrm, hrd⟩
      · intro x
        rw [vert_iff]
        constructor
        · rintro ⟨hx, hl⟩
          refine ⟨hx, ?_⟩
          rw [same _ hrm _ hx, hrd, hl]
        · rintro ⟨hx, hr⟩
          refine ⟨hx, ?_⟩
          rw [same _ hrm _ hx, hrd] at hr
          exact hr.symm
      · rw [p]
        apply List.filter_congr
        intro e he
        obtain ⟨m1, m2⟩ := h.pairs_mem_verts e he
        have hsame := edge_same e he
        rw [decide_eq_decide, same _ hrm _ m1, hrd, ← hsame]
        constructor
        · exact fun hh => hh.1.symm
        · exact fun hh => ⟨hh.symm, hh.symm⟩
    · rw [List.pairwise_map]
      refine List.Pairwise.imp ?_ List.nodup_range
      intro a b hab x hx
      exact splitPart_disjoint h hab hx
    · intro x hx
      obtain ⟨k, hk0, hk⟩ := label x hx
      refine ⟨g.splitPart comp k, List.mem_map.mpr ⟨k, by simpa using hk0, rfl⟩, ?_⟩
      rw [vert_iff]
      exact ⟨hx, hk⟩

/-- What `split` guarantees for an arbitrary graph. -/
theorem split_general {g : DGraph} (h : g.WF) :
    (∀ p ∈ g.split, p.WF ∧ p.getEdgesAsPairs.Sublist g.getEdgesAsPairs ∧
      ∀ x ∈ p.verts, x ∈ g.verts) ∧
    g.split.Pairwise (fun p q => ∀ x ∈ p.verts, x ∉ q.verts) ∧
    (∀ e ∈ g.getEdgesAsPairs, Reach g.getEdgesAsPairs e.2 e.1 →
      ∃ p ∈ g.split, e ∈ p.getEdgesAsPairs) := by
  obtain ⟨root, hi⟩ := h.labels
  unfold split
  by_cases h0 : g.verts.length = 0
  · rw [if_pos h0]
    have : g.verts = [] := List.length_eq_zero_iff.mp h0
    refine ⟨by simp, by simp, ?_⟩
    intro e he
    have := (h.pairs_mem_verts e he).1
    simp_all
  rw [if_neg h0]
  simp only
  generalize hcc : connectedComponents g.outTargets g.verts.length = cc at hi ⊢
  obtain ⟨comp, cnt⟩ := cc
  simp only at hi ⊢
  by_cases h1 : cnt = 1
  · rw [if_pos h1]
    refine ⟨?_, by simp, ?_⟩
    · intro p hp
      simp only [List.mem_singleton] at hp
      subst hp
      exact ⟨h, List.Sublist.refl _, fun _ hx => hx⟩
    · intro e he _
      exact ⟨g, by simp, he⟩
  · rw [if_neg h1]
    refine ⟨?_, ?_, ?_⟩
    · intro p hp
      obtain ⟨c, _, rfl⟩ := List.mem_map.mp hp
      obtain ⟨w, p, v⟩ := splitPart_spec h comp c
      refine ⟨w, ?_, fun x hx => (splitPart_vert_label h hx).1⟩
      rw [p]
      exact List.filter_sublist
    · rw [List.pairwise_map]
      refine List.Pairwise.imp ?_ List.nodup_range
      intro a b hab x hx
      exact splitPart_disjoint h hab hx
    · intro e he hr
      obtain ⟨m1, m2⟩ := h.pairs_mem_verts e he
      have d1 := h.descOf_lt m1
      have d2 := h.descOf_lt m2
      obtain ⟨k, hk⟩ := Option.ne_none_iff_exists'.mp (hi.seen (g.descOf e.1) (by simpa using d1))
      obtain ⟨l, hl⟩ := Option.ne_none_iff_exists'.mp (hi.seen (g.descOf e.2) (by simpa using d2))
      have r1 : SReach g.outTargets (g.descOf e.1) (g.descOf e.2) := by
        rw [h.sreach_iff d1 d2, h.idOf_descOf m1, h.idOf_descOf m2]; exact .single he
      have r2 : SReach g.outTargets (g.descOf e.2) (g.descOf e.1) := by
        rw [h.sreach_iff d2 d1, h.idOf_descOf m1, h.idOf_descOf m2]; exact hr
      have := CCInv.edge_label hi hk hl r1 r2
      subst this
      refine ⟨g.splitPart comp k, List.mem_map.mpr ⟨k, by simpa using (hi.lt _ _ hk).1, rfl⟩, ?_⟩
      rw [(splitPart_spec h comp k).2.1]
      simp [he, hk, hl]

end DGraph
end Tulip
