import Verif.Proofs.Split

/-!
# Exactly what `split` returns
-/

namespace Tulip
open Spec

namespace DGraph

theorem foldl_insNew_pairs (es : List (Int × Int)) (l : List Int) :
    es.foldl (fun l e => insNew (insNew l e.1) e.2) l = (es.flatMap (fun e => [e.1, e.2])).foldl insNew l := by
  induction es generalizing l with
  | nil => rfl
  | cons e t ih => simp [ih]

theorem apply_verts {g : DGraph} (hg : g.WF) (op : GraphOp) :
    (g.apply op).verts = (acceptedIds op).foldl insNew g.verts := by
  cases op with
  | addVertex v => simp [apply, acceptedIds, addVertex_verts hg]
  | addEdge a b =>
    by_cases h : a = b
    · subst h; simp [apply, acceptedIds, acceptedEdges, addEdge_self]
    · simp [apply, acceptedIds, acceptedEdges, addEdge_verts hg h, h]
  | addClosedPath vs =>
    show (g.addClosedPath vs).1.verts = _
    rw [(addClosedPath_spec hg vs).2.2.1, foldl_insNew_pairs]
    rfl

theorem foldl_apply_verts {g : DGraph} (hg : g.WF) (ops : List GraphOp) :
    (ops.foldl apply g).verts = (ops.flatMap acceptedIds).foldl insNew g.verts := by
  induction ops generalizing g with
  | nil => rfl
  | cons o t ih => rw [List.foldl_cons, ih (apply_wf hg o), apply_verts hg, List.flatMap_cons, List.foldl_append]

/-- Vertices are kept in the order in which they were introduced. -/
theorem run_verts (ops : List GraphOp) : (run ops).verts = (ops.flatMap acceptedIds).foldl insNew [] :=
  foldl_apply_verts wf_empty ops

theorem mem_foldl_insNew' (l : List Int) (k : List Int) (x : Int) : x ∈ l.foldl insNew k ↔ x ∈ k ∨ x ∈ l := by
  induction l generalizing k with
  | nil => simp
  | cons a t ih => rw [List.foldl_cons, ih, mem_insNew]; simp [or_assoc]

theorem idxOf_insNew (l : List Int) : ∀ x ∈ l, ∀ y ∈ l,
    ((l.foldl insNew []).idxOf x ≤ (l.foldl insNew []).idxOf y ↔ l.idxOf x ≤ l.idxOf y) := by
  induction l using List.reverseRecOn with
  | nil => simp
  | append_singleton t a ih =>
    have hm : ∀ z, z ∈ t.foldl insNew [] ↔ z ∈ t := by intro z; simp [mem_foldl_insNew']
    rw [List.foldl_append]
    simp only [List.foldl_cons, List.foldl_nil]
    by_cases ha : a ∈ t
    · rw [show insNew (t.foldl insNew []) a = t.foldl insNew [] from if_pos ((hm a).mpr ha)]
      intro x hx y hy
      have hx' : x ∈ t := by
        rcases List.mem_append.mp hx with h | h
        · exact h
        · rw [List.mem_singleton.mp h]; exact ha
      have hy' : y ∈ t := by
        rcases List.mem_append.mp hy with h | h
        · exact h
        · rw [List.mem_singleton.mp h]; exact ha
      rw [List.idxOf_append_of_mem hx', List.idxOf_append_of_mem hy']
      exact ih x hx' y hy'
    · rw [show insNew (t.foldl insNew []) a = t.foldl insNew [] ++ [a] from if_neg (fun h => ha ((hm a).mp h))]
      have inl : ∀ z ∈ t, (t.foldl insNew [] ++ [a]).idxOf z = (t.foldl insNew []).idxOf z ∧
          (t.foldl insNew []).idxOf z < (t.foldl insNew []).length ∧ (t ++ [a]).idxOf z = t.idxOf z ∧
          t.idxOf z < t.length := fun z hz =>
        ⟨List.idxOf_append_of_mem ((hm z).mpr hz), List.idxOf_lt_length_iff.mpr ((hm z).mpr hz),
          List.idxOf_append_of_mem hz, List.idxOf_lt_length_iff.mpr hz⟩
      have ina : (t.foldl insNew [] ++ [a]).idxOf a = (t.foldl insNew []).length ∧ (t ++ [a]).idxOf a = t.length :=
        ⟨by rw [List.idxOf_append_of_notMem (fun h => ha ((hm a).mp h))]; simp,
          by rw [List.idxOf_append_of_notMem ha]; simp⟩
      intro x hx y hy
      rcases List.mem_append.mp hx with hx | hx <;> rcases List.mem_append.mp hy with hy | hy
      · rw [(inl x hx).1, (inl y hy).1, (inl x hx).2.2.1, (inl y hy).2.2.1]
        exact ih x hx y hy
      · rw [List.mem_singleton.mp hy, (inl x hx).1, ina.1, (inl x hx).2.2.1, ina.2]
        have := (inl x hx).2.1; have := (inl x hx).2.2.2
        omega
      · rw [List.mem_singleton.mp hx, (inl y hy).1, ina.1, (inl y hy).2.2.1, ina.2]
        have := (inl y hy).2.1; have := (inl y hy).2.2.2
        omega
      · rw [List.mem_singleton.mp hx, List.mem_singleton.mp hy]
        simp

theorem WF.idxOf_eq {g : DGraph} (h : g.WF) {x : Int} (hx : x ∈ g.verts) : g.verts.idxOf x = g.descOf x := by
  obtain ⟨h1, h2⟩ := List.getElem?_eq_some_iff.mp (h.descOf_spec hx)
  conv_lhs => rw [← h2]
  exact List.Nodup.idxOf_getElem h.nodup _ h1

open Classical in
theorem split_exact (ops : List GraphOp) :
    ∃ rs : List Int,
      rs.Pairwise (fun r s => (ops.flatMap acceptedIds).idxOf r < (ops.flatMap acceptedIds).idxOf s) ∧
      (∀ r, r ∈ rs ↔ Leads (ops.flatMap acceptedIds) (run ops).getEdgesAsPairs r r) ∧
      (run ops).split.map getEdgesAsPairs = rs.map (fun r => (run ops).getEdgesAsPairs.filter (fun e =>
        decide (Leads (ops.flatMap acceptedIds) (run ops).getEdgesAsPairs r e.1 ∧
          Leads (ops.flatMap acceptedIds) (run ops).getEdgesAsPairs r e.2))) ∧
      (rs.length = 1 → (run ops).split = [run ops]) ∧
      (rs.length ≠ 1 → ∀ p ∈ (run ops).split, ∀ x,
        x ∈ p.verts ↔ ∃ e ∈ p.getEdgesAsPairs, x = e.1 ∨ x = e.2) := by
  have h := run_wf ops
  have hids : ∀ x, x ∈ (run ops).verts ↔ x ∈ ops.flatMap acceptedIds := run_mem_verts ops
  have hidx : ∀ x ∈ (run ops).verts, ∀ y ∈ (run ops).verts, ((run ops).descOf x ≤ (run ops).descOf y ↔
      (ops.flatMap acceptedIds).idxOf x ≤ (ops.flatMap acceptedIds).idxOf y) := by
    intro x hx y hy
    rw [← h.idxOf_eq hx, ← h.idxOf_eq hy, run_verts]
    exact idxOf_insNew _ x ((hids x).mp hx) y ((hids y).mp hy)
  generalize ops.flatMap acceptedIds = ids at hids hidx ⊢
  generalize run ops = g at h hids hidx ⊢
  obtain ⟨root, hi⟩ := h.labels
  unfold split
  generalize connectedComponents g.outTargets g.verts.length = cc at hi ⊢
  obtain ⟨comp, cnt⟩ := cc
  simp only at hi ⊢
  have hroot : ∀ c < cnt, root c < g.verts.length := fun c hc => by simpa using (hi.root_comp c hc).2
  have hlab : ∀ x ∈ g.verts, ∀ c < cnt, (comp (g.descOf x) = some c ↔ Leads ids g.getEdgesAsPairs (g.idOf (root c)) x) := by
    intro x hx c hc
    have hrm : g.idOf (root c) ∈ g.verts := idOf_mem (hroot c hc)
    rw [hi.label_iff (h.descOf_lt hx) hc, h.sreach_iff (hroot c hc) (h.descOf_lt hx), h.idOf_descOf hx]
    constructor
    · rintro ⟨h1, h2⟩
      refine ⟨(hids _).mp hrm, h1, fun s hs hr => ?_⟩
      have hsm := (hids s).mpr hs
      rw [← hidx _ hrm _ hsm, h.descOf_idOf (hroot c hc)]
      apply h2 _ (h.descOf_lt hsm)
      rw [h.sreach_iff (h.descOf_lt hsm) (h.descOf_lt hx), h.idOf_descOf hx, h.idOf_descOf hsm]
      exact hr
    · rintro ⟨_, h1, h2⟩
      refine ⟨h1, fun s hs hr => ?_⟩
      rw [h.sreach_iff hs (h.descOf_lt hx), h.idOf_descOf hx] at hr
      have hsm : g.idOf s ∈ g.verts := idOf_mem hs
      have := h2 (g.idOf s) ((hids _).mp hsm) hr
      rwa [← hidx _ hrm _ hsm, h.descOf_idOf (hroot c hc), h.descOf_idOf hs] at this
  have huniq : ∀ r r' x, Leads ids g.getEdgesAsPairs r x → Leads ids g.getEdgesAsPairs r' x → r = r' := by
    rintro r r' x ⟨a1, a2, a3⟩ ⟨b1, b2, b3⟩
    have e := le_antisymm (a3 r' b1 b2) (b3 r a1 a2)
    exact (List.idxOf_inj a1).mp e
  refine ⟨(List.range cnt).map (fun c => g.idOf (root c)), ?_, ?_, ?_, ?_, ?_⟩
  · rw [List.pairwise_map]
    refine (List.pairwise_lt_range (n := cnt)).imp_of_mem ?_
    intro a b ha hb hab
    rw [List.mem_range] at ha hb
    have hma : g.idOf (root a) ∈ g.verts := idOf_mem (hroot a ha)
    have hmb : g.idOf (root b) ∈ g.verts := idOf_mem (hroot b hb)
    rw [← not_le, ← hidx _ hmb _ hma, h.descOf_idOf (hroot a ha), h.descOf_idOf (hroot b hb)]
    have := hi.mono a b hab hb
    omega
  · intro r
    rw [List.mem_map]
    constructor
    · rintro ⟨c, hc, rfl⟩
      rw [List.mem_range] at hc
      rw [← hlab _ (idOf_mem (hroot c hc)) c hc, h.descOf_idOf (hroot c hc)]
      exact (hi.root_comp c hc).1
    · intro hr
      have hrm := (hids r).mpr hr.1
      obtain ⟨k, hk⟩ := Option.ne_none_iff_exists'.mp (hi.seen (g.descOf r) (by simpa using h.descOf_lt hrm))
      have hkc := (hi.lt _ _ hk).1
      rw [hlab r hrm k hkc] at hk
      exact ⟨k, List.mem_range.mpr hkc, huniq _ _ _ hk hr⟩
  · by_cases h0 : g.verts.length = 0
    · rw [if_pos h0]
      have : cnt = 0 := by
        by_contra hne
        have := hroot 0 (by omega)
        omega
      simp [this]
    · rw [if_neg h0]
      by_cases h1 : cnt = 1
      · rw [if_pos h1, h1]
        simp only [List.map_cons, List.map_nil, List.range_one]
        congr 1
        symm
        rw [List.filter_eq_self]
        intro e he
        obtain ⟨m1, m2⟩ := h.pairs_mem_verts e he
        have lab0 : ∀ x ∈ g.verts, comp (g.descOf x) = some 0 := by
          intro x hx
          obtain ⟨k, hk⟩ := Option.ne_none_iff_exists'.mp (hi.seen (g.descOf x) (by simpa using h.descOf_lt hx))
          have := (hi.lt _ _ hk).1
          rw [hk]; congr 1; omega
        exact decide_eq_true ⟨(hlab _ m1 0 (by omega)).mp (lab0 _ m1), (hlab _ m2 0 (by omega)).mp (lab0 _ m2)⟩
      · rw [if_neg h1, List.map_map, List.map_map]
        apply List.map_congr_left
        intro c hc
        rw [List.mem_range] at hc
        simp only [Function.comp]
        rw [(splitPart_spec h comp c).2.1]
        apply List.filter_congr
        intro e he
        obtain ⟨m1, m2⟩ := h.pairs_mem_verts e he
        rw [decide_eq_decide, hlab _ m1 c hc, hlab _ m2 c hc]
  · intro hl
    have h1 : cnt = 1 := by simpa using hl
    have h0 : g.verts.length ≠ 0 := by have := hroot 0 (by omega); omega
    rw [if_neg h0, if_pos h1]
  · intro hl
    have h1 : cnt ≠ 1 := by simpa using hl
    by_cases h0 : g.verts.length = 0
    · rw [if_pos h0]; simp
    · rw [if_neg h0, if_neg h1]
      intro p hp x
      obtain ⟨c, _, rfl⟩ := List.mem_map.mp hp
      rw [(splitPart_spec h comp c).2.2 x, List.mem_flatMap]
      simp

end DGraph
end Tulip
