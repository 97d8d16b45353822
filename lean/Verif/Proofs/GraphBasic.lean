import Verif.Spec.Graph

namespace Tulip
open Spec

namespace DGraph

/-- Class invariant of `DirectedGraph`. -/
structure WF (g : DGraph) : Prop where
  sorted : g.vmap.Sorted
  nodup : g.verts.Nodup
  map_iff : ∀ id i, g.vmap.find? id = some i ↔ g.verts[i]? = some id
  edges_lt : ∀ e ∈ g.edges, e.1 < g.verts.length ∧ e.2 < g.verts.length ∧ e.1 ≠ e.2

theorem wf_empty : WF empty := by
  constructor
  · exact SMap.Sorted.nil
  · exact List.nodup_nil
  · intro id i; simp [empty]
  · intro e he; simp [empty] at he

theorem WF.contains_iff {g : DGraph} (h : g.WF) (id : Int) :
    g.vmap.contains id = true ↔ id ∈ g.verts := by
  unfold SMap.contains
  rw [Option.isSome_iff_exists]
  constructor
  · rintro ⟨i, hi⟩
    exact List.mem_of_getElem? ((h.map_iff id i).mp hi)
  · intro hm
    obtain ⟨i, hi⟩ := List.getElem?_of_mem hm
    exact ⟨i, (h.map_iff id i).mpr hi⟩

theorem idOf_eq {g : DGraph} {i : Nat} {id : Int} (h : g.verts[i]? = some id) : g.idOf i = id := by
  simp [idOf, List.getD, h]

theorem idOf_get {g : DGraph} {i : Nat} (h : i < g.verts.length) :
    g.verts[i]? = some (g.idOf i) := by
  simp [idOf, List.getD, h]

theorem idOf_mem {g : DGraph} {i : Nat} (h : i < g.verts.length) : g.idOf i ∈ g.verts :=
  List.mem_of_getElem? (idOf_get h)

theorem WF.descOf_spec {g : DGraph} (h : g.WF) {id : Int} (hm : id ∈ g.verts) :
    g.verts[g.descOf id]? = some id := by
  obtain ⟨i, hi⟩ := List.getElem?_of_mem hm
  have := (h.map_iff id i).mpr hi
  simp [descOf, this, hi]

theorem WF.descOf_lt {g : DGraph} (h : g.WF) {id : Int} (hm : id ∈ g.verts) :
    g.descOf id < g.verts.length := by
  have := h.descOf_spec hm
  exact (List.getElem?_eq_some_iff.mp this).1

theorem WF.idOf_descOf {g : DGraph} (h : g.WF) {id : Int} (hm : id ∈ g.verts) :
    g.idOf (g.descOf id) = id := idOf_eq (h.descOf_spec hm)

theorem WF.descOf_idOf {g : DGraph} (h : g.WF) {i : Nat} (hi : i < g.verts.length) :
    g.descOf (g.idOf i) = i := by
  have := (h.map_iff (g.idOf i) i).mpr (idOf_get hi)
  simp [descOf, this]

theorem WF.idOf_inj {g : DGraph} (h : g.WF) {i j : Nat} (hi : i < g.verts.length)
    (hj : j < g.verts.length) (e : g.idOf i = g.idOf j) : i = j := by
  rw [← h.descOf_idOf hi, ← h.descOf_idOf hj, e]

/-- append a new id at the end -/
def insNew (l : List Int) (x : Int) : List Int := if x ∈ l then l else l ++ [x]

theorem mem_insNew {l : List Int} {x y : Int} : y ∈ insNew l x ↔ y ∈ l ∨ y = x := by
  unfold insNew; split
  · rename_i h
    constructor
    · exact Or.inl
    · rintro (h1 | rfl) <;> assumption
  · simp

theorem addVertex_verts {g : DGraph} (h : g.WF) (v : Int) :
    (g.addVertex v).verts = insNew g.verts v := by
  unfold addVertex insNew
  by_cases hc : g.vmap.contains v = true
  · rw [if_pos hc, if_pos ((h.contains_iff v).mp hc)]
  · rw [if_neg hc, if_neg (fun hm => hc ((h.contains_iff v).mpr hm))]

theorem addVertex_edges (g : DGraph) (v : Int) : (g.addVertex v).edges = g.edges := by
  unfold addVertex; split <;> rfl

theorem addVertex_wf {g : DGraph} (h : g.WF) (v : Int) : (g.addVertex v).WF := by
  unfold addVertex
  by_cases hc : g.vmap.contains v = true
  · rw [if_pos hc]; exact h
  · rw [if_neg hc]
    have hn : v ∉ g.verts := fun hm => hc ((h.contains_iff v).mpr hm)
    have hnone : g.vmap.find? v = none := by
      cases hh : g.vmap.find? v with
      | none => rfl
      | some w => exact absurd (by simp [SMap.contains, hh]) hc
    constructor
    · exact h.sorted.emplace _ _
    · simp only [List.nodup_append, h.nodup, List.nodup_singleton, true_and]
      intro a ha b hb
      simp at hb
      subst hb
      intro e; subst e; exact hn ha
    · intro id i
      simp only
      rw [SMap.find?_emplace h.sorted, hnone]
      by_cases e : v = id
      · subst e
        simp only [if_true, Option.getD_none, Option.some.injEq]
        constructor
        · intro hi; subst hi; simp
        · intro hi
          rcases lt_or_ge i g.verts.length with hlt | hge
          · rw [List.getElem?_append_left hlt] at hi
            exact absurd (List.mem_of_getElem? hi) hn
          · rw [List.getElem?_append_right hge] at hi
            have := (List.getElem?_eq_some_iff.mp hi).1
            simp at this; omega
      · rw [if_neg e, h.map_iff]
        constructor
        · intro hi
          rw [List.getElem?_append_left (List.getElem?_eq_some_iff.mp hi).1]; exact hi
        · intro hi
          rcases lt_or_ge i g.verts.length with hlt | hge
          · rwa [List.getElem?_append_left hlt] at hi
          · rw [List.getElem?_append_right hge] at hi
            have hm := List.mem_of_getElem? hi
            simp at hm
            exact absurd hm.symm e
    · intro e he
      have := h.edges_lt e he
      simp only [List.length_append, List.length_singleton]
      omega

theorem pairs_congr_of_prefix {g g' : DGraph} (h : g.WF) (he : g'.edges = g.edges)
    (hp : g.verts <+: g'.verts) : g'.getEdgesAsPairs = g.getEdgesAsPairs := by
  unfold getEdgesAsPairs
  rw [he]
  apply List.map_congr_left
  intro e hm
  obtain ⟨h1, h2, _⟩ := h.edges_lt e hm
  have k1 : g'.idOf e.1 = g.idOf e.1 := by
    apply idOf_eq
    rw [← idOf_get h1]
    obtain ⟨t, ht⟩ := hp
    rw [← ht, List.getElem?_append_left h1]
  have k2 : g'.idOf e.2 = g.idOf e.2 := by
    apply idOf_eq
    rw [← idOf_get h2]
    obtain ⟨t, ht⟩ := hp
    rw [← ht, List.getElem?_append_left h2]
  rw [k1, k2]

theorem prefix_insNew (l : List Int) (x : Int) : l <+: insNew l x := by
  unfold insNew; split
  · exact List.prefix_rfl
  · exact List.prefix_append _ _

theorem addVertex_pairs {g : DGraph} (h : g.WF) (v : Int) :
    (g.addVertex v).getEdgesAsPairs = g.getEdgesAsPairs :=
  pairs_congr_of_prefix h (addVertex_edges g v) (by rw [addVertex_verts h]; exact prefix_insNew _ _)

theorem ensure_eq {g : DGraph} (v : Int) :
    (if g.vmap.contains v then g else g.addVertex v) = g.addVertex v := by
  split
  · rename_i hc; simp [addVertex, hc]
  · rfl

theorem addEdge_of_ne {g : DGraph} {a b : Int} (hab : a ≠ b) :
    g.addEdge a b =
      (let g2 := (g.addVertex a).addVertex b
       { g2 with edges := g2.edges ++ [(g2.descOf a, g2.descOf b)] }, none) := by
  unfold addEdge
  rw [if_neg hab]
  simp only [ensure_eq]

theorem addEdge_self (g : DGraph) (a : Int) : g.addEdge a a = (g, some selfLoopErr) := by
  simp [addEdge]

theorem addEdge_snd (g : DGraph) (a b : Int) :
    (g.addEdge a b).2 = if a = b then some selfLoopErr else none := by
  by_cases h : a = b
  · simp [addEdge, h]
  · rw [addEdge_of_ne h, if_neg h]

theorem addEdge_verts {g : DGraph} (h : g.WF) {a b : Int} (hab : a ≠ b) :
    (g.addEdge a b).1.verts = insNew (insNew g.verts a) b := by
  rw [addEdge_of_ne hab]
  simp only
  rw [addVertex_verts (addVertex_wf h a), addVertex_verts h]

theorem addEdge_wf {g : DGraph} (h : g.WF) (a b : Int) : (g.addEdge a b).1.WF := by
  by_cases hab : a = b
  · subst hab; rw [addEdge_self]; exact h
  · rw [addEdge_of_ne hab]
    have h2 := addVertex_wf (addVertex_wf h a) b
    have hva : a ∈ ((g.addVertex a).addVertex b).verts := by
      rw [addVertex_verts (addVertex_wf h a), addVertex_verts h]
      simp [mem_insNew]
    have hvb : b ∈ ((g.addVertex a).addVertex b).verts := by
      rw [addVertex_verts (addVertex_wf h a), addVertex_verts h]
      simp [mem_insNew]
    refine ⟨h2.sorted, h2.nodup, h2.map_iff, ?_⟩
    intro e he
    simp only [List.mem_append, List.mem_singleton] at he
    rcases he with he | he
    · exact h2.edges_lt e he
    · subst he
      refine ⟨h2.descOf_lt hva, h2.descOf_lt hvb, ?_⟩
      intro e
      have e1 := h2.idOf_descOf hva
      simp only at e
      rw [e, h2.idOf_descOf hvb] at e1
      exact hab e1.symm

theorem addEdge_pairs {g : DGraph} (h : g.WF) {a b : Int} (hab : a ≠ b) :
    (g.addEdge a b).1.getEdgesAsPairs = g.getEdgesAsPairs ++ [(a, b)] := by
  rw [addEdge_of_ne hab]
  have h1 := addVertex_wf h a
  have h2 := addVertex_wf h1 b
  have hva : a ∈ ((g.addVertex a).addVertex b).verts := by
    rw [addVertex_verts h1, addVertex_verts h]; simp [mem_insNew]
  have hvb : b ∈ ((g.addVertex a).addVertex b).verts := by
    rw [addVertex_verts h1, addVertex_verts h]; simp [mem_insNew]
  have hp : ((g.addVertex a).addVertex b).getEdgesAsPairs = g.getEdgesAsPairs := by
    rw [addVertex_pairs h1, addVertex_pairs h]
  unfold getEdgesAsPairs at hp ⊢
  simp only [List.map_append, List.map_cons, List.map_nil]
  have i1 := h2.idOf_descOf hva
  have i2 := h2.idOf_descOf hvb
  show List.map (fun (e : Nat × Nat) => (((g.addVertex a).addVertex b).idOf e.1,
    ((g.addVertex a).addVertex b).idOf e.2)) _ ++ [(((g.addVertex a).addVertex b).idOf _,
    ((g.addVertex a).addVertex b).idOf _)] = _
  rw [hp, i1, i2]

theorem cyclicPairs_length {α : Type _} (vs : List α) : (cyclicPairs vs).length = vs.length := by
  cases vs <;> simp [cyclicPairs]

theorem cyclicPairs_getElem? (vs : List Int) (i : Nat) (hi : i < vs.length) :
    (cyclicPairs vs)[i]? = some (vs.getD i 0, vs.getD ((i + 1) % vs.length) 0) := by
  cases vs with
  | nil => simp at hi
  | cons a t =>
    simp only [cyclicPairs, List.tail_cons, List.head?_cons, Option.toList]
    rw [List.getElem?_zip_eq_some]
    refine ⟨by simp [List.getD, List.getElem?_eq_getElem hi], ?_⟩
    simp only [List.length_cons] at hi ⊢
    rcases Nat.lt_or_ge (i + 1) (t.length + 1) with h | h
    · rw [Nat.mod_eq_of_lt h, List.getElem?_append_left (by omega)]
      have : i < t.length := by omega
      simp [List.getD, this]
    · have e : i + 1 = t.length + 1 := by omega
      rw [e, Nat.mod_self, List.getElem?_append_right (by omega)]
      have : i - t.length = 0 := by omega
      simp [this]

/-- What the loop of `addClosedPath` does, in terms of the observable edge list. -/
theorem addClosedPathLoop_spec (vs : List Int) (k : Nat) : ∀ (i : Nat) (g : DGraph), g.WF →
    i + k = vs.length →
    (addClosedPathLoop vs i k g).1.WF ∧
    (addClosedPathLoop vs i k g).1.getEdgesAsPairs =
      g.getEdgesAsPairs ++
        ((cyclicPairs vs).drop i).takeWhile (fun (e : Int × Int) => decide (e.1 ≠ e.2)) ∧
    (addClosedPathLoop vs i k g).1.verts =
      (((cyclicPairs vs).drop i).takeWhile (fun (e : Int × Int) => decide (e.1 ≠ e.2))).foldl
        (fun (l : List Int) (e : Int × Int) => insNew (insNew l e.1) e.2) g.verts ∧
    (addClosedPathLoop vs i k g).2 =
      if ∀ e ∈ (cyclicPairs vs).drop i, e.1 ≠ e.2 then none else some selfLoopErr := by
  induction k with
  | zero =>
    intro i g hg hi
    have : (cyclicPairs vs).drop i = [] := by
      rw [List.drop_eq_nil_iff, cyclicPairs_length]; omega
    rw [this]
    exact ⟨hg, by simp [addClosedPathLoop], by simp [addClosedPathLoop], by simp [addClosedPathLoop]⟩
  | succ k ih =>
    intro i g hg hi
    have hlt : i < vs.length := by omega
    have hget := cyclicPairs_getElem? vs i hlt
    have hdrop : (cyclicPairs vs).drop i =
        (vs.getD i 0, vs.getD ((i + 1) % vs.length) 0) :: (cyclicPairs vs).drop (i + 1) := by
      rw [List.drop_eq_getElem_cons (by rw [cyclicPairs_length]; exact hlt)]
      congr 1
      exact (List.getElem?_eq_some_iff.mp hget).2
    generalize ha : vs.getD i 0 = a at hdrop
    generalize hb : vs.getD ((i + 1) % vs.length) 0 = b at hdrop
    rw [hdrop]
    by_cases hab : a = b
    · subst hab
      have hstep : addClosedPathLoop vs i (k + 1) g = (g, some selfLoopErr) := by
        simp only [addClosedPathLoop, ha, hb, addEdge_self]
      rw [hstep]
      refine ⟨hg, by simp, by simp, ?_⟩
      rw [if_neg]
      intro hall
      exact hall (a, a) (by simp) rfl
    · have hstep : addClosedPathLoop vs i (k + 1) g =
          addClosedPathLoop vs (i + 1) k (g.addEdge a b).1 := by
        have h2 := addEdge_snd g a b
        rw [if_neg hab] at h2
        conv_lhs => unfold addClosedPathLoop
        simp only [ha, hb]
        generalize hr : g.addEdge a b = r at h2
        obtain ⟨g', o⟩ := r
        simp only at h2
        subst h2
        rfl
      rw [hstep]
      obtain ⟨w, p, v, r⟩ := ih (i + 1) _ (addEdge_wf hg a b) (by omega)
      refine ⟨w, ?_, ?_, ?_⟩
      · rw [p, addEdge_pairs hg hab, List.takeWhile_cons_of_pos (by simpa using hab)]
        simp
      · rw [v, addEdge_verts hg hab, List.takeWhile_cons_of_pos (by simpa using hab)]
        rfl
      · rw [r]
        simp only [List.mem_cons, forall_eq_or_imp]
        by_cases hh : ∀ e ∈ List.drop (i + 1) (cyclicPairs vs), e.1 ≠ e.2
        · rw [if_pos hh, if_pos ⟨hab, hh⟩]
        · rw [if_neg hh, if_neg (fun h => hh h.2)]

theorem addClosedPath_spec {g : DGraph} (hg : g.WF) (vs : List Int) :
    (g.addClosedPath vs).1.WF ∧
    (g.addClosedPath vs).1.getEdgesAsPairs =
      g.getEdgesAsPairs ++ acceptedEdges (.addClosedPath vs) ∧
    (g.addClosedPath vs).1.verts =
      (acceptedEdges (.addClosedPath vs)).foldl (fun l e => insNew (insNew l e.1) e.2) g.verts ∧
    (g.addClosedPath vs).2 =
      if vs.length = 1 then some shortPathErr
      else if ∀ e ∈ cyclicPairs vs, e.1 ≠ e.2 then none else some selfLoopErr := by
  unfold addClosedPath acceptedEdges
  by_cases h1 : vs.length = 1
  · simp [h1, hg]
  · simp only [if_neg h1]
    have := addClosedPathLoop_spec vs vs.length 0 g hg (by omega)
    rw [List.drop_zero] at this
    exact this

theorem apply_wf {g : DGraph} (hg : g.WF) (op : GraphOp) : (g.apply op).WF := by
  cases op with
  | addVertex v => exact addVertex_wf hg v
  | addEdge a b => exact addEdge_wf hg a b
  | addClosedPath vs => exact (addClosedPath_spec hg vs).1

theorem foldl_apply_wf {g : DGraph} (hg : g.WF) (ops : List GraphOp) :
    (ops.foldl apply g).WF := by
  induction ops generalizing g with
  | nil => exact hg
  | cons o t ih => exact ih (apply_wf hg o)

/-- Every reachable graph satisfies the class invariant. -/
theorem run_wf (ops : List GraphOp) : (run ops).WF := foldl_apply_wf wf_empty ops

theorem apply_pairs {g : DGraph} (hg : g.WF) (op : GraphOp) :
    (g.apply op).getEdgesAsPairs = g.getEdgesAsPairs ++ acceptedEdges op := by
  cases op with
  | addVertex v => simp [apply, acceptedEdges, addVertex_pairs hg]
  | addEdge a b =>
    by_cases h : a = b
    · subst h; simp [apply, acceptedEdges, addEdge_self]
    · simp [apply, acceptedEdges, addEdge_pairs hg h, h]
  | addClosedPath vs => exact (addClosedPath_spec hg vs).2.1

theorem mem_foldl_insNew (l : List Int) (es : List (Int × Int)) (x : Int) :
    x ∈ es.foldl (fun l e => insNew (insNew l e.1) e.2) l ↔
      x ∈ l ∨ x ∈ es.flatMap (fun e => [e.1, e.2]) := by
  induction es generalizing l with
  | nil => simp
  | cons e t ih =>
    rw [List.foldl_cons, ih, List.flatMap_cons]
    simp only [mem_insNew, List.mem_append, List.mem_cons, List.not_mem_nil, or_false]
    tauto

theorem apply_mem_verts {g : DGraph} (hg : g.WF) (op : GraphOp) (x : Int) :
    x ∈ (g.apply op).verts ↔ x ∈ g.verts ∨ x ∈ acceptedIds op := by
  cases op with
  | addVertex v => simp [apply, acceptedIds, addVertex_verts hg, mem_insNew]
  | addEdge a b =>
    by_cases h : a = b
    · subst h; simp [apply, acceptedIds, acceptedEdges, addEdge_self]
    · simp [apply, acceptedIds, acceptedEdges, addEdge_verts hg h, mem_insNew, h, or_assoc]
  | addClosedPath vs =>
    show x ∈ (g.addClosedPath vs).1.verts ↔ _
    rw [(addClosedPath_spec hg vs).2.2.1, mem_foldl_insNew]
    rfl

theorem foldl_apply_pairs {g : DGraph} (hg : g.WF) (ops : List GraphOp) :
    (ops.foldl apply g).getEdgesAsPairs = g.getEdgesAsPairs ++ ops.flatMap acceptedEdges := by
  induction ops generalizing g with
  | nil => simp
  | cons o t ih =>
    rw [List.foldl_cons, ih (apply_wf hg o), apply_pairs hg, List.flatMap_cons, List.append_assoc]

theorem foldl_apply_mem_verts {g : DGraph} (hg : g.WF) (ops : List GraphOp) (x : Int) :
    x ∈ (ops.foldl apply g).verts ↔ x ∈ g.verts ∨ x ∈ ops.flatMap acceptedIds := by
  induction ops generalizing g with
  | nil => simp
  | cons o t ih =>
    rw [List.foldl_cons, ih (apply_wf hg o), apply_mem_verts hg, List.flatMap_cons,
      List.mem_append, or_assoc]

theorem run_pairs (ops : List GraphOp) :
    (run ops).getEdgesAsPairs = ops.flatMap acceptedEdges := by
  have := foldl_apply_pairs wf_empty ops
  simpa [run, getEdgesAsPairs, empty] using this

theorem run_mem_verts (ops : List GraphOp) (x : Int) :
    x ∈ (run ops).verts ↔ x ∈ ops.flatMap acceptedIds := by
  have := foldl_apply_mem_verts wf_empty ops x
  simpa [run, empty] using this

theorem edgesSize_eq (g : DGraph) : g.edgesSize = g.getEdgesAsPairs.length := by
  simp [edgesSize, getEdgesAsPairs]

theorem mem_getVertices (g : DGraph) (x : Int) : x ∈ g.getVertices ↔ x ∈ g.verts := by
  simp [getVertices]

theorem WF.getVertices_length {g : DGraph} (h : g.WF) : g.getVertices.length = g.verts.length := by
  have hp : g.getVertices.Perm g.verts :=
    (List.perm_ext_iff_of_nodup (SSet.sorted_ofList _).nodup h.nodup).mpr (mem_getVertices g)
  exact hp.length_eq

/-- Folding `addEdge` over a list of proper pairs, from the empty graph. -/
theorem foldl_addEdge_spec {g : DGraph} (hg : g.WF) (es : List (Int × Int))
    (hes : ∀ e ∈ es, e.1 ≠ e.2) :
    (es.foldl (fun r e => (r.addEdge e.1 e.2).1) g).WF ∧
    (es.foldl (fun r e => (r.addEdge e.1 e.2).1) g).getEdgesAsPairs = g.getEdgesAsPairs ++ es ∧
    (∀ x, x ∈ (es.foldl (fun r e => (r.addEdge e.1 e.2).1) g).verts ↔
      x ∈ g.verts ∨ x ∈ es.flatMap (fun e => [e.1, e.2])) := by
  induction es generalizing g with
  | nil => simp [hg]
  | cons e t ih =>
    have he : e.1 ≠ e.2 := hes e (by simp)
    obtain ⟨w, p, v⟩ := ih (addEdge_wf hg e.1 e.2) (fun x hx => hes x (by simp [hx]))
    refine ⟨w, ?_, ?_⟩
    · rw [List.foldl_cons, p, addEdge_pairs hg he]; simp
    · intro x
      rw [List.foldl_cons, v, addEdge_verts hg he]
      simp only [mem_insNew, List.flatMap_cons, List.mem_append, List.mem_cons, List.not_mem_nil,
        or_false]
      tauto

theorem WF.pairs_ne {g : DGraph} (h : g.WF) : ∀ e ∈ g.getEdgesAsPairs, e.1 ≠ e.2 := by
  intro e he
  obtain ⟨d, hd, rfl⟩ := List.mem_map.mp he
  obtain ⟨h1, h2, h3⟩ := h.edges_lt d hd
  intro e
  exact h3 (h.idOf_inj h1 h2 e)

theorem WF.pairs_mem_verts {g : DGraph} (h : g.WF) :
    ∀ e ∈ g.getEdgesAsPairs, e.1 ∈ g.verts ∧ e.2 ∈ g.verts := by
  intro e he
  obtain ⟨d, hd, rfl⟩ := List.mem_map.mp he
  obtain ⟨h1, h2, h3⟩ := h.edges_lt d hd
  exact ⟨idOf_mem h1, idOf_mem h2⟩

theorem mem_outTargets {g : DGraph} {u v : Nat} : v ∈ g.outTargets u ↔ (u, v) ∈ g.edges := by
  unfold outTargets
  simp

theorem WF.hasEdge_iff {g : DGraph} (h : g.WF) {u v : Nat} (hu : u < g.verts.length)
    (hv : v < g.verts.length) :
    g.hasEdge u v = true ↔ (g.idOf u, g.idOf v) ∈ g.getEdgesAsPairs := by
  unfold hasEdge
  rw [List.contains_iff_mem, mem_outTargets]
  unfold getEdgesAsPairs
  rw [List.mem_map]
  constructor
  · intro he; exact ⟨(u, v), he, rfl⟩
  · rintro ⟨d, hd, he⟩
    obtain ⟨h1, h2, _⟩ := h.edges_lt d hd
    have e1 := h.idOf_inj h1 hu (congrArg Prod.fst he)
    have e2 := h.idOf_inj h2 hv (congrArg Prod.snd he)
    have : d = (u, v) := Prod.ext e1 e2
    exact this ▸ hd

/-- A conditional `addEdge` loop over the stored edges builds the filtered edge list. -/
theorem foldl_cond_addEdge {α : Type _} (es : List α) (f : α → Int × Int) (P : α → Prop)
    [DecidablePred P] (g : DGraph) :
    es.foldl (fun r e => if P e then (r.addEdge (f e).1 (f e).2).1 else r) g =
      ((es.filter (fun e => P e)).map f).foldl (fun r e => (r.addEdge e.1 e.2).1) g := by
  induction es generalizing g with
  | nil => rfl
  | cons e t ih =>
    rw [List.foldl_cons, ih]
    by_cases h : P e
    · simp [h]
    · simp [h]

theorem boundary_spec {g : DGraph} (h : g.WF) :
    g.getBoundaryGraph.WF ∧
    g.getBoundaryGraph.getEdgesAsPairs =
      g.getEdgesAsPairs.filter (fun e => !g.getEdgesAsPairs.contains (e.2, e.1)) ∧
    (∀ x, x ∈ g.getBoundaryGraph.verts ↔
      x ∈ g.getBoundaryGraph.getEdgesAsPairs.flatMap (fun e => [e.1, e.2])) := by
  have hfold : g.getBoundaryGraph =
      ((g.edges.filter (fun e => !g.hasEdge e.2 e.1)).map (fun e => (g.idOf e.1, g.idOf e.2))).foldl
        (fun r e => (r.addEdge e.1 e.2).1) empty := by
    unfold getBoundaryGraph
    rw [foldl_cond_addEdge g.edges (fun e => (g.idOf e.1, g.idOf e.2))
      (fun e => (!g.hasEdge e.2 e.1) = true) empty]
    simp
  have hlist : (g.edges.filter (fun e => !g.hasEdge e.2 e.1)).map
      (fun e => (g.idOf e.1, g.idOf e.2)) =
      g.getEdgesAsPairs.filter (fun e => !g.getEdgesAsPairs.contains (e.2, e.1)) := by
    conv_rhs => rw [getEdgesAsPairs, List.filter_map]
    congr 1
    apply List.filter_congr
    intro e he
    obtain ⟨h1, h2, _⟩ := h.edges_lt e he
    simp only [Function.comp]
    congr 1
    rw [Bool.eq_iff_iff, h.hasEdge_iff h2 h1, List.contains_iff_mem]
    rfl
  rw [hlist] at hfold
  obtain ⟨w, p, v⟩ := foldl_addEdge_spec wf_empty
    (g.getEdgesAsPairs.filter (fun e => !g.getEdgesAsPairs.contains (e.2, e.1)))
    (fun e he => h.pairs_ne e (List.mem_of_mem_filter he))
  rw [← hfold] at w p v
  have p' : g.getBoundaryGraph.getEdgesAsPairs =
      g.getEdgesAsPairs.filter (fun e => !g.getEdgesAsPairs.contains (e.2, e.1)) := by
    rw [p]; simp [getEdgesAsPairs, empty]
  refine ⟨w, p', ?_⟩
  intro x
  rw [v x, p']
  simp [empty]

end DGraph
end Tulip
