import Verif.Spec.Graph
import Verif.Proofs.GraphBasic
import Mathlib.Data.List.TakeWhile

/-!
# C01–C04: contents of a `DirectedGraph` and of its boundary graph
-/

namespace Tulip.Props
open Tulip Tulip.Spec

/-- **C01.** After any history of calls (rejected ones included): the vertices are exactly the ids of
the accepted calls, in a strictly sorted list (a `std::set`), counted by `verticesSize`; the edge list
is exactly the concatenation of the accepted edges. -/
theorem C01_contents (ops : List GraphOp) :
    (∀ x, x ∈ (DGraph.run ops).getVertices ↔ ∃ op ∈ ops, x ∈ acceptedIds op) ∧
    (DGraph.run ops).getVertices.Pairwise (· < ·) ∧
    (DGraph.run ops).verticesSize = (DGraph.run ops).getVertices.length ∧
    (DGraph.run ops).getEdgesAsPairs = (ops.map acceptedEdges).flatten ∧
    (DGraph.run ops).edgesSize = ((ops.map acceptedEdges).flatten).length := by
  have hp := DGraph.run_pairs ops
  rw [List.flatMap_def] at hp
  refine ⟨?_, SSet.sorted_ofList _, ?_, hp, ?_⟩
  · intro x
    rw [DGraph.mem_getVertices, DGraph.run_mem_verts, List.mem_flatMap]
  · rw [(DGraph.run_wf ops).getVertices_length]; rfl
  · rw [DGraph.edgesSize_eq, hp]

/-- The non-trivial instance: a history with accepted and rejected calls and a repeated edge. -/
example :
    let g := DGraph.run [.addVertex 9, .addEdge 4 4, .addClosedPath [1, 2, 3], .addEdge 1 2,
      .addClosedPath [5, 6, 6, 7], .addClosedPath [8]]
    g.getVertices = [1, 2, 3, 5, 6, 9] ∧
    g.getEdgesAsPairs = [(1, 2), (2, 3), (3, 1), (1, 2), (5, 6)] := by
  decide

/-- **C02.** On every reachable graph: `addEdge v v` throws and changes nothing, a one-vertex closed
path throws and changes nothing, no self-loop is ever stored, and a closed path that throws keeps
exactly the cyclic pairs before the first repetition. -/
theorem C02_selfloops (ops : List GraphOp) :
    (∀ v, ((DGraph.run ops).addEdge v v).2 ≠ none ∧
      ((DGraph.run ops).addEdge v v).1 = DGraph.run ops) ∧
    (∀ v, ((DGraph.run ops).addClosedPath [v]).2 ≠ none ∧
      ((DGraph.run ops).addClosedPath [v]).1 = DGraph.run ops) ∧
    (∀ e ∈ (DGraph.run ops).getEdgesAsPairs, e.1 ≠ e.2) ∧
    (∀ vs, ((DGraph.run ops).addClosedPath vs).2 ≠ none → vs.length ≠ 1 →
      ∃ pre bad post, cyclicPairs vs = pre ++ bad :: post ∧ bad.1 = bad.2 ∧
        (∀ e ∈ pre, e.1 ≠ e.2) ∧
        ((DGraph.run ops).addClosedPath vs).1.getEdgesAsPairs =
          (DGraph.run ops).getEdgesAsPairs ++ pre ∧
        ∀ x, x ∈ ((DGraph.run ops).addClosedPath vs).1.getVertices ↔
          x ∈ (DGraph.run ops).getVertices ∨ ∃ e ∈ pre, x = e.1 ∨ x = e.2) := by
  have hw := DGraph.run_wf ops
  refine ⟨?_, ?_, hw.pairs_ne, ?_⟩
  · intro v; simp [DGraph.addEdge]
  · intro v; simp [DGraph.addClosedPath]
  · intro vs hne h1
    obtain ⟨_, p, v, r⟩ := DGraph.addClosedPath_spec hw vs
    rw [r, if_neg h1] at hne
    have hbad : ¬ ∀ e ∈ cyclicPairs vs, e.1 ≠ e.2 := by
      intro h; rw [if_pos h] at hne; exact hne rfl
    have hsplit := List.takeWhile_append_dropWhile (p := fun e : Int × Int => decide (e.1 ≠ e.2))
      (l := cyclicPairs vs)
    cases hd : (cyclicPairs vs).dropWhile (fun e : Int × Int => decide (e.1 ≠ e.2)) with
    | nil =>
      exfalso; apply hbad
      intro e he
      have := (List.dropWhile_eq_nil_iff.mp hd) e he
      simpa using this
    | cons bad post =>
      have hb : bad.1 = bad.2 := by
        have := List.head_dropWhile_not (l := cyclicPairs vs)
          (fun e : Int × Int => decide (e.1 ≠ e.2)) (by rw [hd]; simp)
        simp only [hd] at this
        exact Decidable.not_not.mp (of_decide_eq_false this)
      have hacc : acceptedEdges (.addClosedPath vs) =
          (cyclicPairs vs).takeWhile (fun e : Int × Int => decide (e.1 ≠ e.2)) := by
        simp [acceptedEdges, h1]
      rw [hd] at hsplit
      refine ⟨_, bad, post, hsplit.symm, hb, ?_, ?_, ?_⟩
      · intro e he
        simpa using List.mem_takeWhile_imp he
      · rw [p, hacc]
      · intro x
        rw [DGraph.mem_getVertices, DGraph.mem_getVertices, v, DGraph.mem_foldl_insNew, hacc]
        simp only [List.mem_flatMap, List.mem_cons, List.not_mem_nil, or_false]

example : ((DGraph.run [.addEdge 1 2]).addClosedPath [5, 6, 6, 7]).2 ≠ none := by decide

/-- **C02, messages.** What rejected calls throw. -/
theorem C02_messages (ops : List GraphOp) :
    (∀ a b, ((DGraph.run ops).addEdge a b).2 =
      if a = b then some (.runtimeError "Edges starting and finishing in same vertex are not allowed.") else none) ∧
    ∀ vs, ((DGraph.run ops).addClosedPath vs).2 =
      if vs.length = 1 then some (.runtimeError "Paths must contain at least two vertices.")
      else if ∀ e ∈ cyclicPairs vs, e.1 ≠ e.2 then none
      else some (.runtimeError "Edges starting and finishing in same vertex are not allowed.") := by
  refine ⟨fun a b => ?_, fun vs => (DGraph.addClosedPath_spec (DGraph.run_wf ops) vs).2.2.2⟩
  unfold DGraph.addEdge
  split <;> rfl

/-- **C03.** A closed path succeeds exactly when it does not have length one and no two cyclically
consecutive ids coincide; it then appends exactly its cyclic edges, in order, and its ids. -/
theorem C03_closed_path (ops : List GraphOp) (vs : List Int) :
    (((DGraph.run ops).addClosedPath vs).2 = none ↔ GoodPath vs) ∧
    (GoodPath vs →
      ((DGraph.run ops).addClosedPath vs).1.getEdgesAsPairs =
        (DGraph.run ops).getEdgesAsPairs ++ cyclicPairs vs ∧
      ∀ x, x ∈ ((DGraph.run ops).addClosedPath vs).1.getVertices ↔
        x ∈ (DGraph.run ops).getVertices ∨ x ∈ vs) := by
  obtain ⟨_, p, v, r⟩ := DGraph.addClosedPath_spec (DGraph.run_wf ops) vs
  refine ⟨?_, ?_⟩
  · rw [r]
    unfold GoodPath
    by_cases h1 : vs.length = 1
    · simp [h1]
    · rw [if_neg h1]
      by_cases h2 : ∀ e ∈ cyclicPairs vs, e.1 ≠ e.2
      · rw [if_pos h2]; exact ⟨fun _ => ⟨h1, h2⟩, fun _ => rfl⟩
      · rw [if_neg h2]; simp only [reduceCtorEq, false_iff]; exact fun h => h2 h.2
  · intro hg
    have hacc : acceptedEdges (.addClosedPath vs) = cyclicPairs vs := by
      simp only [acceptedEdges, if_neg hg.1]
      rw [List.takeWhile_eq_self_iff]
      intro e he
      simpa using hg.2 e he
    refine ⟨by rw [p, hacc], ?_⟩
    intro x
    rw [DGraph.mem_getVertices, DGraph.mem_getVertices, v, DGraph.mem_foldl_insNew, hacc]
    have : x ∈ (cyclicPairs vs).flatMap (fun e => [e.1, e.2]) ↔ x ∈ vs := by
      simp only [List.mem_flatMap, List.mem_cons, List.not_mem_nil, or_false]
      constructor
      · rintro ⟨e, he, rfl | rfl⟩
        · exact (List.of_mem_zip he).1
        · have h2 := (List.of_mem_zip he).2
          cases vs with
          | nil => simp [cyclicPairs] at he
          | cons a t => simpa [or_comm] using h2
      · intro hx
        obtain ⟨i, hi, rfl⟩ := List.getElem_of_mem hx
        have := DGraph.cyclicPairs_getElem? vs i hi
        exact ⟨_, List.mem_of_getElem? this, Or.inl (by simp [List.getD, hi])⟩
    rw [this]

example : GoodPath [1, 2, 3, 2] := by decide
example : cyclicPairs [1, 2, 3, 2] = [(1, 2), (2, 3), (3, 2), (2, 1)] := by decide
example : ¬ GoodPath [1, 2, 1] := by decide

/-- **C04.** The boundary graph of any reachable graph has exactly the edges whose reverse is not in
the graph, in the original order and with multiplicity, exactly the vertices they touch, and it is
its own boundary. -/
theorem C04_boundary (ops : List GraphOp) :
    let g := DGraph.run ops
    g.getBoundaryGraph.getEdgesAsPairs =
      g.getEdgesAsPairs.filter (fun e => decide ((e.2, e.1) ∉ g.getEdgesAsPairs)) ∧
    (∀ x, x ∈ g.getBoundaryGraph.getVertices ↔
      ∃ e ∈ g.getBoundaryGraph.getEdgesAsPairs, x = e.1 ∨ x = e.2) ∧
    g.getBoundaryGraph.getBoundaryGraph.getEdgesAsPairs = g.getBoundaryGraph.getEdgesAsPairs ∧
    g.getBoundaryGraph.getBoundaryGraph.getVertices = g.getBoundaryGraph.getVertices := by
  intro g
  obtain ⟨w, p, v⟩ := DGraph.boundary_spec (DGraph.run_wf ops)
  obtain ⟨w2, p2, v2⟩ := DGraph.boundary_spec w
  have hcont : ∀ (l : List (Int × Int)) (e : Int × Int),
      (!l.contains (e.2, e.1)) = decide ((e.2, e.1) ∉ l) := by
    intro l e; rw [Bool.eq_iff_iff]; simp
  simp only [hcont] at p p2
  have hidem : g.getBoundaryGraph.getBoundaryGraph.getEdgesAsPairs =
      g.getBoundaryGraph.getEdgesAsPairs := by
    rw [p2, List.filter_eq_self]
    intro e he
    have he' := he
    rw [p, List.mem_filter] at he'
    simp only [decide_eq_true_eq] at he' ⊢
    intro hc
    rw [p, List.mem_filter] at hc
    exact he'.2 hc.1
  refine ⟨p, ?_, hidem, ?_⟩
  · intro x
    rw [DGraph.mem_getVertices, v]
    simp only [List.mem_flatMap, List.mem_cons, List.not_mem_nil, or_false]
    rfl
  · apply SSet.ext (SSet.sorted_ofList _) (SSet.sorted_ofList _)
    intro x
    rw [← DGraph.getVertices, ← DGraph.getVertices, DGraph.mem_getVertices, DGraph.mem_getVertices,
      v2, v, hidem]

/-- Two triangles sharing an edge: the shared edge disappears. -/
example : (DGraph.run [.addClosedPath [1, 2, 3], .addClosedPath [2, 1, 4]]).getBoundaryGraph.getEdgesAsPairs
    = [(2, 3), (3, 1), (1, 4), (4, 2)] := by decide

end Tulip.Props
