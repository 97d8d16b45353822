import Verif.Spec.Graph
import Verif.Proofs.SplitExact
import Mathlib.Data.List.TakeWhile

/-!
# C05–C06: `split`
-/

namespace Tulip.Props
open Tulip Tulip.Spec

open Classical in
/-- **C05.** If the graph was built by (accepted) closed paths only, `split` is the partition into
connected components: each part has a vertex `r`, its vertices are exactly the vertices connected with
`r` ignoring directions, its edges are exactly the edges among them (in order, with multiplicity);
different parts share no vertex; every vertex is in a part. -/
theorem C05_split_components (ops : List GraphOp)
    (hops : ∀ op ∈ ops, ∃ vs, op = .addClosedPath vs ∧ GoodPath vs) :
    let g := DGraph.run ops
    (∀ p ∈ g.split, ∃ r ∈ p.getVertices,
      (∀ x, x ∈ p.getVertices ↔ x ∈ g.getVertices ∧ Connected g.getEdgesAsPairs r x) ∧
      p.getEdgesAsPairs =
        g.getEdgesAsPairs.filter (fun e => decide (Connected g.getEdgesAsPairs r e.1))) ∧
    g.split.Pairwise (fun p q => ∀ x ∈ p.getVertices, x ∉ q.getVertices) ∧
    (∀ x ∈ g.getVertices, ∃ p ∈ g.split, x ∈ p.getVertices) := by
  intro g
  have hw := DGraph.run_wf ops
  have hp : g.getEdgesAsPairs = _ := DGraph.run_pairs ops
  have hacc : ∀ vs, GoodPath vs → acceptedEdges (.addClosedPath vs) = cyclicPairs vs := by
    intro vs hg
    simp only [acceptedEdges, if_neg hg.1]
    exact List.takeWhile_eq_self_iff.mpr (fun e he => by simpa using hg.2 e he)
  have hs : ∀ e ∈ g.getEdgesAsPairs, Reach g.getEdgesAsPairs e.2 e.1 := by
    intro e he
    rw [hp, List.mem_flatMap] at he
    obtain ⟨op, hop, he⟩ := he
    obtain ⟨vs, rfl, hg⟩ := hops op hop
    rw [hacc vs hg] at he
    refine DGraph.reach_cyclic ?_ e he
    intro e' he'
    rw [hp, List.mem_flatMap]
    exact ⟨_, hop, by rw [hacc vs hg]; exact he'⟩
  have hc : ∀ x ∈ g.verts, ∃ e ∈ g.getEdgesAsPairs, x = e.1 ∨ x = e.2 := by
    intro x hx
    have hx' := (DGraph.run_mem_verts ops x).mp hx
    rw [List.mem_flatMap] at hx'
    obtain ⟨op, hop, hx'⟩ := hx'
    obtain ⟨vs, rfl, hg⟩ := hops op hop
    simp only [acceptedIds, List.mem_flatMap, List.mem_cons, List.not_mem_nil, or_false] at hx'
    obtain ⟨e, he, h⟩ := hx'
    refine ⟨e, ?_, h⟩
    rw [hp, List.mem_flatMap]
    exact ⟨_, hop, he⟩
  obtain ⟨a, b, c⟩ := DGraph.split_spec hw hs hc
  refine ⟨?_, ?_, ?_⟩
  · intro p hpm
    obtain ⟨_, r, h1, h2, h3⟩ := a p hpm
    refine ⟨r, (DGraph.mem_getVertices _ _).mpr h1, ?_, h3⟩
    intro x
    rw [DGraph.mem_getVertices, DGraph.mem_getVertices]
    exact h2 x
  · refine b.imp ?_
    intro p q h x
    rw [DGraph.mem_getVertices, DGraph.mem_getVertices]
    exact h x
  · intro x
    rw [DGraph.mem_getVertices]
    intro hx
    obtain ⟨p, hpm, hxp⟩ := c x hx
    exact ⟨p, hpm, (DGraph.mem_getVertices _ _).mpr hxp⟩

/-- Two triangles without common vertex: two parts. -/
example :
    ((DGraph.run [.addClosedPath [1, 2, 3], .addClosedPath [4, 5, 6]]).split).map
      DGraph.getEdgesAsPairs = [[(1, 2), (2, 3), (3, 1)], [(4, 5), (5, 6), (6, 4)]] := by
  simp [DGraph.run, DGraph.apply, DGraph.addClosedPath, DGraph.addClosedPathLoop, DGraph.addEdge, DGraph.addVertex,
    DGraph.empty, SMap.contains, SMap.find?, SMap.emplace, SMap.set, DGraph.descOf, DGraph.split,
    connectedComponents, List.range, List.range.loop, dfsLoop, DGraph.outTargets, upd, DGraph.splitPart, DGraph.idOf, DGraph.getEdgesAsPairs]
example : ∀ op ∈ [GraphOp.addClosedPath [1, 2, 3], .addClosedPath [4, 5, 6]],
    ∃ vs, op = .addClosedPath vs ∧ GoodPath vs := by
  have h1 : GoodPath [1, 2, 3] := by decide
  have h2 : GoodPath [4, 5, 6] := by decide
  simp [h1, h2]

/-- **C06, refuted.** `split` can drop an edge (when one of its ends was added earlier and cannot reach the
other). -/
theorem C06_refuted_edge :
    let g := DGraph.run [.addVertex 0, .addEdge 1 0]
    (1, 0) ∈ g.getEdgesAsPairs ∧ ∀ p ∈ g.split, p.getEdgesAsPairs = [] := by
  simp [DGraph.run, DGraph.apply, DGraph.addEdge, DGraph.addVertex,
    DGraph.empty, SMap.contains, SMap.find?, SMap.emplace, SMap.set, DGraph.descOf, DGraph.split,
    connectedComponents, List.range, List.range.loop, dfsLoop, DGraph.outTargets, upd, DGraph.splitPart, DGraph.idOf, DGraph.getEdgesAsPairs]

/-- **C06, refuted.** Isolated vertices are lost. -/
theorem C06_refuted_vertex :
    let g := DGraph.run [.addClosedPath [10, 11], .addVertex 12]
    12 ∈ g.getVertices ∧ ∀ p ∈ g.split, 12 ∉ p.getVertices := by
  simp [DGraph.run, DGraph.apply, DGraph.addClosedPath, DGraph.addClosedPathLoop, DGraph.addEdge, DGraph.addVertex,
    DGraph.empty, SMap.contains, SMap.find?, SMap.emplace, SMap.set, DGraph.descOf, DGraph.split,
    connectedComponents, List.range, List.range.loop, dfsLoop, DGraph.outTargets, upd, DGraph.splitPart, DGraph.idOf, DGraph.getVertices]

/-- **C06, the part that holds.** For every history: no part contains anything foreign, order and
multiplicity are kept, no two parts share a vertex (so no edge is duplicated), and every edge that lies on
a directed cycle is in a part. Missing (false, see above): edges that cannot be undone, and isolated
vertices. -/
theorem C06_split_partial (ops : List GraphOp) :
    let g := DGraph.run ops
    (∀ p ∈ g.split, p.getEdgesAsPairs.Sublist g.getEdgesAsPairs ∧
      ∀ x ∈ p.getVertices, x ∈ g.getVertices) ∧
    g.split.Pairwise (fun p q => ∀ x ∈ p.getVertices, x ∉ q.getVertices) ∧
    (∀ e ∈ g.getEdgesAsPairs, Reach g.getEdgesAsPairs e.2 e.1 →
      ∃ p ∈ g.split, e ∈ p.getEdgesAsPairs) := by
  intro g
  obtain ⟨a, b, c⟩ := DGraph.split_general (DGraph.run_wf ops)
  refine ⟨?_, ?_, c⟩
  · intro p hp
    refine ⟨(a p hp).2.1, ?_⟩
    intro x
    rw [DGraph.mem_getVertices, DGraph.mem_getVertices]
    exact (a p hp).2.2 x
  · refine b.imp ?_
    intro p q h x
    rw [DGraph.mem_getVertices, DGraph.mem_getVertices]
    exact h x

open Classical in
/-- **C06, exactly what is returned.** For every history: one part for each vertex that no vertex introduced before it
reaches, in order of introduction; the part of such a vertex `r` has exactly the edges both ends of which have `r` as the
first vertex that reaches them, in order and with multiplicity. With a single such vertex the graph itself is returned;
otherwise the vertices of a part are the ends of its edges. -/
theorem C06_exact_partial (ops : List GraphOp) :
    let g := DGraph.run ops
    let E := g.getEdgesAsPairs
    let ids := ops.flatMap acceptedIds
    ∃ rs : List Int, rs.Pairwise (fun r s => ids.idxOf r < ids.idxOf s) ∧ (∀ r, r ∈ rs ↔ Leads ids E r r) ∧
      g.split.map DGraph.getEdgesAsPairs =
        rs.map (fun r => E.filter (fun e => decide (Leads ids E r e.1 ∧ Leads ids E r e.2))) ∧
      (rs.length = 1 → g.split = [g]) ∧
      (rs.length ≠ 1 → ∀ p ∈ g.split, ∀ x, x ∈ p.getVertices ↔ ∃ e ∈ p.getEdgesAsPairs, x = e.1 ∨ x = e.2) := by
  obtain ⟨rs, h1, h2, h3, h4, h5⟩ := DGraph.split_exact ops
  refine ⟨rs, h1, h2, h3, h4, fun hl p hp x => ?_⟩
  rw [DGraph.mem_getVertices]
  exact h5 hl p hp x

/-- **C06, lost edges.** An edge is in no part exactly when its end can be reached from a vertex introduced before all
those that reach its start. -/
theorem C06_lost_partial (ops : List GraphOp) (e : Int × Int) (he : e ∈ (DGraph.run ops).getEdgesAsPairs) :
    (∀ p ∈ (DGraph.run ops).split, e ∉ p.getEdgesAsPairs) ↔
      ∃ s ∈ ops.flatMap acceptedIds, Reach (DGraph.run ops).getEdgesAsPairs s e.2 ∧
        ∀ r ∈ ops.flatMap acceptedIds, Reach (DGraph.run ops).getEdgesAsPairs r e.1 →
          (ops.flatMap acceptedIds).idxOf s < (ops.flatMap acceptedIds).idxOf r := by
  classical
  obtain ⟨rs, _, h2, h3, _, _⟩ := DGraph.split_exact ops
  obtain ⟨m1, m2⟩ := (DGraph.run_wf ops).pairs_mem_verts e he
  rw [DGraph.run_mem_verts] at m1 m2
  generalize (DGraph.run ops).getEdgesAsPairs = E at *
  generalize ops.flatMap acceptedIds = ids at *
  generalize (DGraph.run ops).split = ps at *
  have hlead : ∀ x ∈ ids, ∃ r, Leads ids E r x := by
    intro x hx
    have hP : ∃ n, ∃ r ∈ ids, Reach E r x ∧ ids.idxOf r = n := ⟨_, x, hx, .refl, rfl⟩
    obtain ⟨r, hr, hr1, hr2⟩ := Nat.find_spec hP
    exact ⟨r, hr, hr1, fun s hs hsx => hr2 ▸ Nat.find_min' hP ⟨s, hs, hsx, rfl⟩⟩
  have hself : ∀ r x, Leads ids E r x → Leads ids E r r := fun r x h =>
    ⟨h.1, .refl, fun s hs hr => h.2.2 s hs (hr.trans h.2.1)⟩
  have hkept : (∃ p ∈ ps, e ∈ p.getEdgesAsPairs) ↔ ∃ r, Leads ids E r e.1 ∧ Leads ids E r e.2 := by
    have : (∃ p ∈ ps, e ∈ p.getEdgesAsPairs) ↔ ∃ l ∈ ps.map DGraph.getEdgesAsPairs, e ∈ l := by simp
    rw [this, h3]
    simp only [List.mem_map, exists_exists_and_eq_and, List.mem_filter, decide_eq_true_eq]
    constructor
    · rintro ⟨r, _, _, hh⟩; exact ⟨r, hh⟩
    · rintro ⟨r, hh⟩; exact ⟨r, (h2 r).mpr (hself _ _ hh.1), he, hh⟩
  have hnot : (∀ p ∈ ps, e ∉ p.getEdgesAsPairs) ↔ ¬ ∃ p ∈ ps, e ∈ p.getEdgesAsPairs := by push Not; rfl
  rw [hnot, hkept]
  obtain ⟨r1, l1⟩ := hlead e.1 m1
  obtain ⟨r2, l2⟩ := hlead e.2 m2
  have hstep : Reach E e.1 e.2 := .single he
  constructor
  · intro hno
    refine ⟨r2, l2.1, l2.2.1, fun r hr hr1 => ?_⟩
    have hle := l2.2.2 r hr (hr1.trans hstep)
    rcases Nat.lt_or_ge (ids.idxOf r2) (ids.idxOf r) with h | h
    · exact h
    · exfalso
      have heq : r2 = r := (List.idxOf_inj l2.1).mp (le_antisymm hle h)
      subst heq
      exact hno ⟨r2, ⟨l2.1, hr1, fun s hs hs1 => l2.2.2 s hs (hs1.trans hstep)⟩, l2⟩
  · rintro ⟨s, hs, hs2, hall⟩ ⟨r, hr1, hr2⟩
    have h1 := hall r hr1.1 hr1.2.1
    have h2 := hr2.2.2 s hs hs2
    omega

/-- Both alternatives occur: of the path 2 → 1 → 0 in a graph where 0 was introduced first, both edges are lost; of the
path 0 → 1 → 2 none. -/
example : (∃ s ∈ ([.addVertex 0, .addEdge 2 1, .addEdge 1 0] : List GraphOp).flatMap acceptedIds,
      Reach (DGraph.run [.addVertex 0, .addEdge 2 1, .addEdge 1 0]).getEdgesAsPairs s 0 ∧
      ∀ r ∈ ([.addVertex 0, .addEdge 2 1, .addEdge 1 0] : List GraphOp).flatMap acceptedIds,
        Reach (DGraph.run [.addVertex 0, .addEdge 2 1, .addEdge 1 0]).getEdgesAsPairs r 1 →
        (([.addVertex 0, .addEdge 2 1, .addEdge 1 0] : List GraphOp).flatMap acceptedIds).idxOf s <
          (([.addVertex 0, .addEdge 2 1, .addEdge 1 0] : List GraphOp).flatMap acceptedIds).idxOf r) := by
  have hids : ([.addVertex 0, .addEdge 2 1, .addEdge 1 0] : List GraphOp).flatMap acceptedIds = [0, 2, 1, 1, 0] := by decide
  have hE : (DGraph.run [.addVertex 0, .addEdge 2 1, .addEdge 1 0]).getEdgesAsPairs = [(2, 1), (1, 0)] := by
    rw [DGraph.run_pairs]; decide
  rw [hids, hE]
  refine ⟨0, by simp, .refl, fun r hr h => ?_⟩
  have : r ≠ 0 := by
    rintro rfl
    rcases Relation.ReflTransGen.cases_head h with h | ⟨c, hc, _⟩
    · simp at h
    · simp [Adj] at hc
  simp only [List.mem_cons, List.not_mem_nil, or_false] at hr
  rcases hr with rfl | rfl | rfl | rfl | rfl <;> first | exact absurd rfl this | decide

end Tulip.Props
