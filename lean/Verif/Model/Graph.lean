import Verif.Model.Outcome
import Verif.Model.SMap
import Mathlib.Data.Int.Order.Basic
import Mathlib.Order.Nat

/-!
# `DirectedGraph` (src/DirectedGraph.h, src/DirectedGraph.cpp)

`graph_t` is `adjacency_list<vecS, vecS, bidirectionalS, Vertex_t, ...>` (DirectedGraph.h:27):
vertex descriptors are the indices `0, 1, ...` in order of insertion; parallel edges are kept;
`edges(g)` iterates in insertion order (bidirectional graphs keep one global edge list) and
`out_edges(u, g)` iterates the out-edges of `u` in insertion order.
-/

namespace Tulip

/-- `class DirectedGraph` (DirectedGraph.h:39-78). `verts[i]` is `graph_[i].id`, `edges` is the edge
list of `graph_` by descriptor, `vmap` is `vertexMap_`. -/
structure DGraph where
  vmap : SMap Int Nat := []
  verts : List Int := []
  edges : List (Nat × Nat) := []
  deriving DecidableEq, Repr

namespace DGraph

/-- Default constructor (DirectedGraph.h:46). -/
def empty : DGraph := {}

/-- `graph_[v].id` (an out-of-range descriptor cannot occur, see `WF` in the proofs). -/
def idOf (g : DGraph) (v : Nat) : Int := g.verts.getD v 0

/-- `vertexMap_[id]`: `operator[]` value-initialises a missing entry to 0. -/
def descOf (g : DGraph) (id : Int) : Nat := (g.vmap.find? id).getD 0

/-- `DirectedGraph::getVertices` (DirectedGraph.cpp:15-23). -/
def getVertices (g : DGraph) : SSet Int := SSet.ofList g.verts

/-- `verticesSize` (DirectedGraph.h:56). -/
def verticesSize (g : DGraph) : Nat := g.verts.length

/-- `edgesSize` (DirectedGraph.h:58). -/
def edgesSize (g : DGraph) : Nat := g.edges.length

/-- `DirectedGraph::addVertex` (DirectedGraph.cpp:25-30). -/
def addVertex (g : DGraph) (id : Int) : DGraph :=
  if g.vmap.contains id then g
  else { g with vmap := g.vmap.emplace id g.verts.length, verts := g.verts ++ [id] }

/-- message of DirectedGraph.cpp:35 -/
def selfLoopErr : Err :=
  .runtimeError "Edges starting and finishing in same vertex are not allowed."

/-- message of DirectedGraph.cpp:51 -/
def shortPathErr : Err := .runtimeError "Paths must contain at least two vertices."

/-- `DirectedGraph::addEdge` (DirectedGraph.cpp:32-46). The graph component is the state of the
object after the call, also when it throws. -/
def addEdge (g : DGraph) (id1 id2 : Int) : DGraph × Option Err :=
  if id1 = id2 then (g, some selfLoopErr)
  else
    let g1 := if g.vmap.contains id1 then g else g.addVertex id1
    let g2 := if g1.vmap.contains id2 then g1 else g1.addVertex id2
    ({ g2 with edges := g2.edges ++ [(g2.descOf id1, g2.descOf id2)] }, none)

/-- The loop of `addClosedPath` (DirectedGraph.cpp:54-57) from index `i` on, `k` iterations to go;
an exception leaves the loop with the edges added so far. -/
def addClosedPathLoop (vIds : List Int) : Nat → Nat → DGraph → DGraph × Option Err
  | _, 0, g => (g, none)
  | i, k + 1, g =>
    let iNext := (i + 1) % vIds.length
    match g.addEdge (vIds.getD i 0) (vIds.getD iNext 0) with
    | (g', some e) => (g', some e)
    | (g', none) => addClosedPathLoop vIds (i + 1) k g'

/-- `DirectedGraph::addClosedPath` (DirectedGraph.cpp:48-58). -/
def addClosedPath (g : DGraph) (vIds : List Int) : DGraph × Option Err :=
  if vIds.length = 1 then (g, some shortPathErr)
  else addClosedPathLoop vIds 0 vIds.length g

/-- `DirectedGraph::getEdgesAsPairs` (DirectedGraph.cpp:125-141). -/
def getEdgesAsPairs (g : DGraph) : List (Int × Int) :=
  g.edges.map (fun e => (g.idOf e.1, g.idOf e.2))

/-- Targets of `out_edges(u, graph_)` in iteration order. -/
def outTargets (g : DGraph) (u : Nat) : List Nat :=
  (g.edges.filter (fun e => e.1 = u)).map Prod.snd

/-- `edge(u, v, graph_).second`: does an edge from `u` to `v` exist. -/
def hasEdge (g : DGraph) (u v : Nat) : Bool := (g.outTargets u).contains v

/-- `DirectedGraph::getBoundaryGraph` (DirectedGraph.cpp:89-101). Simplification: an exception of
`addEdge` is dropped; there is none because stored edges are never self-loops (property C02). -/
def getBoundaryGraph (g : DGraph) : DGraph :=
  g.edges.foldl (fun res e =>
    if !g.hasEdge e.2 e.1 then (res.addEdge (g.idOf e.1) (g.idOf e.2)).1 else res) empty

end DGraph

/-! ## `boost::connected_components`

Called with a *directed* graph at DirectedGraph.cpp:67. The implementation
(boost/graph/connected_components.hpp) is a depth-first search: `start_vertex` opens a new
component, `discover_vertex` assigns it; only out-edges are followed. -/

/-- Point update. -/
def upd {β : Type _} (f : Nat → β) (k : Nat) (v : β) : Nat → β := fun i => if i = k then v else f i

/-- Number of white vertices below `n`. -/
def whites (comp : Nat → Option Nat) (n : Nat) : Nat :=
  ((List.range n).filter (fun v => (comp v).isNone)).length

theorem whites_upd_lt {comp : Nat → Option Nat} {n v c : Nat} (hv : v < n) (hw : comp v = none) :
    whites (upd comp v (some c)) n < whites comp n := by
  unfold whites
  have h : ((List.range n).filter (fun i => (upd comp v (some c) i).isNone)) =
      (((List.range n).filter (fun i => (comp i).isNone)).filter (fun i => i ≠ v)) := by
    rw [List.filter_filter]
    apply List.filter_congr
    intro i _
    by_cases e : i = v
    · subst e; simp [upd]
    · simp [upd, e]
  rw [h]
  have hmem : v ∈ (List.range n).filter (fun i => (comp i).isNone) := by
    simp [hv, hw]
  have h2 := List.length_filter_le (fun i => decide (i ≠ v))
    ((List.range n).filter (fun i => (comp i).isNone))
  refine lt_of_le_of_ne h2 ?_
  intro he
  have := (List.length_filter_eq_length_iff.mp he) v hmem
  simp at this

/-- `depth_first_visit_impl` (boost/graph/depth_first_search.hpp): explicit stack of the not yet
examined targets of the open vertices; a white target is discovered and pushed. `comp v = none`
means colour white. (`v < n` always holds for real graphs; it makes the definition total.) -/
def dfsLoop (adj : Nat → List Nat) (n c : Nat) (comp : Nat → Option Nat)
    (stack : List (List Nat)) : Nat → Option Nat :=
  match stack with
  | [] => comp
  | [] :: st => dfsLoop adj n c comp st
  | (v :: rest) :: st =>
    if comp v = none ∧ v < n then dfsLoop adj n c (upd comp v (some c)) (adj v :: rest :: st)
    else dfsLoop adj n c comp (rest :: st)
termination_by (whites comp n, (stack.map List.length).sum + stack.length)
decreasing_by
  · apply Prod.Lex.right; simp
  · apply Prod.Lex.left; rename_i h; exact whites_upd_lt h.2 h.1
  · apply Prod.Lex.right; simp

/-- `connected_components(g, comp)`: the component map and the number of components. -/
def connectedComponents (adj : Nat → List Nat) (n : Nat) : (Nat → Option Nat) × Nat :=
  (List.range n).foldl (fun s v =>
    if s.1 v = none then (dfsLoop adj n s.2 (upd s.1 v (some s.2)) [adj v], s.2 + 1) else s)
    (fun _ => none, 0)

namespace DGraph

/-- Body of the edge loop of `split` for component `c` (DirectedGraph.cpp:75-85). Exceptions of
`addEdge` are dropped as in `getBoundaryGraph`. -/
def splitPart (g : DGraph) (comp : Nat → Option Nat) (c : Nat) : DGraph :=
  g.edges.foldl (fun res e =>
    let id1 := g.idOf e.1
    let id2 := g.idOf e.2
    let v1 := g.descOf id1
    let v2 := g.descOf id2
    if comp v1 = some c ∧ comp v2 = some c then (res.addEdge id1 id2).1 else res) empty

/-- `DirectedGraph::split` (DirectedGraph.cpp:60-87). -/
def split (g : DGraph) : List DGraph :=
  if g.verts.length = 0 then []
  else
    let cc := connectedComponents g.outTargets g.verts.length
    if cc.2 = 1 then [g]
    else (List.range cc.2).map (g.splitPart cc.1)

end DGraph

/-! ## `boost::tiernan_all_cycles`

Called at DirectedGraph.cpp:120 with the default minimum cycle length, 2 for directed graphs, and no
maximum (boost/graph/tiernan_all_cycles.hpp). The path is kept reversed (last vertex first). -/

/-- `extend_path`: first out-edge of the last vertex `u` whose target has a larger index than the
root, is not on the path and is not closed for `u` (`can_extend_path`). -/
def extendPath (adj : Nat → List Nat) (root : Nat) (rp : List Nat) (closed : Nat → List Nat) :
    Option Nat :=
  match rp with
  | [] => none
  | u :: _ => (adj u).find? (fun v => decide (root < v) && !rp.contains v && !(closed u).contains v)

/-- `can_wrap_path`: is there an edge from the last vertex to the first. -/
def canWrapPath (adj : Nat → List Nat) (root : Nat) (rp : List Nat) : Bool :=
  match rp with
  | [] => false
  | u :: _ => (adj u).contains root

/-- `all_cycles_from_vertex`: extend while possible; when stuck, report the path if it closes and has
at least two vertices, then `exhaust_paths`. `none` would mean non-termination. -/
def tiernanLoop (adj : Nat → List Nat) (root : Nat) (rp : List Nat) (closed : Nat → List Nat)
    (out : List (List Nat)) : Option (List (List Nat)) :=
  match extendPath adj root rp closed with
  | some v => tiernanLoop adj root (v :: rp) closed out
  | none =>
    let out' := if canWrapPath adj root rp && decide (2 ≤ rp.length) then out ++ [rp.reverse] else out
    match rp with
    | last :: prev :: rest =>
      tiernanLoop adj root (prev :: rest)
        (upd (upd closed last []) prev ((upd closed last []) prev ++ [last])) out'
    | _ => some out'
partial_fixpoint

/-- `tiernan_all_cycles(g, vis)` over the vertices in index order, collecting what the visitor sees. -/
def tiernanAllCycles (adj : Nat → List Nat) (n : Nat) : Option (List (List Nat)) :=
  (List.range n).foldl (fun acc v => do
    let out ← acc
    let cs ← tiernanLoop adj v [v] (fun _ => []) []
    pure (out ++ cs)) (some [])

/-- `DirectedGraph::findCycles` (DirectedGraph.cpp:103-122): descriptors are replaced by ids. `none`
would mean non-termination. -/
def DGraph.findCycles (g : DGraph) : Option (List (List Int)) :=
  (tiernanAllCycles g.outTargets g.verts.length).map (fun cs => cs.map (fun p => p.map g.idOf))

/-! ## Histories -/

/-- A mutating call of the public API. -/
inductive GraphOp where
  | addVertex (v : Int)
  | addEdge (a b : Int)
  | addClosedPath (vs : List Int)
  deriving DecidableEq, Repr

/-- State after one call (exceptions are caught by the caller and the object is used further). -/
def DGraph.apply (g : DGraph) : GraphOp → DGraph
  | .addVertex v => g.addVertex v
  | .addEdge a b => (g.addEdge a b).1
  | .addClosedPath vs => (g.addClosedPath vs).1

/-- State after a history, starting from the empty graph. -/
def DGraph.run (ops : List GraphOp) : DGraph := ops.foldl DGraph.apply DGraph.empty

end Tulip
