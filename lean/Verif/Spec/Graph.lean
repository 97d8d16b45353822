import Verif.Model.Graph
import Mathlib.Logic.Relation
import Mathlib.Data.List.Rotate

/-!
# Specification vocabulary for graphs

Independent of how the model computes: only the calls made (`GraphOp`), lists of ids and the
observable edge list `getEdgesAsPairs` occur here.
-/

namespace Tulip.Spec

/-- The cyclically consecutive pairs `(v0,v1), (v1,v2), ..., (vn-1,v0)` of a list. -/
def cyclicPairs {α : Type _} (vs : List α) : List (α × α) := vs.zip (vs.tail ++ vs.head?.toList)

/-- Edges a call contributes: rejected edges (self-loops) contribute nothing, and a closed path stops
at its first self-loop. -/
def acceptedEdges : GraphOp → List (Int × Int)
  | .addVertex _ => []
  | .addEdge a b => if a = b then [] else [(a, b)]
  | .addClosedPath vs =>
    if vs.length = 1 then [] else (cyclicPairs vs).takeWhile (fun e => e.1 ≠ e.2)

/-- Vertex ids a call contributes. -/
def acceptedIds (op : GraphOp) : List Int :=
  match op with
  | .addVertex v => [v]
  | op => (acceptedEdges op).flatMap (fun e => [e.1, e.2])

/-- A closed path is acceptable if it does not have length one and has no cyclic repetition. -/
def GoodPath (vs : List Int) : Prop := vs.length ≠ 1 ∧ ∀ e ∈ cyclicPairs vs, e.1 ≠ e.2

instance (vs : List Int) : Decidable (GoodPath vs) := by unfold GoodPath; infer_instance

/-- Adjacent in a list of edges. -/
def Adj {α : Type _} (E : List (α × α)) (a b : α) : Prop := (a, b) ∈ E

/-- `b` can be reached from `a` along directed edges (possibly none). -/
def Reach {α : Type _} (E : List (α × α)) : α → α → Prop := Relation.ReflTransGen (Adj E)

/-- `a` and `b` are connected ignoring directions. -/
def Connected {α : Type _} (E : List (α × α)) : α → α → Prop :=
  Relation.ReflTransGen (fun a b => (a, b) ∈ E ∨ (b, a) ∈ E)

/-- Of the vertices `ids`, listed in order of introduction, `r` is the first from which `x` can be reached. -/
def Leads (ids : List Int) (E : List (Int × Int)) (r x : Int) : Prop :=
  r ∈ ids ∧ Reach E r x ∧ ∀ s ∈ ids, Reach E s x → ids.idxOf r ≤ ids.idxOf s

/-- An elementary directed cycle: at least two vertices, all distinct, consecutive ones (and last to
first) joined by edges. -/
structure ElemCycle {α : Type _} (E : List (α × α)) (c : List α) : Prop where
  two_le : 2 ≤ c.length
  nodup : c.Nodup
  edges : ∀ e ∈ cyclicPairs c, e ∈ E

end Tulip.Spec
