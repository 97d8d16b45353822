import Verif.Spec.Graph
import Verif.Proofs.Cycles

/-!
# C07–C08: `findCycles`
-/

namespace Tulip.Props
open Tulip Tulip.Spec

/-- **C07.** On every reachable graph `findCycles` terminates; it lists, without repetition, exactly the
elementary directed cycles written from the vertex whose id occurred first in the history of accepted
calls; every elementary cycle is a rotation of exactly one listed one. -/
theorem C07_findCycles (ops : List GraphOp) :
    ∃ cs, (DGraph.run ops).findCycles = some cs ∧ cs.Nodup ∧
      (∀ c, c ∈ cs ↔ ElemCycle (DGraph.run ops).getEdgesAsPairs c ∧
        ∃ a t, c = a :: t ∧ ∀ x ∈ t,
          (ops.flatMap acceptedIds).idxOf a < (ops.flatMap acceptedIds).idxOf x) ∧
      (∀ c, ElemCycle (DGraph.run ops).getEdgesAsPairs c → ∃! d, d ∈ cs ∧ d ~r c) := by
  have hw := DGraph.run_wf ops
  obtain ⟨cs, e, nd, m⟩ := hw.findCycles_spec
  refine ⟨cs, e, nd, ?_, fun c hc => hw.findCycles_unique e hc⟩
  intro c
  rw [m]
  constructor
  · rintro ⟨h1, a, t, rfl, h2⟩
    have hv := hw.elemCycle_verts h1
    refine ⟨h1, a, t, rfl, fun x hx => ?_⟩
    rw [← DGraph.run_descOf_lt ops (hv a (by simp)) (hv x (by simp [hx]))]
    exact h2 x hx
  · rintro ⟨h1, a, t, rfl, h2⟩
    have hv := hw.elemCycle_verts h1
    refine ⟨h1, a, t, rfl, fun x hx => ?_⟩
    rw [DGraph.run_descOf_lt ops (hv a (by simp)) (hv x (by simp [hx]))]
    exact h2 x hx

/-- A figure of eight has two elementary cycles (ids need not be in order). -/
example : ∃ cs, (DGraph.run [.addClosedPath [5, 2, 7], .addClosedPath [5, 1]]).findCycles = some cs ∧
    [5, 2, 7] ∈ cs ∧ [5, 1] ∈ cs ∧ [2, 7, 5] ∉ cs := by
  obtain ⟨cs, h1, _, h2, _⟩ := C07_findCycles [.addClosedPath [5, 2, 7], .addClosedPath [5, 1]]
  refine ⟨cs, h1, ?_, ?_, ?_⟩
  · rw [h2]
    exact ⟨⟨by decide, by decide, by decide⟩, 5, [2, 7], rfl, by decide⟩
  · rw [h2]
    exact ⟨⟨by decide, by decide, by decide⟩, 5, [1], rfl, by decide⟩
  · rw [h2]
    rintro ⟨_, a, t, e, h⟩
    obtain ⟨rfl, rfl⟩ := List.cons.inj e
    exact absurd (h 5 (by simp)) (by decide)

/-- **C08.** `findCycles` is empty iff no vertex can be reached from itself along at least one edge. -/
theorem C08_acyclic (ops : List GraphOp) :
    (DGraph.run ops).findCycles = some [] ↔
      ¬ ∃ v, Relation.TransGen (Adj (DGraph.run ops).getEdgesAsPairs) v v := by
  have hw := DGraph.run_wf ops
  obtain ⟨cs, e, nd, m⟩ := hw.findCycles_spec
  constructor
  · rintro h ⟨v, hv⟩
    obtain ⟨w, hne, hw'⟩ := exists_closedWalk _ hv
    have hself : ∀ a, (a, a) ∉ (DGraph.run ops).getEdgesAsPairs :=
      fun a ha => hw.pairs_ne _ ha rfl
    obtain ⟨c, hc⟩ := exists_elemCycle _ hself _ w rfl hne hw'
    obtain ⟨d, ⟨hd, _⟩, _⟩ := hw.findCycles_unique h hc
    simp at hd
  · intro h
    rw [e]
    congr 1
    rw [List.eq_nil_iff_forall_not_mem]
    intro c hc
    exact h (transGen_of_elemCycle ((m c).mp hc).1)

/-- Both sides of C08 occur. -/
example : ∃ v, Relation.TransGen (Adj (DGraph.run [.addEdge 1 2, .addEdge 2 1]).getEdgesAsPairs) v v :=
  ⟨1, .tail (.single (by decide : ((1, 2) : Int × Int) ∈ _)) (by decide : ((2, 1) : Int × Int) ∈ _)⟩

example : (DGraph.run [.addEdge 1 2, .addEdge 2 3, .addEdge 1 3]).findCycles = some [] := by
  rw [C08_acyclic]
  rintro ⟨v, hv⟩
  have hlt : ∀ a b, Adj (DGraph.run [.addEdge 1 2, .addEdge 2 3, .addEdge 1 3]).getEdgesAsPairs a b →
      a < b := by
    intro a b h
    have he : (DGraph.run [.addEdge 1 2, .addEdge 2 3, .addEdge 1 3]).getEdgesAsPairs =
      [(1, 2), (2, 3), (1, 3)] := by decide
    unfold Adj at h
    rw [he] at h
    simp at h
    omega
  have : ∀ a b : Int, Relation.TransGen
      (Adj (DGraph.run [.addEdge 1 2, .addEdge 2 3, .addEdge 1 3]).getEdgesAsPairs) a b → a < b := by
    intro a b h
    induction h with
    | single h => exact hlt _ _ h
    | tail _ h ih => exact lt_trans ih (hlt _ _ h)
  exact lt_irrefl _ (this v v hv)

end Tulip.Props
