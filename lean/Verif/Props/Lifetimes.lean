import Verif.Proofs.Lifetimes
import Mathlib.Algebra.BigOperators.Group.List.Basic

/-!
# C109: nothing is used after it is released, released twice or leaked
-/

namespace Tulip.Props
open Tulip.Lifetimes

/-- **C109, solvers.** Whatever calls a client makes on a solver, in any order, and whenever it releases the solver and the solutions it got: no object
is used or released after it was released, and the objects alive are those alive before and those of the solver and solutions not yet released, once each. -/
theorem C109_solver {h : Heap} (hw : h.WF) {mesh : Addr} (hm : mesh ∈ h.live) (isOpen : Bool) (calls : List SolverCall) :
    Keeps h (client mesh isOpen calls) Client.owned (fun _ => True) := by
  refine Triple.keeps (ext := {mesh}) ((client_triple isOpen calls (by simp)).mono fun x o e => ⟨e, trivial⟩) hw ?_
  intro a ha
  rw [Multiset.mem_singleton.mp ha]
  exact hm

/-- In particular nothing is left, and nothing was released that is not the solver's or a solution of it, once the solver is destroyed and the solutions
are released, in this order and whatever was called before. -/
theorem C109_solver_released {h : Heap} (hw : h.WF) {mesh : Addr} (hm : mesh ∈ h.live) (isOpen : Bool) (calls : List SolverCall) :
    ∃ c h', client mesh isOpen (calls ++ .destroy :: (List.range calls.length).map .drop) h = some (c, h') ∧ h'.live = h.live := by
  obtain ⟨c, h', e, hl, -⟩ := C109_solver hw hm isOpen (calls ++ .destroy :: (List.range calls.length).map .drop)
  refine ⟨c, h', e, ?_⟩
  unfold client at e
  obtain ⟨s, h1, -, e⟩ := bind_some e
  obtain ⟨c2, h2, e2, e⟩ := Client.run_append e
  rw [Client.run] at e
  obtain ⟨c3, h3, e3, e⟩ := bind_some e
  obtain ⟨k1, k2, k3, -⟩ := Client.run_drops e
  have h23 := Client.step_destroy _ _ _ e3
  have hlen := Client.run_length e2
  have : c.owned = 0 := by
    unfold Client.owned
    rw [k1, h23.1, show ownedBy Solver.owned none = 0 from rfl, zero_add]
    refine List.sum_eq_zero fun x hx => ?_
    obtain ⟨t, ht, rfl⟩ := List.mem_map.mp hx
    obtain ⟨i, hi⟩ := List.mem_iff_getElem?.mp ht
    cases t with
    | none => rfl
    | some t =>
      have hb := (List.getElem?_eq_some_iff.mp hi).1
      rw [k2, h23.2] at hb
      refine absurd hi (k3 i (List.mem_range.mpr ?_) t)
      have : ([] : List (Option Solution)).length = 0 := rfl
      dsimp only at hlen
      omega
  ext a
  rw [hl a, this]
  simp

/-- **C109, drivers.** The same for clients with any number of drivers, constructed (also when the constructor throws), queried in any way, moved and
destroyed in any order: the objects alive are those of the drivers not destroyed, and every driver's solvers are on the mesh it owns. -/
theorem C109_driver {h : Heap} (hw : h.WF) (calls : List DriverCall) :
    Keeps h (driversRun [] calls) driversOwned (fun ds => ∀ d, some d ∈ ds → d = ⟨none, none, none⟩ ∨
      ∃ m e b, d = ⟨some m, some e, some b⟩ ∧ e.solver.mesh = m ∧ b.solver.mesh = m) := by
  refine Triple.keeps (ext := 0) ((driversRun_triple (ds := []) (fun d hd => by cases hd) calls).mono ?_) hw (fun a ha => absurd ha (Multiset.notMem_zero a))
  rintro ds o ⟨rfl, hd⟩
  refine ⟨rfl, fun d h => (hd d h).imp id ?_⟩
  rintro ⟨m, e, b, rfl, h1, h2⟩
  exact ⟨m, e, b, rfl, h1.mesh, h2.mesh⟩

/-- In particular nothing is left once the drivers are destroyed, whatever was called before. -/
theorem C109_driver_released {h : Heap} (hw : h.WF) (calls : List DriverCall) :
    ∃ ds h', driversRun [] (calls ++ (List.range calls.length).map .destroy) h = some (ds, h') ∧ h'.live = h.live := by
  obtain ⟨ds, h', e, hl, -⟩ := C109_driver hw (calls ++ (List.range calls.length).map .destroy)
  refine ⟨ds, h', e, ?_⟩
  obtain ⟨d2, h2, e2, e⟩ := driversRun_append e
  obtain ⟨k2, k3, -⟩ := driversRun_destroys e
  have hlen := driversRun_length e2
  have : driversOwned ds = 0 := by
    refine List.sum_eq_zero fun x hx => ?_
    obtain ⟨t, ht, rfl⟩ := List.mem_map.mp hx
    obtain ⟨i, hi⟩ := List.mem_iff_getElem?.mp ht
    cases t with
    | none => rfl
    | some t =>
      have hb := (List.getElem?_eq_some_iff.mp hi).1
      refine absurd hi (k3 i (List.mem_range.mpr ?_) t)
      rw [List.length_nil] at hlen
      omega
  ext a
  rw [hl a, this]
  simp

/-- **C109, copies.** The implicit copy constructor of solvers copies the pointers: when a solver and its copy are both destroyed, all objects are released
twice, whatever happened before. -/
theorem C109_copied {h : Heap} (hw : h.WF) {mesh : Addr} (hm : mesh ∈ h.live) (isOpen : Bool) :
    (do let s ← Solver.new mesh isOpen; let copy := s; s.delete; copy.delete) h = none := by
  have he : ∀ a ∈ ({mesh} : Multiset Addr), a ∈ h.live := by
    intro a ha
    rw [Multiset.mem_singleton.mp ha]
    exact hm
  have z : ∀ a : Addr, a ∉ (0 : Multiset Addr) := fun a => Multiset.notMem_zero a
  obtain ⟨s, h1, o, e1, w1, n1, d1, s1, l1, -, rfl⟩ := Solver.new_triple (own := 0) (isOpen := isOpen) (.inl (Multiset.mem_singleton_self mesh)) h hw he
    Multiset.nodup_zero (fun a ha => absurd ha (z a)) (fun a _ => z a)
  obtain ⟨_, h2, o2, e2, w2, n2, d2, s2, l2, rfl⟩ := Solver.delete_triple (s := s) (ext := 0) (own := 0) h1 w1 (fun a ha => absurd ha (z a)) d1
    (fun a ha => (l1 a).mpr (.inr ha)) (fun a ha => absurd ha (z a))
  have hp : s.phi ∈ s.owned + 0 := by simp [Solver.owned]
  have dead : s.phi ∉ h2.live := by
    rw [l2]
    rintro (h | h)
    · exact h.2 hp
    · exact z _ h
  rw [bind_of_some e1]
  rw [bind_of_some e2]
  unfold Solver.delete
  exact bind_of_none (if_neg dead)

/-- **C109, open boundaries.** The coefficient of open boundaries is gone after the constructor, and the Laplacian still points to it: assembling
again would use it. (`Assemble` is private and only called by the constructor, which is why `C109_solver` holds.) -/
theorem C109_no_second_assembly (h : Heap) (mesh : Addr) : (do let s ← Solver.new mesh true; s.assemble) h = none := by
  cases e : (do let s ← Solver.new mesh true; s.assemble : Mem Unit) h with
  | none => rfl
  | some r =>
    obtain ⟨u, h'⟩ := r
    obtain ⟨s, h1, e1, e2⟩ := bind_some e
    obtain ⟨i, hi, c, hc, hd⟩ := Solver.new_dangling e1
    rw [Solver.assemble] at e2
    obtain ⟨_, h2, e3, -⟩ := bind_some e2
    exact absurd (Form.assemble_live e3 hi hc) hd

/-- Calls on a solver: two solutions, the first one restored and released. -/
def solverCalls : List SolverCall := [.solve, .getSolution, .setDirichlet, .solve, .getSolution, .setSolution 0, .query .charge, .drop 0]

/-- A heap with a mesh. -/
example (isOpen : Bool) : ∃ c h', client 0 isOpen (solverCalls ++ .destroy :: (List.range solverCalls.length).map .drop) ⟨1, {0}⟩ = some (c, h') ∧
    h'.live = (⟨1, {0}⟩ : Heap).live :=
  C109_solver_released (h := ⟨1, {0}⟩) (fun a ha => by rw [Finset.mem_singleton.mp ha]; exact Nat.one_pos) (Finset.mem_singleton_self 0) isOpen
    solverCalls

/-- Drivers: one for two conductors, one whose magnetic problem throws after the first, queries, domains (one of which throws), moves. -/
def driverCalls : List DriverCall := [.load ⟨true, 2, false, .completes, .completes⟩, .load ⟨true, 2, false, .completes, .conductor 1⟩,
  .load ⟨false, 3, false, .completes, .completes⟩, .query 0 (.generalized true false), .query 0 (.inCell false 2 3 12),
  .query 2 (.byDomains [(⟨false, 2, false, .completes, .completes⟩, false), (⟨false, 2, true, .completes, .completes⟩, false)]), .moveConstruct 0,
  .moveAssign 2 3]

/-- An empty heap. -/
example : ∃ ds h', driversRun [] (driverCalls ++ (List.range driverCalls.length).map .destroy) ⟨0, ∅⟩ = some (ds, h') ∧
    h'.live = (⟨0, ∅⟩ : Heap).live :=
  C109_driver_released (h := ⟨0, ∅⟩) (fun a ha => absurd ha (Finset.notMem_empty a)) driverCalls

end Tulip.Props
