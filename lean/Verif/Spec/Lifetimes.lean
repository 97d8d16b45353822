import Verif.Model.Lifetimes
import Mathlib.Algebra.Order.Group.Multiset

/-!
# Specification of lifetimes: what each object owns
-/

namespace Tulip.Lifetimes

/-- objects alive are older than the next one -/
def Heap.WF (h : Heap) : Prop := ∀ a ∈ h.live, a < h.next

/-- what is owned with a space -/
def Space.owned (s : Space) : Multiset Addr := {s.fec} + {s.obj}

/-- what is owned with a form -/
def Form.owned (f : Form) : Multiset Addr := (f.integrators.map Integrator.obj : List Addr) + {f.obj}

/-- what a solver owns -/
def Solver.owned (s : Solver) : Multiset Addr :=
  s.h1.owned + s.hcurl.owned + s.hdiv.owned + s.l2.owned + {s.eps} + s.divEpsGrad.owned + s.hDivMass.owned + s.h1SurfMass.owned +
    s.hCurlHDivEps.owned + s.rhod.owned + s.grad.owned + {s.phi} + {s.d} + {s.e} + {s.sigma}

/-- what is owned with a solution -/
def Solution.owned (t : Solution) : Multiset Addr := {t.phi} + {t.e} + {t.d}

/-- the sum over all that are there -/
def ownedBy {α : Type} (owned : α → Multiset Addr) : Option α → Multiset Addr
  | none => 0
  | some x => owned x

/-- what a client of a solver owns: the solver until it is destroyed, solutions until they are released -/
def Client.owned (c : Client) : Multiset Addr := ownedBy Solver.owned c.solver + (c.solutions.map (ownedBy Solution.owned)).sum

/-- what is owned with a solved problem -/
def Problem.owned (p : Problem) : Multiset Addr := {p.obj} + p.solver.owned + (p.solutions.map Solution.owned).sum

/-- what a driver owns -/
def Driver.owned (d : Driver) : Multiset Addr :=
  ownedBy (fun a => ({a} : Multiset Addr)) d.mesh + ownedBy Problem.owned d.electric + ownedBy Problem.owned d.magnetic

/-- what a client with several drivers owns -/
def driversOwned (ds : List (Option Driver)) : Multiset Addr := (ds.map (ownedBy Driver.owned)).sum

/-- From the heap `h` on, the computation runs without undefined behaviour, and then the objects alive are those alive before and, once each, those `owned`
by its result. -/
def Keeps {α : Type} (h : Heap) (m : Mem α) (owned : α → Multiset Addr) (Q : α → Prop) : Prop :=
  ∃ x h', m h = some (x, h') ∧ (∀ a, a ∈ h'.live ↔ a ∈ h.live ∨ a ∈ owned x) ∧ (owned x).Nodup ∧ (∀ a ∈ owned x, a ∉ h.live) ∧ Q x

end Tulip.Lifetimes
