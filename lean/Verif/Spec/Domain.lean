import Verif.Model.Domain
import Verif.Spec.Graph
import Verif.Spec.Materials

/-!
# Specification vocabulary for domains
-/

namespace Tulip.Spec
variable {𝕜 : Type _}

/-- Elements number `i` and `j` have a common vertex. -/
def ShareVertex (es : List (Elem 𝕜)) (i j : Nat) : Prop :=
  ∃ e f v, es[i]? = some e ∧ es[j]? = some f ∧ v ∈ e.verts ∧ v ∈ f.verts

/-- Elements number `i` and `j` are joined by a chain of elements sharing vertices. -/
def ElemChain (es : List (Elem 𝕜)) : Nat → Nat → Prop := Relation.ReflTransGen (ShareVertex es)

/-- `v` is a vertex of an element of the domain. -/
def VertexOf (es : List (Elem 𝕜)) (d : Domain) (v : Int) : Prop :=
  ∃ i ∈ d.elems, ∃ e, es[i]? = some e ∧ v ∈ e.verts

/-- The boundary element has two different vertices satisfying `P`. -/
def TwoVertices (b : Elem 𝕜) (P : Int → Prop) : Prop :=
  ∃ x y, x ≠ y ∧ x ∈ b.verts ∧ y ∈ b.verts ∧ P x ∧ P y

/-- Conductor number `c` touches the domain: a boundary element with its tag has two different vertices
there. -/
def Touches (m : Model 𝕜) (c : Int) (P : Int → Prop) : Prop :=
  ∃ pec ∈ m.materials.pecs, getMaterialIdFromName pec.name = .ok c ∧
    ∃ b ∈ m.mesh.bdr, b.attr = pec.tag ∧ TwoVertices b P

/-- `v` is a vertex of an element joined by a chain to element number `i`. -/
def VertexNear (es : List (Elem 𝕜)) (i : Nat) (v : Int) : Prop :=
  ∃ j e, ElemChain es i j ∧ es[j]? = some e ∧ v ∈ e.verts

/-- Elements that make sense: at least two vertices, no two consecutive ones equal. -/
def GoodElems (es : List (Elem 𝕜)) : Prop := ∀ e ∈ es, e.verts ≠ [] ∧ GoodPath e.verts

/-- The domains (ids, ascending) that contain conductor `c`. -/
def domainsWith (ds : IdToDomain) (c : Int) : List Int :=
  (ds.filter (fun p => decide (c ∈ p.2.conductorIds))).map Prod.fst

/-- Class invariants of `std::map<Id, Domain>` and its `std::set`s. -/
def DomainsSorted (ds : IdToDomain) : Prop :=
  SMap.Sorted ds ∧ ∀ p ∈ ds, SSet.Sorted p.2.conductorIds

/-- `d1` and `d2` (ids) are domains that share conductor `c`. -/
def Shares (ds : IdToDomain) (a b c : Int) : Prop :=
  ∃ x y, (a, x) ∈ ds ∧ (b, y) ∈ ds ∧ c ∈ x.conductorIds ∧ c ∈ y.conductorIds

/-- The nesting of the domains of a closed problem: `root` contains conductor 0; every other domain
shares a conductor with the domain that encloses it; a conductor that is in several domains is in one
domain that encloses all the others; two domains share at most one conductor. -/
structure Nesting (ds : IdToDomain) (root : Int) (enclosing : Int → Int) : Prop where
  root_mem : ∃ r, (root, r) ∈ ds ∧ (0 : Int) ∈ r.conductorIds
  encl : ∀ p ∈ ds, p.1 ≠ root → enclosing p.1 ≠ p.1 ∧ ∃ c, Shares ds (enclosing p.1) p.1 c
  shield : ∀ c a b, a ≠ b → Shares ds a b c →
    ∃ t x, (t, x) ∈ ds ∧ c ∈ x.conductorIds ∧
      ∀ q ∈ ds, c ∈ q.2.conductorIds → q.1 ≠ t → q.1 ≠ root ∧ enclosing q.1 = t
  one : ∀ a b c c', a ≠ b → Shares ds a b c → Shares ds a b c' → c = c'

/-- The grounds the nesting asks for. -/
def GroundsFollow (ds : IdToDomain) (root : Int) (enclosing : Int → Int) : Prop :=
  ∀ p ∈ ds, (p.1 = root → p.2.ground = 0) ∧
    (p.1 ≠ root → ∀ c, Shares ds (enclosing p.1) p.1 c → p.2.ground = c)

end Tulip.Spec

namespace Tulip.Spec
variable {𝕜 : Type _}

/-- The elements with numbers in a set, in mesh order. -/
def elemsAt (es : List (Elem 𝕜)) (s : SSet Nat) : List (Elem 𝕜) :=
  (es.zipIdx.filter (fun p => decide (p.2 ∈ s))).map Prod.fst

/-- A side, as the pair of its vertices with the smaller number first. -/
def side (a b : Int) : Int × Int := if a ≤ b then (a, b) else (b, a)

/-- The sides of a polygon: each vertex with the next one, the last with the first. -/
def sidesOf (e : Elem 𝕜) : List (Int × Int) := List.zipWith side e.verts (e.verts.rotate 1)

/-- The boundary element lies on the side. -/
def LiesOn (b : Elem 𝕜) (f : Int × Int) : Prop := side (b.verts.getD 0 0) (b.verts.getD 1 0) = f

instance (b : Elem 𝕜) (f : Int × Int) : Decidable (LiesOn b f) := by unfold LiesOn; infer_instance

/-- The sides that belong to exactly one of the elements. -/
def exposedSides (es : List (Elem 𝕜)) : List (Int × Int) :=
  (es.flatMap sidesOf).filter (fun f => (es.flatMap sidesOf).count f = 1)

/-- `b` is a boundary element on side `f` with the attribute of a boundary element of the given mesh there. -/
def BdrFits (globalBdr : List (Elem 𝕜)) (f : Int × Int) (b : Elem 𝕜) : Prop :=
  b.verts = [f.1, f.2] ∧ ∃ g ∈ globalBdr, LiesOn g f ∧ b.attr = g.attr

/-- Edges from the first to each of the others. -/
def starEdges : List Int → List (Int × Int)
  | [] => []
  | d :: ds => ds.map (fun x => (d, x))

/-- All conductors, ascending. -/
def allConductors (ds : IdToDomain) : List Int := SSet.ofList (ds.flatMap (fun p => p.2.conductorIds))

/-- The edges a domain tree should have: for each conductor (ascending) one from the first domain that
contains it to each later one. -/
def expectedTreeEdges (ds : IdToDomain) : List (Int × Int) :=
  (allConductors ds).flatMap (fun c => starEdges (domainsWith ds c))

end Tulip.Spec
