import Verif.Model.Solver

/-!
# First-order elements on triangles

What `ElectrostaticSolver` asks MFEM for on a mesh of straight triangles when `order` is 1
(ElectrostaticSolver.cpp:82-89, FES.cpp:5-51): continuous piecewise linear functions (`H1_FECollection(1)`), lowest-order
Nedelec and Raviart-Thomas functions (`ND_FECollection(1)`, `RT_FECollection(0)`). The sources of MFEM are not in the
sandbox: the elements are the textbook ones. Simplifications: degrees of freedom of the edges are listed in the order
of last occurrence and directed from the lower to the higher vertex (MFEM's order and signs may differ, which renames
coefficients only: C86_discretisation); the quadrature rules are the three edge midpoints of a triangle and Simpson's rule on a segment,
exact for all products of two basis functions, as are MFEM's rules.
-/

namespace Tulip

/-- A triangle of the mesh: attribute and vertices, counterclockwise. -/
structure Tri (nv : Nat) where
  attr : Int
  a : Fin nv
  b : Fin nv
  c : Fin nv
  deriving DecidableEq

/-- A boundary segment of the mesh: attribute, vertices, with the domain on the left, and length. -/
structure Seg (𝕜 : Type _) (nv : Nat) where
  attr : Int
  a : Fin nv
  b : Fin nv
  len : 𝕜
  deriving DecidableEq

/-- A mesh of triangles: `mfem::Mesh` with `GetNV() == nv`. -/
structure Triangulation (𝕜 : Type _) where
  nv : Nat
  coord : Fin nv → 𝕜 × 𝕜
  tris : List (Tri nv)
  segs : List (Seg 𝕜 nv)

/-- The directed sides of a triangle (edges of the mesh, on which `ND_FESpace` and `RT_FESpace`, FES.cpp:18-41, have their
degrees of freedom). -/
def Tri.sides {nv : Nat} (t : Tri nv) : List (Fin nv × Fin nv) := [(t.a, t.b), (t.b, t.c), (t.c, t.a)]

namespace Triangulation
variable {𝕜 : Type _} [Field 𝕜] (T : Triangulation 𝕜)

/-- Twice the area of a triangle: `mfem::Mesh::GetElementVolume` is half of it (Model.cpp:111-133), and the integrators
of ElectrostaticSolver.cpp:114, 128, 134 are scaled with it. -/
def det (t : Tri T.nv) : 𝕜 :=
  ((T.coord t.b).1 - (T.coord t.a).1) * ((T.coord t.c).2 - (T.coord t.a).2) -
    ((T.coord t.c).1 - (T.coord t.a).1) * ((T.coord t.b).2 - (T.coord t.a).2)

/-- The mesh as seen by `Model` and `Domain` (`mfem::Mesh::GetElement`, `GetBdrElement`, `GetVertex`). -/
def toMesh : Mesh 𝕜 where
  elems := T.tris.map (fun t => ⟨t.attr, [(t.a.1 : Int), (t.b.1 : Int), (t.c.1 : Int)], T.det t / 2⟩)
  bdr := T.segs.map (fun s => ⟨s.attr, [(s.a.1 : Int), (s.b.1 : Int)], s.len⟩)
  coord := fun v => if h : v.toNat < T.nv then T.coord ⟨v.toNat, h⟩ else (0, 0)

/-- `H1_FECollection(1)` (FES.cpp:5-11): piecewise linear functions at the point of `t` with barycentric coordinates `x`, `y`, `z`. -/
def hat (t : Tri T.nv) (x y z : 𝕜) (k : Fin T.nv) : 𝕜 :=
  if k = t.a then x else if k = t.b then y else if k = t.c then z else 0

/-- Their gradients in `t`, for `DiffusionIntegrator` (ElectrostaticSolver.cpp:114). -/
def gradHat (t : Tri T.nv) (k : Fin T.nv) : 𝕜 × 𝕜 :=
  if k = t.a then (((T.coord t.b).2 - (T.coord t.c).2) / T.det t, ((T.coord t.c).1 - (T.coord t.b).1) / T.det t)
  else if k = t.b then (((T.coord t.c).2 - (T.coord t.a).2) / T.det t, ((T.coord t.a).1 - (T.coord t.c).1) / T.det t)
  else if k = t.c then (((T.coord t.a).2 - (T.coord t.b).2) / T.det t, ((T.coord t.b).1 - (T.coord t.a).1) / T.det t)
  else (0, 0)

/-- Degrees of freedom of `ND_FECollection(1)` and `RT_FECollection(0)` (FES.cpp:18-41): the edges, each once, directed from the lower to the higher vertex. -/
def edges : List (Fin T.nv × Fin T.nv) :=
  ((T.tris.flatMap Tri.sides).map (fun e => if e.1 ≤ e.2 then e else (e.2, e.1))).dedup

/-- `ND_FECollection(1)` (FES.cpp:18-24): Nedelec function of the edge `e` at a point of `t`: `x_i grad x_j - x_j grad x_i`. -/
def whitney (t : Tri T.nv) (x y z : 𝕜) (e : Fin T.nv × Fin T.nv) : 𝕜 × 𝕜 :=
  (T.hat t x y z e.1 * (T.gradHat t e.2).1 - T.hat t x y z e.2 * (T.gradHat t e.1).1,
   T.hat t x y z e.1 * (T.gradHat t e.2).2 - T.hat t x y z e.2 * (T.gradHat t e.1).2)

/-- What the domain integrators (ElectrostaticSolver.cpp:114, 128, 134) see at the quadrature point of `t` with barycentric coordinates `x`, `y`, `z` and a third of the area as weight. The
Raviart-Thomas functions are the Nedelec functions turned by a right angle: unit flux through their edge to its right. -/
def point (t : Tri T.nv) (x y z : 𝕜) : DomPt 𝕜 T.nv T.edges.length T.edges.length where
  attr := t.attr
  w := T.det t / 6
  N := T.hat t x y z
  gradN := T.gradHat t
  W := fun k => T.whitney t x y z T.edges[k]
  R := fun k => ((T.whitney t x y z T.edges[k]).2, -(T.whitney t x y z T.edges[k]).1)

/-- What boundary integrators and fluxes (ElectrostaticSolver.cpp:121, 131, 298, 403, 463-475) see at the point of `s` with barycentric coordinates `x`, `y` and the fraction `f` of the length as weight. The normal
points to the right of the segment, out of the domain. -/
def segPoint (s : Seg 𝕜 T.nv) (x y f : 𝕜) : BdrPt 𝕜 T.nv T.edges.length where
  attr := s.attr
  w := s.len * f
  pos := (x * (T.coord s.a).1 + y * (T.coord s.b).1, x * (T.coord s.a).2 + y * (T.coord s.b).2)
  N := fun k => if k = s.a then x else if k = s.b then y else 0
  fl := fun k => if T.edges[k] = (s.a, s.b) then f else if T.edges[k] = (s.b, s.a) then -f else 0

/-- The discretisation at order 1 (ElectrostaticSolver.cpp:82-89, 131-132). -/
def fem : FEM 𝕜 where
  n := T.nv
  ne := T.edges.length
  nd := T.edges.length
  bdrAttrs := (T.segs.map Seg.attr).dedup
  domAttrs := (T.tris.map Tri.attr).dedup
  bdrElems := T.segs.map (fun s => (s.attr, [s.a, s.b]))
  node := T.coord
  dom := T.tris.flatMap (fun t => [T.point t (1/2) (1/2) 0, T.point t 0 (1/2) (1/2), T.point t (1/2) 0 (1/2)])
  bdr := T.segs.flatMap (fun s => [T.segPoint s 1 0 (1/6), T.segPoint s (1/2) (1/2) (4/6), T.segPoint s 0 1 (1/6)])
  grad := Matrix.of fun k i => (if i = (T.edges[k]).2 then 1 else 0) - (if i = (T.edges[k]).1 then 1 else 0)

end Triangulation
end Tulip
