import Verif.Model.Triangles
import Verif.Spec.Driver
import Mathlib.Logic.Relation

/-!
# Specification vocabulary for triangle meshes
-/

namespace Tulip.Spec
variable {𝕜 : Type} [Field 𝕜]

/-- `v` is a vertex of the triangle. -/
def IsVertex {nv : Nat} (t : Tri nv) (v : Fin nv) : Prop := v = t.a ∨ v = t.b ∨ v = t.c

/-- Two vertices of one triangle. -/
def Adjacent (T : Triangulation 𝕜) (v w : Fin T.nv) : Prop := ∃ t ∈ T.tris, IsVertex t v ∧ IsVertex t w

/-- The vertex lies on the boundary with this tag. -/
def OnTag (T : Triangulation 𝕜) (tag : Int) (v : Fin T.nv) : Prop := ∃ s ∈ T.segs, s.attr = tag ∧ (v = s.a ∨ v = s.b)

/-- The pair of vertices is a side of some triangle, with the triangle on its left. -/
def IsSide (T : Triangulation 𝕜) (v w : Fin T.nv) : Prop := ∃ t ∈ T.tris, (v, w) ∈ t.sides

/-- A mesh of triangles with positive area; boundary segments are sides of triangles, which lie on their left; there
are boundary segments; attributes are positive. -/
structure Proper [LinearOrder 𝕜] (T : Triangulation 𝕜) : Prop where
  area : ∀ t ∈ T.tris, 0 < T.det t
  segs : ∀ s ∈ T.segs, IsSide T s.a s.b
  boundary : T.segs ≠ []
  triAttrs : ∀ t ∈ T.tris, 1 ≤ t.attr
  segAttrs : ∀ s ∈ T.segs, 1 ≤ s.attr

/-- Triangles meet side by side, at most one on each side of an edge, and the boundary segments are exactly the sides
with no other triangle behind them. -/
structure Conforming (T : Triangulation 𝕜) : Prop where
  sides : (T.tris.flatMap Tri.sides).Nodup
  once : (T.segs.map (fun s => (s.a, s.b))).Nodup
  boundary : ∀ v w, (∃ s ∈ T.segs, s.a = v ∧ s.b = w) ↔ IsSide T v w ∧ ¬ IsSide T w v

/-- Lengths of boundary segments are their lengths. -/
def Measured [LinearOrder 𝕜] (T : Triangulation 𝕜) : Prop := ∀ s ∈ T.segs, 0 < s.len ∧
  s.len ^ 2 = ((T.coord s.b).1 - (T.coord s.a).1) ^ 2 + ((T.coord s.b).2 - (T.coord s.a).2) ^ 2

/-- Area of a triangle (counterclockwise), from the coordinates of its vertices. -/
def triArea (T : Triangulation 𝕜) (t : Tri T.nv) : 𝕜 :=
  ((T.coord t.a).1 * ((T.coord t.b).2 - (T.coord t.c).2) + (T.coord t.b).1 * ((T.coord t.c).2 - (T.coord t.a).2) +
    (T.coord t.c).1 * ((T.coord t.a).2 - (T.coord t.b).2)) / 2

/-- Scalar product of the sides from `u` to `v` and from `u` to `w`. -/
def cornerDot (T : Triangulation 𝕜) (u v w : Fin T.nv) : 𝕜 :=
  ((T.coord v).1 - (T.coord u).1) * ((T.coord w).1 - (T.coord u).1) +
    ((T.coord v).2 - (T.coord u).2) * ((T.coord w).2 - (T.coord u).2)

/-- No triangle has an obtuse angle. -/
def NonObtuse [LinearOrder 𝕜] (T : Triangulation 𝕜) : Prop := ∀ t ∈ T.tris,
  0 ≤ cornerDot T t.a t.b t.c ∧ 0 ≤ cornerDot T t.b t.c t.a ∧ 0 ≤ cornerDot T t.c t.a t.b

/-- Every vertex is joined, along sides of triangles, with a conductor. -/
def JoinedToConductors (T : Triangulation 𝕜) (mats : Materials 𝕜) : Prop :=
  ∀ v, ∃ p ∈ mats.pecs, ∃ w, OnTag T p.tag w ∧ Relation.ReflTransGen (Adjacent T) v w

/-- Different conductors have no vertex in common. -/
def ConductorsApart (T : Triangulation 𝕜) (mats : Materials 𝕜) : Prop :=
  ∀ p ∈ mats.pecs, ∀ q ∈ mats.pecs, p.tag ≠ q.tag → ∀ v, OnTag T p.tag v → ¬ OnTag T q.tag v

/-- Tags are positive; those of dielectrics are not beyond the attributes of the triangles; dielectrics and open
boundaries are not declared twice; permittivities are positive. -/
structure Sensible [LinearOrder 𝕜] (T : Triangulation 𝕜) (mats : Materials 𝕜) : Prop where
  pecs : ∀ p ∈ mats.pecs, 1 ≤ p.tag
  opens : ∀ o ∈ mats.openBoundaries, 1 ≤ o.tag
  dielectrics : ∀ d ∈ mats.dielectrics, 1 ≤ d.tag ∧ ∃ t ∈ T.tris, d.tag ≤ t.attr
  names : (mats.dielectrics.map Dielectric.name).Nodup
  tags : (mats.dielectrics.map Dielectric.tag).Nodup
  openNames : (mats.openBoundaries.map OpenBoundary.name).Nodup
  permittivities : ∀ d ∈ mats.dielectrics, 0 < d.relativePermittivity

/-- The absorbing coefficient is not negative on the open boundaries (whose segments have no negative length). -/
def OpenAbsorb [LinearOrder 𝕜] (A : Analytic 𝕜) (T : Triangulation 𝕜) (mats : Materials 𝕜) : Prop :=
  ∀ s ∈ T.segs, (∃ o ∈ mats.openBoundaries, o.tag = s.attr) → 0 ≤ s.len ∧ ∀ x y : 𝕜, 0 ≤ x → 0 ≤ y → x + y = 1 →
    0 ≤ A.abc (x * (T.coord s.a).1 + y * (T.coord s.b).1, x * (T.coord s.a).2 + y * (T.coord s.b).2)

end Tulip.Spec

namespace Tulip.Spec
variable {𝕜 : Type} [Field 𝕜] [LinearOrder 𝕜]

/-- Two plates perpendicular to the x axis, on the left at `x0` and on the right at `x1`, and free boundaries parallel
to the x axis. (The domain is on the left of boundary segments.) -/
structure ParallelPlates (T : Triangulation 𝕜) (tag0 tag1 : Int) (x0 x1 : 𝕜) : Prop where
  left : ∀ s ∈ T.segs, s.attr = tag0 →
    (T.coord s.a).1 = x0 ∧ (T.coord s.b).1 = x0 ∧ (T.coord s.b).2 < (T.coord s.a).2
  right : ∀ s ∈ T.segs, s.attr = tag1 →
    (T.coord s.a).1 = x1 ∧ (T.coord s.b).1 = x1 ∧ (T.coord s.a).2 < (T.coord s.b).2
  free : ∀ s ∈ T.segs, s.attr ≠ tag0 → s.attr ≠ tag1 → (T.coord s.a).2 = (T.coord s.b).2
  exists_ : ∃ s ∈ T.segs, s.attr = tag1

/-- Total length of the boundary with this tag. -/
def boundaryLength (T : Triangulation 𝕜) (tag : Int) : 𝕜 :=
  ((T.segs.filter (fun s => s.attr = tag)).map Seg.len).sum

/-- `depth x` is the electrical distance of the plane at `x` from the one at `x0`: it grows by the distance divided by
the permittivity within every triangle. (For layers of thickness `h` and permittivity `eps`, the sum of `h / eps`.) -/
def ElectricalDepth (T : Triangulation 𝕜) (eps : Int → 𝕜) (x0 : 𝕜) (depth : 𝕜 → 𝕜) : Prop :=
  depth x0 = 0 ∧ ∀ t ∈ T.tris, ∀ v w, IsVertex t v → IsVertex t w →
    depth (T.coord w).1 - depth (T.coord v).1 = ((T.coord w).1 - (T.coord v).1) / eps t.attr

end Tulip.Spec
