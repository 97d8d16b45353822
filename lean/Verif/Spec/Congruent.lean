import Verif.Spec.Galerkin
import Mathlib.Data.List.Cycle

/-!
# Specification of congruent (and similar) meshes
-/

namespace Tulip.Spec
variable {𝕜 : Type} [Field 𝕜]

/-- A similarity of the plane: a turn and a scaling, that take the unit vector along x to `(xx, yx)`, if `mirrored` after a
reflection at the x axis, then a shift. -/
structure PlaneMap (𝕜 : Type) [Field 𝕜] where
  xx : 𝕜
  yx : 𝕜
  shift : 𝕜 × 𝕜
  mirrored : Bool
  regular : xx * xx + yx * yx ≠ 0

/-- The unit vector along y goes to `(xy, yy)`, perpendicular to `(xx, yx)`. -/
def PlaneMap.xy (g : PlaneMap 𝕜) : 𝕜 := if g.mirrored then g.yx else -g.yx

def PlaneMap.yy (g : PlaneMap 𝕜) : 𝕜 := if g.mirrored then -g.xx else g.xx

/-- Where a point goes. -/
def PlaneMap.point (g : PlaneMap 𝕜) (p : 𝕜 × 𝕜) : 𝕜 × 𝕜 :=
  (g.xx * p.1 + g.xy * p.2 + g.shift.1, g.yx * p.1 + g.yy * p.2 + g.shift.2)

/-- The mesh `T'` is what the similarity makes of the mesh `T`: `number` tells the new numbers of vertices, `twin` which
triangle becomes which (its vertices may be listed from another one on), `side` which segment becomes which, `label` the
new labels of segments. In a mirror, positive triangles and segments with the domain on their left are listed the other
way round. -/
structure Carried (g : PlaneMap 𝕜) (T T' : Triangulation 𝕜) (number : Fin T.nv ≃ Fin T'.nv) (twin : Tri T.nv → Tri T'.nv)
    (side : Seg 𝕜 T.nv → Seg 𝕜 T'.nv) (label : Equiv.Perm Int) : Prop where
  coord : ∀ v, T'.coord (number v) = g.point (T.coord v)
  tris : T'.tris.Perm (T.tris.map twin)
  vertices : ∀ t ∈ T.tris, ([(twin t).a, (twin t).b, (twin t).c] : Cycle (Fin T'.nv)) =
    if g.mirrored then [number t.c, number t.b, number t.a] else [number t.a, number t.b, number t.c]
  segs : T'.segs.Perm (T.segs.map side)
  ends : ∀ s ∈ T.segs, ((side s).a, (side s).b) = if g.mirrored then (number s.b, number s.a) else (number s.a, number s.b)
  labels : ∀ s ∈ T.segs, (side s).attr = label s.attr

end Tulip.Spec
