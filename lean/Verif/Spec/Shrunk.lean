import Verif.Spec.Limit

/-!
# Specification of cross-sections with a smaller conductor, or without one
-/

namespace Tulip.Spec

/-- The mesh `T'` covers the cross-section covered by `T` with the same materials, and more: space that belonged to the conductor with
the tag `k`. It borders on the former cross-section at the former surface of this conductor only. -/
structure Enlarged (T T' : Triangulation ℝ) (k : Int) : Prop where
  region : covered T ⊆ covered T'
  material : ∀ t ∈ T.tris, ∀ t' ∈ T'.tris, (interior (triangle T t) ∩ interior (triangle T' t')).Nonempty → t.attr = t'.attr
  freed : ∀ x ∈ covered T, x ∈ closure (covered T' \ covered T) → x ∈ boundaryPart T k

/-- The cross-section covered by `T'` is that covered by `T` after the conductor with the tag `k` has been made smaller (moved back, thinned, or
carved): where the new surface is not in the space this leaves, it is part of the former one; the other conductors are the same. -/
structure Shrunk (T T' : Triangulation ℝ) (mats : Materials ℝ) (k : Int) : Prop extends Enlarged T T' k where
  surface : ∀ x ∈ boundaryPart T' k, x ∈ covered T → x ∈ boundaryPart T k
  others : ∀ c ∈ mats.pecs, c.tag ≠ k → boundaryPart T' c.tag = boundaryPart T c.tag

/-- The cross-section covered by `T'`, with the materials `mats'`, is that covered by `T`, with the materials `mats`, after the conductor with
the tag `k` has been removed: the other conductors are the same. -/
structure Removed (T T' : Triangulation ℝ) (mats mats' : Materials ℝ) (k : Int) : Prop extends Enlarged T T' k where
  conductors : mats'.pecs = mats.pecs.filter (fun c => c.tag ≠ k)
  dielectrics : mats'.dielectrics = mats.dielectrics
  others : ∀ c ∈ mats'.pecs, boundaryPart T' c.tag = boundaryPart T c.tag

/-- Every triangle of the mesh `T'` is part of a triangle of the mesh `T` or outside the cross-section `T` covers. -/
def Nested (T T' : Triangulation ℝ) : Prop :=
  ∀ q ∈ T'.tris, (∃ t ∈ T.tris, triangle T' q ⊆ triangle T t) ∨ Disjoint (interior (triangle T' q)) (covered T)

end Tulip.Spec
