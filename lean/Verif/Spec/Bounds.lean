import Verif.Spec.Driver
import Verif.Spec.Domain

/-!
# Specification of memory bounds: tags of meshes and of what is computed from them
-/

namespace Tulip.Spec
variable {𝕜 : Type}

/-- The attributes in the discretisation are those of the mesh. -/
structure Discretises (F : FEM 𝕜) (mesh : Mesh 𝕜) : Prop where
  domains : ∀ a, a ∈ F.domAttrs ↔ ∃ e ∈ mesh.elems, e.attr = a
  boundaries : ∀ a, a ∈ F.bdrAttrs ↔ ∃ e ∈ mesh.bdr, e.attr = a
  elements : ∀ b ∈ F.bdrElems, ∃ e ∈ mesh.bdr, e.attr = b.1
  points : ∀ q ∈ F.bdr, ∃ e ∈ mesh.bdr, e.attr = q.attr

/-- Tags of elements and boundary elements are positive, and there is a boundary element. -/
structure Tagged (mesh : Mesh 𝕜) : Prop where
  elems : ∀ e ∈ mesh.elems, 1 ≤ e.attr
  bdr : ∀ e ∈ mesh.bdr, 1 ≤ e.attr
  nonempty : mesh.bdr ≠ []

/-- What the parameters by domains need: tags as usual, and a boundary element on every exposed side of the mesh. -/
structure TagsApart (mesh : Mesh 𝕜) (mats : Materials 𝕜) : Prop where
  exposed : ∀ f ∈ exposedSides mesh.elems, ∃ b ∈ mesh.bdr, LiesOn b f
  dielectrics : ∀ x ∈ mats.dielectrics, ∀ b ∈ mesh.bdr, b.attr ≠ x.tag
  conductors : ∀ p ∈ mats.pecs, ∀ e ∈ mesh.elems, e.attr ≠ p.tag

end Tulip.Spec
