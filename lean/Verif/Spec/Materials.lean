import Verif.Model.Mesh

/-!
# Specification vocabulary for materials and meshes
-/

namespace Tulip.Spec
variable {𝕜 : Type _}

/-- The white space characters of C: blank, tab, new line, vertical tab, form feed, carriage return. -/
def White (c : Char) : Prop := c.toNat = 32 ∨ (9 ≤ c.toNat ∧ c.toNat ≤ 13)

/-- All declared materials as (name, tag), whatever their class. -/
def declared (m : Materials 𝕜) : List (String × Int) :=
  m.pecs.map (fun x => (x.name, x.tag)) ++ m.openBoundaries.map (fun x => (x.name, x.tag)) ++
    m.dielectrics.map (fun x => (x.name, x.tag))

/-- No two declared materials share a name. -/
def DistinctNames (m : Materials 𝕜) : Prop := ((declared m).map Prod.fst).Nodup

/-- The tag is the attribute of some element or boundary element. -/
def TagInMesh (mesh : Mesh 𝕜) (tag : Int) : Prop :=
  (∃ e ∈ mesh.elems, e.attr = tag) ∨ ∃ e ∈ mesh.bdr, e.attr = tag

instance (mesh : Mesh 𝕜) (tag : Int) : Decidable (TagInMesh mesh tag) := by
  unfold TagInMesh; infer_instance

/-- `x` is the first element of `l` satisfying `P`. -/
def IsFirst {α : Type _} (P : α → Prop) (l : List α) (x : α) : Prop :=
  ∃ pre post, l = pre ++ x :: post ∧ P x ∧ ∀ y ∈ pre, ¬ P y

end Tulip.Spec
