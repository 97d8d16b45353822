import Verif.Props.Bounds
import Verif.Props.TriangleExamples

/-!
# C110: a dielectric with the tag of a boundary
-/

namespace Tulip.Props
open Tulip Tulip.Spec

theorem plates_tagged : Tagged plates.toMesh where
  elems := by decide +kernel
  bdr := by decide +kernel
  nonempty := by decide +kernel

/-- the materials of the plates, and one more dielectric: elements have tags 1 and 2, boundary elements 1, 2 and 3 -/
def platesAnd (tag : Int) : Materials ℚ :=
  { plateModel.materials with dielectrics := plateModel.materials.dielectrics ++ [⟨"Dielectric_3", tag, 2⟩] }

theorem platesAnd_distinct (tag : Int) : DistinctNames (platesAnd tag) := by
  show List.Nodup ["Conductor_1", "Conductor_0", "Dielectric_1", "Dielectric_2", "Dielectric_3"]
  decide +kernel

theorem platesAnd_numbering (tag : Int) : Numbering (Model.make plates.toMesh (platesAnd tag)).materials (pecsOf 1 2) where
  all := by
    rw [(C11_filter plates.toMesh _ (platesAnd_distinct tag)).1]
    show (pecsOf 1 2).Perm ((plateModel.materials.pecs).filter _)
    decide +kernel
  ids := ids_of 1 2
  nonempty := by decide +kernel

/-- Without the third dielectric, or if its tag is not in the mesh, the driver is constructed. -/
example : ∃ d, (Driver.construct (triEngine plates) (Model.make plates.toMesh (platesAnd 7)) order1).1 = .ok d :=
  C110_elements _ (C110_triangles plates).1 plates_tagged (platesAnd_distinct 7) ⟨_, platesAnd_numbering 7⟩ (by
    intro x hx hm
    have : x.tag = 1 ∨ x.tag = 2 ∨ x.tag = 7 := by
      simp only [platesAnd, plateModel, List.cons_append, List.nil_append, List.mem_cons, List.not_mem_nil, or_false] at hx
      rcases hx with rfl | rfl | rfl <;> simp
    rcases this with h | h | h <;> rw [h] at hm ⊢ <;> revert hm <;> decide +kernel)

/-- **C110, refutation of the unconditional claim.** With the tag of the sides the constructor writes out of range. -/
theorem C110_refuted : (∃ ps, Numbering (Model.make plates.toMesh (platesAnd 3)).materials ps) ∧
    Driver.construct (triEngine plates) (Model.make plates.toMesh (platesAnd 3)) order1 = (.ub, []) :=
  ⟨⟨_, platesAnd_numbering 3⟩, (C110_out_of_range (triEngine plates) (opts := order1) (mats := platesAnd 3) (C110_triangles plates).1 plates_tagged (platesAnd_distinct 3) ⟨_, platesAnd_numbering 3⟩
    (x := ⟨"Dielectric_3", 3, 2⟩) (by simp [platesAnd]) (by decide +kernel) (by decide +kernel)).1⟩

end Tulip.Props
