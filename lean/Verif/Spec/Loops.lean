import Verif.Spec.Graph
import Verif.Spec.Materials
import Mathlib.Data.List.Cycle
import Mathlib.Algebra.BigOperators.Group.Finset.Basic

/-!
# Specification vocabulary for loops of boundary segments and bounding boxes
-/

namespace Tulip.Spec
variable {𝕜 : Type _}

/-- All elements are segments with two different end points. -/
def ProperSegments (es : List (Elem 𝕜)) : Prop := ∀ e ∈ es, ∃ a b, e.verts = [a, b] ∧ a ≠ b

/-- Oriented end points of a segment. -/
def ends (e : Elem 𝕜) : Int × Int := (e.verts.getD 0 0, e.verts.getD 1 0)

/-- The segment is an edge of a closed loop made of consistently oriented segments of the list. -/
def OnClosedLoop (es : List (Elem 𝕜)) (e : Elem 𝕜) : Prop :=
  ∃ c, ElemCycle (es.map ends) c ∧ ends e ∈ cyclicPairs c

/-- At most one segment starts at each vertex. -/
def UniqueStarts (es : List (Elem 𝕜)) : Prop := (es.map (fun e => (ends e).1)).Nodup

/-- The closed loops that can be made of the segments, a loop being the same wherever one starts to read it, have as many
segments in total as there are. -/
def LoopsCount (es : List (Elem 𝕜)) : Prop :=
  ∃ S : Finset (Cycle Int), (∀ c : List Int, (c : Cycle Int) ∈ S ↔ ElemCycle (es.map ends) c) ∧
    ∑ c ∈ S, c.length = es.length

end Tulip.Spec
