import Verif.Model.Results

/-!
# Specification vocabulary for results
-/

namespace Tulip.Spec
variable {𝕜 : Type _}

/-- The value of a JSON number. -/
def number? [Field 𝕜] : Json 𝕜 → Option 𝕜
  | .int z => some (z : 𝕜)
  | .num x => some x
  | _ => none

/-- The JSON document is an array of arrays of numbers with these values. -/
def DenotesRows [Field 𝕜] (j : Json 𝕜) (v : List (List 𝕜)) : Prop :=
  ∃ rows : List (List (Json 𝕜)), j = .arr (rows.map .arr) ∧ rows.map (fun r => r.map number?) =
    v.map (fun r => r.map some)

/-- All rows have the same length. -/
def Rectangular (v : List (List 𝕜)) : Prop := ∀ r ∈ v, ∀ s ∈ v, r.length = s.length

/-- The matrix has exactly the entries of the rows. -/
def HasRows (M : DMat 𝕜) (v : List (List 𝕜)) : Prop :=
  M.h = v.length ∧ ∀ i (hi : i < v.length), M.w = v[i].length ∧ ∀ j (hj : j < v[i].length),
    M.get i j = .ok (v[i][j])

/-- What the reader makes of rows: nothing if the first row is missing or empty, otherwise the matrix with exactly
these rows, which must have one length. -/
def ReadAs (v : List (List 𝕜)) (M : DMat 𝕜) : Prop :=
  (v.head?.getD [] = [] ∧ M.h = 0 ∧ M.w = 0) ∨ (v.head?.getD [] ≠ [] ∧ Rectangular v ∧ HasRows M v)

/-- The two matrices have the same numbers of rows, columns and the same entries (the number of columns of
a matrix without rows does not matter). -/
def SameMatrix (A B : DMat 𝕜) : Prop :=
  A.h = B.h ∧ (0 < A.h → A.w = B.w) ∧ ∀ i j, i < A.h → j < A.w → A.get i j = B.get i j

/-- The keys of the map are 0, 1, ..., n-1. -/
def KeyedFromZero {α : Type _} (m : SMap Int α) : Prop :=
  SMap.keys m = (List.range m.length).map (fun n : Nat => (n : Int))

/-- All maps in the results are keyed 0, 1, ..., n-1. -/
def AllKeyedFromZero (p : InCellPotentials 𝕜) : Prop :=
  KeyedFromZero p.electric ∧ KeyedFromZero p.magnetic ∧
  (∀ kv ∈ p.electric, KeyedFromZero kv.2.conductorPotentials) ∧
  ∀ kv ∈ p.magnetic, KeyedFromZero kv.2.conductorPotentials

/-- The maps are well formed (`std::map`: keys strictly increasing). -/
def MapsSorted (p : InCellPotentials 𝕜) : Prop :=
  SMap.Sorted p.electric ∧ SMap.Sorted p.magnetic ∧
  (∀ kv ∈ p.electric, SMap.Sorted kv.2.conductorPotentials) ∧
  ∀ kv ∈ p.magnetic, SMap.Sorted kv.2.conductorPotentials

end Tulip.Spec
