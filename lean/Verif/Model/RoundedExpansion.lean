import Verif.Model.Multipolar

/-!
# The multipolar expansion and the moments, with the rounding of computer arithmetic

`Model/Multipolar.lean` models `multipolarExpansion` and `momentComponent` with exact numbers. Here the same lines are
modelled with every arithmetic operation followed by a rounding `rnd`, and with the functions of the mathematical library,
`Vector::Norml2` and the constant `M_PI` as parameters: the functions as computed. Simplifications: the range of the exponent
is unlimited (no overflow or underflow), signed zeros are not modelled, and no fused multiply-add is used.
-/

noncomputable section

namespace Tulip.RoundedExpansion
open Tulip

/-- The functions of the mathematical library that `multipolarExpansion.h` calls, as computed. -/
structure Library where
  /-- `mfem::Vector::Norml2` -/
  norml2 : ℝ × ℝ → ℝ
  /-- `std::atan2(y, x)` -/
  atan2 : ℝ → ℝ → ℝ
  /-- `std::log` -/
  log : ℝ → ℝ
  /-- `std::cos` -/
  cos : ℝ → ℝ
  /-- `std::sin` -/
  sin : ℝ → ℝ
  /-- `std::pow` with an integer exponent -/
  pow : ℝ → ℕ → ℝ
  /-- `M_PI` -/
  pi : ℝ

variable (rnd : ℝ → ℝ) (lib : Library)

/-- `v -= w` -/
def sub2 (v w : ℝ × ℝ) : ℝ × ℝ := (rnd (v.1 - w.1), rnd (v.2 - w.2))

/-- One term of the sum with `n > 0` (multipolarExpansion.h:35). -/
def term (r phi : ℝ) (n : ℕ) (an bn : ℝ) : ℝ :=
  rnd (rnd (rnd (an * lib.cos (rnd (n * phi))) + rnd (bn * lib.sin (rnd (n * phi)))) / lib.pow r n)

/-- Loop of `multipolarExpansion` (multipolarExpansion.h:27-37), from index `n` on. -/
def expansionLoop (r phi : ℝ) : Nat → List (ℝ × ℝ) → ℝ → Outcome ℝ
  | _, [], res => .ok res
  | n, (an, bn) :: ab, res =>
    if r = 0 then .nonfinite
    else if n = 0 then expansionLoop r phi (n + 1) ab (rnd (res - rnd (an * lib.log r)))
    else expansionLoop r phi (n + 1) ab (rnd (res + term rnd lib r phi n an bn))

/-- `multipolarExpansion` (multipolarExpansion.h:11-40). -/
def multipolarExpansion (position : ℝ × ℝ) (ab : List (ℝ × ℝ)) (expansionCenter : ℝ × ℝ) : Outcome ℝ := do
  let rVec := sub2 rnd position expansionCenter
  let r := lib.norml2 rVec
  let phi := lib.atan2 rVec.2 rVec.1
  let res ← expansionLoop rnd lib r phi 0 ab 0
  .ok (rnd (res / rnd (2 * lib.pi)))

/-- `momentComponent` (multipolarExpansion.h:42-63); the assertions are compiled out in release builds. -/
def momentComponent (position : ℝ × ℝ) (n component : Nat) (translation : ℝ × ℝ) : ℝ :=
  if n = 0 then 1
  else
    let pos := sub2 rnd position translation
    let r := lib.norml2 pos
    let phi := lib.atan2 pos.2 pos.1
    if component = 0 then rnd (rnd (lib.pow r n * lib.cos (rnd (n * phi))) / n)
    else rnd (rnd (lib.pow r n * lib.sin (rnd (n * phi))) / n)

/-- The exact functions. -/
def exactLibrary : Library where
  norml2 := Multipolar.norml2
  atan2 := Multipolar.atan2
  log := Real.log
  cos := Real.cos
  sin := Real.sin
  pow := fun x n => x ^ n
  pi := Real.pi

end Tulip.RoundedExpansion
