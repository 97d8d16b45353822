import Verif.Model.DMat

/-!
# The matrix functions of `Driver` in computer arithmetic (src/Driver.cpp)

The same functions as in `Model/DMat.lean`, with operations about which nothing is assumed: those of IEEE 754 `double`, with
rounding, infinities and NaN, are an instance (`double` is a type with total operations). Values are compared as such: two NaN
count as equal here.
-/

namespace Tulip

/-- The operations of `double` these functions use, and the constants. -/
structure Arithmetic (𝔽 : Type _) where
  zero : 𝔽
  one : 𝔽
  half : 𝔽
  neg : 𝔽 → 𝔽
  add : 𝔽 → 𝔽 → 𝔽
  sub : 𝔽 → 𝔽 → 𝔽
  mul : 𝔽 → 𝔽 → 𝔽
  div : 𝔽 → 𝔽 → 𝔽

namespace Arithmetic
variable {𝔽 : Type _} (R : Arithmetic 𝔽)

/-- `DenseMatrix(h, w)` zero-initialises. -/
def zeros (h w : Nat) : DMat 𝔽 := ⟨h, w, fun _ _ => R.zero⟩

/-- `DenseMatrix::Symmetrize` (MFEM), entry by entry as published: below the diagonal, `a = 0.5 * (M(i,j) + M(j,i))` is stored
in both places. Aborts unless square. -/
def symmetrize (M : DMat 𝔽) : Outcome (DMat 𝔽) :=
  if M.w = M.h then
    forRange (fun i M => forRange (fun j M => do
      let x ← M.get i j
      let y ← M.get j i
      let a := R.mul R.half (R.add x y)
      let M ← M.set i j a
      M.set j i a) 0 i M) 0 M.h M
  else .throw .mfemVerify

/-- Loop `for k: acc += g(k)` over matrix entries. -/
def sumRange (g : Nat → Outcome 𝔽) (n : Nat) (acc : 𝔽) : Outcome 𝔽 :=
  forRange (fun k s => do let v ← g k; .ok (R.add s v)) 0 n acc

/-- `Driver::getCFromGeneralizedC` (Driver.cpp:104-145). A matrix without rows or columns would create a
`DenseMatrix` of negative size (`ub`). -/
def getCFromGeneralizedC (gC : DMat 𝔽) (openness : Openness) : Outcome (DMat 𝔽) :=
  if gC.h = 0 ∨ gC.w = 0 then .ub
  else
    let C0 : DMat 𝔽 := R.zeros (gC.h - 1) (gC.w - 1)
    if openness = .closed then
      forRange (fun i C => forRange (fun j C => do
        let v ← gC.get i j
        C.set (i - 1) (j - 1) v) 1 (gC.w - 1) C) 1 (gC.h - 1) C0
    else do
      let den ← forRange (fun i den => R.sumRange (fun j => gC.get i j) gC.w den) 0 gC.h R.zero
      forRange (fun i C => forRange (fun j C => do
        let rowSum ← R.sumRange (fun k => gC.get i k) gC.w R.zero
        let colSum ← R.sumRange (fun m => gC.get m j) gC.h R.zero
        let v ← gC.get i j
        C.set (i - 1) (j - 1) (R.sub v (R.div (R.mul rowSum colSum) den))) 1 C0.w C) 1 C0.h C0

/-- `DenseMatrix::operator*=(double)`. -/
def smul (M : DMat 𝔽) (c : 𝔽) : DMat 𝔽 := ⟨M.h, M.w, fun i j => R.mul (M.f i j) c⟩

/-- From the charges to the capacitances: `C.Symmetrize()` at the end of `getGeneralizedCMatrix` (Driver.cpp:236), then `getCMatrix`
(Driver.cpp:246-249) and `C *= EPSILON0_SI` (Driver.cpp:270-271). -/
def capacitances (eps0 : 𝔽) (charges : DMat 𝔽) (openness : Openness) : Outcome (DMat 𝔽) := do
  let gC ← R.symmetrize charges
  let C ← R.getCFromGeneralizedC gC openness
  .ok (R.smul C eps0)

/-- `GetColumn(c)`; a `Vector` is a function of the index. -/
def getColumn (M : DMat 𝔽) (c : Nat) : Outcome (Nat → 𝔽) :=
  if hc : c < M.w then .ok (fun i => if hi : i < M.h then M.f ⟨i, hi⟩ ⟨c, hc⟩ else R.zero) else .ub

/-- `Driver::getFloatingPotentialsMatrix` from the point where C is known (Driver.cpp:360-389). `solve` is MFEM's solution by LU
decomposition, any function here. -/
def floatingFromC (solve : DMat 𝔽 → (Nat → 𝔽) → Outcome (Nat → 𝔽)) (C : DMat 𝔽) : Outcome (DMat 𝔽) :=
  let N := C.h
  forRange (fun i res => do
    let A ← C.setCol i (fun k => if k = i then R.neg R.one else R.zero)
    let b ← R.getColumn C i
    let x ← solve A (fun k => R.mul (b k) (R.neg R.one))
    forRange (fun j res =>
      if i = j then res.set i i R.one else res.set i j (x j)) 0 N res) 0 N (R.zeros N N)

end Arithmetic
end Tulip
