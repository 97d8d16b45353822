import Verif.Model.Outcome
import Verif.Model.Mesh
import Mathlib.LinearAlgebra.Matrix.NonsingularInverse

/-!
# `mfem::DenseMatrix` and the matrix functions of `Driver` (src/Driver.cpp)

Numbers are elements of a field (rounding is not modelled); a division by zero is the outcome
`nonfinite`. Element access out of range is `ub` (MFEM checks it in debug builds only).
-/

namespace Tulip

/-- `for (int i = a; i < a + n; ++i) body`. -/
def forRange {S : Type _} (body : Nat → S → Outcome S) : Nat → Nat → S → Outcome S
  | _, 0, s => .ok s
  | a, n + 1, s => do
    let s ← body a s
    forRange body (a + 1) n s

/-- `mfem::DenseMatrix`: height, width, entries. -/
structure DMat (𝕜 : Type _) where
  h : Nat
  w : Nat
  f : Fin h → Fin w → 𝕜

namespace DMat
variable {𝕜 : Type _}

/-- A Mathlib matrix as a `DenseMatrix`. -/
def ofMatrix {n m : Nat} (A : Matrix (Fin n) (Fin m) 𝕜) : DMat 𝕜 := ⟨n, m, A⟩

/-- `DenseMatrix(h, w)` zero-initialises. -/
def zero [Zero 𝕜] (h w : Nat) : DMat 𝕜 := ⟨h, w, fun _ _ => 0⟩

/-- `M(i, j)` as a value. -/
def get (M : DMat 𝕜) (i j : Nat) : Outcome 𝕜 :=
  if hi : i < M.h then if hj : j < M.w then .ok (M.f ⟨i, hi⟩ ⟨j, hj⟩) else .ub else .ub

/-- `M(i, j) = v`. -/
def set (M : DMat 𝕜) (i j : Nat) (v : 𝕜) : Outcome (DMat 𝕜) :=
  if i < M.h then
    if j < M.w then
      .ok ⟨M.h, M.w, fun a b => if a.1 = i ∧ b.1 = j then v else M.f a b⟩
    else .ub
  else .ub

/-- `DenseMatrix::operator*=(double)`. -/
def smul [Mul 𝕜] (M : DMat 𝕜) (c : 𝕜) : DMat 𝕜 := ⟨M.h, M.w, fun i j => M.f i j * c⟩

/-- `DenseMatrix::Symmetrize` (MFEM): each pair is replaced by its mean; aborts unless square. -/
def symmetrize [Field 𝕜] (M : DMat 𝕜) : Outcome (DMat 𝕜) :=
  if hs : M.w = M.h then
    .ok ⟨M.h, M.h, fun i j => (M.f i (j.cast hs.symm) + M.f j (i.cast hs.symm)) / 2⟩
  else .throw .mfemVerify

/-- `DenseMatrix::Invert` (MFEM): in-place inverse; MFEM aborts on a singular matrix. Simplification:
Gaussian elimination with exact numbers is replaced by its result. -/
noncomputable def invert [Field 𝕜] (M : DMat 𝕜) : Outcome (DMat 𝕜) :=
  open Classical in
  if hs : M.w = M.h then
    let A : Matrix (Fin M.h) (Fin M.h) 𝕜 := Matrix.of fun i j => M.f i (j.cast hs.symm)
    if A.det = 0 then .throw .mfemVerify else .ok (ofMatrix A⁻¹)
  else .throw .mfemVerify

/-- `SetCol(c, v)`. -/
def setCol (M : DMat 𝕜) (c : Nat) (v : Nat → 𝕜) : Outcome (DMat 𝕜) :=
  if c < M.w then .ok ⟨M.h, M.w, fun i j => if j.1 = c then v i else M.f i j⟩ else .ub

/-- `GetColumn(c)`; a `Vector` is a function of the index, 0 beyond its size. -/
def getColumn [Zero 𝕜] (M : DMat 𝕜) (c : Nat) : Outcome (Nat → 𝕜) :=
  if hc : c < M.w then .ok (fun i => if hi : i < M.h then M.f ⟨i, hi⟩ ⟨c, hc⟩ else 0) else .ub

/-- `DenseMatrixInverse Ainv(A); Ainv.Mult(b, x)`: the solution of `A x = b`. MFEM does not report a
singular matrix: nothing is claimed then (`nonfinite`). Simplification: LU with exact numbers is replaced
by its result. -/
noncomputable def solve [Field 𝕜] (M : DMat 𝕜) (b : Nat → 𝕜) : Outcome (Nat → 𝕜) :=
  open Classical in
  if hs : M.w = M.h then
    let A : Matrix (Fin M.h) (Fin M.h) 𝕜 := Matrix.of fun i j => M.f i (j.cast hs.symm)
    if A.det = 0 then .nonfinite
    else .ok (fun j => if hj : j < M.h then A⁻¹.mulVec (fun k => b k) ⟨j, hj⟩ else 0)
  else .ub

end DMat

/-- IEEE division: a zero divisor gives a non-finite result. -/
def divide {𝕜 : Type _} [Field 𝕜] [DecidableEq 𝕜] (x y : 𝕜) : Outcome 𝕜 :=
  if y = 0 then .nonfinite else .ok (x / y)

section driver
variable {𝕜 : Type _} [Field 𝕜] [DecidableEq 𝕜]

/-- Loop `for k: acc += g(k)` over matrix entries. -/
def sumRange (g : Nat → Outcome 𝕜) (n : Nat) (acc : 𝕜) : Outcome 𝕜 :=
  forRange (fun k s => do let v ← g k; .ok (s + v)) 0 n acc

/-- `Driver::getCFromGeneralizedC` (Driver.cpp:104-145). A matrix without rows or columns would create a
`DenseMatrix` of negative size (`ub`). -/
def getCFromGeneralizedC (gC : DMat 𝕜) (openness : Openness) : Outcome (DMat 𝕜) :=
  if gC.h = 0 ∨ gC.w = 0 then .ub
  else
    let C0 : DMat 𝕜 := DMat.zero (gC.h - 1) (gC.w - 1)
    if openness = .closed then
      forRange (fun i C => forRange (fun j C => do
        let v ← gC.get i j
        C.set (i - 1) (j - 1) v) 1 (gC.w - 1) C) 1 (gC.h - 1) C0
    else do
      let den ← forRange (fun i den => sumRange (fun j => gC.get i j) gC.w den) 0 gC.h 0
      forRange (fun i C => forRange (fun j C => do
        let rowSum ← sumRange (fun k => gC.get i k) gC.w 0
        let colSum ← sumRange (fun m => gC.get m j) gC.h 0
        let v ← gC.get i j
        let q ← divide (rowSum * colSum) den
        C.set (i - 1) (j - 1) (v - q)) 1 C0.w C) 1 C0.h C0

/-- Body of the loop of `getFloatingPotentialsMatrix` (Driver.cpp:362-377): the solution `x`. -/
noncomputable def floatingSolve (C : DMat 𝕜) (i : Nat) : Outcome (Nat → 𝕜) := do
  let A ← C.setCol i (fun k => if k = i then -1 else 0)
  let b ← C.getColumn i
  A.solve (fun k => b k * -1)

/-- `Driver::getFloatingPotentialsMatrix` from the point where C is known (Driver.cpp:360-389). -/
noncomputable def floatingFromC (C : DMat 𝕜) : Outcome (DMat 𝕜) :=
  let N := C.h
  forRange (fun i res => do
    let x ← floatingSolve C i
    forRange (fun j res =>
      if i = j then res.set i i 1 else res.set i j (x j)) 0 N res) 0 N (DMat.zero N N)

end driver
end Tulip
