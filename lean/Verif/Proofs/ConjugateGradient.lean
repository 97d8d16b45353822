import Verif.Model.ConjugateGradient
import Verif.Spec.Capacitance
import Mathlib.LinearAlgebra.Dimension.Constructions
import Mathlib.LinearAlgebra.FiniteDimensional.Basic
import Mathlib.LinearAlgebra.Matrix.DotProduct
import Mathlib.Tactic.Linarith
import Mathlib.Tactic.FieldSimp
import Mathlib.Tactic.Ring
import Mathlib.Data.Fintype.BigOperators

/-!
# Gauss-Seidel sweeps and conjugate gradients
-/

namespace Tulip
open Matrix Tulip.Spec
variable {𝕜 : Type _} [Field 𝕜]

section GaussSeidel
variable {n : Nat} {A : Matrix (Fin n) (Fin n) 𝕜} {x : Fin n → 𝕜}

theorem gsStep_self (y : Fin n → 𝕜) (i : Fin n) :
    gsStep A x y i i = (x i - ∑ j, if j = i then 0 else A i j * y j) / A i i := Function.update_self ..

theorem gsStep_ne (y : Fin n → 𝕜) {i j : Fin n} (h : j ≠ i) : gsStep A x y i j = y j := Function.update_of_ne h ..

theorem gsFold_out (l : List (Fin n)) : ∀ (y : Fin n → 𝕜) {j : Fin n}, j ∉ l → l.foldl (gsStep A x) y j = y j := by
  induction l with
  | nil => intro y j _; rfl
  | cons i l ih =>
    intro y j hj
    rw [List.foldl_cons, ih _ (fun h => hj (List.mem_cons_of_mem _ h)), gsStep_ne y (fun h : j = i => hj (by rw [h]; exact List.mem_cons_self))]

theorem gsFold_in {l1 l2 : List (Fin n)} {i : Fin n} (hn : (l1 ++ i :: l2).Nodup) (y : Fin n → 𝕜) :
    (l1 ++ i :: l2).foldl (gsStep A x) y i = (x i - ∑ j, if j = i then 0 else
      A i j * (if j ∈ l1 then (l1 ++ i :: l2).foldl (gsStep A x) y j else y j)) / A i i := by
  obtain ⟨_, h2, h12⟩ := List.nodup_append.mp hn
  have hi2 : i ∉ l2 := (List.nodup_cons.mp h2).1
  have val : ∀ j ∈ l1, (l1 ++ i :: l2).foldl (gsStep A x) y j = l1.foldl (gsStep A x) y j := by
    intro j hj
    rw [List.foldl_append, List.foldl_cons, gsFold_out l2 _ (fun h => h12 j hj j (List.mem_cons_of_mem _ h) rfl),
      gsStep_ne _ (h12 j hj i List.mem_cons_self)]
  have self : (l1 ++ i :: l2).foldl (gsStep A x) y i =
      (x i - ∑ j, if j = i then 0 else A i j * l1.foldl (gsStep A x) y j) / A i i := by
    rw [List.foldl_append, List.foldl_cons, gsFold_out l2 _ hi2, gsStep_self]
  rw [self]
  congr 2
  refine Finset.sum_congr rfl fun j _ => ?_
  by_cases hj : j = i
  · rw [if_pos hj, if_pos hj]
  rw [if_neg hj, if_neg hj]
  by_cases hj1 : j ∈ l1
  · rw [if_pos hj1, val j hj1]
  · rw [if_neg hj1, gsFold_out l1 y hj1]

/-- the ascending sweep from `y` -/
theorem gs_forward (hd : ∀ i, A i i ≠ 0) (y : Fin n → 𝕜) (i : Fin n) :
    x i = ∑ j, A i j * (if j ≤ i then (List.finRange n).foldl (gsStep A x) y j else y j) := by
  obtain ⟨l1, l2, e⟩ := List.append_of_mem (List.mem_finRange i)
  have hp := List.pairwise_lt_finRange n
  have hn := List.nodup_finRange n
  have hall : ∀ j : Fin n, j ∈ List.finRange n := List.mem_finRange
  rw [e] at hp hn hall
  have key := gsFold_in (A := A) (x := x) hn y
  obtain ⟨_, p2, p12⟩ := List.pairwise_append.mp hp
  have mem : ∀ j, j ∈ l1 ↔ j < i := by
    intro j
    refine ⟨fun h => p12 j h i List.mem_cons_self, fun h => ?_⟩
    rcases List.mem_append.mp (hall j) with h1 | h1
    · exact h1
    · rcases List.mem_cons.mp h1 with rfl | h2
      · exact absurd h (lt_irrefl _)
      · exact absurd ((List.pairwise_cons.mp p2).1 j h2) (lt_asymm h)
  rw [e]
  rw [eq_div_iff (hd i)] at key
  have split : (∑ j, A i j * (if j ≤ i then (l1 ++ i :: l2).foldl (gsStep A x) y j else y j)) =
      A i i * (l1 ++ i :: l2).foldl (gsStep A x) y i + ∑ j, if j = i then 0 else
        A i j * (if j ∈ l1 then (l1 ++ i :: l2).foldl (gsStep A x) y j else y j) := by
    rw [← Finset.add_sum_erase _ _ (Finset.mem_univ i), if_pos (le_refl i)]
    congr 1
    rw [← Finset.add_sum_erase Finset.univ _ (Finset.mem_univ i), if_pos rfl, zero_add]
    refine Finset.sum_congr rfl fun j hj => ?_
    have hne := Finset.ne_of_mem_erase hj
    rw [if_neg hne]
    by_cases h : j < i
    · rw [if_pos h.le, if_pos ((mem j).mpr h)]
    · rw [if_neg (fun h' => h (lt_of_le_of_ne h' hne)), if_neg (fun h' => h ((mem j).mp h'))]
  rw [split, mul_comm, key]
  ring

/-- the descending sweep from `y` -/
theorem gs_backward (hd : ∀ i, A i i ≠ 0) (y : Fin n → 𝕜) (i : Fin n) :
    x i = ∑ j, A i j * (if i ≤ j then (List.finRange n).reverse.foldl (gsStep A x) y j else y j) := by
  obtain ⟨l1, l2, e⟩ := List.append_of_mem (List.mem_reverse.mpr (List.mem_finRange i))
  have hp := List.pairwise_reverse.mpr (List.pairwise_lt_finRange n)
  have hn := List.nodup_reverse.mpr (List.nodup_finRange n)
  have hall : ∀ j : Fin n, j ∈ (List.finRange n).reverse := fun j => List.mem_reverse.mpr (List.mem_finRange j)
  rw [e] at hp hn hall
  have key := gsFold_in (A := A) (x := x) hn y
  obtain ⟨_, p2, p12⟩ := List.pairwise_append.mp hp
  have mem : ∀ j, j ∈ l1 ↔ i < j := by
    intro j
    refine ⟨fun h => p12 j h i List.mem_cons_self, fun h => ?_⟩
    rcases List.mem_append.mp (hall j) with h1 | h1
    · exact h1
    · rcases List.mem_cons.mp h1 with rfl | h2
      · exact absurd h (lt_irrefl _)
      · exact absurd ((List.pairwise_cons.mp p2).1 j h2) (lt_asymm h)
  rw [e]
  rw [eq_div_iff (hd i)] at key
  have split : (∑ j, A i j * (if i ≤ j then (l1 ++ i :: l2).foldl (gsStep A x) y j else y j)) =
      A i i * (l1 ++ i :: l2).foldl (gsStep A x) y i + ∑ j, if j = i then 0 else
        A i j * (if j ∈ l1 then (l1 ++ i :: l2).foldl (gsStep A x) y j else y j) := by
    rw [← Finset.add_sum_erase _ _ (Finset.mem_univ i), if_pos (le_refl i)]
    congr 1
    rw [← Finset.add_sum_erase Finset.univ _ (Finset.mem_univ i), if_pos rfl, zero_add]
    refine Finset.sum_congr rfl fun j hj => ?_
    have hne := Finset.ne_of_mem_erase hj
    rw [if_neg hne]
    by_cases h : i < j
    · rw [if_pos h.le, if_pos ((mem j).mpr h)]
    · rw [if_neg (fun h' => h (lt_of_le_of_ne h' (Ne.symm hne))), if_neg (fun h' => h ((mem j).mp h'))]
  rw [split, mul_comm, key]
  ring

/-- result of the ascending sweep -/
def gsHalf (A : Matrix (Fin n) (Fin n) 𝕜) (x : Fin n → 𝕜) : Fin n → 𝕜 := (List.finRange n).foldl (gsStep A x) (fun _ => 0)

theorem gsHalf_eq (hd : ∀ i, A i i ≠ 0) (x : Fin n → 𝕜) (i : Fin n) :
    x i = ∑ j, if j ≤ i then A i j * gsHalf A x j else 0 := by
  refine (gs_forward (x := x) hd (fun _ => 0) i).trans (Finset.sum_congr rfl fun j _ => ?_)
  split
  · rfl
  · exact mul_zero _

theorem gsSmooth_eq (hd : ∀ i, A i i ≠ 0) (x : Fin n → 𝕜) (i : Fin n) :
    A i i * gsHalf A x i = ∑ j, if i ≤ j then A i j * gsSmooth A x j else 0 := by
  have h1 := gsHalf_eq hd x i
  have h2 : x i = ∑ j, A i j * (if i ≤ j then gsSmooth A x j else gsHalf A x j) := gs_backward (x := x) hd (gsHalf A x) i
  have e1 : (∑ j, if j ≤ i then A i j * gsHalf A x j else 0) =
      A i i * gsHalf A x i + ∑ j, if j < i then A i j * gsHalf A x j else 0 := by
    rw [← Finset.add_sum_erase _ _ (Finset.mem_univ i), if_pos (le_refl i)]
    congr 1
    rw [← Finset.add_sum_erase Finset.univ (fun j => if j < i then A i j * gsHalf A x j else 0) (Finset.mem_univ i),
      if_neg (lt_irrefl i), zero_add]
    refine Finset.sum_congr rfl fun j hj => ?_
    have hne := Finset.ne_of_mem_erase hj
    by_cases h : j < i
    · rw [if_pos h.le, if_pos h]
    · rw [if_neg h, if_neg (fun h' => h (lt_of_le_of_ne h' hne))]
  have e2 : (∑ j, A i j * (if i ≤ j then gsSmooth A x j else gsHalf A x j)) =
      (∑ j, if i ≤ j then A i j * gsSmooth A x j else 0) + ∑ j, if j < i then A i j * gsHalf A x j else 0 := by
    rw [← Finset.sum_add_distrib]
    refine Finset.sum_congr rfl fun j _ => ?_
    by_cases h : i ≤ j
    · rw [if_pos h, if_pos h, if_neg (not_lt.mpr h), add_zero]
    · rw [if_neg h, if_neg h, if_pos (not_le.mp h), zero_add]
  rw [e1] at h1
  rw [e2] at h2
  exact add_right_cancel (h1.symm.trans h2)

theorem gsSmooth_dot (hs : A.IsSymm) (hd : ∀ i, A i i ≠ 0) (u v : Fin n → 𝕜) :
    u ⬝ᵥ gsSmooth A v = ∑ i, A i i * (gsHalf A u i * gsHalf A v i) := by
  unfold dotProduct
  have : ∀ i, u i * gsSmooth A v i = ∑ j, if j ≤ i then A i j * gsHalf A u j * gsSmooth A v i else 0 := by
    intro i
    rw [gsHalf_eq hd u i, Finset.sum_mul]
    refine Finset.sum_congr rfl fun j _ => ?_
    split
    · rfl
    · exact zero_mul _
  simp only [this]
  rw [Finset.sum_comm]
  refine Finset.sum_congr rfl fun j _ => ?_
  have h := gsSmooth_eq hd v j
  rw [show A j j * (gsHalf A u j * gsHalf A v j) = gsHalf A u j * (A j j * gsHalf A v j) by ring, h, Finset.mul_sum]
  refine Finset.sum_congr rfl fun i _ => ?_
  split
  · rw [hs.apply j i]
    ring
  · exact (mul_zero _).symm

theorem gsSmooth_symm (hs : A.IsSymm) (hd : ∀ i, A i i ≠ 0) (u v : Fin n → 𝕜) : u ⬝ᵥ gsSmooth A v = v ⬝ᵥ gsSmooth A u := by
  rw [gsSmooth_dot hs hd, gsSmooth_dot hs hd]
  exact Finset.sum_congr rfl fun i _ => by ring

theorem gsSmooth_pos [LinearOrder 𝕜] [IsStrictOrderedRing 𝕜] (hs : A.IsSymm) (hd : ∀ i, 0 < A i i) {u : Fin n → 𝕜}
    (hu : u ≠ 0) : 0 < u ⬝ᵥ gsSmooth A u := by
  have hne : ∀ i, A i i ≠ 0 := fun i => (hd i).ne'
  rw [gsSmooth_dot hs hne]
  have nonneg : ∀ i ∈ Finset.univ, 0 ≤ A i i * (gsHalf A u i * gsHalf A u i) :=
    fun i _ => mul_nonneg (hd i).le (mul_self_nonneg _)
  refine lt_of_le_of_ne (Finset.sum_nonneg nonneg) fun h => hu ?_
  have z := (Finset.sum_eq_zero_iff_of_nonneg nonneg).mp h.symm
  have zero : ∀ i, gsHalf A u i = 0 := fun i => by
    rcases mul_eq_zero.mp (z i (Finset.mem_univ i)) with h | h
    · exact absurd h (hne i)
    · exact mul_self_eq_zero.mp h
  funext i
  rw [gsHalf_eq hne u i]
  refine Finset.sum_eq_zero fun j _ => ?_
  rw [zero, mul_zero, ite_self]

/-- a degree of freedom that is not coupled with others keeps a zero -/
theorem gsSmooth_zero {i : Fin n} (hA : ∀ j, j ≠ i → A i j = 0) (hx : x i = 0) : gsSmooth A x i = 0 := by
  have step : ∀ (y : Fin n → 𝕜) (k : Fin n), y i = 0 → gsStep A x y k i = 0 := by
    intro y k hy
    by_cases h : i = k
    · subst h
      rw [gsStep_self, hx, Finset.sum_eq_zero, sub_zero, zero_div]
      intro j _
      split
      · rfl
      · next h => rw [hA j h, zero_mul]
    · rw [gsStep_ne y h, hy]
  have fold : ∀ (l : List (Fin n)) (y : Fin n → 𝕜), y i = 0 → l.foldl (gsStep A x) y i = 0 := by
    intro l
    induction l with
    | nil => intro y hy; exact hy
    | cons k l ih => intro y hy; exact ih _ (step y k hy)
  exact fold _ _ (fold _ _ rfl)

end GaussSeidel

section CG
variable {n : Nat} {A : Matrix (Fin n) (Fin n) 𝕜} {B : (Fin n → 𝕜) → Fin n → 𝕜}

/-- approximate solution, residual and direction -/
structure CGState (𝕜 : Type _) (n : Nat) where
  x : Fin n → 𝕜
  r : Fin n → 𝕜
  d : Fin n → 𝕜

/-- length of the next step -/
def CGState.alpha (A : Matrix (Fin n) (Fin n) 𝕜) (B : (Fin n → 𝕜) → Fin n → 𝕜) (s : CGState 𝕜 n) : 𝕜 :=
  (s.r ⬝ᵥ B s.r) / (s.d ⬝ᵥ A *ᵥ s.d)

/-- one iteration -/
def cgNext (A : Matrix (Fin n) (Fin n) 𝕜) (B : (Fin n → 𝕜) → Fin n → 𝕜) (s : CGState 𝕜 n) : CGState 𝕜 n where
  x := s.x + s.alpha A B • s.d
  r := s.r - s.alpha A B • A *ᵥ s.d
  d := B (s.r - s.alpha A B • A *ᵥ s.d) + (((s.r - s.alpha A B • A *ᵥ s.d) ⬝ᵥ B (s.r - s.alpha A B • A *ᵥ s.d)) /
    (s.r ⬝ᵥ B s.r)) • s.d

/-- the iterations from `x0` -/
def cgSeq (A : Matrix (Fin n) (Fin n) 𝕜) (B : (Fin n → 𝕜) → Fin n → 𝕜) (b x0 : Fin n → 𝕜) : Nat → CGState 𝕜 n
  | 0 => ⟨x0, b - A *ᵥ x0, B (b - A *ᵥ x0)⟩
  | k + 1 => cgNext A B (cgSeq A B b x0 k)

variable {b x0 : Fin n → 𝕜}

theorem cgSeq_residual (k : Nat) : (cgSeq A B b x0 k).r = b - A *ᵥ (cgSeq A B b x0 k).x := by
  induction k with
  | zero => rfl
  | succ k ih =>
    show (cgSeq A B b x0 k).r - _ • A *ᵥ _ = b - A *ᵥ ((cgSeq A B b x0 k).x + _ • _)
    rw [ih, Matrix.mulVec_add, Matrix.mulVec_smul]
    abel

variable [LinearOrder 𝕜] [IsStrictOrderedRing 𝕜]

/-- what is known of the iterations up to `k` -/
structure CGInv (A : Matrix (Fin n) (Fin n) 𝕜) (B : (Fin n → 𝕜) → Fin n → 𝕜) (b x0 : Fin n → 𝕜) (k : Nat) : Prop where
  orth : ∀ i < k, (cgSeq A B b x0 k).r ⬝ᵥ B (cgSeq A B b x0 i).r = 0
  conj : ∀ i < k, (cgSeq A B b x0 k).d ⬝ᵥ A *ᵥ (cgSeq A B b x0 i).d = 0
  dir : (cgSeq A B b x0 k).r ⬝ᵥ (cgSeq A B b x0 k).d = (cgSeq A B b x0 k).r ⬝ᵥ B (cgSeq A B b x0 k).r

theorem dot_symm (hA : A.IsSymm) (u v : Fin n → 𝕜) : u ⬝ᵥ A *ᵥ v = v ⬝ᵥ A *ᵥ u := by
  rw [Matrix.dotProduct_mulVec, ← Matrix.mulVec_transpose, hA.eq, dotProduct_comm]

theorem CGInv.den_pos (hA : PD A) {k : Nat} (h : CGInv A B b x0 k)
    (hk : 0 < (cgSeq A B b x0 k).r ⬝ᵥ B (cgSeq A B b x0 k).r) :
    0 < (cgSeq A B b x0 k).d ⬝ᵥ A *ᵥ (cgSeq A B b x0 k).d := by
  refine hA.2 _ fun e => ?_
  rw [← h.dir, e, dotProduct_zero] at hk
  exact lt_irrefl _ hk

theorem cgInv (hA : PD A) (hB : ∀ u v, u ⬝ᵥ B v = v ⬝ᵥ B u) (k : Nat)
    (hpos : ∀ i < k, 0 < (cgSeq A B b x0 i).r ⬝ᵥ B (cgSeq A B b x0 i).r) : CGInv A B b x0 k := by
  induction k using Nat.strong_induction_on with
  | _ k ih =>
    cases k with
    | zero => exact ⟨fun i hi => absurd hi (Nat.not_lt_zero i), fun i hi => absurd hi (Nat.not_lt_zero i), rfl⟩
    | succ k =>
      have inv : ∀ j ≤ k, CGInv A B b x0 j := fun j hj => ih j (Nat.lt_succ_of_le hj) fun i hi => hpos i (by omega)
      have hk := hpos k (Nat.lt_succ_self k)
      have hden := fun j (hj : j ≤ k) => (inv j hj).den_pos hA (hpos j (by omega))
      set q := cgSeq A B b x0 with hq
      have er : ∀ j, (q (j + 1)).r = (q j).r - (q j).alpha A B • A *ᵥ (q j).d := fun j => rfl
      have ed : ∀ j, (q (j + 1)).d = B (q (j + 1)).r +
          (((q (j + 1)).r ⬝ᵥ B (q (j + 1)).r) / ((q j).r ⬝ᵥ B (q j).r)) • (q j).d := fun j => rfl
      have ea : ∀ j ≤ k, (q j).alpha A B * ((q j).d ⬝ᵥ A *ᵥ (q j).d) = (q j).r ⬝ᵥ B (q j).r := fun j hj =>
        div_mul_cancel₀ _ (hden j hj).ne'
      have ane : ∀ j ≤ k, (q j).alpha A B ≠ 0 := fun j hj h => by
        have := ea j hj
        rw [h, zero_mul] at this
        exact (hpos j (by omega)).ne this
      -- the image of the last direction against preconditioned residuals
      have img : ∀ i ≤ k, (A *ᵥ (q k).d) ⬝ᵥ B (q i).r = if i = k then (q k).d ⬝ᵥ A *ᵥ (q k).d else 0 := by
        intro i hi
        have hBd : ∀ j ≤ k, (A *ᵥ (q k).d) ⬝ᵥ (q j).d = if j = k then (q k).d ⬝ᵥ A *ᵥ (q k).d else 0 := by
          intro j hj
          rw [dotProduct_comm]
          by_cases h : j = k
          · rw [if_pos h, h]
          · rw [if_neg h, dot_symm hA.1]
            exact (inv k (le_refl k)).conj j (lt_of_le_of_ne hj h)
        cases i with
        | zero => exact hBd 0 hi
        | succ i =>
          have : B (q (i + 1)).r = (q (i + 1)).d -
              (((q (i + 1)).r ⬝ᵥ B (q (i + 1)).r) / ((q i).r ⬝ᵥ B (q i).r)) • (q i).d := by rw [ed i]; abel
          rw [this, dotProduct_sub, dotProduct_smul, hBd (i + 1) hi, hBd i (by omega), if_neg (by omega : i ≠ k), smul_zero,
            sub_zero]
      have orth : ∀ i < k + 1, (q (k + 1)).r ⬝ᵥ B (q i).r = 0 := by
        intro i hi
        rw [er k, sub_dotProduct, smul_dotProduct, img i (by omega)]
        by_cases h : i = k
        · rw [if_pos h, h, smul_eq_mul, ea k (le_refl k), sub_self]
        · rw [if_neg h, smul_zero, sub_zero]
          exact (inv k (le_refl k)).orth i (by omega)
      have dirk : (q (k + 1)).r ⬝ᵥ (q k).d = 0 := by
        rw [er k, sub_dotProduct, smul_dotProduct, (inv k (le_refl k)).dir, dotProduct_comm (A *ᵥ (q k).d), smul_eq_mul,
          ea k (le_refl k), sub_self]
      refine ⟨orth, fun i hi => ?_, ?_⟩
      · -- multiply by the step
        have step : (q i).alpha A B • A *ᵥ (q i).d = (q i).r - (q (i + 1)).r := by rw [er i]; abel
        have hz : ∀ j < k + 1, B (q (k + 1)).r ⬝ᵥ (q j).r = 0 := fun j hj => by
          rw [dotProduct_comm, hB, orth j hj]
        have key : (q i).alpha A B * ((q (k + 1)).d ⬝ᵥ A *ᵥ (q i).d) = 0 := by
          rw [ed k, add_dotProduct, smul_dotProduct, mul_add]
          have e1 : (q i).alpha A B * (B (q (k + 1)).r ⬝ᵥ A *ᵥ (q i).d) =
              - (B (q (k + 1)).r ⬝ᵥ (q (i + 1)).r) := by
            rw [← smul_eq_mul, ← dotProduct_smul, step, dotProduct_sub, hz i hi, zero_sub]
          rw [e1]
          by_cases h : i = k
          · subst h
            rw [dotProduct_comm (B _), smul_eq_mul, mul_left_comm, ea i (le_refl i), div_mul_cancel₀ _ hk.ne']
            exact neg_add_cancel _
          · rw [hz (i + 1) (by omega), (inv k (le_refl k)).conj i (by omega), smul_zero, mul_zero, neg_zero, add_zero]
        exact (mul_eq_zero.mp key).resolve_left (ane i (by omega))
      · rw [ed k, dotProduct_add, dotProduct_smul, dirk, smul_zero, add_zero]

/-- not more than `n` residuals in a row are different from zero -/
theorem cg_steps (hA : PD A) (hB : ∀ u v, u ⬝ᵥ B v = v ⬝ᵥ B u) {k : Nat}
    (hpos : ∀ i < k, 0 < (cgSeq A B b x0 i).r ⬝ᵥ B (cgSeq A B b x0 i).r) : k ≤ n := by
  set q := cgSeq A B b x0 with hq
  have orth : ∀ i < k, ∀ j < k, i ≠ j → (q i).r ⬝ᵥ B (q j).r = 0 := by
    intro i hi j hj hij
    rcases lt_or_gt_of_ne hij with h | h
    · rw [hB]
      exact (cgInv hA hB j fun m hm => hpos m (by omega)).orth i h
    · exact (cgInv hA hB i fun m hm => hpos m (by omega)).orth j h
  have li : LinearIndependent 𝕜 (fun i : Fin k => (q i.1).r) := by
    rw [Fintype.linearIndependent_iff]
    intro g hg i
    have h := congrArg (fun v => v ⬝ᵥ B (q i.1).r) hg
    simp only [zero_dotProduct] at h
    rw [sum_dotProduct, Finset.sum_eq_single i] at h
    · rw [smul_dotProduct, smul_eq_mul] at h
      exact (mul_eq_zero.mp h).resolve_right (hpos i.1 i.2).ne'
    · intro j _ hj
      rw [smul_dotProduct, orth j.1 j.2 i.1 i.2 (fun h => hj (Fin.ext h)), smul_zero]
    · intro h
      exact absurd (Finset.mem_univ i) h
  have := li.fintype_card_le_finrank
  rwa [Fintype.card_fin, Module.finrank_fin_fun] at this

/-- the error in energy after a step -/
theorem cg_energy (hA : PD A) (hB : ∀ u v, u ⬝ᵥ B v = v ⬝ᵥ B u) {k : Nat}
    (hpos : ∀ i < k + 1, 0 < (cgSeq A B b x0 i).r ⬝ᵥ B (cgSeq A B b x0 i).r) {y : Fin n → 𝕜} (hy : A *ᵥ y = b) :
    (y - (cgSeq A B b x0 (k + 1)).x) ⬝ᵥ A *ᵥ (y - (cgSeq A B b x0 (k + 1)).x) <
      (y - (cgSeq A B b x0 k).x) ⬝ᵥ A *ᵥ (y - (cgSeq A B b x0 k).x) := by
  have inv := cgInv hA hB k fun i hi => hpos i (by omega)
  have hk := hpos k (by omega)
  have hden := inv.den_pos hA hk
  have hdir := inv.dir
  have hres := cgSeq_residual (A := A) (B := B) (b := b) (x0 := x0) k
  have ex : (cgSeq A B b x0 (k + 1)).x = (cgSeq A B b x0 k).x + (cgSeq A B b x0 k).alpha A B • (cgSeq A B b x0 k).d := rfl
  rw [ex]
  generalize hs : cgSeq A B b x0 k = s at *
  have ea : s.alpha A B * (s.d ⬝ᵥ A *ᵥ s.d) = s.r ⬝ᵥ B s.r := div_mul_cancel₀ _ hden.ne'
  have hap : 0 < s.alpha A B := div_pos hk hden
  have e0 : y - (s.x + s.alpha A B • s.d) = (y - s.x) - s.alpha A B • s.d := by abel
  have e1 : A *ᵥ (y - s.x) = s.r := by rw [Matrix.mulVec_sub, hy, hres]
  rw [e0, Matrix.mulVec_sub, Matrix.mulVec_smul, e1, sub_dotProduct, dotProduct_sub, dotProduct_sub, smul_dotProduct,
    smul_dotProduct, dotProduct_smul, dotProduct_smul, dot_symm hA.1 (y - s.x), e1, dotProduct_comm s.d s.r, hdir]
  simp only [smul_eq_mul]
  rw [ea]
  have := mul_pos hap hk
  linarith

theorem cg_energy_le (hA : PD A) (hB : ∀ u v, u ⬝ᵥ B v = v ⬝ᵥ B u) {k : Nat}
    (hpos : ∀ i < k, 0 < (cgSeq A B b x0 i).r ⬝ᵥ B (cgSeq A B b x0 i).r) {y : Fin n → 𝕜} (hy : A *ᵥ y = b) :
    (y - (cgSeq A B b x0 k).x) ⬝ᵥ A *ᵥ (y - (cgSeq A B b x0 k).x) ≤ (y - x0) ⬝ᵥ A *ᵥ (y - x0) := by
  induction k with
  | zero => exact le_refl _
  | succ k ih => exact (cg_energy hA hB hpos hy).le.trans (ih fun i hi => hpos i (by omega))

theorem cgLoop_seq (hA : PD A) (hB : ∀ u v, u ⬝ᵥ B v = v ⬝ᵥ B u) (hB0 : ∀ u, 0 ≤ u ⬝ᵥ B u) {stop : 𝕜} (h0 : 0 ≤ stop) :
    ∀ (m k : Nat), (∀ i < k + 1, stop < (cgSeq A B b x0 i).r ⬝ᵥ B (cgSeq A B b x0 i).r) →
    ∃ j, k < j ∧ j ≤ k + m + 1 ∧ cgLoop A B stop m (cgSeq A B b x0 k).x (cgSeq A B b x0 k).r (cgSeq A B b x0 k).d
        (A *ᵥ (cgSeq A B b x0 k).d) ((cgSeq A B b x0 k).r ⬝ᵥ B (cgSeq A B b x0 k).r)
        ((cgSeq A B b x0 k).d ⬝ᵥ A *ᵥ (cgSeq A B b x0 k).d) = (cgSeq A B b x0 j).x ∧
      (∀ i < j, stop < (cgSeq A B b x0 i).r ⬝ᵥ B (cgSeq A B b x0 i).r) ∧
      ((cgSeq A B b x0 j).r ⬝ᵥ B (cgSeq A B b x0 j).r ≤ stop ∨ j = k + m + 1) := by
  intro m
  induction m with
  | zero =>
    intro k hk
    exact ⟨k + 1, by omega, by omega, rfl, hk, Or.inr rfl⟩
  | succ m ih =>
    intro k hk
    have unfold_ : cgLoop A B stop (m + 1) (cgSeq A B b x0 k).x (cgSeq A B b x0 k).r (cgSeq A B b x0 k).d
        (A *ᵥ (cgSeq A B b x0 k).d) ((cgSeq A B b x0 k).r ⬝ᵥ B (cgSeq A B b x0 k).r)
        ((cgSeq A B b x0 k).d ⬝ᵥ A *ᵥ (cgSeq A B b x0 k).d) =
      (if (cgSeq A B b x0 (k + 1)).r ⬝ᵥ B (cgSeq A B b x0 (k + 1)).r < 0 then (cgSeq A B b x0 (k + 1)).x
      else if (cgSeq A B b x0 (k + 1)).r ⬝ᵥ B (cgSeq A B b x0 (k + 1)).r ≤ stop then (cgSeq A B b x0 (k + 1)).x
      else if (cgSeq A B b x0 (k + 1)).d ⬝ᵥ A *ᵥ (cgSeq A B b x0 (k + 1)).d = 0 then (cgSeq A B b x0 (k + 1)).x
      else cgLoop A B stop m (cgSeq A B b x0 (k + 1)).x (cgSeq A B b x0 (k + 1)).r (cgSeq A B b x0 (k + 1)).d
        (A *ᵥ (cgSeq A B b x0 (k + 1)).d) ((cgSeq A B b x0 (k + 1)).r ⬝ᵥ B (cgSeq A B b x0 (k + 1)).r)
        ((cgSeq A B b x0 (k + 1)).d ⬝ᵥ A *ᵥ (cgSeq A B b x0 (k + 1)).d)) := rfl
    rw [unfold_, if_neg (not_lt.mpr (hB0 _))]
    by_cases hs : (cgSeq A B b x0 (k + 1)).r ⬝ᵥ B (cgSeq A B b x0 (k + 1)).r ≤ stop
    · rw [if_pos hs]
      exact ⟨k + 1, by omega, by omega, rfl, hk, Or.inl hs⟩
    · rw [if_neg hs]
      have hk' : ∀ i < k + 1 + 1, stop < (cgSeq A B b x0 i).r ⬝ᵥ B (cgSeq A B b x0 i).r := by
        intro i hi
        rcases Nat.lt_succ_iff_lt_or_eq.mp hi with h | rfl
        · exact hk i h
        · exact not_le.mp hs
      have hden := (cgInv hA hB (k + 1) fun i hi => h0.trans_lt (hk i hi)).den_pos hA (h0.trans_lt (hk' _ (by omega)))
      rw [if_neg hden.ne']
      obtain ⟨j, h1, h2, h3, h4, h5⟩ := ih (k + 1) hk'
      refine ⟨j, by omega, by omega, h3, h4, ?_⟩
      rcases h5 with h | h
      · exact Or.inl h
      · exact Or.inr (by omega)

theorem cgSolve_seq (hA : PD A) (hB : ∀ u v, u ⬝ᵥ B v = v ⬝ᵥ B u) (hB0 : ∀ u, 0 ≤ u ⬝ᵥ B u) {N : Nat} (hN : 1 ≤ N)
    (rtol : 𝕜) {atol : 𝕜} (h0 : 0 ≤ atol) :
    ∃ j ≤ N, cgSolve B N rtol atol A b x0 = (cgSeq A B b x0 j).x ∧
      (∀ i < j, max (((b - A *ᵥ x0) ⬝ᵥ B (b - A *ᵥ x0)) * rtol) atol < (cgSeq A B b x0 i).r ⬝ᵥ B (cgSeq A B b x0 i).r) ∧
      ((cgSeq A B b x0 j).r ⬝ᵥ B (cgSeq A B b x0 j).r ≤ max (((b - A *ᵥ x0) ⬝ᵥ B (b - A *ᵥ x0)) * rtol) atol ∨ j = N) := by
  have hstop : 0 ≤ max (((b - A *ᵥ x0) ⬝ᵥ B (b - A *ᵥ x0)) * rtol) atol := h0.trans (le_max_right _ _)
  have e : cgSolve B N rtol atol A b x0 =
    (if (cgSeq A B b x0 0).d ⬝ᵥ (cgSeq A B b x0 0).r < 0 then x0
    else if (cgSeq A B b x0 0).d ⬝ᵥ (cgSeq A B b x0 0).r ≤
      max ((cgSeq A B b x0 0).d ⬝ᵥ (cgSeq A B b x0 0).r * rtol) atol then x0
    else if (A *ᵥ (cgSeq A B b x0 0).d) ⬝ᵥ (cgSeq A B b x0 0).d = 0 then x0
    else cgLoop A B (max ((cgSeq A B b x0 0).d ⬝ᵥ (cgSeq A B b x0 0).r * rtol) atol) (N - 1) (cgSeq A B b x0 0).x
      (cgSeq A B b x0 0).r (cgSeq A B b x0 0).d (A *ᵥ (cgSeq A B b x0 0).d)
      ((cgSeq A B b x0 0).d ⬝ᵥ (cgSeq A B b x0 0).r) ((A *ᵥ (cgSeq A B b x0 0).d) ⬝ᵥ (cgSeq A B b x0 0).d)) := rfl
  have hnom : (cgSeq A B b x0 0).d ⬝ᵥ (cgSeq A B b x0 0).r = (cgSeq A B b x0 0).r ⬝ᵥ B (cgSeq A B b x0 0).r :=
    dotProduct_comm _ _
  rw [e, hnom, dotProduct_comm (A *ᵥ _), if_neg (not_lt.mpr (hB0 _))]
  show ∃ j ≤ N, (if (cgSeq A B b x0 0).r ⬝ᵥ B (cgSeq A B b x0 0).r ≤
    max ((b - A *ᵥ x0) ⬝ᵥ B (b - A *ᵥ x0) * rtol) atol then _ else _) = _ ∧ _
  by_cases hs : (cgSeq A B b x0 0).r ⬝ᵥ B (cgSeq A B b x0 0).r ≤ max ((b - A *ᵥ x0) ⬝ᵥ B (b - A *ᵥ x0) * rtol) atol
  · rw [if_pos hs]
    exact ⟨0, by omega, rfl, fun i hi => absurd hi (Nat.not_lt_zero i), Or.inl hs⟩
  · rw [if_neg hs]
    have h1 : ∀ i < 0 + 1, max ((b - A *ᵥ x0) ⬝ᵥ B (b - A *ᵥ x0) * rtol) atol <
        (cgSeq A B b x0 i).r ⬝ᵥ B (cgSeq A B b x0 i).r := by
      intro i hi
      obtain rfl : i = 0 := by omega
      exact not_le.mp hs
    have hden := (cgInv hA hB 0 fun i hi => absurd hi (Nat.not_lt_zero i)).den_pos hA (hstop.trans_lt (h1 0 (by omega)))
    rw [if_neg hden.ne']
    obtain ⟨j, _, h2, h3, h4, h5⟩ := cgLoop_seq hA hB hB0 hstop (N - 1) 0 h1
    refine ⟨j, by omega, h3, h4, ?_⟩
    rcases h5 with h | h
    · exact Or.inl h
    · exact Or.inr (by omega)

end CG
end Tulip
