import Verif.Model.Rounding
import Verif.Proofs.DMat

/-!
# The matrix functions in computer arithmetic
-/

namespace Tulip
open DMat

section
variable {𝔽 : Type _} (R : Arithmetic 𝔽)

/-- What `Symmetrize` stores. -/
def symmetricPart {n : Nat} (A : Fin n → Fin n → 𝔽) (i j : Fin n) : 𝔽 :=
  if j < i then R.mul R.half (R.add (A i j) (A j i)) else if i < j then R.mul R.half (R.add (A j i) (A i j)) else A i j

theorem symmetricPart_comm {n : Nat} (A : Fin n → Fin n → 𝔽) (i j : Fin n) : symmetricPart R A i j = symmetricPart R A j i := by
  unfold symmetricPart
  rcases lt_trichotomy i j with h | h | h
  · rw [if_neg (not_lt.mpr h.le), if_pos h, if_pos h]
  · rw [h]
  · rw [if_pos h, if_neg (not_lt.mpr h.le), if_pos h]

theorem get_mk {n m : Nat} (f : Fin n → Fin m → 𝔽) (i j : Nat) (hi : i < n) (hj : j < m) : (DMat.mk n m f).get i j = .ok (f ⟨i, hi⟩ ⟨j, hj⟩) := by
  simp [DMat.get, hi, hj]

theorem rounded_symmetrize {n : Nat} (A : Matrix (Fin n) (Fin n) 𝔽) :
    R.symmetrize (ofMatrix A) = .ok (ofMatrix (Matrix.of (symmetricPart R A))) := by
  unfold Arithmetic.symmetrize
  rw [if_pos (show (ofMatrix A).w = (ofMatrix A).h from rfl)]
  obtain ⟨s, h1, h2⟩ := forRange_inv (body := fun i (M : DMat 𝔽) => forRange (fun j M => do
      let x ← M.get i j
      let y ← M.get j i
      let a := R.mul R.half (R.add x y)
      let M ← M.set i j a
      M.set j i a) 0 i M)
    (fun k C => C = DMat.mk n n (fun x y => if x.1 < k ∧ y.1 < k then symmetricPart R A x y else A x y)) n 0 (ofMatrix A) (by
      intro i C _ hi hC
      have hi : i < n := by omega
      obtain ⟨C', e1, e2⟩ := forRange_inv (body := fun j (M : DMat 𝔽) => do
          let x ← M.get i j
          let y ← M.get j i
          let a := R.mul R.half (R.add x y)
          let M ← M.set i j a
          M.set j i a)
        (fun k C => C = DMat.mk n n (fun x y => if (x.1 < i ∧ y.1 < i) ∨ (x.1 = i ∧ y.1 < k) ∨ (y.1 = i ∧ x.1 < k) then symmetricPart R A x y else A x y))
        i 0 C (by
          intro j C _ hj hC
          have hj : j < i := by omega
          have hjn : j < n := by omega
          subst hC
          rw [get_mk _ i j hi hjn, get_mk _ j i hjn hi]
          simp only [Outcome.ok_bind]
          rw [if_neg (by omega), if_neg (by omega)]
          simp only [DMat.set, hi, hjn, if_true, Outcome.ok_bind]
          refine ⟨_, rfl, ?_⟩
          congr 1
          funext x y
          by_cases hxy : x.1 = j ∧ y.1 = i
          · obtain ⟨hx, hy⟩ := hxy
            rw [if_pos ⟨hx, hy⟩, if_pos (by omega)]
            obtain rfl : x = ⟨j, hjn⟩ := Fin.ext hx
            obtain rfl : y = ⟨i, hi⟩ := Fin.ext hy
            unfold symmetricPart
            rw [if_neg (by simp; omega), if_pos (by simpa using hj)]
          · rw [if_neg hxy]
            by_cases hxy' : x.1 = i ∧ y.1 = j
            · obtain ⟨hx, hy⟩ := hxy'
              rw [if_pos ⟨hx, hy⟩, if_pos (by omega)]
              obtain rfl : y = ⟨j, hjn⟩ := Fin.ext hy
              obtain rfl : x = ⟨i, hi⟩ := Fin.ext hx
              unfold symmetricPart
              rw [if_pos (by simpa using hj)]
            · rw [if_neg hxy']
              refine if_congr ?_ rfl rfl
              omega) (by
          subst hC
          congr 1
          funext x y
          refine if_congr ?_ rfl rfl
          omega)
      refine ⟨C', e1, ?_⟩
      rw [e2]
      congr 1
      funext x y
      by_cases hxy : x.1 = i ∧ y.1 = i
      · rw [if_neg (by omega), if_pos (by omega)]
        have : x = y := Fin.ext (by omega)
        subst this
        unfold symmetricPart
        rw [if_neg (lt_irrefl _), if_neg (lt_irrefl _)]
      · refine if_congr ?_ rfl rfl
        omega) (by simp [ofMatrix])
  refine h1.trans ?_
  rw [h2]
  unfold ofMatrix
  congr 2
  funext x y
  rw [if_pos (by omega)]
  rfl

/-- Sum in the order of the loop. -/
def roundedSum {n : Nat} (v : Fin n → 𝔽) (acc : 𝔽) : 𝔽 := (List.ofFn v).foldl R.add acc

theorem rounded_sumRange {g : Nat → Outcome 𝔽} {n : Nat} (v : Fin n → 𝔽) (h : ∀ k (hk : k < n), g k = .ok (v ⟨k, hk⟩)) (acc : 𝔽) :
    R.sumRange g n acc = .ok (roundedSum R v acc) := by
  have key : ∀ (m a : Nat) (w : Fin m → 𝔽) (acc : 𝔽), (∀ k (hk : k < m), g (a + k) = .ok (w ⟨k, hk⟩)) →
      forRange (fun k s => do let x ← g k; .ok (R.add s x)) a m acc = .ok ((List.ofFn w).foldl R.add acc) := by
    intro m
    induction m with
    | zero => intro a w acc _; simp [forRange]
    | succ m ih =>
      intro a w acc hw
      have h0 : g a = .ok (w 0) := hw 0 (Nat.succ_pos m)
      simp only [forRange, h0, Outcome.ok_bind]
      rw [ih (a + 1) (fun k => w k.succ) _ (fun k hk => by rw [show a + 1 + k = a + (k + 1) by omega]; exact hw (k + 1) (by omega)), List.ofFn_succ]
      rfl
  exact key n 0 v acc fun k hk => by rw [Nat.zero_add]; exact h k hk

/-- What `getCFromGeneralizedC` computes for closed problems: no arithmetic. -/
theorem rounded_closed {n m : Nat} (A : Matrix (Fin (n + 1)) (Fin (m + 1)) 𝔽) :
    R.getCFromGeneralizedC (ofMatrix A) .closed = .ok (ofMatrix (Matrix.of fun i j => A i.succ j.succ)) := by
  unfold Arithmetic.getCFromGeneralizedC
  rw [if_neg (by simp [ofMatrix]), if_pos rfl]
  have := fillLoop (n := n) (m := m) 1 1
    (fun i j => if h : i < n ∧ j < m then A ⟨i + 1, by omega⟩ ⟨j + 1, by omega⟩ else R.zero)
    (fun i j C => do let v ← (ofMatrix A).get i j; C.set (i - 1) (j - 1) v)
    (by
      intro i j C hi hj
      rw [get_ofMatrix A _ _ (by omega) (by omega)]
      simp only [Outcome.ok_bind, Nat.add_sub_cancel_left]
      rw [dif_pos ⟨hi, hj⟩]
      congr 2 <;> (apply Fin.ext; simp; omega))
    (fun _ _ => R.zero)
  refine this.trans ?_
  unfold ofMatrix
  congr 2
  funext i j
  rw [dif_pos ⟨i.2, j.2⟩]
  rfl

/-- Sum of all entries in the order of the loops. -/
def roundedTotal {n m : Nat} (A : Fin n → Fin m → 𝔽) (acc : 𝔽) : 𝔽 := (List.ofFn A).foldl (fun acc v => roundedSum R v acc) acc

theorem roundedTotal_loop {m : Nat} {body : Nat → 𝔽 → Outcome 𝔽} : ∀ (k a : Nat) (w : Fin k → Fin m → 𝔽) (acc : 𝔽),
    (∀ i (hi : i < k) acc, body (a + i) acc = .ok (roundedSum R (w ⟨i, hi⟩) acc)) →
    forRange body a k acc = .ok (roundedTotal R w acc) := by
  intro k
  induction k with
  | zero => intro a w acc _; simp [forRange, roundedTotal]
  | succ k ih =>
    intro a w acc hw
    have h0 : body a acc = .ok (roundedSum R (w 0) acc) := hw 0 (Nat.succ_pos k) acc
    simp only [forRange, h0, Outcome.ok_bind]
    rw [ih (a + 1) (fun i => w i.succ) _ (fun i hi acc => by
      rw [show a + 1 + i = a + (i + 1) by omega]; exact hw (i + 1) (by omega) acc)]
    unfold roundedTotal
    rw [List.ofFn_succ]
    rfl

/-- What `getCFromGeneralizedC` computes for open and semiopen problems. -/
theorem rounded_open {n m : Nat} (A : Matrix (Fin (n + 1)) (Fin (m + 1)) 𝔽) {o : Openness} (ho : o ≠ .closed) :
    ∃ den, den = roundedTotal R A R.zero ∧ R.getCFromGeneralizedC (ofMatrix A) o = .ok (ofMatrix (Matrix.of fun i j =>
      R.sub (A i.succ j.succ) (R.div (R.mul (roundedSum R (fun k => A i.succ k) R.zero) (roundedSum R (fun k => A k j.succ) R.zero)) den))) := by
  unfold Arithmetic.getCFromGeneralizedC
  rw [if_neg (by simp [ofMatrix]), if_neg ho]
  have hd : forRange (fun i den => R.sumRange (fun j => (ofMatrix A).get i j) (ofMatrix A).w den) 0 (n + 1) R.zero =
      .ok (roundedTotal R A R.zero) :=
    roundedTotal_loop R (n + 1) 0 A R.zero fun i hi acc => by
      rw [Nat.zero_add]
      exact rounded_sumRange R (n := m + 1) (fun j => A ⟨i, by omega⟩ j) (fun k hk => get_ofMatrix A i k (by omega) hk) acc
  generalize roundedTotal R A R.zero = den at hd
  refine ⟨den, rfl, ?_⟩
  have hd' : forRange (fun i den => R.sumRange (fun j => (ofMatrix A).get i j) (ofMatrix A).w den) 0 (ofMatrix A).h R.zero = .ok den := hd
  rw [hd']
  simp only [Outcome.ok_bind]
  have := fillLoop (n := n) (m := m) 1 1
    (fun i j => if h : i < n ∧ j < m then R.sub (A ⟨i + 1, by omega⟩ ⟨j + 1, by omega⟩)
      (R.div (R.mul (roundedSum R (fun k => A ⟨i + 1, by omega⟩ k) R.zero) (roundedSum R (fun k => A k ⟨j + 1, by omega⟩) R.zero)) den) else R.zero)
    (fun i j C => do
        let rowSum ← R.sumRange (fun k => (ofMatrix A).get i k) (ofMatrix A).w R.zero
        let colSum ← R.sumRange (fun m => (ofMatrix A).get m j) (ofMatrix A).h R.zero
        let v ← (ofMatrix A).get i j
        C.set (i - 1) (j - 1) (R.sub v (R.div (R.mul rowSum colSum) den)))
    (by
      intro i j C hi hj
      have h1 : R.sumRange (fun k => (ofMatrix A).get (1 + i) k) (ofMatrix A).w R.zero = .ok (roundedSum R (fun k => A ⟨1 + i, by omega⟩ k) R.zero) :=
        rounded_sumRange R (n := m + 1) _ (fun k hk => get_ofMatrix A (1 + i) k (by omega) hk) R.zero
      have h2 : R.sumRange (fun k => (ofMatrix A).get k (1 + j)) (ofMatrix A).h R.zero = .ok (roundedSum R (fun k => A k ⟨1 + j, by omega⟩) R.zero) :=
        rounded_sumRange R (n := n + 1) (fun k => A k ⟨1 + j, by omega⟩) (fun k hk => get_ofMatrix A k (1 + j) hk (by omega)) R.zero
      rw [h1, h2, get_ofMatrix A _ _ (by omega) (by omega)]
      simp only [Outcome.ok_bind, Nat.add_sub_cancel_left]
      rw [dif_pos ⟨hi, hj⟩]
      have e1 : (⟨1 + i, by omega⟩ : Fin (n + 1)) = ⟨i + 1, by omega⟩ := by apply Fin.ext; simp; omega
      have e2 : (⟨1 + j, by omega⟩ : Fin (m + 1)) = ⟨j + 1, by omega⟩ := by apply Fin.ext; simp; omega
      rw [e1, e2])
    (fun _ _ => R.zero)
  refine this.trans ?_
  unfold ofMatrix
  congr 2
  funext i j
  rw [dif_pos ⟨i.2, j.2⟩]
  rfl

end
end Tulip
