import Verif.Model.DMat
import Mathlib.Algebra.BigOperators.Fin
import Mathlib.Tactic.Ring
import Mathlib.Tactic.Linarith

namespace Tulip
open DMat
variable {𝕜 : Type _}

theorem forRange_inv {S : Type _} {body : Nat → S → Outcome S} (I : Nat → S → Prop) : ∀ (n a : Nat) (s : S),
    (∀ i s, a ≤ i → i < a + n → I i s → ∃ s', body i s = .ok s' ∧ I (i + 1) s') → I a s →
    ∃ s', forRange body a n s = .ok s' ∧ I (a + n) s' := by
  intro n
  induction n with
  | zero => intro a s _ h; exact ⟨s, rfl, h⟩
  | succ n ih =>
    intro a s hb h
    obtain ⟨s1, h1, h2⟩ := hb a s (le_refl _) (by omega) h
    obtain ⟨s2, h3, h4⟩ := ih (a + 1) s1 (fun i s hi hi' => hb i s (by omega) (by omega)) h2
    refine ⟨s2, ?_, by rw [show a + (n + 1) = a + 1 + n by omega]; exact h4⟩
    simp only [forRange, h1, Outcome.ok_bind, h3]

theorem forRange_first {S : Type _} {body : Nat → S → Outcome S} (n a : Nat) (s : S) {o : Outcome S}
    (h : body a s = o) (ho : ∀ x, o ≠ .ok x) : forRange body a (n + 1) s = o := by
  simp only [forRange, h]
  cases o with
  | ok x => exact absurd rfl (ho x)
  | _ => rfl

theorem sumRange_ok [Field 𝕜] {g : Nat → Outcome 𝕜} {n : Nat} (v : Fin n → 𝕜)
    (h : ∀ k (hk : k < n), g k = .ok (v ⟨k, hk⟩)) (acc : 𝕜) :
    sumRange g n acc = .ok (acc + ∑ k, v k) := by
  let w : Nat → 𝕜 := fun k => if hk : k < n then v ⟨k, hk⟩ else 0
  obtain ⟨s, h1, h2⟩ := forRange_inv (body := fun k s => do let x ← g k; .ok (s + x))
    (fun k s => s = acc + ∑ i ∈ Finset.range k, w i) n 0 acc (by
      intro i s _ hi hs
      refine ⟨s + w i, ?_, ?_⟩
      · rw [h i (by omega)]; simp only [Outcome.ok_bind, w]; rw [dif_pos (by omega)]
      · rw [hs, Finset.sum_range_succ]; ring) (by simp)
  unfold sumRange
  rw [h1, h2, Nat.zero_add, Finset.sum_range]
  congr 2
  apply Finset.sum_congr rfl
  intro i _
  simp [w, i.2]

@[simp] theorem get_ofMatrix {n m : Nat} (A : Matrix (Fin n) (Fin m) 𝕜) (i j : Nat) (hi : i < n) (hj : j < m) :
    (ofMatrix A).get i j = .ok (A ⟨i, hi⟩ ⟨j, hj⟩) := by
  simp [DMat.get, ofMatrix, hi, hj]

open Classical in
theorem solve_ofMatrix [Field 𝕜] {n : Nat} (A : Matrix (Fin n) (Fin n) 𝕜) (b : Nat → 𝕜) :
    (ofMatrix A).solve b = if A.det = 0 then .nonfinite
      else .ok (fun j => if hj : j < n then A⁻¹.mulVec (fun k => b k) ⟨j, hj⟩ else 0) := by
  unfold DMat.solve
  exact dif_pos rfl

open Classical in
theorem invert_ofMatrix [Field 𝕜] {n : Nat} (A : Matrix (Fin n) (Fin n) 𝕜) :
    (ofMatrix A).invert = if A.det = 0 then .throw .mfemVerify else .ok (ofMatrix A⁻¹) := by
  unfold DMat.invert
  exact dif_pos rfl

theorem symmetrize_ofMatrix [Field 𝕜] {n : Nat} (A : Matrix (Fin n) (Fin n) 𝕜) :
    (ofMatrix A).symmetrize = .ok (ofMatrix (Matrix.of fun i j => (A i j + A j i) / 2)) := by
  unfold DMat.symmetrize
  exact dif_pos rfl

/-- A double loop that writes `val i j` at position `(i - a, j - b)` for all positions. -/
theorem fillLoop {n m : Nat} (a b : Nat) (val : Nat → Nat → 𝕜) (body : Nat → Nat → DMat 𝕜 → Outcome (DMat 𝕜))
    (hbody : ∀ i j (C : DMat 𝕜), i < n → j < m → body (a + i) (b + j) C = C.set i j (val i j))
    (f0 : Fin n → Fin m → 𝕜) :
    forRange (fun i C => forRange (fun j C => body i j C) b m C) a n ⟨n, m, f0⟩ =
      .ok ⟨n, m, fun i j => val i j⟩ := by
  have inner : ∀ i, i < n → ∀ f : Fin n → Fin m → 𝕜,
      forRange (fun j C => body (a + i) j C) b m ⟨n, m, f⟩ =
        .ok ⟨n, m, fun x y => if x.1 = i then val i y else f x y⟩ := by
    intro i hi f
    obtain ⟨s, h1, h2⟩ := forRange_inv (body := fun j C => body (a + i) j C)
      (fun k C => C = ⟨n, m, fun x y => if x.1 = i ∧ y.1 < k - b then val i y else f x y⟩) m b ⟨n, m, f⟩ (by
        intro k C hk hk' hC
        obtain ⟨j, rfl⟩ := Nat.exists_eq_add_of_le hk
        refine ⟨_, hbody i j C hi (by omega) |>.trans ?_, rfl⟩
        subst hC
        simp only [DMat.set, hi, if_true, if_pos (show j < m by omega)]
        congr 2
        funext x y
        by_cases hx : x.1 = i
        · by_cases hy : y.1 = j
          · simp [hx, hy]; omega
          · have e : (y.1 < b + j - b) ↔ (y.1 < b + j + 1 - b) := by omega
            simp [hx, hy]
            rw [if_congr (show y.1 < j ↔ y.1 < b + j + 1 - b by omega) rfl rfl]
        · simp [hx]) (by simp)
    rw [h1, h2]
    congr 2
    funext x y
    by_cases hx : x.1 = i
    · simp [hx, y.2]
    · simp [hx]
  obtain ⟨s, h1, h2⟩ := forRange_inv (body := fun i C => forRange (fun j C => body i j C) b m C)
    (fun k C => C = ⟨n, m, fun x y => if x.1 < k - a then val x y else f0 x y⟩) n a ⟨n, m, f0⟩ (by
      intro k C hk hk' hC
      obtain ⟨i, rfl⟩ := Nat.exists_eq_add_of_le hk
      subst hC
      refine ⟨_, inner i (by omega) _, ?_⟩
      congr 1
      funext x y
      by_cases hx : x.1 = i
      · rw [if_pos hx, if_pos (by omega), hx]
      · rw [if_neg hx, if_congr (show x.1 < a + i - a ↔ x.1 < a + i + 1 - a by omega) rfl rfl]) (by simp)
  rw [h1, h2]
  congr 2
  funext x y
  simp

section
variable [Field 𝕜] [DecidableEq 𝕜]

/-- What `getCFromGeneralizedC` computes for closed problems. -/
theorem getC_closed {n m : Nat} (A : Matrix (Fin (n + 1)) (Fin (m + 1)) 𝕜) :
    getCFromGeneralizedC (ofMatrix A) .closed = .ok (ofMatrix (Matrix.of fun i j => A i.succ j.succ)) := by
  unfold getCFromGeneralizedC
  rw [if_neg (by simp [ofMatrix]), if_pos rfl]
  have := fillLoop (n := n) (m := m) 1 1
    (fun i j => if h : i < n ∧ j < m then A ⟨i + 1, by omega⟩ ⟨j + 1, by omega⟩ else 0)
    (fun i j C => do let v ← (ofMatrix A).get i j; C.set (i - 1) (j - 1) v)
    (by
      intro i j C hi hj
      rw [get_ofMatrix A _ _ (by omega) (by omega)]
      simp only [Outcome.ok_bind, Nat.add_sub_cancel_left]
      rw [dif_pos ⟨hi, hj⟩]
      congr 2 <;> (apply Fin.ext; simp; omega))
    (fun _ _ => 0)
  refine this.trans ?_
  unfold ofMatrix
  congr 2
  funext i j
  rw [dif_pos ⟨i.2, j.2⟩]
  rfl

/-- Sum of all entries. -/
def total {n m : Nat} (A : Matrix (Fin n) (Fin m) 𝕜) : 𝕜 := ∑ i, ∑ j, A i j

theorem den_ok {n m : Nat} (A : Matrix (Fin n) (Fin m) 𝕜) :
    forRange (fun i den => sumRange (fun j => (ofMatrix A).get i j) (ofMatrix A).w den) 0 n 0 =
      .ok (total A) := by
  have hstep : ∀ i (hi : i < n) (den : 𝕜),
      sumRange (fun j => (ofMatrix A).get i j) (ofMatrix A).w den = .ok (den + ∑ j, A ⟨i, hi⟩ j) := by
    intro i hi den
    exact sumRange_ok (n := m) (fun j => A ⟨i, hi⟩ j) (fun k hk => get_ofMatrix A i k hi hk) den
  let w : Nat → 𝕜 := fun k => if hk : k < n then ∑ j, A ⟨k, hk⟩ j else 0
  obtain ⟨s, h1, h2⟩ := forRange_inv
    (body := fun i den => sumRange (fun j => (ofMatrix A).get i j) (ofMatrix A).w den)
    (fun k s => s = ∑ i ∈ Finset.range k, w i) n 0 0 (by
      intro i s _ hi hs
      refine ⟨_, hstep i (by omega) s, ?_⟩
      rw [hs, Finset.sum_range_succ]
      simp only [w]
      rw [dif_pos (by omega)]) (by simp)
  rw [h1, h2, Nat.zero_add, Finset.sum_range]
  congr 1
  apply Finset.sum_congr rfl
  intro i _
  simp [w, i.2]

/-- What `getCFromGeneralizedC` computes for open and semiopen problems with `den ≠ 0`. -/
theorem getC_open {n m : Nat} (A : Matrix (Fin (n + 1)) (Fin (m + 1)) 𝕜) {o : Openness} (ho : o ≠ .closed)
    (hden : total A ≠ 0) :
    getCFromGeneralizedC (ofMatrix A) o = .ok (ofMatrix (Matrix.of fun i j =>
      A i.succ j.succ - (∑ k, A i.succ k) * (∑ k, A k j.succ) / total A)) := by
  unfold getCFromGeneralizedC
  rw [if_neg (by simp [ofMatrix]), if_neg ho]
  have hd : forRange (fun i den => sumRange (fun j => (ofMatrix A).get i j) (ofMatrix A).w den) 0
      (ofMatrix A).h 0 = .ok (total A) := den_ok A
  rw [hd]
  simp only [Outcome.ok_bind]
  have := fillLoop (n := n) (m := m) 1 1
    (fun i j => if h : i < n ∧ j < m then A ⟨i + 1, by omega⟩ ⟨j + 1, by omega⟩ -
      (∑ k, A ⟨i + 1, by omega⟩ k) * (∑ k, A k ⟨j + 1, by omega⟩) / total A else 0)
    (fun i j C => do
        let rowSum ← sumRange (fun k => (ofMatrix A).get i k) (ofMatrix A).w 0
        let colSum ← sumRange (fun m => (ofMatrix A).get m j) (ofMatrix A).h 0
        let v ← (ofMatrix A).get i j
        let q ← divide (rowSum * colSum) (total A)
        C.set (i - 1) (j - 1) (v - q))
    (by
      intro i j C hi hj
      have h1 : sumRange (fun k => (ofMatrix A).get (1 + i) k) (ofMatrix A).w 0 =
          .ok (0 + ∑ k, A ⟨1 + i, by omega⟩ k) :=
        sumRange_ok (n := m + 1) _ (fun k hk => get_ofMatrix A (1 + i) k (by omega) hk) 0
      have h2 : sumRange (fun k => (ofMatrix A).get k (1 + j)) (ofMatrix A).h 0 =
          .ok (0 + ∑ k, A k ⟨1 + j, by omega⟩) :=
        sumRange_ok (n := n + 1) (fun k => A k ⟨1 + j, by omega⟩)
          (fun k hk => get_ofMatrix A k (1 + j) hk (by omega)) 0
      rw [h1, h2, get_ofMatrix A _ _ (by omega) (by omega)]
      simp only [Outcome.ok_bind, divide, if_neg hden, Nat.add_sub_cancel_left, zero_add]
      rw [dif_pos ⟨hi, hj⟩]
      have e1 : (⟨1 + i, by omega⟩ : Fin (n + 1)) = ⟨i + 1, by omega⟩ := by apply Fin.ext; simp; omega
      have e2 : (⟨1 + j, by omega⟩ : Fin (m + 1)) = ⟨j + 1, by omega⟩ := by apply Fin.ext; simp; omega
      rw [e1, e2])
    (fun _ _ => 0)
  refine this.trans ?_
  unfold ofMatrix
  congr 2
  funext i j
  rw [dif_pos ⟨i.2, j.2⟩]
  rfl

/-- A zero denominator. -/
theorem getC_open_zero {n m : Nat} (A : Matrix (Fin (n + 1)) (Fin (m + 1)) 𝕜) {o : Openness}
    (ho : o ≠ .closed) (hden : total A = 0) (hn : 0 < n) (hm : 0 < m) :
    getCFromGeneralizedC (ofMatrix A) o = .nonfinite := by
  unfold getCFromGeneralizedC
  rw [if_neg (by simp [ofMatrix]), if_neg ho]
  have hd : forRange (fun i den => sumRange (fun j => (ofMatrix A).get i j) (ofMatrix A).w den) 0
      (ofMatrix A).h 0 = .ok (total A) := den_ok A
  rw [hd]
  simp only [Outcome.ok_bind]
  obtain ⟨n, rfl⟩ := Nat.exists_eq_succ_of_ne_zero (by omega : n ≠ 0)
  obtain ⟨m, rfl⟩ := Nat.exists_eq_succ_of_ne_zero (by omega : m ≠ 0)
  have h1 : sumRange (fun k => (ofMatrix A).get 1 k) (ofMatrix A).w 0 = .ok (0 + ∑ k, A ⟨1, by omega⟩ k) :=
    sumRange_ok (n := m + 1 + 1) _ (fun k hk => get_ofMatrix A 1 k (by omega) hk) 0
  have h2 : sumRange (fun k => (ofMatrix A).get k 1) (ofMatrix A).h 0 = .ok (0 + ∑ k, A k ⟨1, by omega⟩) :=
    sumRange_ok (n := n + 1 + 1) (fun k => A k ⟨1, by omega⟩)
      (fun k hk => get_ofMatrix A k 1 hk (by omega)) 0
  have hlast : ∀ C : DMat 𝕜, (do
        let rowSum ← sumRange (fun k => (ofMatrix A).get 1 k) (ofMatrix A).w 0
        let colSum ← sumRange (fun m => (ofMatrix A).get m 1) (ofMatrix A).h 0
        let v ← (ofMatrix A).get 1 1
        let q ← divide (rowSum * colSum) (total A)
        C.set (1 - 1) (1 - 1) (v - q)) = .nonfinite := by
    intro C
    rw [h1, h2, get_ofMatrix A _ _ (by omega) (by omega)]
    simp only [Outcome.ok_bind, divide, if_pos hden]
    rfl
  show forRange _ 1 (n + 1) _ = _
  refine forRange_first _ _ _ ?_ (by simp)
  show forRange _ 1 (m + 1) _ = _
  exact forRange_first _ _ _ (hlast _) (by simp)

/-- A single conductor: nothing to reduce, nothing divided. -/
theorem getC_single {m : Nat} (A : Matrix (Fin 1) (Fin (m + 1)) 𝕜) {o : Openness} :
    getCFromGeneralizedC (ofMatrix A) o = .ok (ofMatrix (Matrix.of fun (i : Fin 0) (_ : Fin m) => i.elim0)) := by
  by_cases ho : o = .closed
  · subst ho
    rw [getC_closed]
    congr 2
    funext i
    exact i.elim0
  · unfold getCFromGeneralizedC
    rw [if_neg (by simp [ofMatrix]), if_neg ho]
    have hd : forRange (fun i den => sumRange (fun j => (ofMatrix A).get i j) (ofMatrix A).w den) 0
        (ofMatrix A).h 0 = .ok (total A) := den_ok A
    rw [hd]
    simp only [Outcome.ok_bind]
    show Outcome.ok _ = _
    unfold ofMatrix DMat.zero
    congr 2
    funext i
    exact i.elim0

end
end Tulip
