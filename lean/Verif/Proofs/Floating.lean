import Verif.Proofs.DMat
import Verif.Spec.Capacitance
import Mathlib.LinearAlgebra.Matrix.ToLinearEquiv
import Mathlib.Tactic.LinearCombination

namespace Tulip
open DMat Spec
variable {𝕜 : Type _} [Field 𝕜]

/-- The system matrix of `getFloatingPotentialsMatrix` for conductor `i`. -/
def floatMat {n : Nat} (C : Matrix (Fin n) (Fin n) 𝕜) (i : Fin n) : Matrix (Fin n) (Fin n) 𝕜 :=
  Matrix.of fun a b => if b = i then (if a = i then -1 else 0) else C a b

theorem floatMat_mulVec {n : Nat} (C : Matrix (Fin n) (Fin n) 𝕜) (i : Fin n) (y : Fin n → 𝕜) (j : Fin n) :
    (floatMat C i).mulVec y j = C.mulVec (Function.update y i 0) j - if j = i then y i else 0 := by
  simp only [Matrix.mulVec, dotProduct, floatMat, Matrix.of_apply]
  rw [eq_sub_iff_add_eq]
  have h1 := Finset.add_sum_erase Finset.univ (fun k => C j k * Function.update y i 0 k) (Finset.mem_univ i)
  have h2 := Finset.add_sum_erase Finset.univ
    (fun k => (if k = i then (if j = i then (-1 : 𝕜) else 0) else C j k) * y k) (Finset.mem_univ i)
  rw [← h1, ← h2]
  simp only [Function.update_self, mul_zero, zero_add, if_true]
  have h3 : ∑ k ∈ Finset.univ.erase i, (if k = i then (if j = i then (-1 : 𝕜) else 0) else C j k) * y k =
      ∑ k ∈ Finset.univ.erase i, C j k * Function.update y i 0 k := by
    apply Finset.sum_congr rfl
    intro k hk
    have hki : k ≠ i := (Finset.mem_erase.mp hk).1
    simp [hki, Function.update_of_ne]
  rw [h3]
  by_cases hj : j = i <;> simp [hj]

theorem mulVec_update_one {n : Nat} (C : Matrix (Fin n) (Fin n) 𝕜) (i : Fin n) (y : Fin n → 𝕜) (j : Fin n) :
    C.mulVec (Function.update y i 1) j = C.mulVec (Function.update y i 0) j + C j i := by
  have : Function.update y i 1 = Function.update y i 0 + Pi.single i 1 := by
    funext k
    by_cases hk : k = i
    · subst hk; simp
    · simp [hk]
  rw [this, Matrix.mulVec_add]
  simp

/-- Solutions of the linear system are the floating potentials. -/
theorem float_system {n : Nat} (C : Matrix (Fin n) (Fin n) 𝕜) (i : Fin n) (y : Fin n → 𝕜) :
    (floatMat C i).mulVec y = (fun k => C k i * -1) ↔
      FloatingPotentials C i (Function.update y i 1) ∧ charges C (Function.update y i 1) i = y i := by
  constructor
  · intro h
    have hj : ∀ j, C.mulVec (Function.update y i 1) j = if j = i then y i else 0 := by
      intro j
      have := congrFun h j
      rw [floatMat_mulVec] at this
      rw [mulVec_update_one]
      linear_combination this
    refine ⟨⟨by simp, fun j hji => ?_⟩, ?_⟩
    · unfold charges; rw [hj, if_neg hji]
    · unfold charges; rw [hj, if_pos rfl]
  · rintro ⟨⟨_, h1⟩, h2⟩
    funext j
    rw [floatMat_mulVec]
    have h3 := mulVec_update_one C i y j
    unfold charges at h1 h2
    by_cases hj : j = i
    · subst hj
      rw [h2] at h3
      simp only [if_true]
      linear_combination -h3
    · rw [h1 j hj] at h3
      simp only [if_neg hj]
      linear_combination -h3

/-- The system is regular iff the floating potentials exist and are unique. -/
theorem float_regular {n : Nat} (C : Matrix (Fin n) (Fin n) 𝕜) (i : Fin n) :
    (floatMat C i).det ≠ 0 ↔ ∃! v, FloatingPotentials C i v := by
  classical
  constructor
  · intro hd
    have hu : IsUnit (floatMat C i).det := isUnit_iff_ne_zero.mpr hd
    have hsol : (floatMat C i).mulVec ((floatMat C i)⁻¹.mulVec (fun k => C k i * -1)) =
        fun k => C k i * -1 := by
      rw [Matrix.mulVec_mulVec, Matrix.mul_nonsing_inv _ hu, Matrix.one_mulVec]
    have h1 := (float_system C i _).mp hsol
    refine ⟨_, h1.1, ?_⟩
    intro v hv
    -- the solution associated with v
    let y : Fin n → 𝕜 := Function.update v i (charges C v i)
    have hyv : Function.update y i 1 = v := by
      funext k
      by_cases hk : k = i
      · subst hk; simp [hv.1]
      · simp [y, hk]
    have h2 : (floatMat C i).mulVec y = fun k => C k i * -1 :=
      (float_system C i y).mpr ⟨by rw [hyv]; exact hv, by rw [hyv]; simp [y]⟩
    have h3 : y = (floatMat C i)⁻¹.mulVec (fun k => C k i * -1) := by
      rw [← h2, Matrix.mulVec_mulVec, Matrix.nonsing_inv_mul _ hu, Matrix.one_mulVec]
    rw [← hyv, h3]
  · rintro ⟨v, hv, huniq⟩ h0
    obtain ⟨y, hy, hAy⟩ := Matrix.exists_mulVec_eq_zero_iff.mpr h0
    have hfl : FloatingPotentials C i (v + Function.update y i 0) := by
      refine ⟨by simp [hv.1], fun j hj => ?_⟩
      unfold charges
      rw [Matrix.mulVec_add]
      have h1 := hv.2 j hj
      unfold charges at h1
      have h2 := congrFun hAy j
      rw [floatMat_mulVec, if_neg hj] at h2
      simp only [Pi.zero_apply, sub_zero] at h2
      simp [h1, h2]
    have heq := huniq _ hfl
    have hup : Function.update y i 0 = 0 := by
      have : v + Function.update y i 0 = v + 0 := by rw [heq, add_zero]
      exact add_left_cancel this
    apply hy
    have h2 := congrFun hAy i
    rw [floatMat_mulVec, hup] at h2
    simp at h2
    funext k
    by_cases hk : k = i
    · rw [hk]; exact h2
    · have := congrFun hup k
      simpa [hk] using this

variable [DecidableEq 𝕜]

theorem floatingSolve_eq {n : Nat} (C : Matrix (Fin n) (Fin n) 𝕜) (i : Fin n) :
    (∀ v, (floatMat C i).det ≠ 0 → FloatingPotentials C i v →
      ∃ x, floatingSolve (ofMatrix C) i = .ok x ∧ ∀ j : Fin n, j ≠ i → x j = v j) ∧
    ((floatMat C i).det = 0 → floatingSolve (ofMatrix C) i = .nonfinite) := by
  have hA : (⟨n, n, fun a b => if b.1 = i.1 then (if a.1 = i.1 then (-1 : 𝕜) else 0) else C a b⟩ : DMat 𝕜) =
      ofMatrix (floatMat C i) := by
    unfold ofMatrix
    congr 1
    funext a b
    simp only [floatMat, Matrix.of_apply, Fin.ext_iff]
  have hset : (ofMatrix C).setCol i (fun k => if k = i then -1 else 0) = .ok (ofMatrix (floatMat C i)) := by
    unfold setCol
    rw [if_pos (by exact i.2), ← hA]
    rfl
  have hcol : (ofMatrix C).getColumn i = .ok (fun k => if hk : k < n then C ⟨k, hk⟩ i else 0) := by
    unfold getColumn
    rw [dif_pos (by exact i.2)]
    rfl
  constructor
  · intro v hd hv
    unfold floatingSolve
    rw [hset, hcol]
    simp only [Outcome.ok_bind]
    rw [solve_ofMatrix, if_neg hd]
    refine ⟨_, rfl, ?_⟩
    intro j hj
    refine (dif_pos j.2).trans ?_
    have hu : IsUnit (floatMat C i).det := isUnit_iff_ne_zero.mpr hd
    let y : Fin n → 𝕜 := Function.update v i (charges C v i)
    have hyv : Function.update y i 1 = v := by
      funext k
      by_cases hk : k = i
      · subst hk; simp [hv.1]
      · simp [y, hk]
    have h2 : (floatMat C i).mulVec y = fun k => C k i * -1 :=
      (float_system C i y).mpr ⟨by rw [hyv]; exact hv, by rw [hyv]; simp [y]⟩
    have hb : (fun k : Fin n => (if hk : k.1 < n then C ⟨k.1, hk⟩ i else 0) * -1) = fun k => C k i * -1 := by
      funext k; simp [k.2]
    have h3 : (floatMat C i)⁻¹.mulVec
        (fun k : Fin n => (if hk : k.1 < n then C ⟨k.1, hk⟩ i else 0) * -1) = y := by
      rw [hb, ← h2, Matrix.mulVec_mulVec, Matrix.nonsing_inv_mul _ hu, Matrix.one_mulVec]
    have h4 := congrFun h3 j
    have h5 : y j = v j := by simp [y, hj]
    rw [← h5]
    exact h4
  · intro hd
    unfold floatingSolve
    rw [hset, hcol]
    simp only [Outcome.ok_bind]
    rw [solve_ofMatrix, if_pos hd]

/-- Writing one row. -/
theorem rowLoop {n : Nat} (i : Nat) (hi : i < n) (x : Nat → 𝕜) (f : Fin n → Fin n → 𝕜) :
    forRange (fun j (res : DMat 𝕜) => if i = j then res.set i i 1 else res.set i j (x j)) 0 n ⟨n, n, f⟩ =
      .ok ⟨n, n, fun a b => if a.1 = i then (if b.1 = i then 1 else x b) else f a b⟩ := by
  obtain ⟨s, h1, h2⟩ := forRange_inv
    (body := fun j (res : DMat 𝕜) => if i = j then res.set i i 1 else res.set i j (x j))
    (fun k C => C = ⟨n, n, fun a b => if a.1 = i ∧ b.1 < k then (if b.1 = i then 1 else x b) else f a b⟩)
    n 0 ⟨n, n, f⟩ (by
      intro k C _ hk hC
      subst hC
      by_cases hik : i = k
      · subst hik
        refine ⟨_, by simp only [if_true, DMat.set, hi]; rfl, ?_⟩
        congr 1
        funext a b
        by_cases ha : a.1 = i
        · by_cases hb : b.1 = i
          · simp [ha, hb]
          · simp only [ha, hb, true_and, and_false, if_false]
            rw [if_congr (show b.1 < i ↔ b.1 < i + 1 by omega) rfl rfl]
        · simp [ha]
      · refine ⟨_, by simp only [if_neg hik, DMat.set, hi, if_true, if_pos (show k < n by omega)]; rfl, ?_⟩
        congr 1
        funext a b
        by_cases ha : a.1 = i
        · by_cases hb : b.1 = k
          · have : k ≠ i := fun e => hik e.symm
            simp [ha, hb, this]
          · simp only [ha, hb, true_and, and_false, if_false]
            rw [if_congr (show b.1 < k ↔ b.1 < k + 1 by omega) rfl rfl]
        · simp [ha]) (by simp)
  rw [h1, h2]
  congr 2
  funext a b
  simp

/-- `getFloatingPotentialsMatrix` returns iff all floating problems have exactly one solution. -/
theorem floatingFromC_eq {n : Nat} (C : Matrix (Fin n) (Fin n) 𝕜) :
    ((∀ i, ∃! v, FloatingPotentials C i v) → ∃ R : Matrix (Fin n) (Fin n) 𝕜,
      floatingFromC (ofMatrix C) = .ok (ofMatrix R) ∧ ∀ i, FloatingPotentials C i (R i)) ∧
    ((∃ i, ¬ ∃! v, FloatingPotentials C i v) → floatingFromC (ofMatrix C) = .nonfinite) := by
  constructor
  · intro h
    choose V hV hVu using h
    refine ⟨Matrix.of V, ?_, fun i => hV i⟩
    obtain ⟨s, h1, h2⟩ := forRange_inv
      (body := fun i (res : DMat 𝕜) => do
        let x ← floatingSolve (ofMatrix C) i
        forRange (fun j res => if i = j then res.set i i 1 else res.set i j (x j)) 0 n res)
      (fun k M => M = ⟨n, n, fun a b => if a.1 < k then V a b else 0⟩) n 0 (DMat.zero n n) (by
        intro k M _ hk hM
        have hkn : k < n := by omega
        subst hM
        obtain ⟨x, hx, hxv⟩ := (floatingSolve_eq C ⟨k, hkn⟩).1 (V ⟨k, hkn⟩)
          ((float_regular C ⟨k, hkn⟩).mpr ⟨_, hV _, hVu _⟩) (hV _)
        simp only at hx
        refine ⟨_, by rw [hx]; simp only [Outcome.ok_bind]; exact rowLoop k hkn x _, ?_⟩
        congr 1
        funext a b
        by_cases ha : a.1 = k
        · have hak : a = ⟨k, hkn⟩ := Fin.ext ha
          rw [if_pos ha, if_pos (show a.1 < k + 1 by omega)]
          by_cases hb : b.1 = k
          · have hbk : b = ⟨k, hkn⟩ := Fin.ext hb
            rw [if_pos hb, hak, hbk]
            exact (hV ⟨k, hkn⟩).1.symm
          · rw [if_neg hb, hak]
            exact hxv b (fun e => hb (by rw [e]))
        · rw [if_neg ha, if_congr (show a.1 < k ↔ a.1 < k + 1 by omega) rfl rfl]) (by simp [DMat.zero])
    unfold floatingFromC
    show forRange _ 0 n _ = _
    refine h1.trans ?_
    rw [h2]
    unfold ofMatrix
    congr 2
    funext a b
    simp
  · rintro ⟨i0, hi0⟩
    -- the first failing index
    classical
    have hex : ∃ k, ∃ hk : k < n, ¬ ∃! v, FloatingPotentials C ⟨k, hk⟩ v := ⟨i0.1, i0.2, hi0⟩
    obtain ⟨hm, hmn⟩ := Nat.find_spec hex
    set m := Nat.find hex with hmdef
    have hlt : ∀ k (hk : k < n), k < m → ∃! v, FloatingPotentials C ⟨k, hk⟩ v := by
      intro k hk hkm
      by_contra hc
      exact Nat.find_min hex hkm ⟨hk, hc⟩
    let body : Nat → DMat 𝕜 → Outcome (DMat 𝕜) := fun i (res : DMat 𝕜) => do
        let x ← floatingSolve (ofMatrix C) i
        forRange (fun j res => if i = j then res.set i i 1 else res.set i j (x j)) 0 n res
    have hgood : ∀ (k : Nat), k < m → ∀ f : Fin n → Fin n → 𝕜, ∃ f', body k ⟨n, n, f⟩ = .ok ⟨n, n, f'⟩ := by
      intro k hk f
      have hkn : k < n := by omega
      obtain ⟨v, hv, hvu⟩ := hlt k hkn hk
      obtain ⟨x, hx, _⟩ := (floatingSolve_eq C ⟨k, hkn⟩).1 v ((float_regular C _).mpr ⟨v, hv, hvu⟩) hv
      simp only at hx
      exact ⟨_, by simp only [body, hx, Outcome.ok_bind]; exact rowLoop k hkn x f⟩
    have hbad : ∀ s, body m s = .nonfinite := by
      intro s
      have hd : (floatMat C ⟨m, hm⟩).det = 0 := by
        by_contra hc
        exact hmn ((float_regular C _).mp hc)
      have := (floatingSolve_eq C ⟨m, hm⟩).2 hd
      simp only at this
      simp only [body, this, Outcome.nonfinite_bind]
    have hrun : ∀ (k a : Nat) (f : Fin n → Fin n → 𝕜), a + k = m → ∀ r, forRange body a (k + 1 + r) ⟨n, n, f⟩ = .nonfinite := by
      intro k
      induction k with
      | zero =>
        intro a f ha r
        rw [show 0 + 1 + r = r + 1 by omega]
        refine forRange_first r a _ ?_ (by simp)
        rw [show a = m by omega]; exact hbad _
      | succ k ih =>
        intro a f ha r
        obtain ⟨f', hf'⟩ := hgood a (by omega) f
        rw [show k + 1 + 1 + r = (k + 1 + r) + 1 by omega]
        simp only [forRange, hf', Outcome.ok_bind]
        exact ih (a + 1) f' (by omega) r
    have := hrun m 0 (fun _ _ => 0) (by omega) (n - (m + 1))
    rw [show m + 1 + (n - (m + 1)) = n by omega] at this
    exact this

end Tulip
