import Verif.Model.Results
import Verif.Proofs.DMat
import Mathlib.Data.List.GetD

/-!
# Lemmas about matrices and JSON
-/

namespace Tulip
variable {𝕜 : Type _}

theorem DMat.ext_get {A B : DMat 𝕜} (hh : A.h = B.h) (hw : A.w = B.w)
    (h : ∀ i j, i < A.h → j < A.w → A.get i j = B.get i j) : A = B := by
  obtain ⟨ah, aw, af⟩ := A
  obtain ⟨bh, bw, bf⟩ := B
  simp only at hh hw
  subst hh hw
  congr
  funext i j
  have := h i.1 j.1 i.2 j.2
  simpa [DMat.get, i.2, j.2] using this

theorem DMat.get_ok {A : DMat 𝕜} {i j : Nat} (hi : i < A.h) (hj : j < A.w) :
    A.get i j = .ok (A.f ⟨i, hi⟩ ⟨j, hj⟩) := by
  simp [DMat.get, hi, hj]

theorem toVecVec_length (M : DMat 𝕜) : (toVecVec M).length = M.h := by simp [toVecVec]

theorem toVecVec_getElem (M : DMat 𝕜) (i : Nat) (hi : i < (toVecVec M).length) :
    (toVecVec M)[i] = List.ofFn fun j => M.f ⟨i, by simpa [toVecVec] using hi⟩ j := by
  simp [toVecVec]

/-- Two matrices have the same rows. -/
theorem toVecVec_eq_iff {A B : DMat 𝕜} : toVecVec A = toVecVec B ↔
    A.h = B.h ∧ (0 < A.h → A.w = B.w) ∧ ∀ i j, i < A.h → j < A.w → A.get i j = B.get i j := by
  constructor
  · intro h
    have hh : A.h = B.h := by rw [← toVecVec_length, h, toVecVec_length]
    have hrow : ∀ i (hi : i < A.h), (List.ofFn fun j => A.f ⟨i, hi⟩ j) = List.ofFn fun j => B.f ⟨i, hh ▸ hi⟩ j := by
      intro i hi
      have h1 : i < (toVecVec A).length := by rw [toVecVec_length]; exact hi
      have h2 : i < (toVecVec B).length := by rw [← h]; exact h1
      rw [← toVecVec_getElem A i h1, ← toVecVec_getElem B i h2]
      exact List.getElem_of_eq h h1
    have hw : 0 < A.h → A.w = B.w := by
      intro h0
      have := congrArg List.length (hrow 0 h0)
      simpa using this
    refine ⟨hh, hw, ?_⟩
    intro i j hi hj
    have hw' := hw (by omega)
    rw [DMat.get_ok hi hj, DMat.get_ok (hh ▸ hi) (hw' ▸ hj)]
    have := List.getElem_of_eq (hrow i hi) (i := j) (by simpa using hj)
    simpa using this
  · rintro ⟨hh, hw, h⟩
    by_cases h0 : 0 < A.h
    · rw [DMat.ext_get hh (hw h0) h]
    · have e1 : toVecVec A = [] := List.length_eq_zero_iff.mp (by rw [toVecVec_length]; omega)
      have e2 : toVecVec B = [] := List.length_eq_zero_iff.mp (by rw [toVecVec_length]; omega)
      rw [e1, e2]

/-- On rectangular data with at least one entry per row the matrix of these entries is built. -/
theorem toMFEM_rect [Zero 𝕜] {v : List (List 𝕜)} {m : Nat} (hm : 0 < m) (hv : v ≠ [])
    (hr : ∀ r ∈ v, r.length = m) : ∃ M, toMFEMDenseMatrix v = .ok M ∧ toVecVec M = v ∧ M.h = v.length ∧ M.w = m := by
  cases v with
  | nil => exact absurd rfl hv
  | cons r0 rs =>
    have h0 : r0.length = m := hr r0 (by simp)
    unfold toMFEMDenseMatrix
    simp only
    rw [if_neg (by omega), if_neg (by
      simp only [List.any_eq_true, decide_eq_true_eq, not_exists, not_and, not_not]
      intro x hx; rw [hr x hx, h0])]
    have := fillLoop (n := (r0 :: rs).length) (m := r0.length) 0 0
      (fun i j => ((r0 :: rs).getD i []).getD j 0)
      (fun i j r => do let x ← vecVecGet (r0 :: rs) i j; r.set i j x)
      (by
        intro i j C hi hj
        rw [Nat.zero_add, Nat.zero_add]
        have hrow : (r0 :: rs)[i].length = m := hr _ (List.getElem_mem hi)
        have hj' : j < (r0 :: rs)[i].length := by omega
        have e : vecVecGet (r0 :: rs) i j = .ok (((r0 :: rs).getD i []).getD j 0) := by
          unfold vecVecGet
          rw [List.getElem?_eq_getElem hi]
          simp only
          rw [List.getElem?_eq_getElem hj']
          simp only
          rw [List.getD_eq_getElem _ _ hi, List.getD_eq_getElem _ _ hj']
        rw [e]; rfl)
      (fun _ _ => 0)
    refine ⟨_, this, ?_, rfl, h0⟩
    apply List.ext_getElem
    · rw [toVecVec_length]
    · intro i h1 h2
      rw [toVecVec_getElem]
      have hrow : (r0 :: rs)[i].length = m := hr _ (List.getElem_mem h2)
      apply List.ext_getElem
      · simp only [List.length_ofFn]; omega
      · intro j k1 k2
        simp only [List.getElem_ofFn]
        rw [List.getD_eq_getElem _ _ h2, List.getD_eq_getElem _ _ k2]

theorem toMFEM_ragged [Zero 𝕜] {r0 : List 𝕜} {rs : List (List 𝕜)} (h0 : r0 ≠ [])
    (hr : ∃ r ∈ r0 :: rs, r.length ≠ r0.length) :
    toMFEMDenseMatrix (r0 :: rs) = .throw (.runtimeError "vec-vec matrix is not square.") := by
  unfold toMFEMDenseMatrix
  simp only
  rw [if_neg (by simpa using h0), if_pos (by
    obtain ⟨r, hr1, hr2⟩ := hr
    exact List.any_eq_true.mpr ⟨r, hr1, by simpa using hr2⟩)]

theorem toMFEM_emptyRow [Zero 𝕜] (rs : List (List 𝕜)) :
    toMFEMDenseMatrix ([] :: rs) = .ok (DMat.zero 0 0) := rfl

namespace Json

theorem convertAll_map {α β γ : Type _} (g : β → Outcome γ) (f : α → β) (k : α → γ)
    (h : ∀ a, g (f a) = .ok (k a)) : ∀ l : List α, convertAll g (l.map f) = .ok (l.map k)
  | [] => rfl
  | a :: l => by simp only [List.map_cons, convertAll, h, convertAll_map g f k h l, Outcome.ok_bind]

theorem getVector_nums [Field 𝕜] (v : List (List 𝕜)) :
    (PULParameters.vecVecToJson v).getVector (getVector getDouble) = .ok v := by
  unfold PULParameters.vecVecToJson getVector
  simp only
  have := convertAll_map (getVector (getDouble (𝕜 := 𝕜))) (fun r : List 𝕜 => Json.arr (r.map Json.num)) id
    (by
      intro r
      show convertAll getDouble (r.map Json.num) = _
      have := convertAll_map (getDouble (𝕜 := 𝕜)) Json.num id (fun _ => rfl) r
      rwa [List.map_id] at this) v
  rwa [List.map_id] at this

end Json

namespace FieldReconstruction


/-- Values numbered from `k`. -/
def withIds {α : Type _} : List α → Int → SMap Int α
  | [], _ => []
  | x :: xs, k => (k, x) :: withIds xs (k + 1)

theorem set_append {α : Type _} (m : SMap Int α) (k : Int) (x : α) (h : ∀ y ∈ m, y.1 < k) :
    SMap.set m k x = m ++ [(k, x)] := by
  induction m with
  | nil => rfl
  | cons a t ih =>
    obtain ⟨k', v'⟩ := a
    have h1 : k' < k := h (k', v') (by simp)
    rw [SMap.set]
    rw [if_neg (by omega), if_neg (by omega), ih (fun y hy => h y (by simp [hy]))]
    rfl

theorem numbered_eq {α : Type _} : ∀ (l : List α) (k : Int) (m : SMap Int α), (∀ y ∈ m, y.1 < k) →
    numbered l k m = m ++ withIds l k := by
  intro l
  induction l with
  | nil => intro k m _; simp [numbered, withIds]
  | cons x xs ih =>
    intro k m h
    rw [numbered, set_append m k x h, ih (k + 1) _ (by
      intro y hy
      rcases List.mem_append.mp hy with hy | hy
      · have := h y hy; omega
      · have : y = (k, x) := by simpa using hy
        subst this; show k < k + 1; omega)]
    simp [withIds]

theorem numbered_nil {α : Type _} (l : List α) : numbered l 0 [] = withIds l 0 := by
  rw [numbered_eq l 0 [] (by simp)]; rfl

theorem withIds_keys {α : Type _} : ∀ (l : List α) (k : Int),
    SMap.keys (withIds l k) = (List.range l.length).map (fun n : Nat => (n : Int) + k)
  | [], _ => rfl
  | x :: xs, k => by
    have := withIds_keys xs (k + 1)
    simp only [SMap.keys] at *
    rw [withIds, List.map_cons, this, List.length_cons, List.range_succ_eq_map, List.map_cons, List.map_map]
    congr 1
    · simp
    · apply List.map_congr_left
      intro n _
      simp only [Function.comp]
      push_cast; omega

theorem withIds_vals {α : Type _} : ∀ (l : List α) (k : Int), SMap.vals (withIds l k) = l
  | [], _ => rfl
  | x :: xs, k => by
    have := withIds_vals xs (k + 1)
    simp only [SMap.vals] at *
    rw [withIds, List.map_cons, this]

theorem withIds_length {α : Type _} : ∀ (l : List α) (k : Int), (withIds l k).length = l.length
  | [], _ => rfl
  | x :: xs, k => by simp [withIds, withIds_length xs]

/-- A map is determined by its keys and values. -/
theorem map_ext {α : Type _} : ∀ {m n : SMap Int α}, SMap.keys m = SMap.keys n → SMap.vals m = SMap.vals n → m = n
  | [], [], _, _ => rfl
  | [], _ :: _, h, _ => by simp [SMap.keys] at h
  | _ :: _, [], h, _ => by simp [SMap.keys] at h
  | (k, v) :: t, (k', v') :: t', h1, h2 => by
    simp only [SMap.keys, SMap.vals, List.map_cons, List.cons.injEq] at h1 h2
    rw [h1.1, h2.1, map_ext (m := t) (n := t') h1.2 h2.2]

end FieldReconstruction
end Tulip
