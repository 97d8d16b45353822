import Verif.Proofs.JsonText

/-!
# What the writer writes is a text of the grammar
-/

namespace Tulip.JsonText
open Tulip Tulip.Spec

theorem ofDigitChars_decimal (ds : List Char) : Nat.ofDigitChars 10 ds 0 = decimal ds := rfl

theorem decimal_toDigits (n : Nat) : decimal (Nat.toDigits 10 n) = n := by
  rw [← ofDigitChars_decimal]
  exact Nat.ofDigitChars_ten_toDigits

theorem toDigits_no_zero (n : Nat) : (Nat.toDigits 10 n).head? = some '0' → n = 0 := by
  induction n using Nat.strong_induction_on with
  | _ n ih =>
    intro h
    by_cases hn : n < 10
    · rw [Nat.toDigits_of_lt_base hn] at h
      interval_cases n
      · rfl
      all_goals (revert h; decide)
    · rw [Nat.toDigits_of_base_le (by omega) (by omega)] at h
      have hne : Nat.toDigits 10 (n / 10) ≠ [] := Nat.toDigits_ne_nil
      match hd : Nat.toDigits 10 (n / 10), hne with
      | c :: r, _ =>
        rw [hd] at h
        have := ih (n / 10) (by omega) (by rw [hd]; exact h)
        omega

theorem intText_dump (z : Int) : IntText z (dumpInt z) := by
  have hd : ∀ n, Digits (Nat.toDigits 10 n) := fun n =>
    ⟨Nat.toDigits_ne_nil, fun c hc => Nat.isDigit_of_mem_toDigits (by omega) (by omega) hc⟩
  have hz : ∀ n, (Nat.toDigits 10 n).head? = some '0' → Nat.toDigits 10 n = ['0'] := by
    intro n h
    rw [toDigits_no_zero n h]
    rfl
  unfold dumpInt
  by_cases h : z < 0
  · rw [if_pos h]
    refine ⟨true, Nat.toDigits 10 z.natAbs, rfl, hd _, hz _, ?_⟩
    rw [← decimal_int, decimal_toDigits]
    simp only [if_true]
    omega
  · rw [if_neg h]
    refine ⟨false, Nat.toDigits 10 z.natAbs, rfl, hd _, hz _, ?_⟩
    rw [← decimal_int, decimal_toDigits]
    simp only [Bool.false_eq_true, if_false]
    omega

theorem hexText_digit {n : Nat} (h : n < 16) : HexText (hexDigit n) n := by
  left
  interval_cases n <;> decide

theorem stringText_escape (c : Char) {cs t : List Char} (h : StringText cs t) :
    StringText (c :: cs) (escapeChar c ++ t) := by
  have key : ∀ k : Nat, c.toNat = k → c = Char.ofNat k := by
    rintro k rfl
    exact (char_ofNat_toNat c).symm
  unfold escapeChar
  split
  · rename_i hc; subst hc; exact .escape (by decide) h
  rename_i h1
  split
  · rename_i hc; subst hc; exact .escape (by decide) h
  rename_i h2
  split
  · rename_i hc; rw [key _ hc]; exact .escape (by decide) h
  split
  · rename_i hc; rw [key _ hc]; exact .escape (by decide) h
  split
  · rename_i hc; subst hc; exact .escape (by decide) h
  split
  · rename_i hc; subst hc; exact .escape (by decide) h
  split
  · rename_i hc; subst hc; exact .escape (by decide) h
  split
  · rename_i hc
    refine .code (h := ['0', '0', hexDigit (c.toNat / 16), hexDigit (c.toNat % 16)]) ?_ h
    exact ⟨_, _, _, _, 0, 0, c.toNat / 16, c.toNat % 16, rfl, Or.inl rfl, Or.inl rfl, hexText_digit (by omega),
      hexText_digit (by omega), by omega⟩
  · rename_i hc
    exact .plain (by omega) h1 h2 h

theorem stringText_dump (cs : List Char) : StringText cs (cs.flatMap escapeChar) := by
  induction cs with
  | nil => exact .nil
  | cons c cs ih =>
    rw [List.flatMap_cons]
    exact stringText_escape c ih

variable {V : Type _}

theorem set_last {m : SMap String V} {k : String} (v : V) (h : ∀ x ∈ m, x.1 < k) : m.set k v = m ++ [(k, v)] := by
  induction m with
  | nil => rfl
  | cons a t ih =>
    obtain ⟨k', v'⟩ := a
    have hk : k' < k := h (k', v') (by simp)
    rw [SMap.set, if_neg (lt_asymm hk), if_neg (ne_of_gt hk), ih (fun x hx => h x (by simp [hx]))]
    rfl

theorem foldl_set_sorted : ∀ (fs acc : SMap String V), SMap.Sorted (acc ++ fs) →
    fs.foldl (fun m kv => SMap.set m kv.1 kv.2) acc = acc ++ fs := by
  intro fs
  induction fs with
  | nil => intro acc _; simp
  | cons a t ih =>
    intro acc h
    have hl : SMap.set acc a.1 a.2 = acc ++ [a] := by
      apply set_last
      intro x hx
      exact (List.pairwise_append.mp h).2.2 x hx a (by simp)
    rw [List.foldl_cons, hl, ih]
    · simp
    · simpa using h

variable {𝕜 : Type _} {fmt : NumberFormat 𝕜}

theorem blank_nil : Blank [] := by intro c h; simp at h

theorem valueText_dump {j : Json 𝕜} (h : Writable fmt j) : ValueText fmt j (dump fmt j) := by
  induction h with
  | null => exact .null
  | @bool b => cases b; exacts [.false_, .true_]
  | int h1 h2 => exact .int (intText_dump _) h1 h2
  | num h => exact .float h.1 h.2
  | @str s =>
    have := ValueText.string (fmt := fmt) (stringText_dump s.toList)
    rw [String.ofList_toList] at this
    exact this
  | @arr xs _ ih =>
    match xs, ih with
    | [], _ => exact .noElems (w := []) blank_nil
    | x :: xs, ih =>
      have key : ∀ (xs : List (Json 𝕜)) (x : Json 𝕜), (∀ y ∈ x :: xs, ValueText fmt y (dump fmt y)) →
          ElemsText fmt (x :: xs) (dumpElems fmt (x :: xs)) := by
        intro xs
        induction xs with
        | nil =>
          intro x h
          have := ElemsText.one blank_nil (h x (by simp)) blank_nil
          simpa [dumpElems] using this
        | cons y xs ih' =>
          intro x h
          have := ElemsText.more blank_nil (h x (by simp)) blank_nil (ih' y (fun z hz => h z (by simp [hz])))
          simpa [dumpElems] using this
      exact .elems (key xs x ih)
  | @obj fs hs _ ih =>
    match fs, hs, ih with
    | [], _, _ => exact .noMembers (w := []) blank_nil
    | (k, v) :: fs, hs, ih =>
      have key : ∀ (fs : List (String × Json 𝕜)) (k : String) (v : Json 𝕜),
          (∀ kv ∈ (k, v) :: fs, ValueText fmt kv.2 (dump fmt kv.2)) →
          MembersText fmt ((k, v) :: fs) (dumpMembers fmt ((k, v) :: fs)) := by
        intro fs
        induction fs with
        | nil =>
          intro k v h
          have := MembersText.one blank_nil (stringText_dump k.toList) blank_nil blank_nil (h (k, v) (by simp)) blank_nil
          rw [String.ofList_toList] at this
          simpa [dumpMembers, dumpString] using this
        | cons y fs ih' =>
          intro k v h
          obtain ⟨k', v'⟩ := y
          have := MembersText.more blank_nil (stringText_dump k.toList) blank_nil blank_nil (h (k, v) (by simp)) blank_nil
            (ih' k' v' (fun z hz => h z (List.mem_cons_of_mem _ hz)))
          rw [String.ofList_toList] at this
          simpa [dumpMembers, dumpString] using this
      have := ValueText.members (key fs k v ih)
      rw [foldl_set_sorted _ [] hs] at this
      exact this

end Tulip.JsonText
