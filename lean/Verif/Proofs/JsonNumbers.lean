import Verif.Spec.JsonText
import Mathlib.Tactic

/-!
# Numbers in JSON texts
-/

namespace Tulip.JsonText
open Tulip Tulip.Spec

theorem isDigit_iff (c : Char) : c.isDigit = true ↔ 48 ≤ c.toNat ∧ c.toNat ≤ 57 := by
  unfold Char.isDigit
  simp only [Bool.and_eq_true, decide_eq_true_eq, Char.toNat, UInt32.le_iff_toNat_le]
  rfl

/-- The first character, if any, has not the property. -/
def NotHead (P : Char → Bool) (r : List Char) : Prop := ∀ c, r.head? = some c → P c = false

theorem NotHead.nil (P : Char → Bool) : NotHead P [] := by intro c h; simp at h

theorem dropWhile_append {P : Char → Bool} : ∀ {l r : List Char}, (∀ c ∈ l, P c = true) → NotHead P r →
    (l ++ r).dropWhile P = r
  | [], [], _, _ => rfl
  | [], c :: r, _, h => by simp [h c rfl]
  | a :: l, r, hl, h => by
    have ha : P a = true := hl a (by simp)
    simp only [List.cons_append, List.dropWhile_cons, ha, if_true]
    exact dropWhile_append (fun c hc => hl c (by simp [hc])) h

theorem takeWhile_append {P : Char → Bool} : ∀ {l r : List Char}, (∀ c ∈ l, P c = true) → NotHead P r →
    (l ++ r).takeWhile P = l
  | [], [], _, _ => rfl
  | [], c :: r, _, h => by simp [h c rfl]
  | a :: l, r, hl, h => by
    have ha : P a = true := hl a (by simp)
    simp only [List.cons_append, List.takeWhile_cons, ha, if_true]
    rw [takeWhile_append (fun c hc => hl c (by simp [hc])) h]

theorem dropWhile_notHead (P : Char → Bool) : ∀ l : List Char, NotHead P (l.dropWhile P)
  | [] => by intro c h; simp at h
  | a :: l => by
    rw [List.dropWhile_cons]
    split
    · exact dropWhile_notHead P l
    · rename_i h
      intro c hc
      simp only [List.head?_cons, Option.some.injEq] at hc
      subst hc
      simpa using h

/-- Split of a list at the first character without the property. -/
theorem dropWhile_split (P : Char → Bool) (l : List Char) : ∃ t, l = t ++ l.dropWhile P ∧ ∀ c ∈ t, P c = true :=
  ⟨l.takeWhile P, (List.takeWhile_append_dropWhile).symm, fun _ hc => by
    have := List.all_takeWhile (p := P) (l := l)
    rw [List.all_eq_true] at this
    exact this _ hc⟩

theorem decimal_eq (ds : List Char) : decimal ds = Nat.ofDigits 10 (ds.reverse.map (fun c => c.toNat - 48)) := by
  unfold decimal
  have : ∀ (ds : List Char) (n : Nat), ds.foldl (fun n c => 10 * n + (c.toNat - 48)) n =
      n * 10 ^ ds.length + Nat.ofDigits 10 (ds.reverse.map (fun c => c.toNat - 48)) := by
    intro ds
    induction ds with
    | nil => intro n; simp
    | cons a ds ih =>
      intro n
      rw [List.foldl_cons, ih, List.reverse_cons, List.map_append, Nat.ofDigits_append]
      simp only [List.length_map, List.length_reverse, List.map_cons, List.map_nil, Nat.ofDigits_singleton, List.length_cons]
      ring
  simpa using this ds 0

theorem decimal_int (ds : List Char) :
    (decimal ds : Int) = Nat.ofDigits (10 : Int) (ds.reverse.map (fun c => c.toNat - 48)) := by
  rw [decimal_eq, Nat.coe_ofDigits]
  rfl

theorem minus_not_digit : Char.isDigit '-' = false := by decide

theorem head_ne {P : Char → Bool} {a b : Char} (h : P a = true) (h' : P b = false) : a ≠ b := by
  rintro rfl; rw [h] at h'; cases h'

/-- Integers, at the start of a text. -/
theorem scanInt_complete {z : Int} {i r : List Char} (h : IntText z i) (hr : NotHead Char.isDigit r) :
    scanInt (i ++ r) = some r ∧ intValue i = z := by
  obtain ⟨neg, ds, rfl, ⟨hne, hd⟩, h0, hz⟩ := h
  match ds, hne with
  | d :: ds, _ =>
    have hdd := hd d (by simp)
    have hd' : d ≠ '-' := head_ne hdd minus_not_digit
    have tail : scanDigits (d :: (ds ++ r)) = some r := by
      rw [scanDigits]
      by_cases h00 : d = '0'
      · subst h00
        have := h0 rfl
        simp only [List.cons.injEq, true_and] at this
        subst this
        rfl
      · rw [if_neg h00, if_pos hdd, dropWhile_append (fun c hc => hd c (by simp [hc])) hr]
    rw [← decimal_int] at hz
    cases neg with
    | true => exact ⟨tail, by rw [hz]; simp [intValue]⟩
    | false =>
      refine ⟨?_, ?_⟩
      · show scanDigits (stripMinus (d :: (ds ++ r))) = _
        rw [stripMinus, if_neg hd']
        exact tail
      · rw [hz]
        simp [intValue, hd']

theorem scanDigits_sound {s r : List Char} (h : scanDigits s = some r) :
    ∃ ds, s = ds ++ r ∧ Digits ds ∧ (ds.head? = some '0' → ds = ['0']) := by
  cases s with
  | nil => simp [scanDigits] at h
  | cons d s =>
    rw [scanDigits] at h
    split at h
    · rename_i hd
      subst hd
      simp only [Option.some.injEq] at h
      subst h
      exact ⟨['0'], rfl, ⟨by simp, by simp⟩, fun _ => rfl⟩
    · rename_i hd0
      split at h
      · rename_i hd
        simp only [Option.some.injEq] at h
        subst h
        obtain ⟨t, ht, hc⟩ := dropWhile_split Char.isDigit s
        refine ⟨d :: t, by rw [List.cons_append, ← ht], ⟨by simp, ?_⟩, ?_⟩
        · intro c hc'
          rcases List.mem_cons.mp hc' with rfl | h
          · exact hd
          · exact hc c h
        · intro h
          simp only [List.head?_cons, Option.some.injEq] at h
          exact absurd h hd0
      · cases h

theorem scanInt_sound {s r : List Char} (h : scanInt s = some r) :
    ∃ z i, s = i ++ r ∧ IntText z i := by
  unfold scanInt at h
  obtain ⟨ds, e, hds, h0⟩ := scanDigits_sound h
  cases s with
  | nil => exact ⟨_, ds, e, false, ds, by simp, hds, h0, rfl⟩
  | cons c s =>
    rw [stripMinus] at e
    split at e
    · rename_i hc
      subst hc
      exact ⟨_, '-' :: ds, by rw [e]; rfl, true, ds, by simp, hds, h0, rfl⟩
    · exact ⟨_, ds, e, false, ds, by simp, hds, h0, rfl⟩

theorem scanAnyDigits_complete {ds r : List Char} (h : Digits ds) (hr : NotHead Char.isDigit r) :
    scanAnyDigits (ds ++ r) = some r := by
  match ds, h with
  | [], h => exact absurd rfl h.1
  | d :: ds, h =>
    rw [List.cons_append, scanAnyDigits, if_pos (h.2 d (by simp)), dropWhile_append (fun c hc => h.2 c (by simp [hc])) hr]

theorem scanAnyDigits_sound {s r : List Char} (h : scanAnyDigits s = some r) : ∃ ds, s = ds ++ r ∧ Digits ds := by
  cases s with
  | nil => simp [scanAnyDigits] at h
  | cons d s =>
    rw [scanAnyDigits] at h
    split at h
    · rename_i hd
      simp only [Option.some.injEq] at h
      subst h
      obtain ⟨t, ht, hc⟩ := dropWhile_split Char.isDigit s
      refine ⟨d :: t, by rw [List.cons_append, ← ht], by simp, ?_⟩
      intro c hc'
      rcases List.mem_cons.mp hc' with rfl | h
      · exact hd
      · exact hc c h
    · cases h

theorem scanFrac_complete {f e : List Char} (hf : f = [] ∨ FracText f) (he : e = [] ∨ ExpText e) :
    scanFrac (f ++ e) = some e := by
  have hne : NotHead Char.isDigit e ∧ e.head? ≠ some '.' := by
    rcases he with rfl | ⟨m, s, ds, rfl, hm, -, -⟩
    · exact ⟨NotHead.nil _, by simp⟩
    · constructor
      · intro c hc
        simp only [List.cons_append, List.head?_cons, Option.some.injEq] at hc
        subst hc
        rcases hm with rfl | rfl <;> decide
      · rcases hm with rfl | rfl <;> simp
  rcases hf with rfl | ⟨ds, rfl, hd⟩
  · cases e with
    | nil => rfl
    | cons c e =>
      have : c ≠ '.' := by rintro rfl; exact hne.2 rfl
      show (if c = '.' then _ else _) = _
      rw [if_neg this]
  · show scanAnyDigits (ds ++ e) = _
    exact scanAnyDigits_complete hd hne.1

theorem scanFrac_sound {s r : List Char} (h : scanFrac s = some r) : ∃ f, s = f ++ r ∧ (f = [] ∨ FracText f) := by
  cases s with
  | nil =>
    simp only [scanFrac, Option.some.injEq] at h
    subst h
    exact ⟨[], rfl, Or.inl rfl⟩
  | cons c s =>
    rw [scanFrac] at h
    split at h
    · rename_i hc
      subst hc
      obtain ⟨ds, e, hd⟩ := scanAnyDigits_sound h
      exact ⟨'.' :: ds, by rw [e]; rfl, Or.inr ⟨ds, rfl, hd⟩⟩
    · simp only [Option.some.injEq] at h
      exact ⟨[], h, Or.inl rfl⟩

theorem stripSign_complete {s ds : List Char} (hs : s = [] ∨ s = ['+'] ∨ s = ['-']) (hd : Digits ds) :
    stripSign (s ++ ds) = ds := by
  rcases hs with rfl | rfl | rfl
  · match ds, hd with
    | [], h => rfl
    | d :: ds, h =>
      have hdd := h.2 d (by simp)
      have h1 : d ≠ '-' := head_ne hdd (by decide)
      have h2 : d ≠ '+' := head_ne hdd (by decide)
      show (if d = '-' ∨ d = '+' then _ else _) = _
      rw [if_neg (by tauto)]
  · rfl
  · rfl

theorem stripSign_sound (s : List Char) : ∃ g, s = g ++ stripSign s ∧ (g = [] ∨ g = ['+'] ∨ g = ['-']) := by
  cases s with
  | nil => exact ⟨[], rfl, Or.inl rfl⟩
  | cons c s =>
    rw [stripSign]
    split
    · rename_i h
      exact ⟨[c], rfl, by rcases h with rfl | rfl <;> simp⟩
    · exact ⟨[], rfl, Or.inl rfl⟩

theorem scanExp_complete {e : List Char} (he : e = [] ∨ ExpText e) : scanExp e = some [] := by
  rcases he with rfl | ⟨m, s, ds, rfl, hm, hs, hd⟩
  · rfl
  · show (if m = 'e' ∨ m = 'E' then scanAnyDigits (stripSign (s ++ ds)) else _) = _
    rw [if_pos hm, stripSign_complete hs hd]
    have := scanAnyDigits_complete hd (NotHead.nil _)
    rwa [List.append_nil] at this

theorem scanExp_sound {e : List Char} (h : scanExp e = some []) : e = [] ∨ ExpText e := by
  cases e with
  | nil => exact Or.inl rfl
  | cons m e =>
    rw [scanExp] at h
    split at h
    · rename_i hm
      obtain ⟨ds, hds, hd⟩ := scanAnyDigits_sound h
      obtain ⟨g, hg, hgs⟩ := stripSign_sound e
      rw [hds, List.append_nil] at hg
      exact Or.inr ⟨m, g, ds, by rw [hg]; rfl, hm, hgs, hd⟩
    · cases h

variable {𝕜 : Type _} (fmt : NumberFormat 𝕜)

/-- What a number denotes. -/
inductive NumberText : Json 𝕜 → List Char → Prop
  | int {z t} : IntText z t → -2 ^ 63 ≤ z → z < 2 ^ 64 → NumberText (.int z) t
  | big {z t x} : IntText z t → (z < -2 ^ 63 ∨ 2 ^ 64 ≤ z) → fmt.read t = some x → NumberText (.num x) t
  | float {t x} : FloatText t → fmt.read t = some x → NumberText (.num x) t

theorem parseNumber_complete {j : Json 𝕜} {t : List Char} (h : NumberText fmt j t) : parseNumber fmt t = some j := by
  cases h with
  | int hi h1 h2 =>
    obtain ⟨e1, e2⟩ := scanInt_complete hi (NotHead.nil _)
    rw [List.append_nil] at e1
    unfold parseNumber
    rw [e1]
    simp only [e2]
    rw [if_pos (by omega)]
  | big hi h1 hx =>
    obtain ⟨e1, e2⟩ := scanInt_complete hi (NotHead.nil _)
    rw [List.append_nil] at e1
    unfold parseNumber
    rw [e1]
    simp only [e2]
    rw [if_neg (by omega), hx]
    rfl
  | float hf hx =>
    obtain ⟨z, i, f, e, rfl, hi, hff, hee, hne⟩ := hf
    have hh : NotHead Char.isDigit (f ++ e) ∧ f ++ e ≠ [] := by
      rcases hff with rfl | ⟨ds, rfl, -⟩
      · rcases hee with rfl | ⟨m, s, ds, rfl, hm, -, -⟩
        · simp at hne
        · refine ⟨?_, by simp⟩
          intro c hc
          simp only [List.nil_append, List.cons_append, List.head?_cons, Option.some.injEq] at hc
          subst hc
          rcases hm with rfl | rfl <;> decide
      · refine ⟨?_, by simp⟩
        intro c hc
        simp only [List.cons_append, List.head?_cons, Option.some.injEq] at hc
        subst hc
        decide
    obtain ⟨e1, -⟩ := scanInt_complete hi hh.1
    rw [← List.append_assoc] at e1
    unfold parseNumber
    rw [e1]
    split
    · rename_i h; cases h
    · rename_i h
      simp only [Option.some.injEq] at h
      exact absurd h hh.2
    · rename_i r _ h
      simp only [Option.some.injEq] at h
      subst h
      rw [scanFrac_complete hff hee]
      simp only [scanExp_complete hee, hx]
      rfl

theorem parseNumber_sound {j : Json 𝕜} {t : List Char} (h : parseNumber fmt t = some j) : NumberText fmt j t := by
  unfold parseNumber at h
  split at h
  · cases h
  · rename_i e
    obtain ⟨z, i, e1, hi⟩ := scanInt_sound e
    rw [List.append_nil] at e1
    subst e1
    obtain ⟨-, hv⟩ := scanInt_complete hi (NotHead.nil _)
    rw [hv] at h
    split at h
    · simp only [Option.some.injEq] at h
      subst h
      exact .int hi (by omega) (by omega)
    · rename_i hr
      obtain ⟨x, hx, rfl⟩ := Option.map_eq_some_iff.mp h
      exact .big hi (by omega) hx
  · rename_i r hr e
    obtain ⟨z, i, e1, hi⟩ := scanInt_sound e
    split at h
    · cases h
    · rename_i r2 e2
      obtain ⟨f, e3, hf⟩ := scanFrac_sound e2
      split at h
      · rename_i e4
        obtain ⟨x, hx, rfl⟩ := Option.map_eq_some_iff.mp h
        refine .float ⟨z, i, f, r2, by rw [e1, e3, List.append_assoc], hi, hf, scanExp_sound e4, ?_⟩ hx
        by_contra hcon
        push Not at hcon
        obtain ⟨rfl, rfl⟩ := hcon
        exact hr e3
      · cases h

theorem digit_numChar {c : Char} (h : c.isDigit = true) : isNumChar c = true := by simp [isNumChar, h]

theorem intText_chars {z : Int} {i : List Char} (h : IntText z i) : (∀ c ∈ i, isNumChar c = true) ∧
    ∃ c r, i = c :: r ∧ (c = '-' ∨ c.isDigit = true) := by
  obtain ⟨neg, ds, rfl, ⟨hne, hd⟩, -, -⟩ := h
  constructor
  · intro c hc
    rcases List.mem_append.mp hc with h | h
    · cases neg <;> simp at h
      subst h; decide
    · exact digit_numChar (hd c h)
  · match ds, hne with
    | d :: ds, _ =>
      cases neg
      · exact ⟨d, ds, rfl, Or.inr (hd d (by simp))⟩
      · exact ⟨'-', d :: ds, rfl, Or.inl rfl⟩

/-- Numbers consist of the characters of numbers and start with a digit or a minus sign. -/
theorem numberText_chars {j : Json 𝕜} {t : List Char} (h : NumberText fmt j t) : (∀ c ∈ t, isNumChar c = true) ∧
    ∃ c r, t = c :: r ∧ (c = '-' ∨ c.isDigit = true) := by
  cases h with
  | int hi _ _ => exact intText_chars hi
  | big hi _ _ => exact intText_chars hi
  | float hf _ =>
    obtain ⟨z, i, f, e, rfl, hi, hff, hee, -⟩ := hf
    obtain ⟨h1, c, r, rfl, hc⟩ := intText_chars hi
    refine ⟨?_, c, r ++ f ++ e, by simp, hc⟩
    intro a ha
    rcases List.mem_append.mp ha with h | h
    · rcases List.mem_append.mp h with h | h
      · exact h1 a h
      · rcases hff with rfl | ⟨ds, rfl, hd⟩
        · simp at h
        · rcases List.mem_cons.mp h with rfl | h
          · decide
          · exact digit_numChar (hd.2 a h)
    · rcases hee with rfl | ⟨m, s, ds, rfl, hm, hs, hd⟩
      · simp at h
      · rcases List.mem_append.mp h with h | h
        · rcases List.mem_cons.mp h with rfl | h
          · rcases hm with rfl | rfl <;> decide
          · rcases hs with rfl | rfl | rfl <;> simp at h <;> subst h <;> decide
        · exact digit_numChar (hd.2 a h)

end Tulip.JsonText
