import Verif.Spec.JsonText
import Mathlib.Tactic

/-!
# Strings in JSON texts
-/

namespace Tulip.JsonText
open Tulip Tulip.Spec

theorem hexValue_complete {c : Char} {n : Nat} (h : HexText c n) : hexValue c = some n ∧ n < 16 := by
  have hn : n < 16 := by
    by_contra hcon
    rcases h with h | h <;> rw [List.getElem?_eq_none (by simpa using hcon)] at h <;> cases h
  refine ⟨?_, hn⟩
  interval_cases n <;> rcases h with h | h <;> (simp at h; subst h; decide)

theorem char_ofNat_toNat (c : Char) : Char.ofNat c.toNat = c := Char.ofNat_toNat c

theorem hexValue_sound {c : Char} {n : Nat} (h : hexValue c = some n) : HexText c n := by
  unfold hexValue at h
  have key : ∀ k : Nat, c.toNat = k → c = Char.ofNat k := by
    rintro k rfl
    exact (char_ofNat_toNat c).symm
  split at h
  · rename_i hc
    have h1 : 48 ≤ c.toNat := hc.1
    have h2 : c.toNat ≤ 57 := hc.2
    simp only [Option.some.injEq] at h
    subst h
    generalize hk : c.toNat = k at *
    have := key k rfl
    subst this
    interval_cases k <;> (left; decide)
  · split at h
    · rename_i hc
      have h1 : 97 ≤ c.toNat := hc.1
      have h2 : c.toNat ≤ 102 := hc.2
      simp only [Option.some.injEq] at h
      subst h
      generalize hk : c.toNat = k at *
      have := key k rfl
      subst this
      interval_cases k <;> (left; decide)
    · split at h
      · rename_i hc
        have h1 : 65 ≤ c.toNat := hc.1
        have h2 : c.toNat ≤ 70 := hc.2
        simp only [Option.some.injEq] at h
        subst h
        generalize hk : c.toNat = k at *
        have := key k rfl
        subst this
        interval_cases k <;> (right; decide)
      · cases h

theorem hex4_complete {a b c d : Char} {n : Nat} (h : Hex4Text [a, b, c, d] n) : hex4 a b c d = some n ∧ n < 65536 := by
  obtain ⟨_, _, _, _, a', b', c', d', e, h1, h2, h3, h4, rfl⟩ := h
  simp only [List.cons.injEq, and_true] at e
  obtain ⟨rfl, rfl, rfl, rfl⟩ := e
  obtain ⟨e1, l1⟩ := hexValue_complete h1
  obtain ⟨e2, l2⟩ := hexValue_complete h2
  obtain ⟨e3, l3⟩ := hexValue_complete h3
  obtain ⟨e4, l4⟩ := hexValue_complete h4
  refine ⟨?_, by omega⟩
  unfold hex4
  rw [e1, e2, e3, e4]
  simp only [Option.bind_eq_bind, Option.bind_some, Option.some.injEq]
  ring

theorem hex4_sound {a b c d : Char} {n : Nat} (h : hex4 a b c d = some n) : Hex4Text [a, b, c, d] n := by
  unfold hex4 at h
  simp only [Option.bind_eq_bind, Option.bind_eq_some_iff] at h
  obtain ⟨a', e1, b', e2, c', e3, d', e4, h⟩ := h
  simp only [Option.some.injEq] at h
  subst h
  exact ⟨a, b, c, d, a', b', c', d', rfl, hexValue_sound e1, hexValue_sound e2, hexValue_sound e3, hexValue_sound e4, by ring⟩

theorem hex4_four {h : List Char} {n : Nat} (e : Hex4Text h n) : ∃ a b c d, h = [a, b, c, d] := by
  obtain ⟨a, b, c, d, _, _, _, _, e, -⟩ := e
  exact ⟨a, b, c, d, e⟩

theorem simpleEscape_iff (e c : Char) : simpleEscape e = some c ↔
    (e, c) ∈ [('"', '"'), ('\\', '\\'), ('/', '/'), ('b', Char.ofNat 8), ('f', Char.ofNat 12),
      ('n', '\n'), ('r', '\r'), ('t', '\t')] := by
  unfold simpleEscape
  simp only [List.mem_cons, List.not_mem_nil, or_false, Prod.mk.injEq]
  constructor
  · intro h
    split at h
    · simp only [Option.some.injEq] at h; subst h; rename_i he; subst he; decide
    split at h
    · simp only [Option.some.injEq] at h; subst h; rename_i he; subst he; decide
    split at h
    · simp only [Option.some.injEq] at h; subst h; rename_i he; subst he; decide
    split at h
    · simp only [Option.some.injEq] at h; subst h; rename_i he; subst he; decide
    split at h
    · simp only [Option.some.injEq] at h; subst h; rename_i he; subst he; decide
    split at h
    · simp only [Option.some.injEq] at h; subst h; rename_i he; subst he; decide
    split at h
    · simp only [Option.some.injEq] at h; subst h; rename_i he; subst he; decide
    split at h
    · simp only [Option.some.injEq] at h; subst h; rename_i he; subst he; decide
    cases h
  · rintro (⟨rfl, rfl⟩ | ⟨rfl, rfl⟩ | ⟨rfl, rfl⟩ | ⟨rfl, rfl⟩ | ⟨rfl, rfl⟩ | ⟨rfl, rfl⟩ | ⟨rfl, rfl⟩ | ⟨rfl, rfl⟩) <;> decide

theorem char_scalar (c : Char) : c.toNat < 0xD800 ∨ (0xDFFF < c.toNat ∧ c.toNat < 0x110000) := c.valid

theorem toNat_ofNat {n : Nat} (h : n < 0xD800 ∨ (0xDFFF < n ∧ n < 0x110000)) : (Char.ofNat n).toNat = n := by
  have hv : n.isValidChar := h
  unfold Char.ofNat
  rw [dif_pos hv]
  rfl

/-- The text of a string is read as the string. -/
theorem parseString_complete {cs t : List Char} (h : StringText cs t) (rest : List Char) :
    parseString (t ++ '"' :: rest) = some (cs, rest) := by
  induction h with
  | nil => simp [parseString.eq_def]
  | @plain c cs t h1 h2 h3 _ ih =>
    rw [List.cons_append, parseString.eq_def]; simp only []; rw [if_neg h2, if_neg h3, if_neg (by omega), ih]
    rfl
  | @escape e c cs t he _ ih =>
    have he' := (simpleEscape_iff e c).mpr he
    have hu : e ≠ 'u' := by rintro rfl; simp [simpleEscape] at he'
    rw [List.cons_append, List.cons_append, parseString.eq_def]; simp only []; rw [if_neg (by decide), if_pos trivial]
    simp only [if_neg hu, he', ih]
    rfl
  | @code c h cs t hh _ ih =>
    obtain ⟨a, b, d, e, rfl⟩ := hex4_four hh
    obtain ⟨e1, -⟩ := hex4_complete hh
    have hv := char_scalar c
    rw [List.cons_append, List.cons_append, List.cons_append, parseString.eq_def]; simp only []; rw [if_neg (by decide), if_pos trivial]
    simp only [if_true, List.cons_append, List.nil_append, e1]
    rw [if_neg (by omega), if_neg (by omega), ih]
    simp
  | @pair c n m h h' cs t hh hh' n1 n2 m1 m2 hc _ ih =>
    obtain ⟨a, b, d, e, rfl⟩ := hex4_four hh
    obtain ⟨a', b', d', e', rfl⟩ := hex4_four hh'
    obtain ⟨e1, -⟩ := hex4_complete hh
    obtain ⟨e2, -⟩ := hex4_complete hh'
    simp only [List.cons_append, List.nil_append]
    rw [parseString.eq_def]; simp only []; rw [if_neg (by decide), if_pos trivial]
    simp only [if_true, e1, e2]
    rw [if_pos ⟨n1, n2⟩]
    simp only [and_self, if_true]
    rw [if_pos ⟨m1, m2⟩, ih]
    have : (n - 0xD800) * 0x400 + (m - 0xDC00) + 0x10000 = c.toNat := by omega
    rw [this, char_ofNat_toNat]
    rfl

/-- What is read as a string is the text of that string. -/
theorem parseString_sound : ∀ (n : Nat) {s cs r : List Char}, s.length ≤ n → parseString s = some (cs, r) →
    ∃ t, StringText cs t ∧ s = t ++ '"' :: r := by
  intro n
  induction n with
  | zero =>
    intro s cs r hn h
    have : s = [] := List.eq_nil_of_length_eq_zero (by omega)
    subst this
    rw [parseString.eq_def] at h
    cases h
  | succ n ih =>
    intro s cs r hn h
    match s with
    | [] => rw [parseString.eq_def] at h; cases h
    | c :: s =>
      rw [parseString.eq_def] at h
      simp only [] at h
      have hs : s.length ≤ n := by simpa using hn
      split at h
      · rename_i hc
        simp only [Option.some.injEq, Prod.mk.injEq] at h
        obtain ⟨rfl, rfl⟩ := h
        subst hc
        exact ⟨[], .nil, rfl⟩
      rename_i hq
      split at h
      · rename_i hc
        subst hc
        match s, h, hs with
        | [], h, hs => cases h
        | e :: s, h, hs =>
          simp only [] at h
          split at h
          · rename_i he
            subst he
            match s, h, hs with
            | h1 :: h2 :: h3 :: h4 :: s, h, hs =>
              simp only [] at h
              cases hx : hex4 h1 h2 h3 h4 with
              | none => rw [hx] at h; cases h
              | some k =>
                rw [hx] at h
                simp only [] at h
                have hx' := hex4_sound hx
                split at h
                · rename_i hk
                  match s, h, hs with
                  | b :: u :: k1 :: k2 :: k3 :: k4 :: s, h, hs =>
                    simp only [] at h
                    split at h
                    · rename_i hbu
                      obtain ⟨rfl, rfl⟩ := hbu
                      cases hy : hex4 k1 k2 k3 k4 with
                      | none => rw [hy] at h; cases h
                      | some m =>
                        rw [hy] at h
                        simp only [] at h
                        have hy' := hex4_sound hy
                        split at h
                        · rename_i hm
                          simp only [Option.map_eq_some_iff, Prod.mk.injEq, Prod.exists] at h
                          obtain ⟨cs', r', hp, rfl, rfl⟩ := h
                          obtain ⟨t, ht, rfl⟩ := ih (by simp only [List.length_cons] at hs; omega) hp
                          refine ⟨_, .pair hx' hy' hk.1 hk.2 hm.1 hm.2 ?_ ht, by simp⟩
                          rw [toNat_ofNat (by omega)]
                          omega
                        · cases h
                    · cases h
                  | [], h, _ => cases h
                  | [_], h, _ => cases h
                  | [_, _], h, _ => cases h
                  | [_, _, _], h, _ => cases h
                  | [_, _, _, _], h, _ => cases h
                  | [_, _, _, _, _], h, _ => cases h
                · split at h
                  · cases h
                  · simp only [Option.map_eq_some_iff, Prod.mk.injEq, Prod.exists] at h
                    obtain ⟨cs', r', hp, rfl, rfl⟩ := h
                    obtain ⟨t, ht, rfl⟩ := ih (by simp only [List.length_cons] at hs; omega) hp
                    have hlt := (hex4_complete hx').2
                    have e : (Char.ofNat k).toNat = k := toNat_ofNat (by omega)
                    exact ⟨_, .code (by rw [e]; exact hx') ht, by simp⟩
            | [], h, _ => cases h
            | [_], h, _ => cases h
            | [_, _], h, _ => cases h
            | [_, _, _], h, _ => cases h
          · cases he : simpleEscape e with
            | none => rw [he] at h; cases h
            | some c =>
              rw [he] at h
              simp only [Option.map_eq_some_iff, Prod.mk.injEq, Prod.exists] at h
              obtain ⟨cs', r', hp, rfl, rfl⟩ := h
              obtain ⟨t, ht, rfl⟩ := ih (by simp only [List.length_cons] at hs; omega) hp
              exact ⟨_, .escape ((simpleEscape_iff e c).mp he) ht, by simp⟩
      · rename_i hb
        split at h
        · cases h
        · rename_i h32
          simp only [Option.map_eq_some_iff, Prod.mk.injEq, Prod.exists] at h
          obtain ⟨cs', r', hp, rfl, rfl⟩ := h
          obtain ⟨t, ht, rfl⟩ := ih hs hp
          exact ⟨_, .plain (by omega) hq hb ht, by simp⟩

end Tulip.JsonText
