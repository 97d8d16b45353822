import Verif.Proofs.JsonNumbers
import Verif.Proofs.JsonStrings

/-!
# The parser reads the grammar
-/

namespace Tulip.JsonText
open Tulip Tulip.Spec

variable {𝕜 : Type _} {fmt : NumberFormat 𝕜}

theorem blank_iff (w : List Char) : Blank w ↔ ∀ c ∈ w, isWs c = true := by
  unfold Blank isWs
  simp [or_assoc]

theorem skipWs_blank {w s : List Char} (h : Blank w) (hs : NotHead isWs s) : skipWs (w ++ s) = s :=
  dropWhile_append ((blank_iff w).mp h) hs

theorem skipWs_split (s : List Char) : ∃ w, Blank w ∧ s = w ++ skipWs s := by
  obtain ⟨t, h, ht⟩ := dropWhile_split isWs s
  exact ⟨t, (blank_iff t).mpr ht, h⟩

theorem notHead_cons {P : Char → Bool} {c : Char} {r : List Char} (h : P c = false) : NotHead P (c :: r) := by
  intro d hd
  simp only [List.head?_cons, Option.some.injEq] at hd
  subst hd
  exact h

/-- After white space comes a character that belongs to no number. -/
theorem notHead_blank {w r : List Char} (h : Blank w) (hr : NotHead isNumChar r) : NotHead isNumChar (w ++ r) := by
  match w with
  | [] => exact hr
  | c :: w =>
    rw [List.cons_append]
    apply notHead_cons
    rcases h c (by simp) with rfl | rfl | rfl | rfl <;> decide

theorem numChar_notWs {c : Char} (h : isNumChar c = true) : isWs c = false := by
  cases hw : isWs c with
  | false => rfl
  | true =>
    simp only [isWs, Bool.or_eq_true, decide_eq_true_eq] at hw
    rcases hw with ((rfl | rfl) | rfl) | rfl <;> revert h <;> decide

/-- How the text of a value starts. -/
theorem valueText_head {j : Json 𝕜} {t : List Char} (h : ValueText fmt j t) :
    ∃ c r, t = c :: r ∧ isWs c = false ∧ c ≠ ']' := by
  have num : ∀ {j : Json 𝕜}, NumberText fmt j t → ∃ c r, t = c :: r ∧ isWs c = false ∧ c ≠ ']' := by
    intro j hn
    obtain ⟨h1, c, r, rfl, -⟩ := numberText_chars fmt hn
    have := h1 c (by simp)
    exact ⟨c, r, rfl, numChar_notWs this, by rintro rfl; revert this; decide⟩
  cases h with
  | null => exact ⟨_, _, rfl, by decide, by decide⟩
  | true_ => exact ⟨_, _, rfl, by decide, by decide⟩
  | false_ => exact ⟨_, _, rfl, by decide, by decide⟩
  | int a b c => exact num (.int a b c)
  | big a b c => exact num (.big a b c)
  | float a b => exact num (.float a b)
  | string _ => exact ⟨_, _, rfl, by decide, by decide⟩
  | noElems _ => exact ⟨_, _, rfl, by decide, by decide⟩
  | elems _ => exact ⟨_, _, rfl, by decide, by decide⟩
  | noMembers _ => exact ⟨_, _, rfl, by decide, by decide⟩
  | members _ => exact ⟨_, _, rfl, by decide, by decide⟩

/-- A number where a value is expected. -/
theorem parseValue_number {j : Json 𝕜} {t w rest : List Char} (n : Nat) (h : NumberText fmt j t) (hw : Blank w)
    (hr : NotHead isNumChar rest) : parseValue fmt (n + 1) (w ++ (t ++ rest)) = some (j, rest) := by
  obtain ⟨h1, c, r, rfl, hc⟩ := numberText_chars fmt h
  have hcn := h1 c (by simp)
  have hs : skipWs (w ++ (c :: r ++ rest)) = c :: r ++ rest :=
    skipWs_blank hw (notHead_cons (numChar_notWs hcn))
  have ne : ∀ d, d ∈ ['n', 't', 'f', '"', '[', '{'] → c ≠ d := by
    intro d hd hcd
    subst hcd
    rcases hc with rfl | hc
    · revert hd; decide
    · simp only [List.mem_cons, List.not_mem_nil, or_false] at hd
      rcases hd with rfl | rfl | rfl | rfl | rfl | rfl <;> revert hc <;> decide
  rw [parseValue.eq_def]
  simp only [hs]
  split
  · rename_i he; exact absurd (List.cons.inj he).1 (ne _ (by decide))
  · rename_i he; exact absurd (List.cons.inj he).1 (ne _ (by decide))
  · rename_i he; exact absurd (List.cons.inj he).1 (ne _ (by decide))
  · rename_i he; exact absurd (List.cons.inj he).1 (ne _ (by decide))
  · rename_i he; exact absurd (List.cons.inj he).1 (ne _ (by decide))
  · rename_i he; exact absurd (List.cons.inj he).1 (ne _ (by decide))
  · rw [takeWhile_append h1 hr, dropWhile_append h1 hr, parseNumber_complete fmt h]
    rfl

/-- Texts of the grammar are read as the values they denote. -/
theorem parse_complete (n : Nat) :
    (∀ {j : Json 𝕜} {t w rest : List Char}, ValueText fmt j t → Blank w → NotHead isNumChar rest → 2 * t.length ≤ n →
      parseValue fmt n (w ++ (t ++ rest)) = some (j, rest)) ∧
    (∀ {xs : List (Json 𝕜)} {t rest : List Char}, ElemsText fmt xs t → 2 * t.length + 1 ≤ n →
      parseElems fmt n (t ++ ']' :: rest) = some (xs, rest)) ∧
    (∀ {fs : List (String × Json 𝕜)} {t rest : List Char} (acc : SMap String (Json 𝕜)), MembersText fmt fs t →
      2 * t.length + 1 ≤ n →
      parseMembers fmt n (t ++ '}' :: rest) acc = some (fs.foldl (fun m kv => SMap.set m kv.1 kv.2) acc, rest)) := by
  induction n with
  | zero =>
    refine ⟨?_, ?_, ?_⟩
    · intro j t w rest h _ _ hn
      obtain ⟨c, r, rfl, -⟩ := valueText_head h
      simp at hn
    · intro xs t rest _ hn; omega
    · intro fs t rest acc _ hn; omega
  | succ n ih =>
    obtain ⟨ihv, ihe, ihm⟩ := ih
    refine ⟨?_, ?_, ?_⟩
    · intro j t w rest h hw hr hn
      cases h with
      | int a b c => exact parseValue_number n (.int a b c) hw hr
      | big a b c => exact parseValue_number n (.big a b c) hw hr
      | float a b => exact parseValue_number n (.float a b) hw hr
      | null =>
        have hs : skipWs (w ++ ("null".toList ++ rest)) = 'n' :: 'u' :: 'l' :: 'l' :: rest :=
          skipWs_blank hw (notHead_cons (by decide))
        rw [parseValue.eq_def]; simp only [hs]
      | true_ =>
        have hs : skipWs (w ++ ("true".toList ++ rest)) = 't' :: 'r' :: 'u' :: 'e' :: rest :=
          skipWs_blank hw (notHead_cons (by decide))
        rw [parseValue.eq_def]; simp only [hs]
      | false_ =>
        have hs : skipWs (w ++ ("false".toList ++ rest)) = 'f' :: 'a' :: 'l' :: 's' :: 'e' :: rest :=
          skipWs_blank hw (notHead_cons (by decide))
        rw [parseValue.eq_def]; simp only [hs]
      | @string cs t hst =>
        have hs : skipWs (w ++ (('"' :: t ++ ['"']) ++ rest)) = '"' :: (t ++ '"' :: rest) := by
          simp only [List.cons_append, List.append_assoc, List.nil_append]
          exact skipWs_blank hw (notHead_cons (by decide))
        rw [parseValue.eq_def]; simp only [hs]
        rw [parseString_complete hst]; rfl
      | @noElems b hb =>
        have hs : skipWs (w ++ (('[' :: b ++ [']']) ++ rest)) = '[' :: (b ++ ']' :: rest) := by
          simp only [List.cons_append, List.append_assoc, List.nil_append]
          exact skipWs_blank hw (notHead_cons (by decide))
        have hs' : skipWs (b ++ ']' :: rest) = ']' :: rest := skipWs_blank hb (notHead_cons (by decide))
        rw [parseValue.eq_def]; simp only [hs, hs']
      | @noMembers b hb =>
        have hs : skipWs (w ++ (('{' :: b ++ ['}']) ++ rest)) = '{' :: (b ++ '}' :: rest) := by
          simp only [List.cons_append, List.append_assoc, List.nil_append]
          exact skipWs_blank hw (notHead_cons (by decide))
        have hs' : skipWs (b ++ '}' :: rest) = '}' :: rest := skipWs_blank hb (notHead_cons (by decide))
        rw [parseValue.eq_def]; simp only [hs, hs']
      | @elems xs t he =>
        have hs : skipWs (w ++ (('[' :: t ++ [']']) ++ rest)) = '[' :: (t ++ ']' :: rest) := by
          simp only [List.cons_append, List.append_assoc, List.nil_append]
          exact skipWs_blank hw (notHead_cons (by decide))
        have hd : ∃ c r, skipWs (t ++ ']' :: rest) = c :: r ∧ c ≠ ']' := by
          cases he with
          | one hb hv _ =>
            obtain ⟨c, r, rfl, h1, h2⟩ := valueText_head hv
            simp only [List.cons_append, List.append_assoc]
            exact ⟨c, _, skipWs_blank hb (notHead_cons h1), h2⟩
          | more hb hv _ _ =>
            obtain ⟨c, r, rfl, h1, h2⟩ := valueText_head hv
            simp only [List.cons_append, List.append_assoc]
            exact ⟨c, _, skipWs_blank hb (notHead_cons h1), h2⟩
        obtain ⟨c, r, hd, hc⟩ := hd
        have hrec := ihe (rest := rest) he (by
          simp only [List.length_append, List.length_cons, List.length_nil] at hn; omega)
        rw [parseValue.eq_def]; simp only [hs, hd]
        split
        · rename_i heq; exact absurd (List.cons.inj heq).1 hc
        · rw [hrec]; rfl
      | @members fs t he =>
        have hs : skipWs (w ++ (('{' :: t ++ ['}']) ++ rest)) = '{' :: (t ++ '}' :: rest) := by
          simp only [List.cons_append, List.append_assoc, List.nil_append]
          exact skipWs_blank hw (notHead_cons (by decide))
        have hd : ∃ r, skipWs (t ++ '}' :: rest) = '"' :: r := by
          cases he with
          | one hb _ _ _ _ _ =>
            simp only [List.append_assoc, List.cons_append]
            exact ⟨_, skipWs_blank hb (notHead_cons (by decide))⟩
          | more hb _ _ _ _ _ _ =>
            simp only [List.append_assoc, List.cons_append]
            exact ⟨_, skipWs_blank hb (notHead_cons (by decide))⟩
        obtain ⟨r, hd⟩ := hd
        have hrec := ihm (rest := rest) [] he (by
          simp only [List.length_append, List.length_cons, List.length_nil] at hn; omega)
        rw [parseValue.eq_def]; simp only [hs, hd]
        rw [hrec]; rfl
    · intro xs t rest h hn
      cases h with
      | @one w v t w' hb hv hb' =>
        simp only [List.length_append] at hn
        have hrec := ihv (rest := w' ++ ']' :: rest) hv hb (notHead_blank hb' (notHead_cons (by decide))) (by omega)
        have hs : skipWs (w' ++ ']' :: rest) = ']' :: rest := skipWs_blank hb' (notHead_cons (by decide))
        rw [parseElems.eq_def]
        simp only [List.append_assoc, hrec, hs]
      | @more w v t w' xs t' hb hv hb' he =>
        simp only [List.length_append, List.length_cons] at hn
        have hrec := ihv (rest := w' ++ ',' :: (t' ++ ']' :: rest)) hv hb
          (notHead_blank hb' (notHead_cons (by decide))) (by omega)
        have hs : skipWs (w' ++ ',' :: (t' ++ ']' :: rest)) = ',' :: (t' ++ ']' :: rest) :=
          skipWs_blank hb' (notHead_cons (by decide))
        have hrec' := ihe (rest := rest) he (by omega)
        rw [parseElems.eq_def]
        simp only [List.append_assoc, List.cons_append, hrec, hs, hrec']
        rfl
    · intro fs t rest acc h hn
      cases h with
      | @one w k s w1 w2 v t w3 hb hk hb1 hb2 hv hb3 =>
        simp only [List.length_append, List.length_cons] at hn
        have hs0 : ∀ l, skipWs (w ++ '"' :: l) = '"' :: l := fun l => skipWs_blank hb (notHead_cons (by decide))
        have hs1 : ∀ l, skipWs (w1 ++ ':' :: l) = ':' :: l := fun l => skipWs_blank hb1 (notHead_cons (by decide))
        have hrec := ihv (rest := w3 ++ '}' :: rest) hv hb2 (notHead_blank hb3 (notHead_cons (by decide))) (by omega)
        have hs3 : skipWs (w3 ++ '}' :: rest) = '}' :: rest := skipWs_blank hb3 (notHead_cons (by decide))
        rw [parseMembers.eq_def]
        simp only [List.append_assoc, List.cons_append, hs0, parseString_complete hk, hs1, hrec, hs3]
        rfl
      | @more w k s w1 w2 v t w3 fs t' hb hk hb1 hb2 hv hb3 he =>
        simp only [List.length_append, List.length_cons] at hn
        have hs0 : ∀ l, skipWs (w ++ '"' :: l) = '"' :: l := fun l => skipWs_blank hb (notHead_cons (by decide))
        have hs1 : ∀ l, skipWs (w1 ++ ':' :: l) = ':' :: l := fun l => skipWs_blank hb1 (notHead_cons (by decide))
        have hrec := ihv (rest := w3 ++ ',' :: (t' ++ '}' :: rest)) hv hb2
          (notHead_blank hb3 (notHead_cons (by decide))) (by omega)
        have hs3 : skipWs (w3 ++ ',' :: (t' ++ '}' :: rest)) = ',' :: (t' ++ '}' :: rest) :=
          skipWs_blank hb3 (notHead_cons (by decide))
        have hrec' := ihm (rest := rest) (acc.set (String.ofList k) v) he (by omega)
        rw [parseMembers.eq_def]
        simp only [List.append_assoc, List.cons_append, hs0, parseString_complete hk, hs1, hrec, hs3, hrec']
        rfl

theorem numberText_value {j : Json 𝕜} {t : List Char} (h : NumberText fmt j t) : ValueText fmt j t := by
  cases h with
  | int a b c => exact .int a b c
  | big a b c => exact .big a b c
  | float a b => exact .float a b

/-- What is read as a value is a text of the grammar that denotes it. -/
theorem parse_sound (n : Nat) :
    (∀ {j : Json 𝕜} {s r : List Char}, parseValue fmt n s = some (j, r) →
      ∃ w t, Blank w ∧ ValueText fmt j t ∧ s = w ++ t ++ r) ∧
    (∀ {xs : List (Json 𝕜)} {s r : List Char}, parseElems fmt n s = some (xs, r) →
      ∃ t, ElemsText fmt xs t ∧ s = t ++ ']' :: r) ∧
    (∀ {acc m : SMap String (Json 𝕜)} {s r : List Char}, parseMembers fmt n s acc = some (m, r) →
      ∃ fs t, MembersText fmt fs t ∧ s = t ++ '}' :: r ∧ m = fs.foldl (fun m kv => SMap.set m kv.1 kv.2) acc) := by
  induction n with
  | zero =>
    refine ⟨?_, ?_, ?_⟩
    · intro j s r h; rw [parseValue.eq_def] at h; cases h
    · intro j s r h; rw [parseElems.eq_def] at h; cases h
    · intro acc m s r h; rw [parseMembers.eq_def] at h; cases h
  | succ n ih =>
    obtain ⟨ihv, ihe, ihm⟩ := ih
    refine ⟨?_, ?_, ?_⟩
    · intro j s r h
      obtain ⟨w, hw, hs⟩ := skipWs_split s
      rw [parseValue.eq_def] at h
      simp only [] at h
      refine ⟨w, ?_⟩
      split at h
      · rename_i r' he
        simp only [Option.some.injEq, Prod.mk.injEq] at h
        obtain ⟨rfl, rfl⟩ := h
        exact ⟨_, hw, .null, by rw [hs, he]; simp⟩
      · rename_i r' he
        simp only [Option.some.injEq, Prod.mk.injEq] at h
        obtain ⟨rfl, rfl⟩ := h
        exact ⟨_, hw, .true_, by rw [hs, he]; simp⟩
      · rename_i r' he
        simp only [Option.some.injEq, Prod.mk.injEq] at h
        obtain ⟨rfl, rfl⟩ := h
        exact ⟨_, hw, .false_, by rw [hs, he]; simp⟩
      · rename_i r' he
        simp only [Option.map_eq_some_iff, Prod.mk.injEq, Prod.exists] at h
        obtain ⟨cs, r'', hp, rfl, rfl⟩ := h
        obtain ⟨t, ht, hst⟩ := parseString_sound _ le_rfl hp
        exact ⟨_, hw, .string ht, by rw [hs, he, hst]; simp⟩
      · rename_i r' he
        obtain ⟨b, hb, hbs⟩ := skipWs_split r'
        split at h
        · rename_i r'' he'
          simp only [Option.some.injEq, Prod.mk.injEq] at h
          obtain ⟨rfl, rfl⟩ := h
          exact ⟨_, hw, .noElems hb, by rw [hs, he, hbs, he']; simp⟩
        · simp only [Option.map_eq_some_iff, Prod.mk.injEq, Prod.exists] at h
          obtain ⟨xs, r'', hp, rfl, rfl⟩ := h
          obtain ⟨t, ht, hst⟩ := ihe hp
          exact ⟨_, hw, .elems ht, by rw [hs, he, hst]; simp⟩
      · rename_i r' he
        obtain ⟨b, hb, hbs⟩ := skipWs_split r'
        split at h
        · rename_i r'' he'
          simp only [Option.some.injEq, Prod.mk.injEq] at h
          obtain ⟨rfl, rfl⟩ := h
          exact ⟨_, hw, .noMembers hb, by rw [hs, he, hbs, he']; simp⟩
        · simp only [Option.map_eq_some_iff, Prod.mk.injEq, Prod.exists] at h
          obtain ⟨xs, r'', hp, rfl, rfl⟩ := h
          obtain ⟨fs, t, ht, hst, rfl⟩ := ihm hp
          exact ⟨_, hw, .members ht, by rw [hs, he, hst]; simp⟩
      · simp only [Option.map_eq_some_iff, Prod.mk.injEq] at h
        obtain ⟨j', hp, rfl, rfl⟩ := h
        refine ⟨_, hw, numberText_value (parseNumber_sound fmt hp), ?_⟩
        rw [List.append_assoc, List.takeWhile_append_dropWhile]
        exact hs
    · intro xs s r h
      rw [parseElems.eq_def] at h
      simp only [] at h
      split at h
      · cases h
      · rename_i v r1 hv
        obtain ⟨w, t, hw, ht, rfl⟩ := ihv hv
        obtain ⟨w', hw', hs⟩ := skipWs_split r1
        split at h
        · rename_i r2 he
          simp only [Option.map_eq_some_iff, Prod.mk.injEq, Prod.exists] at h
          obtain ⟨xs', r3, hp, rfl, rfl⟩ := h
          obtain ⟨t', ht', rfl⟩ := ihe hp
          exact ⟨_, .more hw ht hw' ht', by rw [hs, he]; simp⟩
        · rename_i r2 he
          simp only [Option.some.injEq, Prod.mk.injEq] at h
          obtain ⟨rfl, rfl⟩ := h
          exact ⟨_, .one hw ht hw', by rw [hs, he]; simp⟩
        · cases h
    · intro acc m s r h
      rw [parseMembers.eq_def] at h
      simp only [] at h
      obtain ⟨w, hw, hs⟩ := skipWs_split s
      split at h
      · rename_i r0 he0
        split at h
        · cases h
        · rename_i k r1 hk
          obtain ⟨ks, hks, hke⟩ := parseString_sound _ le_rfl hk
          obtain ⟨w1, hw1, hs1⟩ := skipWs_split r1
          split at h
          · rename_i r2 he2
            split at h
            · cases h
            · rename_i v r3 hv
              obtain ⟨w2, t, hw2, ht, hvt⟩ := ihv hv
              obtain ⟨w3, hw3, hs3⟩ := skipWs_split r3
              split at h
              · rename_i r4 he4
                obtain ⟨fs, t', ht', hst, hm⟩ := ihm h
                refine ⟨_, _, .more hw hks hw1 hw2 ht hw3 ht', ?_, hm⟩
                rw [hs, he0, hke, hs1, he2, hvt, hs3, he4, hst]
                simp
              · rename_i r4 he4
                simp only [Option.some.injEq, Prod.mk.injEq] at h
                obtain ⟨rfl, rfl⟩ := h
                refine ⟨_, _, .one hw hks hw1 hw2 ht hw3, ?_, rfl⟩
                rw [hs, he0, hke, hs1, he2, hvt, hs3, he4]
                simp
              · cases h
          · cases h
      · cases h

/-- The parser accepts exactly the texts of the grammar. -/
theorem parse_iff (j : Json 𝕜) (s : List Char) : parse fmt s = some j ↔ JsonDocument fmt j s := by
  constructor
  · intro h
    unfold parse at h
    split at h
    · rename_i j' r hv
      split at h
      · rename_i hr
        simp only [Option.some.injEq] at h
        subst h
        obtain ⟨w, t, hw, ht, hs⟩ := (parse_sound _).1 hv
        obtain ⟨w', hw', hs'⟩ := skipWs_split r
        rw [hr, List.append_nil] at hs'
        subst hs'
        exact ⟨w, t, r, hs, hw, ht, hw'⟩
      · cases h
    · cases h
  · rintro ⟨w, t, w', rfl, hw, ht, hw'⟩
    have hn : NotHead isNumChar w' := by
      have := notHead_blank hw' (NotHead.nil isNumChar)
      rwa [List.append_nil] at this
    have h := (parse_complete (2 * (w ++ t ++ w').length + 1)).1 ht hw hn (by simp only [List.length_append]; omega)
    have hs : skipWs w' = [] := by
      have := skipWs_blank hw' (NotHead.nil isWs)
      rwa [List.append_nil] at this
    unfold parse
    rw [List.append_assoc] at h ⊢
    rw [h]
    simp only [hs, if_true]

end Tulip.JsonText
