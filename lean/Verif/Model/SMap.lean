import Mathlib.Order.Defs.LinearOrder
import Mathlib.Order.Basic
import Mathlib.Data.List.Basic

/-!
# `std::map` and `std::set` as key-sorted association lists

Iteration order (ascending keys) is observable in the modelled code, so maps are kept as the list
of their entries in iteration order.
-/

namespace Tulip

variable {K V : Type _} [LinearOrder K]

/-- A `std::map<K,V>`: its entries in iteration order. -/
abbrev SMap (K V : Type _) := List (K × V)

namespace SMap

/-- Entries strictly ascending by key: the class invariant of `std::map`. -/
def Sorted (m : SMap K V) : Prop := m.Pairwise (fun a b => a.1 < b.1)

/-- `m.find(k)`. -/
def find? (m : SMap K V) (k : K) : Option V :=
  match m with
  | [] => none
  | (k', v) :: t => if k' = k then some v else find? t k

/-- `m.count(k) > 0`. -/
def contains (m : SMap K V) (k : K) : Bool := (m.find? k).isSome

/-- `m[k] = v` (`insert_or_assign`). -/
def set (m : SMap K V) (k : K) (v : V) : SMap K V :=
  match m with
  | [] => [(k, v)]
  | (k', v') :: t =>
    if k < k' then (k, v) :: (k', v') :: t
    else if k = k' then (k, v) :: t
    else (k', v') :: set t k v

/-- `m.emplace(k, v)` / `m.insert({k,v})`: no effect if the key is present. -/
def emplace (m : SMap K V) (k : K) (v : V) : SMap K V :=
  if m.contains k then m else m.set k v

/-- the keys in iteration order -/
def keys (m : SMap K V) : List K := m.map Prod.fst

/-- the values in iteration order -/
def vals (m : SMap K V) : List V := m.map Prod.snd

@[simp] theorem find?_nil (k : K) : find? ([] : SMap K V) k = none := rfl

theorem find?_cons (k' : K) (v : V) (t : SMap K V) (k : K) :
    find? ((k', v) :: t) k = if k' = k then some v else find? t k := rfl

theorem Sorted.nil : Sorted ([] : SMap K V) := List.Pairwise.nil

theorem Sorted.tail {a : K × V} {t : SMap K V} (h : Sorted (a :: t)) : Sorted t :=
  (List.pairwise_cons.mp h).2

theorem Sorted.head_lt {a : K × V} {t : SMap K V} (h : Sorted (a :: t)) :
    ∀ b ∈ t, a.1 < b.1 := (List.pairwise_cons.mp h).1

theorem mem_set {m : SMap K V} {k : K} {v : V} {x : K × V} (h : x ∈ m.set k v) :
    x = (k, v) ∨ x ∈ m := by
  induction m with
  | nil => simpa [set] using h
  | cons a t ih =>
    obtain ⟨k', v'⟩ := a
    unfold set at h
    split at h
    · simpa using h
    · split at h
      · simp only [List.mem_cons] at h
        rcases h with h | h
        · exact Or.inl h
        · exact Or.inr (List.mem_cons_of_mem _ h)
      · simp only [List.mem_cons] at h
        rcases h with h | h
        · exact Or.inr (by simp [h])
        · rcases ih h with h | h
          · exact Or.inl h
          · exact Or.inr (List.mem_cons_of_mem _ h)

theorem Sorted.set {m : SMap K V} (h : Sorted m) (k : K) (v : V) : Sorted (m.set k v) := by
  induction m with
  | nil => simp [SMap.set, Sorted]
  | cons a t ih =>
    obtain ⟨k', v'⟩ := a
    unfold SMap.set
    split
    · rename_i hlt
      refine List.pairwise_cons.mpr ⟨?_, h⟩
      intro b hb
      rcases List.mem_cons.mp hb with hb | hb
      · subst hb; exact hlt
      · exact lt_trans hlt (h.head_lt b hb)
    · split
      · rename_i _ heq
        subst heq
        exact List.pairwise_cons.mpr ⟨h.head_lt, h.tail⟩
      · rename_i h1 h2
        refine List.pairwise_cons.mpr ⟨?_, ih h.tail⟩
        intro b hb
        rcases mem_set hb with hb | hb
        · subst hb
          exact lt_of_le_of_ne (not_lt.mp h1) (fun e => h2 e.symm)
        · exact h.head_lt b hb

theorem Sorted.emplace {m : SMap K V} (h : Sorted m) (k : K) (v : V) : Sorted (m.emplace k v) := by
  unfold SMap.emplace; split
  · exact h
  · exact h.set k v

theorem find?_none_of_lt {m : SMap K V} {k : K} (h : ∀ b ∈ m, k < b.1) : m.find? k = none := by
  induction m with
  | nil => rfl
  | cons a t ih =>
    obtain ⟨k', v'⟩ := a
    rw [find?_cons]
    have := h (k', v') (by simp)
    rw [if_neg (ne_of_gt this)]
    exact ih (fun b hb => h b (List.mem_cons_of_mem _ hb))

theorem find?_set {m : SMap K V} (h : Sorted m) (k : K) (v : V) (k2 : K) :
    (m.set k v).find? k2 = if k = k2 then some v else m.find? k2 := by
  induction m with
  | nil => simp [SMap.set, find?]
  | cons a t ih =>
    obtain ⟨k', v'⟩ := a
    unfold SMap.set
    split
    · rename_i hlt
      rw [find?_cons]
    · split
      · rename_i _ heq
        subst heq
        rw [find?_cons, find?_cons]
        split <;> rfl
      · rename_i h1 h2
        rw [find?_cons, find?_cons, ih h.tail]
        by_cases e : k' = k2
        · subst e
          rw [if_pos rfl, if_neg h2, if_pos rfl]
        · rw [if_neg e, if_neg e]

theorem find?_emplace {m : SMap K V} (h : Sorted m) (k : K) (v : V) (k2 : K) :
    (m.emplace k v).find? k2 =
      if k = k2 then some ((m.find? k).getD v) else m.find? k2 := by
  unfold SMap.emplace contains
  split
  · rename_i hs
    obtain ⟨w, hw⟩ := Option.isSome_iff_exists.mp hs
    split
    · rename_i e; subst e; simp [hw]
    · rfl
  · rename_i hs
    rw [find?_set h]
    split
    · rename_i e; subst e
      cases hk : m.find? k with
      | none => simp
      | some w => simp [hk] at hs
    · rfl

theorem mem_of_find? {m : SMap K V} {k : K} {v : V} (h : m.find? k = some v) : (k, v) ∈ m := by
  induction m with
  | nil => simp at h
  | cons a t ih =>
    obtain ⟨k', v'⟩ := a
    rw [find?_cons] at h
    split at h
    · rename_i e; cases h; subst e; simp
    · exact List.mem_cons_of_mem _ (ih h)

theorem find?_of_mem {m : SMap K V} (hs : Sorted m) {k : K} {v : V} (h : (k, v) ∈ m) :
    m.find? k = some v := by
  induction m with
  | nil => simp at h
  | cons a t ih =>
    obtain ⟨k', v'⟩ := a
    rw [find?_cons]
    rcases List.mem_cons.mp h with h | h
    · cases h; simp
    · have := hs.head_lt _ h
      rw [if_neg (ne_of_lt this)]
      exact ih hs.tail h

theorem find?_eq_some_iff {m : SMap K V} (hs : Sorted m) {k : K} {v : V} :
    m.find? k = some v ↔ (k, v) ∈ m := ⟨mem_of_find?, find?_of_mem hs⟩

theorem contains_iff {m : SMap K V} {k : K} : m.contains k = true ↔ k ∈ m.keys := by
  unfold contains keys
  induction m with
  | nil => simp
  | cons a t ih =>
    obtain ⟨k', v'⟩ := a
    rw [find?_cons]
    by_cases e : k' = k
    · simp [e]
    · rw [if_neg e, ih]
      simp only [List.map_cons, List.mem_cons]
      exact ⟨Or.inr, fun h => h.resolve_left (fun h => e h.symm)⟩

theorem find?_isSome_iff {m : SMap K V} {k : K} : (m.find? k).isSome ↔ k ∈ m.keys := contains_iff

theorem find?_eq_none_iff {m : SMap K V} {k : K} : m.find? k = none ↔ k ∉ m.keys := by
  rw [← find?_isSome_iff]; cases m.find? k <;> simp

theorem Sorted.keys_pairwise {m : SMap K V} (h : Sorted m) : m.keys.Pairwise (· < ·) := by
  unfold keys; rw [List.pairwise_map]; exact h

theorem Sorted.keys_nodup {m : SMap K V} (h : Sorted m) : m.keys.Nodup :=
  h.keys_pairwise.imp (fun h => ne_of_lt h)

/-- Two maps with the same lookups are the same map. -/
theorem ext {m n : SMap K V} (hm : Sorted m) (hn : Sorted n)
    (h : ∀ k, m.find? k = n.find? k) : m = n := by
  induction m generalizing n with
  | nil =>
    cases n with
    | nil => rfl
    | cons b u =>
      obtain ⟨k, v⟩ := b
      have := h k
      simp [find?_cons] at this
  | cons a t ih =>
    obtain ⟨k, v⟩ := a
    cases n with
    | nil => have := h k; simp [find?_cons] at this
    | cons b u =>
      obtain ⟨k', v'⟩ := b
      have hkk : k = k' := by
        have h1 := h k
        have h2 := h k'
        rw [find?_cons, if_pos rfl] at h1
        rw [find?_cons (k' := k') (k := k'), if_pos rfl] at h2
        rcases lt_trichotomy k k' with hlt | heq | hgt
        · have := mem_of_find? h1.symm
          rcases List.mem_cons.mp this with e | hu
          · cases e; exact absurd hlt (lt_irrefl _)
          · exact absurd (hn.head_lt _ hu) (not_lt.mpr hlt.le)
        · exact heq
        · have := mem_of_find? h2
          rcases List.mem_cons.mp this with e | hu
          · cases e; exact absurd hgt (lt_irrefl _)
          · exact absurd (hm.head_lt _ hu) (not_lt.mpr hgt.le)
      subst hkk
      have hv : v = v' := by
        have h1 := h k
        simpa [find?_cons] using h1
      subst hv
      congr 1
      refine ih hm.tail hn.tail ?_
      intro q
      have hq := h q
      rw [find?_cons, find?_cons] at hq
      by_cases e : k = q
      · subst e
        rw [find?_none_of_lt (fun b hb => hm.head_lt b hb),
          find?_none_of_lt (fun b hb => hn.head_lt b hb)]
      · simpa [e] using hq

/-- `for (x : xs) m[f x] = g x`, starting from a map. -/
def setAll {α : Type _} (m : SMap K V) (f : α → K) (g : α → V) (xs : List α) : SMap K V :=
  xs.foldl (fun m x => m.set (f x) (g x)) m

theorem Sorted.setAll {α : Type _} {m : SMap K V} (h : Sorted m) (f : α → K) (g : α → V)
    (xs : List α) : Sorted (m.setAll f g xs) := by
  induction xs generalizing m with
  | nil => exact h
  | cons x t ih => exact ih (h.set _ _)

/-- Last writer wins. -/
theorem find?_setAll {α : Type _} {m : SMap K V} (h : Sorted m) (f : α → K) (g : α → V)
    (xs : List α) (k : K) :
    (m.setAll f g xs).find? k =
      (((xs.filter (fun x => decide (f x = k))).getLast?).map g).or (m.find? k) := by
  induction xs generalizing m with
  | nil => simp [SMap.setAll]
  | cons x t ih =>
    show (SMap.setAll (m.set (f x) (g x)) f g t).find? k = _
    rw [ih (h.set _ _), find?_set h]
    by_cases e : f x = k
    · rw [if_pos e, List.filter_cons_of_pos (by simpa using e), List.getLast?_cons]
      cases hh : (List.filter (fun x => decide (f x = k)) t).getLast? <;> simp
    · rw [if_neg e, List.filter_cons_of_neg (by simpa using e)]

theorem keys_setAll_mem {α : Type _} {m : SMap K V} (h : Sorted m) (f : α → K) (g : α → V)
    (xs : List α) (k : K) :
    k ∈ (m.setAll f g xs).keys ↔ k ∈ m.keys ∨ ∃ x ∈ xs, f x = k := by
  induction xs generalizing m with
  | nil => simp [SMap.setAll]
  | cons x t ih =>
    show k ∈ (SMap.setAll (m.set (f x) (g x)) f g t).keys ↔ _
    rw [ih (h.set _ _), ← find?_isSome_iff, find?_set h, ← find?_isSome_iff]
    by_cases e : f x = k
    · simp [e]
    · simp [e]

end SMap

/-! ## Sets -/

/-- `std::set<K>`: its elements in iteration order. -/
abbrev SSet (K : Type _) := List K

namespace SSet

/-- class invariant of `std::set` -/
def Sorted (s : SSet K) : Prop := s.Pairwise (· < ·)

/-- `s.insert(k)` -/
def insert (s : SSet K) (k : K) : SSet K :=
  match s with
  | [] => [k]
  | a :: t => if k < a then k :: a :: t else if k = a then a :: t else a :: insert t k

/-- insert all elements of a range -/
def insertAll (s : SSet K) (xs : List K) : SSet K := xs.foldl insert s

/-- set built from a range -/
def ofList (xs : List K) : SSet K := insertAll [] xs

@[simp] theorem mem_insert {s : SSet K} {k x : K} : x ∈ s.insert k ↔ x = k ∨ x ∈ s := by
  induction s with
  | nil => simp [SSet.insert]
  | cons a t ih =>
    unfold SSet.insert
    split
    · simp
    · split
      · rename_i e; subst e; simp
      · simp only [List.mem_cons, ih]; tauto

theorem Sorted.insert {s : SSet K} (h : Sorted s) (k : K) : Sorted (s.insert k) := by
  induction s with
  | nil => simp [SSet.insert, Sorted]
  | cons a t ih =>
    have ha := (List.pairwise_cons.mp h).1
    have ht : Sorted t := (List.pairwise_cons.mp h).2
    unfold SSet.insert
    split
    · rename_i hlt
      refine List.pairwise_cons.mpr ⟨?_, h⟩
      intro b hb
      rcases List.mem_cons.mp hb with hb | hb
      · subst hb; exact hlt
      · exact lt_trans hlt (ha b hb)
    · split
      · exact h
      · rename_i h1 h2
        refine List.pairwise_cons.mpr ⟨?_, ih ht⟩
        intro b hb
        rcases mem_insert.mp hb with hb | hb
        · subst hb; exact lt_of_le_of_ne (not_lt.mp h1) (fun e => h2 e.symm)
        · exact ha b hb

@[simp] theorem mem_insertAll {s : SSet K} {xs : List K} {x : K} :
    x ∈ s.insertAll xs ↔ x ∈ s ∨ x ∈ xs := by
  induction xs generalizing s with
  | nil => simp [insertAll]
  | cons a t ih =>
    show x ∈ SSet.insertAll (s.insert a) t ↔ _
    rw [ih, mem_insert, List.mem_cons]; tauto

theorem Sorted.insertAll {s : SSet K} (h : Sorted s) (xs : List K) : Sorted (s.insertAll xs) := by
  induction xs generalizing s with
  | nil => exact h
  | cons a t ih => exact ih (h.insert a)

@[simp] theorem mem_ofList {xs : List K} {x : K} : x ∈ SSet.ofList xs ↔ x ∈ xs := by
  simp [ofList]

theorem sorted_nil : Sorted ([] : SSet K) := List.Pairwise.nil

theorem sorted_ofList (xs : List K) : Sorted (SSet.ofList xs) := sorted_nil.insertAll xs

theorem Sorted.nodup {s : SSet K} (h : Sorted s) : s.Nodup := h.imp (fun h => ne_of_lt h)

/-- Two sets with the same members are the same set. -/
theorem ext {s t : SSet K} (hs : Sorted s) (ht : Sorted t) (h : ∀ x, x ∈ s ↔ x ∈ t) : s = t := by
  have hp : s.Perm t := (List.perm_ext_iff_of_nodup hs.nodup ht.nodup).mpr h
  exact hp.eq_of_pairwise (fun a b _ _ h1 h2 => absurd h1 (lt_asymm h2)) hs ht

end SSet
end Tulip
