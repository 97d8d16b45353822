import Verif.Model.Graph
import Mathlib.Logic.Relation

/-!
# Depth-first component labelling
-/

namespace Tulip

/-- successor relation of an adjacency function -/
def Succ (adj : Nat → List Nat) (a b : Nat) : Prop := b ∈ adj a

def SReach (adj : Nat → List Nat) : Nat → Nat → Prop := Relation.ReflTransGen (Succ adj)

theorem upd_self {β : Type _} (f : Nat → β) (k : Nat) (v : β) : upd f k v k = v := by simp [upd]

theorem upd_ne {β : Type _} (f : Nat → β) {k i : Nat} (v : β) (h : i ≠ k) : upd f k v i = f i := by
  simp [upd, h]

theorem dfsLoop_mono (adj : Nat → List Nat) (n c : Nat) (comp : Nat → Option Nat)
    (stack : List (List Nat)) (v k : Nat) (h : comp v = some k) :
    dfsLoop adj n c comp stack v = some k := by
  fun_induction dfsLoop adj n c comp stack with
  | case1 comp => exact h
  | case2 comp st ih => exact ih h
  | case3 comp w rest st hw ih =>
    apply ih
    have : v ≠ w := by rintro rfl; rw [hw.1] at h; cases h
    rw [upd_ne _ _ this]; exact h
  | case4 comp w rest st hw ih => exact ih h

theorem dfsLoop_sound (adj : Nat → List Nat) (n c : Nat) (comp : Nat → Option Nat)
    (stack : List (List Nat)) (v k : Nat) (h : dfsLoop adj n c comp stack v = some k) :
    comp v = some k ∨ (k = c ∧ comp v = none ∧ v < n ∧
      ∃ l ∈ stack, ∃ w ∈ l, SReach adj w v) := by
  fun_induction dfsLoop adj n c comp stack with
  | case1 comp => exact Or.inl h
  | case2 comp st ih =>
    rcases ih h with h | ⟨a, b, d, l, hl, e⟩
    · exact Or.inl h
    · exact Or.inr ⟨a, b, d, l, by simp [hl], e⟩
  | case3 comp w rest st hw ih =>
    rcases ih h with h | ⟨a, b, d, l, hl, x, hx, e⟩
    · by_cases hvw : v = w
      · subst hvw
        rw [upd_self] at h
        refine Or.inr ⟨(Option.some.inj h).symm, hw.1, hw.2, _, List.mem_cons_self, v, by simp, .refl⟩
      · rw [upd_ne _ _ hvw] at h; exact Or.inl h
    · have hvw : v ≠ w := by rintro rfl; rw [upd_self] at b; cases b
      rw [upd_ne _ _ hvw] at b
      refine Or.inr ⟨a, b, d, ?_⟩
      simp only [List.mem_cons] at hl
      rcases hl with rfl | rfl | hl
      · exact ⟨_, List.mem_cons_self, w, by simp, Relation.ReflTransGen.head hx e⟩
      · exact ⟨_, List.mem_cons_self, x, by simp [hx], e⟩
      · exact ⟨l, by simp [hl], x, hx, e⟩
  | case4 comp w rest st hw ih =>
    rcases ih h with h | ⟨a, b, d, l, hl, x, hx, e⟩
    · exact Or.inl h
    · refine Or.inr ⟨a, b, d, ?_⟩
      simp only [List.mem_cons] at hl
      rcases hl with rfl | hl
      · exact ⟨_, List.mem_cons_self, x, by simp [hx], e⟩
      · exact ⟨l, by simp [hl], x, hx, e⟩

/-- Everything pending on the stack is visited in the end. -/
theorem dfsLoop_pending (adj : Nat → List Nat) (n c : Nat) (comp : Nat → Option Nat)
    (stack : List (List Nat)) (v : Nat) (hv : v < n) (h : ∃ l ∈ stack, v ∈ l) :
    dfsLoop adj n c comp stack v ≠ none := by
  fun_induction dfsLoop adj n c comp stack with
  | case1 comp => simp at h
  | case2 comp st ih =>
    apply ih
    obtain ⟨l, hl, hx⟩ := h
    simp only [List.mem_cons] at hl
    rcases hl with rfl | hl
    · simp at hx
    · exact ⟨l, hl, hx⟩
  | case3 comp w rest st hw ih =>
    by_cases hvw : v = w
    · subst hvw
      rw [dfsLoop_mono adj n c _ _ v c (upd_self _ _ _)]
      simp
    · apply ih
      obtain ⟨l, hl, hx⟩ := h
      simp only [List.mem_cons] at hl
      rcases hl with rfl | hl
      · simp only [List.mem_cons] at hx
        exact ⟨rest, by simp, hx.resolve_left hvw⟩
      · exact ⟨l, by simp [hl], hx⟩
  | case4 comp w rest st hw ih =>
    by_cases hvw : v = w
    · subst hvw
      have : comp v ≠ none := fun e => hw ⟨e, hv⟩
      obtain ⟨k, hk⟩ := Option.ne_none_iff_exists'.mp this
      rw [dfsLoop_mono adj n c _ _ v k hk]; simp
    · apply ih
      obtain ⟨l, hl, hx⟩ := h
      simp only [List.mem_cons] at hl
      rcases hl with rfl | hl
      · simp only [List.mem_cons] at hx
        exact ⟨rest, by simp, hx.resolve_left hvw⟩
      · exact ⟨l, by simp [hl], hx⟩

/-- Closure: if all successors of visited vertices are visited or pending, the result is closed. -/
theorem dfsLoop_closed (adj : Nat → List Nat) (n c : Nat) (comp : Nat → Option Nat)
    (stack : List (List Nat)) (hadj : ∀ a, ∀ b ∈ adj a, b < n)
    (hinv : ∀ u, comp u ≠ none → ∀ w ∈ adj u, comp w ≠ none ∨ ∃ l ∈ stack, w ∈ l) :
    ∀ u, dfsLoop adj n c comp stack u ≠ none → ∀ w ∈ adj u, dfsLoop adj n c comp stack w ≠ none := by
  fun_induction dfsLoop adj n c comp stack with
  | case1 comp =>
    intro u hu w hw
    rcases hinv u hu w hw with h | ⟨l, hl, _⟩
    · exact h
    · simp at hl
  | case2 comp st ih =>
    apply ih
    intro u hu w hw
    rcases hinv u hu w hw with h | ⟨l, hl, hx⟩
    · exact Or.inl h
    · simp only [List.mem_cons] at hl
      rcases hl with rfl | hl
      · simp at hx
      · exact Or.inr ⟨l, hl, hx⟩
  | case3 comp v rest st hv ih =>
    apply ih
    intro u hu w hw
    by_cases hwv : w = v
    · subst hwv; left; rw [upd_self]; simp
    by_cases huv : u = v
    · subst huv
      exact Or.inr ⟨_, by simp, hw⟩
    · rw [upd_ne _ _ huv] at hu
      rcases hinv u hu w hw with h | ⟨l, hl, hx⟩
      · left; rw [upd_ne _ _ hwv]; exact h
      · right
        simp only [List.mem_cons] at hl
        rcases hl with rfl | hl
        · simp only [List.mem_cons] at hx
          exact ⟨rest, by simp, hx.resolve_left hwv⟩
        · exact ⟨l, by simp [hl], hx⟩
  | case4 comp v rest st hv ih =>
    apply ih
    intro u hu w hw
    by_cases hwv : w = v
    · subst hwv
      left
      exact fun e => hv ⟨e, hadj u w hw⟩
    · rcases hinv u hu w hw with h | ⟨l, hl, hx⟩
      · exact Or.inl h
      · right
        simp only [List.mem_cons] at hl
        rcases hl with rfl | hl
        · simp only [List.mem_cons] at hx
          exact ⟨rest, by simp, hx.resolve_left hwv⟩
        · exact ⟨l, by simp [hl], hx⟩

/-- Closed sets contain everything reachable. -/
theorem closed_reach {adj : Nat → List Nat} {comp : Nat → Option Nat}
    (hc : ∀ u, comp u ≠ none → ∀ w ∈ adj u, comp w ≠ none) {a b : Nat} (ha : comp a ≠ none)
    (h : SReach adj a b) : comp b ≠ none := by
  induction h with
  | refl => exact ha
  | tail _ h ih => exact hc _ ih _ h

/-- State invariant of the outer loop of `connectedComponents`, `seen` being the vertices processed:
`root c` is the vertex that opened component `c`. -/
structure CCInv (adj : Nat → List Nat) (n : Nat) (seen : List Nat) (comp : Nat → Option Nat)
    (cnt : Nat) (root : Nat → Nat) : Prop where
  lt : ∀ v k, comp v = some k → k < cnt ∧ v < n
  closed : ∀ u, comp u ≠ none → ∀ w ∈ adj u, comp w ≠ none
  root_comp : ∀ c < cnt, comp (root c) = some c ∧ root c ∈ seen
  reach : ∀ v c, comp v = some c → SReach adj (root c) v
  first : ∀ v c, comp v = some c → ∀ c' < c, ¬ SReach adj (root c') v
  seen : ∀ v ∈ seen, comp v ≠ none
  mono : ∀ c c', c < c' → c' < cnt → root c < root c'
  root_le : ∀ v c, comp v = some c → root c ≤ v

theorem ccInv_step {adj : Nat → List Nat} {n : Nat} (hadj : ∀ a, ∀ b ∈ adj a, b < n)
    {seen : List Nat} {s : (Nat → Option Nat) × Nat} {root : Nat → Nat}
    (h : CCInv adj n seen s.1 s.2 root) {v : Nat} (hv : v < n) (hseen : seen = List.range v) :
    ∃ root', CCInv adj n (seen ++ [v])
      (if s.1 v = none then (dfsLoop adj n s.2 (upd s.1 v (some s.2)) [adj v], s.2 + 1) else s).1
      (if s.1 v = none then (dfsLoop adj n s.2 (upd s.1 v (some s.2)) [adj v], s.2 + 1) else s).2
      root' ∧ ∀ c < s.2, root' c = root c := by
  obtain ⟨comp, cnt⟩ := s
  simp only at h ⊢
  by_cases hw : comp v = none
  · rw [if_pos hw]
    simp only
    refine ⟨upd root cnt v, ?_, fun c hc => upd_ne _ _ (by omega)⟩
    have mono : ∀ x k, comp x = some k →
        dfsLoop adj n cnt (upd comp v (some cnt)) [adj v] x = some k := by
      intro x k hx
      apply dfsLoop_mono
      have : x ≠ v := by rintro rfl; rw [hw] at hx; cases hx
      rw [upd_ne _ _ this]; exact hx
    have self : dfsLoop adj n cnt (upd comp v (some cnt)) [adj v] v = some cnt :=
      dfsLoop_mono _ _ _ _ _ _ _ (upd_self _ _ _)
    have sound : ∀ x k, dfsLoop adj n cnt (upd comp v (some cnt)) [adj v] x = some k →
        comp x = some k ∨ (k = cnt ∧ comp x = none ∧ x < n ∧ SReach adj v x) := by
      intro x k hx
      rcases dfsLoop_sound _ _ _ _ _ _ _ hx with h1 | ⟨a, b, d, l, hl, w, hw', e⟩
      · by_cases hxv : x = v
        · subst hxv
          rw [upd_self] at h1
          exact Or.inr ⟨(Option.some.inj h1).symm, hw, hv, .refl⟩
        · rw [upd_ne _ _ hxv] at h1; exact Or.inl h1
      · have hxv : x ≠ v := by rintro rfl; rw [upd_self] at b; cases b
        rw [upd_ne _ _ hxv] at b
        simp only [List.mem_singleton] at hl
        subst hl
        exact Or.inr ⟨a, b, d, Relation.ReflTransGen.head hw' e⟩
    constructor
    · intro x k hx
      rcases sound x k hx with h1 | ⟨rfl, _, h2, _⟩
      · have := h.lt x k h1; omega
      · omega
    · apply dfsLoop_closed _ _ _ _ _ hadj
      intro u hu w hwu
      by_cases huv : u = v
      · subst huv; exact Or.inr ⟨_, by simp, hwu⟩
      · rw [upd_ne _ _ huv] at hu
        left
        by_cases hwv : w = v
        · subst hwv; rw [upd_self]; simp
        · rw [upd_ne _ _ hwv]; exact h.closed u hu w hwu
    · intro c hc
      rcases Nat.lt_or_ge c cnt with h1 | h1
      · rw [upd_ne _ _ (by omega)]
        obtain ⟨a, b⟩ := h.root_comp c h1
        exact ⟨mono _ _ a, by simp [b]⟩
      · have : c = cnt := by omega
        subst this
        rw [upd_self]
        exact ⟨self, by simp⟩
    · intro x c hx
      rcases sound x c hx with h1 | ⟨rfl, _, _, h2⟩
      · rw [upd_ne _ _ (by have := h.lt x c h1; omega)]
        exact h.reach x c h1
      · rw [upd_self]; exact h2
    · intro x c hx c' hc'
      rcases sound x c hx with h1 | ⟨rfl, h0, _, _⟩
      · rw [upd_ne _ _ (by have := h.lt x c h1; omega)]
        exact h.first x c h1 c' hc'
      · rw [upd_ne _ _ (by omega)]
        intro hr
        exact closed_reach h.closed (by rw [(h.root_comp c' hc').1]; simp) hr h0
    · intro x hx
      simp only [List.mem_append, List.mem_singleton] at hx
      rcases hx with hx | rfl
      · obtain ⟨k, hk⟩ := Option.ne_none_iff_exists'.mp (h.seen x hx)
        rw [mono x k hk]; simp
      · rw [self]; simp
    · intro c c' hcc hc'
      rcases Nat.lt_or_ge c' cnt with h1 | h1
      · rw [upd_ne _ _ (by omega), upd_ne _ _ (by omega)]
        exact h.mono c c' hcc h1
      · have : c' = cnt := by omega
        subst this
        rw [upd_self, upd_ne _ _ (by omega)]
        have := (h.root_comp c hcc).2
        rw [hseen] at this
        simpa using this
    · intro x c hx
      rcases sound x c hx with h1 | ⟨rfl, h0, _, _⟩
      · rw [upd_ne _ _ (by have := h.lt x c h1; omega)]
        exact h.root_le x c h1
      · rw [upd_self]
        by_contra hlt
        exact h.seen x (by rw [hseen]; simpa using hlt) h0
  · rw [if_neg hw]
    refine ⟨root, ⟨h.lt, h.closed, fun c hc => ⟨(h.root_comp c hc).1, by simp [(h.root_comp c hc).2]⟩,
      h.reach, h.first, ?_, h.mono, h.root_le⟩, fun _ _ => rfl⟩
    intro x hx
    simp only [List.mem_append, List.mem_singleton] at hx
    rcases hx with hx | rfl
    · exact h.seen x hx
    · exact hw

theorem ccInv_foldl {adj : Nat → List Nat} {n : Nat} (hadj : ∀ a, ∀ b ∈ adj a, b < n) (m : Nat) (hm : m ≤ n) :
    ∃ root, CCInv adj n (List.range m)
      ((List.range m).foldl (fun s v =>
        if s.1 v = none then (dfsLoop adj n s.2 (upd s.1 v (some s.2)) [adj v], s.2 + 1) else s) (fun _ => none, 0)).1
      ((List.range m).foldl (fun s v =>
        if s.1 v = none then (dfsLoop adj n s.2 (upd s.1 v (some s.2)) [adj v], s.2 + 1) else s) (fun _ => none, 0)).2
      root := by
  induction m with
  | zero => exact ⟨fun _ => 0, by constructor <;> simp⟩
  | succ m ih =>
    obtain ⟨root, h⟩ := ih (by omega)
    obtain ⟨root', h', _⟩ := ccInv_step hadj h (v := m) (by omega) rfl
    refine ⟨root', ?_⟩
    rw [List.range_succ, List.foldl_append]
    exact h'

/-- What `boost::connected_components` computes on a directed graph: every vertex gets the number of
the first root that reaches it. -/
theorem connectedComponents_inv (adj : Nat → List Nat) (n : Nat) (hadj : ∀ a, ∀ b ∈ adj a, b < n) :
    ∃ root, CCInv adj n (List.range n) (connectedComponents adj n).1 (connectedComponents adj n).2
      root := by
  obtain ⟨r, h⟩ := ccInv_foldl hadj n le_rfl
  exact ⟨r, h⟩

/-- The label of a vertex belongs to the first vertex that reaches it. -/
theorem CCInv.label_iff {adj : Nat → List Nat} {n : Nat} {comp : Nat → Option Nat} {cnt : Nat} {root : Nat → Nat}
    (h : CCInv adj n (List.range n) comp cnt root) {v c : Nat} (hv : v < n) (hc : c < cnt) :
    comp v = some c ↔ SReach adj (root c) v ∧ ∀ s < n, SReach adj s v → root c ≤ s := by
  constructor
  · intro hl
    refine ⟨h.reach v c hl, fun s hs hr => ?_⟩
    obtain ⟨k, hk⟩ := Option.ne_none_iff_exists'.mp (h.seen s (by simpa using hs))
    have h1 : ¬ k < c := fun hlt => h.first v c hl k hlt ((h.reach s k hk).trans hr)
    have h2 := h.root_le s k hk
    rcases Nat.lt_or_ge c k with h3 | h3
    · have := h.mono c k h3 (h.lt s k hk).1; omega
    · have : k = c := by omega
      subst this; exact h2
  · rintro ⟨h1, h2⟩
    obtain ⟨k, hk⟩ := Option.ne_none_iff_exists'.mp (h.seen v (by simpa using hv))
    have hkc := (h.lt v k hk).1
    have hroot : root k < n := by simpa using (h.root_comp k hkc).2
    have h3 := h2 (root k) hroot (h.reach v k hk)
    have h4 : ¬ c < k := fun hlt => h.first v k hk c hlt h1
    rcases Nat.lt_or_ge k c with h5 | h5
    · have := h.mono k c h5 hc; omega
    · have : k = c := by omega
      rw [hk, this]

end Tulip
