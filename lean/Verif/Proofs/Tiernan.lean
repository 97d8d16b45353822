import Verif.Model.Graph
import Verif.Proofs.Components
import Mathlib.Data.List.Nodup
import Mathlib.Data.List.Infix
import Mathlib.Data.List.Perm.Subperm

/-!
# Correctness of the cycle enumeration
-/

namespace Tulip

/-- Reversed paths that the search may stand on: from the root, only to larger vertices, no repetition. -/
inductive RP (adj : Nat → List Nat) (root : Nat) : List Nat → Prop
  | base : RP adj root [root]
  | step {u v rest} : RP adj root (u :: rest) → v ∈ adj u → root < v → v ∉ u :: rest →
      RP adj root (v :: u :: rest)

theorem RP.ne_nil {adj root rp} (h : RP adj root rp) : rp ≠ [] := by cases h <;> simp

theorem RP.nodup {adj root rp} (h : RP adj root rp) : rp.Nodup := by
  induction h with
  | base => simp
  | step _ _ _ hv ih => exact List.nodup_cons.mpr ⟨hv, ih⟩

theorem RP.of_cons {adj root v u rest} (h : RP adj root (v :: u :: rest)) :
    RP adj root (u :: rest) ∧ v ∈ adj u ∧ root < v ∧ v ∉ u :: rest := by
  cases h with
  | step a b c d => exact ⟨a, b, c, d⟩

theorem RP.suffix {adj root} {rp' : List Nat} (h : RP adj root rp') : ∀ {rp : List Nat}, rp ≠ [] →
    rp <:+ rp' → RP adj root rp := by
  induction h with
  | base =>
    intro rp hne hs
    have := List.suffix_cons_iff.mp hs
    rcases this with rfl | h
    · exact .base
    · exact absurd (List.suffix_nil.mp h) hne
  | step h1 h2 h3 h4 ih =>
    intro rp hne hs
    rcases List.suffix_cons_iff.mp hs with rfl | h
    · exact .step h1 h2 h3 h4
    · exact ih hne h

theorem RP.root_suffix {adj root} {rp : List Nat} (h : RP adj root rp) : [root] <:+ rp := by
  induction h with
  | base => exact List.suffix_refl _
  | step _ _ _ _ ih => exact ih.trans (List.suffix_cons _ _)

theorem RP.mem_lt {adj root n} (hr : root < n) (hadj : ∀ a, ∀ b ∈ adj a, b < n) {rp : List Nat}
    (h : RP adj root rp) : ∀ x ∈ rp, x < n := by
  induction h with
  | base => simpa using hr
  | @step u v rest _ h2 _ _ ih =>
    intro x hx
    rcases List.mem_cons.mp hx with rfl | hx
    · exact hadj _ _ h2
    · exact ih x hx

theorem RP.length_le {adj root n} (hr : root < n) (hadj : ∀ a, ∀ b ∈ adj a, b < n) {rp : List Nat}
    (h : RP adj root rp) : rp.length ≤ n := by
  have hsub : rp ⊆ List.range n := by
    intro x hx; simpa using h.mem_lt hr hadj x hx
  have := (List.subperm_of_subset h.nodup hsub).length_le
  simpa using this

/-- `exhaust_paths` of the whole subtree at `rp`: continue at the parent. -/
def popCont (adj : Nat → List Nat) (root : Nat) (rp : List Nat) (closed : Nat → List Nat)
    (out : List (List Nat)) : Option (List (List Nat)) :=
  match rp with
  | last :: prev :: rest =>
    tiernanLoop adj root (prev :: rest)
      (upd (upd closed last []) prev ((upd closed last []) prev ++ [last])) out
  | _ => some out

theorem popCont_upd (adj : Nat → List Nat) (root u : Nat) (rest : List Nat)
    (closed : Nat → List Nat) (x : List Nat) (out : List (List Nat)) :
    popCont adj root (u :: rest) (upd closed u x) out = popCont adj root (u :: rest) closed out := by
  have : upd (upd closed u x) u [] = upd closed u [] := by
    funext i; simp only [upd]; split <;> rfl
  cases rest with
  | nil => rfl
  | cons p r => simp only [popCont, this]

/-- Paths still to be reported below `rp` when the extensions in `X` are done. -/
def Pending (adj : Nat → List Nat) (root : Nat) (rp X rp' : List Nat) : Prop :=
  RP adj root rp' ∧ canWrapPath adj root rp' = true ∧ 2 ≤ rp'.length ∧
    (rp' = rp ∨ ∃ v, v ∉ X ∧ (v :: rp) <:+ rp')

theorem pending_nil {adj : Nat → List Nat} {root : Nat} {rp rp' : List Nat} :
    Pending adj root rp [] rp' ↔
      RP adj root rp' ∧ canWrapPath adj root rp' = true ∧ 2 ≤ rp'.length ∧ rp <:+ rp' := by
  unfold Pending
  constructor
  · rintro ⟨a, b, c, rfl | ⟨v, _, h⟩⟩
    · exact ⟨a, b, c, List.suffix_refl _⟩
    · exact ⟨a, b, c, (List.suffix_cons v rp).trans h⟩
  · rintro ⟨a, b, c, t, ht⟩
    refine ⟨a, b, c, ?_⟩
    rcases List.eq_nil_or_concat t with rfl | ⟨t', v, rfl⟩
    · left; simpa using ht.symm
    · right
      exact ⟨v, by simp, t', by simpa using ht⟩

/-- Eligible next vertices. -/
def eligible (root n : Nat) (adj : Nat → List Nat) (u : Nat) (rp X : List Nat) : List Nat :=
  (List.range n).filter
    (fun v => decide (v ∈ adj u) && (decide (root < v) && !rp.contains v && !X.contains v))

theorem eligible_lt {root n : Nat} {adj : Nat → List Nat} {u : Nat} {rp X : List Nat} {v : Nat}
    (hv : v < n) (ha : v ∈ adj u) (h : (decide (root < v) && !rp.contains v && !X.contains v) = true) :
    (eligible root n adj u rp (X ++ [v])).length < (eligible root n adj u rp X).length := by
  have hmem : v ∈ eligible root n adj u rp X := by
    unfold eligible
    rw [List.mem_filter]
    exact ⟨by simpa using hv, by rw [h]; simpa using ha⟩
  have heq : eligible root n adj u rp (X ++ [v]) =
      (eligible root n adj u rp X).filter (fun w => decide (w ≠ v)) := by
    unfold eligible
    rw [List.filter_filter]
    apply List.filter_congr
    intro w _
    rw [Bool.eq_iff_iff]
    simp only [Bool.and_eq_true, decide_eq_true_eq, Bool.not_eq_true', List.contains_eq_mem,
      List.mem_append, List.mem_singleton, decide_eq_false_iff_not]
    tauto
  rw [heq]
  have h2 := List.length_filter_le (fun w => decide (w ≠ v)) (eligible root n adj u rp X)
  refine lt_of_le_of_ne h2 ?_
  intro he
  have := (List.length_filter_eq_length_iff.mp he) v hmem
  simp at this

/-- Main lemma: the search from `rp` reports every pending path exactly once and then pops `rp`. -/
theorem tiernanLoop_spec (adj : Nat → List Nat) (root n : Nat) (hr : root < n)
    (hadj : ∀ a, ∀ b ∈ adj a, b < n) :
    ∀ (k : Nat) (rp : List Nat), RP adj root rp → n - rp.length = k →
    ∀ (m : Nat) (u : Nat) (rest : List Nat), rp = u :: rest →
    ∀ (closed : Nat → List Nat) (out : List (List Nat)),
    (eligible root n adj u rp (closed u)).length = m →
    (∀ w, w ∉ rp → closed w = []) →
    ∃ outs : List (List Nat), tiernanLoop adj root rp closed out = popCont adj root rp closed (out ++ outs) ∧
      outs.Nodup ∧ (∀ c, c ∈ outs ↔ ∃ rp', c = rp'.reverse ∧ Pending adj root rp (closed u) rp') := by
  intro k
  induction k using Nat.strong_induction_on with
  | _ k ihk =>
  intro rp hrp hk m
  induction m using Nat.strong_induction_on with
  | _ m ihm =>
  intro u rest hrpe closed out hm hcl
  subst hrpe
  have hlen := hrp.length_le hr hadj
  cases hext : extendPath adj root (u :: rest) closed with
  | some v =>
    have hext' := hext
    simp only [extendPath] at hext'
    have hva : v ∈ adj u := List.mem_of_find?_eq_some hext'
    have hvp := List.find?_some hext'
    have hv := hvp
    simp only [Bool.and_eq_true, decide_eq_true_eq, Bool.not_eq_true', List.contains_eq_mem,
      decide_eq_false_iff_not] at hv
    obtain ⟨⟨hrv, hvn⟩, hvX⟩ := hv
    have hrp' : RP adj root (v :: u :: rest) := .step hrp hva hrv hvn
    have hlen' := hrp'.length_le hr hadj
    have hclv : closed v = [] := hcl v hvn
    obtain ⟨outs1, e1, nd1, m1⟩ := ihk (n - (v :: u :: rest).length)
      (by simp only [List.length_cons] at *; omega) (v :: u :: rest) hrp' rfl _ v (u :: rest) rfl
      closed out rfl (fun w hw => hcl w (fun h => hw (List.mem_cons_of_mem _ h)))
    rw [hclv] at m1
    have hupd : upd closed v [] = closed := by
      funext i; simp only [upd]; split
      · rename_i h; subst h; exact hclv.symm
      · rfl
    have huv : u ≠ v := fun e => hvn (by simp [e])
    obtain ⟨outs2, e2, nd2, m2⟩ := ihm (eligible root n adj u (u :: rest)
        ((upd closed u (closed u ++ [v])) u)).length
      (by rw [upd_self, ← hm]; exact eligible_lt (hadj _ _ hva) hva hvp) u rest rfl
      (upd closed u (closed u ++ [v])) (out ++ outs1) rfl
      (by
        intro w hw
        have : w ≠ u := fun e => hw (by simp [e])
        rw [upd_ne _ _ this]
        exact hcl w hw)
    refine ⟨outs1 ++ outs2, ?_, ?_, ?_⟩
    · rw [tiernanLoop, hext]
      simp only
      rw [e1]
      simp only [popCont, hupd]
      rw [e2, popCont_upd, List.append_assoc]
      cases rest <;> rfl
    · rw [List.nodup_append]
      refine ⟨nd1, nd2, ?_⟩
      intro a ha b hb hab
      subst hab
      obtain ⟨p1, rfl, hp1⟩ := (m1 a).mp ha
      obtain ⟨p2, e, hp2⟩ := (m2 _).mp hb
      have e' : p1 = p2 := List.reverse_injective e
      subst e'
      rw [pending_nil] at hp1
      rcases hp2.2.2.2 with h | ⟨w, hw, h⟩
      · have := hp1.2.2.2.length_le
        rw [h] at this
        simp only [List.length_cons] at this
        omega
      · rw [upd_self] at hw
        have hsuf : (v :: u :: rest) = (w :: u :: rest) := by
          have := List.suffix_of_suffix_length_le hp1.2.2.2 h (by simp)
          exact this.eq_of_length (by simp)
        have : v = w := (List.cons.inj hsuf).1
        subst this
        simp at hw
    · intro c
      rw [List.mem_append, m1, m2, upd_self]
      constructor
      · rintro (⟨p, rfl, hp⟩ | ⟨p, rfl, hp⟩)
        · rw [pending_nil] at hp
          exact ⟨p, rfl, hp.1, hp.2.1, hp.2.2.1, Or.inr ⟨v, hvX, hp.2.2.2⟩⟩
        · refine ⟨p, rfl, hp.1, hp.2.1, hp.2.2.1, ?_⟩
          rcases hp.2.2.2 with h | ⟨w, hw, h⟩
          · exact Or.inl h
          · exact Or.inr ⟨w, fun hc => hw (by simp [hc]), h⟩
      · rintro ⟨p, rfl, hp⟩
        rcases hp.2.2.2 with h | ⟨w, hw, h⟩
        · exact Or.inr ⟨p, rfl, hp.1, hp.2.1, hp.2.2.1, Or.inl h⟩
        · by_cases hwv : w = v
          · subst hwv
            left
            refine ⟨p, rfl, ?_⟩
            rw [pending_nil]
            exact ⟨hp.1, hp.2.1, hp.2.2.1, h⟩
          · right
            refine ⟨p, rfl, hp.1, hp.2.1, hp.2.2.1, Or.inr ⟨w, ?_, h⟩⟩
            simp only [List.mem_append, List.mem_singleton, not_or]
            exact ⟨hw, hwv⟩
  | none =>
    have hnone : ∀ p, Pending adj root (u :: rest) (closed u) p → p = u :: rest := by
      intro p hp
      rcases hp.2.2.2 with h | ⟨v, hv, h⟩
      · exact h
      · exfalso
        obtain ⟨_, h2, h3, h4⟩ := (hp.1.suffix (by simp) h).of_cons
        simp only [extendPath, List.find?_eq_none] at hext
        have := hext v h2
        apply this
        simp only [Bool.and_eq_true, decide_eq_true_eq, Bool.not_eq_true', List.contains_eq_mem,
          decide_eq_false_iff_not]
        exact ⟨⟨h3, h4⟩, hv⟩
    by_cases hw : (canWrapPath adj root (u :: rest) && decide (2 ≤ (u :: rest).length)) = true
    · refine ⟨[(u :: rest).reverse], ?_, by simp, ?_⟩
      · rw [tiernanLoop, hext]
        simp only [hw, if_true]
        cases rest <;> rfl
      · intro c
        simp only [List.mem_singleton]
        simp only [Bool.and_eq_true, decide_eq_true_eq] at hw
        constructor
        · rintro rfl
          exact ⟨u :: rest, rfl, hrp, hw.1, hw.2, Or.inl rfl⟩
        · rintro ⟨p, rfl, hp⟩
          rw [hnone p hp]
    · refine ⟨[], ?_, by simp, ?_⟩
      · rw [tiernanLoop, hext]
        simp only [hw, List.append_nil]
        cases rest <;> rfl
      · intro c
        simp only [List.not_mem_nil, false_iff]
        rintro ⟨p, rfl, hp⟩
        apply hw
        have := hnone p hp
        subst this
        simp only [Bool.and_eq_true, decide_eq_true_eq]
        exact ⟨hp.2.1, hp.2.2.1⟩

/-- All cycles found from one start vertex. -/
theorem tiernanLoop_root (adj : Nat → List Nat) (root n : Nat) (hr : root < n)
    (hadj : ∀ a, ∀ b ∈ adj a, b < n) :
    ∃ outs, tiernanLoop adj root [root] (fun _ => []) [] = some outs ∧ outs.Nodup ∧
      ∀ c, c ∈ outs ↔ RP adj root c.reverse ∧ canWrapPath adj root c.reverse = true ∧ 2 ≤ c.length := by
  obtain ⟨outs, e, nd, m⟩ := tiernanLoop_spec adj root n hr hadj _ [root] .base rfl _ root [] rfl
    (fun _ => []) [] rfl (fun _ _ => rfl)
  refine ⟨outs, by simpa [popCont] using e, nd, ?_⟩
  intro c
  rw [m]
  constructor
  · rintro ⟨p, rfl, hp⟩
    rw [pending_nil] at hp
    simpa using ⟨hp.1, hp.2.1, hp.2.2.1⟩
  · rintro ⟨h1, h2, h3⟩
    refine ⟨c.reverse, by simp, ?_⟩
    rw [pending_nil]
    exact ⟨h1, h2, by simpa using h3, h1.root_suffix⟩

theorem tiernanAll_foldl (adj : Nat → List Nat) (n : Nat) (hadj : ∀ a, ∀ b ∈ adj a, b < n)
    (vs : List Nat) (hvs : ∀ v ∈ vs, v < n) (hnd : vs.Nodup) : ∀ acc : List (List Nat), acc.Nodup →
    (∀ c ∈ acc, ∀ v ∈ vs, c.head? ≠ some v) →
    ∃ res, vs.foldl (fun acc v => do
        let out ← acc
        let cs ← tiernanLoop adj v [v] (fun _ => []) []
        pure (out ++ cs)) (some acc) = some res ∧ res.Nodup ∧
      ∀ c, c ∈ res ↔ c ∈ acc ∨ ∃ v ∈ vs, RP adj v c.reverse ∧
        canWrapPath adj v c.reverse = true ∧ 2 ≤ c.length := by
  induction vs with
  | nil => intro acc ha _; exact ⟨acc, rfl, ha, by simp⟩
  | cons v t ih =>
    intro acc ha hd
    obtain ⟨outs, e, nd, m⟩ := tiernanLoop_root adj v n (hvs v (by simp)) hadj
    have hhead : ∀ c ∈ outs, c.head? = some v := by
      intro c hc
      obtain ⟨h1, _, _⟩ := (m c).mp hc
      obtain ⟨s, hs⟩ := h1.root_suffix
      have : c = (s ++ [v]).reverse := by rw [hs]; simp
      rw [this]; simp
    have hvt := (List.nodup_cons.mp hnd).1
    obtain ⟨res, er, nr, mr⟩ := ih (fun x hx => hvs x (by simp [hx])) (List.nodup_cons.mp hnd).2
      (acc ++ outs)
      (by
        rw [List.nodup_append]
        refine ⟨ha, nd, ?_⟩
        rintro a h1 b h2 rfl
        exact hd a h1 v (by simp) (hhead a h2))
      (by
        intro c hc w hw
        rcases List.mem_append.mp hc with h | h
        · exact hd c h w (by simp [hw])
        · rw [hhead c h]
          intro e
          have := Option.some.inj e
          subst this
          exact hvt hw)
    refine ⟨res, ?_, nr, ?_⟩
    · rw [List.foldl_cons]
      have : (do
        let out ← (some acc)
        let cs ← tiernanLoop adj v [v] (fun _ => []) []
        pure (out ++ cs)) = some (acc ++ outs) := by rw [e]; rfl
      rw [this]
      exact er
    · intro c
      rw [mr, List.mem_append, m, or_assoc]
      simp

theorem tiernanAllCycles_spec (adj : Nat → List Nat) (n : Nat) (hadj : ∀ a, ∀ b ∈ adj a, b < n) :
    ∃ res, tiernanAllCycles adj n = some res ∧ res.Nodup ∧
      ∀ c, c ∈ res ↔ ∃ v < n, RP adj v c.reverse ∧ canWrapPath adj v c.reverse = true ∧
        2 ≤ c.length := by
  obtain ⟨res, e, nd, m⟩ := tiernanAll_foldl adj n hadj (List.range n) (by simp) List.nodup_range []
    (by simp) (by simp)
  refine ⟨res, e, nd, ?_⟩
  intro c
  rw [m]
  simp

end Tulip
