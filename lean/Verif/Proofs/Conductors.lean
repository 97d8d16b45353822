import Verif.Spec.Driver
import Verif.Proofs.Materials
import Mathlib.Data.List.GetD

/-!
# Conductor numbers: maps, lookup by number, checks of the constructor
-/

namespace Tulip
open Spec

/-- id → tag in order of id -/
def idMapFrom {𝕜 : Type _} : Nat → List (PEC 𝕜) → SMap Int Int
  | _, [] => []
  | k, p :: t => ((k : Int), p.tag) :: idMapFrom (k + 1) t

section
variable {𝕜 : Type _}

theorem idMapFrom_length : ∀ (k : Nat) (ps : List (PEC 𝕜)), (idMapFrom k ps).length = ps.length
  | _, [] => rfl
  | k, _ :: t => by simp [idMapFrom, idMapFrom_length (k + 1) t]

theorem mem_idMapFrom : ∀ (k : Nat) (ps : List (PEC 𝕜)) (i v : Int),
    (i, v) ∈ idMapFrom k ps ↔ ∃ j, ∃ h : j < ps.length, i = ((k + j : Nat) : Int) ∧ v = ps[j].tag
  | k, [], i, v => by simp [idMapFrom]
  | k, p :: t, i, v => by
    rw [idMapFrom, List.mem_cons, mem_idMapFrom (k + 1) t i v]
    constructor
    · rintro (h | ⟨j, hj, h1, h2⟩)
      · cases h
        exact ⟨0, by simp, by simp, rfl⟩
      · exact ⟨j + 1, by simp; omega, by rw [h1]; push_cast; ring, by simpa using h2⟩
    · rintro ⟨j, hj, h1, h2⟩
      cases j with
      | zero =>
        left
        rw [h1, h2]; rfl
      | succ j =>
        right
        exact ⟨j, by simpa using hj, by rw [h1]; push_cast; ring, by simpa using h2⟩

theorem idMapFrom_sorted : ∀ (k : Nat) (ps : List (PEC 𝕜)), (idMapFrom k ps).Sorted
  | _, [] => SMap.Sorted.nil
  | k, p :: t => by
    refine List.pairwise_cons.mpr ⟨?_, idMapFrom_sorted (k + 1) t⟩
    rintro ⟨i, v⟩ h
    obtain ⟨j, hj, h1, _⟩ := (mem_idMapFrom (k + 1) t i v).mp h
    show (k : Int) < i
    omega

/-- The number in a name, when there is one. -/
def idOf (name : String) : Int :=
  match getMaterialIdFromName name with
  | .ok i => i
  | _ => 0

theorem idMapLoop_eq : ∀ (l : List (PEC 𝕜)) (res : SMap Int Int),
    (∀ p ∈ l, ∃ i, getMaterialIdFromName p.name = .ok i) →
    Materials.idMapLoop PEC.name PEC.tag l res = .ok (SMap.setAll res (fun p => idOf p.name) PEC.tag l) := by
  intro l
  induction l with
  | nil => intro res _; rfl
  | cons p t ih =>
    intro res h
    obtain ⟨i, hi⟩ := h p List.mem_cons_self
    have e : idOf p.name = i := by unfold idOf; rw [hi]
    show (getMaterialIdFromName p.name >>= _) = _
    rw [hi, Outcome.ok_bind, ih _ (fun q hq => h q (List.mem_cons_of_mem _ hq)), ← e]
    rfl

theorem filter_eq_singleton {α : Type _} {β : Type _} [DecidableEq β] {f : α → β} : ∀ {l : List α} {x : α},
    (l.map f).Nodup → x ∈ l → l.filter (fun y => decide (f y = f x)) = [x] := by
  intro l
  induction l with
  | nil => intro x _ h; cases h
  | cons a t ih =>
    intro x hn hx
    rw [List.map_cons, List.nodup_cons] at hn
    rcases List.mem_cons.mp hx with rfl | hx
    · rw [List.filter_cons_of_pos (by simp)]
      congr 1
      rw [List.filter_eq_nil_iff]
      intro y hy
      simp only [decide_eq_true_eq]
      intro e
      exact hn.1 (e ▸ List.mem_map_of_mem hy)
    · rw [List.filter_cons_of_neg, ih hn.2 hx]
      simp only [decide_eq_true_eq]
      intro e
      exact hn.1 (e ▸ List.mem_map_of_mem hx)

/-- Lookup in a map filled from a list without repeated keys. -/
theorem find?_setAll_of_nodup {K V α : Type _} [LinearOrder K] (f : α → K) (g : α → V) (xs : List α)
    (hn : (xs.map f).Nodup) (k : K) (v : V) :
    (SMap.setAll ([] : SMap K V) f g xs).find? k = some v ↔ ∃ x ∈ xs, f x = k ∧ g x = v := by
  rw [SMap.find?_setAll SMap.Sorted.nil]
  simp only [SMap.find?_nil, Option.or_none, Option.map_eq_some_iff]
  constructor
  · rintro ⟨a, ha, rfl⟩
    have := List.mem_of_getLast? ha
    simp only [List.mem_filter, decide_eq_true_eq] at this
    exact ⟨a, this.1, this.2, rfl⟩
  · rintro ⟨x, hx, rfl, rfl⟩
    refine ⟨x, ?_, rfl⟩
    rw [filter_eq_singleton hn hx]
    rfl

end

section
variable {𝕜 : Type} {mats : Materials 𝕜} {ps : List (PEC 𝕜)}

theorem Spec.Numbering.readable (h : Numbering mats ps) : ∀ p ∈ mats.pecs, ∃ i, getMaterialIdFromName p.name = .ok i := by
  intro p hp
  obtain ⟨i, hi, rfl⟩ := List.getElem_of_mem (h.all.mem_iff.mpr hp)
  exact ⟨i, h.ids i hi⟩

theorem Spec.Numbering.idOf (h : Numbering mats ps) {i : Nat} (hi : i < ps.length) : idOf ps[i].name = i := by
  unfold Tulip.idOf; rw [h.ids i hi]

theorem Spec.Numbering.idOf_nodup (h : Numbering mats ps) : (mats.pecs.map (fun p => Tulip.idOf p.name)).Nodup := by
  rw [← (h.all.map _).nodup_iff]
  rw [List.nodup_iff_injective_getElem]
  rintro ⟨i, hi⟩ ⟨j, hj⟩ e
  simp only [List.length_map] at hi hj
  simp only [List.getElem_map] at e
  rw [h.idOf hi, h.idOf hj] at e
  simpa using e

theorem Spec.Numbering.names_nodup (h : Numbering mats ps) : (mats.pecs.map PEC.name).Nodup := by
  have := h.idOf_nodup
  rw [show mats.pecs.map (fun p => Tulip.idOf p.name) = (mats.pecs.map PEC.name).map Tulip.idOf by simp] at this
  exact List.Nodup.of_map _ this

theorem Spec.Numbering.idMap (h : Numbering mats ps) : mats.buildIdToAttrMapForPEC = .ok (idMapFrom 0 ps) := by
  unfold Materials.buildIdToAttrMapForPEC
  rw [idMapLoop_eq _ _ h.readable]
  congr 1
  refine SMap.ext (SMap.Sorted.nil.setAll _ _ _) (idMapFrom_sorted 0 ps) ?_
  intro k
  apply Option.ext
  intro v
  rw [find?_setAll_of_nodup _ _ _ h.idOf_nodup, SMap.find?_eq_some_iff (idMapFrom_sorted 0 ps), mem_idMapFrom]
  constructor
  · rintro ⟨p, hp, rfl, rfl⟩
    obtain ⟨i, hi, rfl⟩ := List.getElem_of_mem (h.all.mem_iff.mpr hp)
    exact ⟨i, hi, by rw [h.idOf hi]; simp, rfl⟩
  · rintro ⟨j, hj, rfl, rfl⟩
    exact ⟨ps[j], h.all.mem_iff.mp (List.getElem_mem hj), by rw [h.idOf hj]; simp, rfl⟩

theorem Spec.Numbering.getById (h : Numbering mats ps) {i : Nat} (hi : i < ps.length) :
    mats.getPECById i = .ok ps[i] := by
  unfold Materials.getPECById
  have key : ∀ l : List (PEC 𝕜), (∀ p ∈ l, ∃ j, getMaterialIdFromName p.name = .ok j) →
      (l.map (fun p => Tulip.idOf p.name)).Nodup → ∀ q ∈ l, getMaterialIdFromName q.name = .ok (i : Int) →
      Materials.getByIdLoop PEC.name i l = .ok q := by
    intro l
    induction l with
    | nil => intro _ _ q hq; cases hq
    | cons a t ih =>
      intro hr hn q hq hid
      rw [List.map_cons, List.nodup_cons] at hn
      obtain ⟨j, hj⟩ := hr a List.mem_cons_self
      rw [Materials.getByIdLoop, hj, Outcome.ok_bind]
      rcases List.mem_cons.mp hq with rfl | hq
      · rw [hj] at hid
        cases hid
        rw [if_pos rfl]
      · rw [if_neg, ih (fun p hp => hr p (List.mem_cons_of_mem _ hp)) hn.2 q hq hid]
        rintro rfl
        apply hn.1
        have e1 : Tulip.idOf a.name = i := by unfold Tulip.idOf; rw [hj]
        have e2 : Tulip.idOf q.name = i := by unfold Tulip.idOf; rw [hid]
        rw [e1, ← e2]
        exact List.mem_map_of_mem hq
  exact key _ h.readable h.idOf_nodup _ (h.all.mem_iff.mp (List.getElem_mem hi)) (h.ids i hi)

theorem conductorIdsLoop_eq : ∀ (l : List (String × Int)),
    (∀ x ∈ l, ∃ i, getMaterialIdFromName x.1 = .ok i) →
    conductorIdsLoop l = .ok (l.map (fun x => Tulip.idOf x.1)) := by
  intro l
  induction l with
  | nil => intro _; rfl
  | cons x t ih =>
    intro h
    obtain ⟨i, hi⟩ := h x List.mem_cons_self
    have e : Tulip.idOf x.1 = i := by unfold Tulip.idOf; rw [hi]
    rw [conductorIdsLoop, hi, Outcome.ok_bind, ih (fun y hy => h y (List.mem_cons_of_mem _ hy)), Outcome.ok_bind,
      List.map_cons, e]

theorem consecutiveFrom_iff : ∀ (t : List Int) (a : Int), consecutiveFrom a t = true ↔
    t = (List.range t.length).map (fun k : Nat => a + 1 + k) := by
  intro t
  induction t with
  | nil => intro a; simp [consecutiveFrom]
  | cons b t ih =>
    intro a
    rw [consecutiveFrom]
    split
    · next h =>
      simp only [Bool.false_eq_true, false_iff]
      intro e
      rw [List.length_cons, List.range_succ_eq_map, List.map_cons, List.cons.injEq] at e
      apply h; rw [e.1]; simp
    · next h =>
      have hb : b = a + 1 := by simpa using h
      rw [ih, List.length_cons, List.range_succ_eq_map, List.map_cons, List.cons.injEq, List.map_map]
      have : (List.range t.length).map (fun k : Nat => b + 1 + (k : Int)) =
          (List.range t.length).map ((fun k : Nat => a + 1 + (k : Int)) ∘ Nat.succ) := by
        apply List.map_congr_left
        intro k _
        simp only [Function.comp, Nat.succ_eq_add_one]
        push_cast
        omega
      rw [this]
      constructor
      · intro e; exact ⟨by simpa using hb, e⟩
      · intro e; exact e.2

/-- The name map of the conductors holds each name once. -/
theorem pecMap_perm (hn : (mats.pecs.map PEC.name).Nodup) :
    mats.buildNameToAttrMapForPEC.Perm (mats.pecs.map (fun p => (p.name, p.tag))) := by
  have hs : mats.buildNameToAttrMapForPEC.Sorted := SMap.Sorted.nil.setAll _ _ _
  refine (List.perm_ext_iff_of_nodup ?_ ?_).mpr ?_
  · exact hs.imp (fun h e => by rw [e] at h; exact lt_irrefl _ h)
  · apply List.Nodup.of_map Prod.fst
    simpa [Function.comp_def] using hn
  · rintro ⟨k, v⟩
    rw [← SMap.find?_eq_some_iff hs]
    exact find?_setAll_nodup PEC.name PEC.tag mats.pecs hn k v

/-- What the checks of the constructor do with the sorted ids. -/
theorem checkConductors_sorted (hn : (mats.pecs.map PEC.name).Nodup)
    (hr : ∀ p ∈ mats.pecs, ∃ i, getMaterialIdFromName p.name = .ok i) :
    ∃ ids : List Int, ids.Perm (mats.pecs.map (fun p => Tulip.idOf p.name)) ∧ ids.Pairwise (· ≤ ·) ∧
      checkConductors mats = match ids with
        | [] => .throw (.runtimeError "Model must have at least one conductor.")
        | a :: t =>
          if a ≠ 0 then .throw (.runtimeError "Conductor with id 0 must be present in the model. ")
          else if consecutiveFrom a t then .ok ⟨⟩
          else .throw (.runtimeError "Conductor ids must be consecutive.") := by
  have hp := pecMap_perm hn
  have e1 : conductorIdsLoop mats.buildNameToAttrMapForPEC =
      .ok (mats.buildNameToAttrMapForPEC.map (fun x => Tulip.idOf x.1)) := by
    apply conductorIdsLoop_eq
    intro x hx
    have := hp.mem_iff.mp hx
    obtain ⟨p, hp', rfl⟩ := List.mem_map.mp this
    exact hr p hp'
  refine ⟨_, ?_, List.pairwise_insertionSort _ (mats.buildNameToAttrMapForPEC.map (fun x => Tulip.idOf x.1)), ?_⟩
  · refine (List.perm_insertionSort _ _).trans ?_
    have := hp.map (fun x => Tulip.idOf x.1)
    simpa [Function.comp_def] using this
  · unfold checkConductors
    rw [e1, Outcome.ok_bind]
    cases List.insertionSort (fun x1 x2 => x1 ≤ x2) (List.map (fun x => Tulip.idOf x.1) mats.buildNameToAttrMapForPEC) <;> rfl

/-- The checks of the constructor pass exactly for numbered conductors. -/
theorem checkConductors_iff (hn : (mats.pecs.map PEC.name).Nodup)
    (hr : ∀ p ∈ mats.pecs, ∃ i, getMaterialIdFromName p.name = .ok i) :
    (checkConductors mats = .ok () ↔ ∃ ps, Numbering mats ps) ∧
    (checkConductors mats = .ok () ∨ ∃ msg, checkConductors mats = .throw (.runtimeError msg)) := by
  have hp := pecMap_perm hn
  have e1 : conductorIdsLoop mats.buildNameToAttrMapForPEC =
      .ok (mats.buildNameToAttrMapForPEC.map (fun x => Tulip.idOf x.1)) := by
    apply conductorIdsLoop_eq
    intro x hx
    have := hp.mem_iff.mp hx
    obtain ⟨p, hp', rfl⟩ := List.mem_map.mp this
    exact hr p hp'
  have hperm : (mats.buildNameToAttrMapForPEC.map (fun x => Tulip.idOf x.1)).insertionSort (· ≤ ·) |>.Perm
      (mats.pecs.map (fun p => Tulip.idOf p.name)) := by
    refine (List.perm_insertionSort _ _).trans ?_
    have := hp.map (fun x => Tulip.idOf x.1)
    simpa [Function.comp_def] using this
  have hsort : ((mats.buildNameToAttrMapForPEC.map (fun x => Tulip.idOf x.1)).insertionSort (· ≤ ·)).Pairwise
      (· ≤ ·) := List.pairwise_insertionSort _ _
  unfold checkConductors
  rw [e1, Outcome.ok_bind]
  generalize (mats.buildNameToAttrMapForPEC.map (fun x => Tulip.idOf x.1)).insertionSort (· ≤ ·) = ids at hperm hsort
  -- numbered conductors sort to 0, 1, ...
  have key : (∃ ps, Numbering mats ps) ↔
      ids ≠ [] ∧ ids = (List.range ids.length).map (fun k : Nat => (k : Int)) := by
    constructor
    · rintro ⟨ps, h⟩
      have hps : ps.map (fun p => Tulip.idOf p.name) = (List.range ps.length).map (fun k : Nat => (k : Int)) := by
        apply List.ext_getElem
        · simp
        · intro i h1 h2
          simp only [List.getElem_map, List.getElem_range]
          exact h.idOf (by simpa using h1)
      have hp2 : ids.Perm ((List.range ps.length).map (fun k : Nat => (k : Int))) := by
        rw [← hps]; exact hperm.trans (h.all.symm.map _)
      have hl : ids.length = ps.length := by simpa using hp2.length_eq
      refine ⟨?_, ?_⟩
      · intro e
        rw [e] at hl
        exact h.nonempty (List.length_eq_zero_iff.mp hl.symm)
      · rw [hl]
        refine hp2.eq_of_pairwise (le := (· ≤ ·)) (fun a b _ _ h1 h2 => le_antisymm h1 h2) hsort ?_
        rw [List.pairwise_map]
        exact List.pairwise_lt_range.imp (fun h => by omega)
    · rintro ⟨hne, he⟩
      have hlen : ids.length = mats.pecs.length := by simpa using hperm.length_eq
      -- order the conductors by number
      let le : PEC 𝕜 → PEC 𝕜 → Bool := fun p q => decide (Tulip.idOf p.name ≤ Tulip.idOf q.name)
      let ps := mats.pecs.mergeSort le
      have hps : ps.Perm mats.pecs := List.mergeSort_perm _ _
      have hs2 : (ps.map (fun p => Tulip.idOf p.name)).Pairwise (· ≤ ·) := by
        rw [List.pairwise_map]
        have := List.pairwise_mergeSort (le := le) (fun a b c h1 h2 => by
          simp only [le, decide_eq_true_eq] at *; omega) (fun a b => by
          simp only [le, Bool.or_eq_true, decide_eq_true_eq]; omega) mats.pecs
        exact this.imp (fun h => by simpa [le] using h)
      have hids : ps.map (fun p => Tulip.idOf p.name) = ids := by
        refine List.Perm.eq_of_pairwise (le := (· ≤ ·)) (fun a b _ _ h1 h2 => le_antisymm h1 h2) hs2 hsort ?_
        exact (hps.map _).trans hperm.symm
      refine ⟨ps, hps, ?_, ?_⟩
      · intro i hi
        obtain ⟨j, hj⟩ := hr ps[i] (hps.mem_iff.mp (List.getElem_mem hi))
        have e : Tulip.idOf ps[i].name = j := by unfold Tulip.idOf; rw [hj]
        have e2 : (ps.map (fun p => Tulip.idOf p.name))[i]'(by simpa using hi) = Tulip.idOf ps[i].name := by simp
        have e3 : (ps.map (fun p => Tulip.idOf p.name))[i]'(by simpa using hi) = (i : Int) := by
          have h3 : i < ids.length := by rw [← hids]; simpa using hi
          have : ids[i]'h3 = (i : Int) := by
            have : (List.range ids.length |>.map (fun k : Nat => (k : Int)))[i]'(by simpa using h3) = (i : Int) := by
              simp
            rw [← this]
            congr 1
          rw [← this]
          congr 1
        rw [hj, ← e, ← e2, e3]
      · intro e
        rw [e] at hids
        exact hne hids.symm
  rw [key]
  cases ids with
  | nil => exact ⟨⟨fun h => (by cases h), fun h => absurd rfl h.1⟩, Or.inr ⟨_, rfl⟩⟩
  | cons a t =>
    simp only [ne_eq, reduceCtorEq, not_false_eq_true, true_and]
    have hr0 : (List.range (a :: t).length).map (fun k : Nat => (k : Int)) =
        0 :: (List.range t.length).map (fun k : Nat => (0 : Int) + 1 + k) := by
      rw [List.length_cons, List.range_succ_eq_map, List.map_cons, List.map_map]
      congr 1
      apply List.map_congr_left
      intro k _
      simp only [Function.comp, Nat.succ_eq_add_one]; push_cast; omega
    rw [hr0]
    by_cases ha : a = 0
    · subst ha
      simp only [not_true_eq_false, if_false, List.cons.injEq, true_and]
      rw [← consecutiveFrom_iff]
      by_cases hc : consecutiveFrom 0 t = true
      · rw [if_pos hc]; exact ⟨⟨fun _ => hc, fun _ => rfl⟩, Or.inl rfl⟩
      · rw [if_neg hc]
        exact ⟨⟨fun h => (by cases h), fun h => absurd h hc⟩, Or.inr ⟨_, rfl⟩⟩
    · rw [if_pos ha]
      refine ⟨⟨fun h => (by cases h), fun h => ?_⟩, Or.inr ⟨_, rfl⟩⟩
      rw [List.cons.injEq] at h
      exact absurd h.1 ha

theorem Spec.Numbering.check (h : Numbering mats ps) : checkConductors mats = .ok () :=
  (checkConductors_iff h.names_nodup h.readable).1.mpr ⟨ps, h⟩

end
end Tulip
