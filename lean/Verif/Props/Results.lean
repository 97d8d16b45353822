import Verif.Spec.Results
import Verif.Proofs.Results
import Mathlib.Data.Rat.Defs
import Mathlib.Tactic.NormNum
import Mathlib.Tactic.IntervalCases

/-!
# C42–C46: serialisation, comparison and coupling coefficients
-/

namespace Tulip.Props
open Tulip Tulip.Spec
variable {𝕜 : Type _}

/-! ## C42 -/

theorem ofJSON_toJSON [Field 𝕜] (p : PULParameters 𝕜) : PULParameters.ofJSON p.toJSON = (do
    let C ← toMFEMDenseMatrix (toVecVec p.C)
    let L ← toMFEMDenseMatrix (toVecVec p.L)
    .ok { L := L, C := C }) := by
  unfold PULParameters.ofJSON
  have h1 : p.toJSON.hasKey "C" = true := rfl
  have h2 : p.toJSON.hasKey "L" = true := rfl
  have h3 : p.toJSON.at_ "C" = .ok (PULParameters.vecVecToJson (toVecVec p.C)) := rfl
  have h4 : p.toJSON.at_ "L" = .ok (PULParameters.vecVecToJson (toVecVec p.L)) := rfl
  rw [h1, h2, h3, h4]
  simp only [Bool.not_true, Bool.or_self, Bool.false_eq_true, if_false, Outcome.ok_bind,
    Json.getVector_nums]

/-- Reading the rows of a matrix. -/
theorem read_rows [Field 𝕜] (M : DMat 𝕜) : ∃ M', toMFEMDenseMatrix (toVecVec M) = .ok M' ∧
    (0 < M.h → 0 < M.w → M' = M) ∧ (M.h = 0 ∨ M.w = 0 → M'.h = 0 ∧ M'.w = 0) := by
  by_cases hh : M.h = 0
  · have : toVecVec M = [] := List.length_eq_zero_iff.mp (by rw [toVecVec_length, hh])
    rw [this]
    exact ⟨_, rfl, fun h => absurd hh (by omega), fun _ => ⟨rfl, rfl⟩⟩
  · have hne : toVecVec M ≠ [] := fun h => hh (by rw [← toVecVec_length, h]; rfl)
    have hrow : ∀ r ∈ toVecVec M, r.length = M.w := by
      intro r hr
      obtain ⟨i, hi, rfl⟩ := List.getElem_of_mem hr
      rw [toVecVec_getElem]; simp
    by_cases hw : M.w = 0
    · cases e : toVecVec M with
      | nil => exact absurd e hne
      | cons r0 rs =>
        have : r0 = [] := List.length_eq_zero_iff.mp (by rw [hrow r0 (by rw [e]; simp), hw])
        subst this
        exact ⟨_, toMFEM_emptyRow rs, fun _ h => absurd hw (by omega), fun _ => ⟨rfl, rfl⟩⟩
    · obtain ⟨M', h1, h2, h3, h4⟩ := toMFEM_rect (Nat.pos_of_ne_zero hw) hne hrow
      refine ⟨M', h1, fun _ _ => ?_, fun h => by omega⟩
      obtain ⟨e1, e2, e3⟩ := toVecVec_eq_iff.mp h2
      exact DMat.ext_get e1 h4 e3

/-- **C42.** Reading back serialised parameters never fails, and gives equal parameters if and only if no
matrix has rows without columns; matrices with entries come back identical. -/
theorem C42_round_trip [Field 𝕜] [DecidableEq 𝕜] (p : PULParameters 𝕜) :
    ∃ q, PULParameters.ofJSON p.toJSON = .ok q ∧
      (p.eq q = true ↔ (p.C.w = 0 → p.C.h = 0) ∧ (p.L.w = 0 → p.L.h = 0)) ∧
      (0 < p.C.h → 0 < p.C.w → q.C = p.C) ∧ (0 < p.L.h → 0 < p.L.w → q.L = p.L) := by
  obtain ⟨C, c1, c2, c3⟩ := read_rows p.C
  obtain ⟨L, l1, l2, l3⟩ := read_rows p.L
  refine ⟨⟨L, C⟩, by rw [ofJSON_toJSON, c1, l1]; rfl, ?_, c2, l2⟩
  have key : ∀ M M' : DMat 𝕜, (0 < M.h → 0 < M.w → M' = M) → (M.h = 0 ∨ M.w = 0 → M'.h = 0 ∧ M'.w = 0) →
      (toVecVec M = toVecVec M' ↔ (M.w = 0 → M.h = 0)) := by
    intro M M' h1 h2
    constructor
    · intro h hw
      have := (toVecVec_eq_iff.mp h).1
      rw [this, (h2 (Or.inr hw)).1]
    · intro h
      by_cases hh : M.h = 0
      · have e := h2 (Or.inl hh)
        exact toVecVec_eq_iff.mpr ⟨by omega, by omega, by omega⟩
      · have hw : M.w ≠ 0 := fun hw => hh (h hw)
        rw [h1 (by omega) (by omega)]
  unfold PULParameters.eq
  rw [Bool.and_eq_true, decide_eq_true_eq, decide_eq_true_eq, key _ _ c2 c3, key _ _ l2 l3]

/-! ## C44 -/

theorem eqLoop_true [DecidableEq 𝕜] (rhs : SMap Int 𝕜) : ∀ (m : SMap Int 𝕜) (res : Bool),
    FieldReconstruction.eqLoop rhs m res = true ↔
      res = true ∧ ∀ kv ∈ m, rhs.find? kv.1 = some kv.2
  | [], res => by simp [FieldReconstruction.eqLoop]
  | (k, v) :: t, res => by
    rw [FieldReconstruction.eqLoop]
    cases h : rhs.find? k with
    | none =>
      simp only [Bool.false_eq_true, false_iff, not_and, not_forall]
      intro _
      exact ⟨(k, v), by simp, by simp [h]⟩
    | some w =>
      simp only
      rw [eqLoop_true rhs t]
      simp only [Bool.and_eq_true, decide_eq_true_eq, List.mem_cons, forall_eq_or_imp, h, Option.some.injEq]
      constructor
      · rintro ⟨⟨h1, h2⟩, h3⟩; exact ⟨h1, h2.symm, h3⟩
      · rintro ⟨h1, h2, h3⟩; exact ⟨⟨h1, h2.symm⟩, h3⟩

theorem map_eq_of_find {m n : SMap Int 𝕜} (hm : SMap.Sorted m) (hn : SMap.Sorted n) (hl : m.length = n.length)
    (h : ∀ kv ∈ m, n.find? kv.1 = some kv.2) : m = n := by
  have hsub : ∀ x ∈ m, x ∈ n := fun x hx => SMap.mem_of_find? (h x hx)
  have hnd : m.Nodup := List.Nodup.of_map Prod.fst hm.keys_nodup
  have hperm : m.Perm n := (hnd.subperm hsub).perm_of_length_le (by omega)
  exact List.Perm.eq_of_pairwise (fun a b _ _ hab hba => absurd hab (lt_asymm hba)) hm hn hperm

/-- `operator==` on field reconstructions is equality. -/
theorem fieldReconstruction_eq [DecidableEq 𝕜] (a b : FieldReconstruction 𝕜)
    (ha : SMap.Sorted a.conductorPotentials) (hb : SMap.Sorted b.conductorPotentials) :
    a.eq b = true ↔ a = b := by
  obtain ⟨a1, ⟨a2, a3⟩, a4, a5⟩ := a
  obtain ⟨b1, ⟨b2, b3⟩, b4, b5⟩ := b
  unfold FieldReconstruction.eq
  simp only
  by_cases hl : a5.length = b5.length
  · rw [if_neg (by simpa using hl), eqLoop_true]
    simp only [Bool.and_eq_true, decide_eq_true_eq, FieldReconstruction.mk.injEq, Prod.mk.injEq]
    constructor
    · rintro ⟨⟨⟨⟨h1, h2⟩, h3⟩, h4⟩, h5⟩
      exact ⟨h1, ⟨h2, h3⟩, h4, map_eq_of_find ha hb hl h5⟩
    · rintro ⟨h1, ⟨h2, h3⟩, h4, h5⟩
      refine ⟨⟨⟨⟨h1, h2⟩, h3⟩, h4⟩, ?_⟩
      subst h5
      exact fun kv hkv => SMap.find?_of_mem hb hkv
  · rw [if_pos (by simpa using hl)]
    simp only [Bool.false_eq_true, FieldReconstruction.mk.injEq, false_iff, not_and]
    intro _ _ _ h
    exact hl (by rw [h])

theorem mapEq_iff [DecidableEq 𝕜] : ∀ (a b : SMap Int (FieldReconstruction 𝕜)),
    (∀ kv ∈ a, SMap.Sorted kv.2.conductorPotentials) → (∀ kv ∈ b, SMap.Sorted kv.2.conductorPotentials) →
    (InCellPotentials.mapEq a b = true ↔ a = b)
  | [], [], _, _ => by simp [InCellPotentials.mapEq]
  | [], _ :: _, _, _ => by simp [InCellPotentials.mapEq]
  | _ :: _, [], _, _ => by simp [InCellPotentials.mapEq]
  | (k, x) :: a, (k', y) :: b, ha, hb => by
    have ih := mapEq_iff a b (fun kv h => ha kv (by simp [h])) (fun kv h => hb kv (by simp [h]))
    unfold InCellPotentials.mapEq at *
    simp only [Bool.and_eq_true, decide_eq_true_eq, List.zip_cons_cons, List.all_cons, List.length_cons,
      Nat.add_right_cancel_iff, List.cons.injEq, Prod.mk.injEq] at *
    rw [← ih, fieldReconstruction_eq x y (ha (k, x) (by simp)) (hb (k', y) (by simp))]
    tauto

theorem sameMatrix_iff {A B : DMat 𝕜} : SameMatrix A B ↔ toVecVec A = toVecVec B := toVecVec_eq_iff.symm

/-- **C44.** `operator==` is equality of all components, for field reconstructions, in-cell potentials and
per-unit-length parameters; it is an equivalence relation. -/
theorem C44_equality [DecidableEq 𝕜] :
    (∀ a b : FieldReconstruction 𝕜, SMap.Sorted a.conductorPotentials → SMap.Sorted b.conductorPotentials →
      (a.eq b = true ↔ a = b)) ∧
    (∀ a b : InCellPotentials 𝕜, MapsSorted a → MapsSorted b → (a.eq b = true ↔ a = b)) ∧
    (∀ a b : PULParameters 𝕜, a.eq b = true ↔ SameMatrix a.C b.C ∧ SameMatrix a.L b.L) ∧
    Equivalence (fun a b : PULParameters 𝕜 => a.eq b = true) := by
  have hpul : ∀ a b : PULParameters 𝕜, a.eq b = true ↔ toVecVec a.C = toVecVec b.C ∧ toVecVec a.L = toVecVec b.L := by
    intro a b
    unfold PULParameters.eq
    rw [Bool.and_eq_true, decide_eq_true_eq, decide_eq_true_eq]
  refine ⟨fun a b ha hb => fieldReconstruction_eq a b ha hb, ?_, ?_, ?_⟩
  · rintro ⟨⟨m1, x1⟩, e1, g1⟩ ⟨⟨m2, x2⟩, e2, g2⟩ ⟨_, _, h1, h2⟩ ⟨_, _, h3, h4⟩
    have he := mapEq_iff e1 e2 h1 h3
    have hg := mapEq_iff g1 g2 h2 h4
    have hb : (Box.eq ⟨m1, x1⟩ ⟨m2, x2⟩ : Bool) = true ↔ m1 = m2 ∧ x1 = x2 := by
      unfold Box.eq; simp
    unfold InCellPotentials.eq
    simp only [InCellPotentials.mk.injEq, Box.mk.injEq]
    rw [← hb, ← he, ← hg]
    cases Box.eq ⟨m1, x1⟩ ⟨m2, x2⟩ <;> cases InCellPotentials.mapEq e1 e2 <;>
      cases InCellPotentials.mapEq g1 g2 <;> simp
  · intro a b
    rw [hpul, sameMatrix_iff, sameMatrix_iff]
  · constructor
    · intro a; exact (hpul a a).mpr ⟨rfl, rfl⟩
    · intro a b h
      obtain ⟨h1, h2⟩ := (hpul a b).mp h
      exact (hpul b a).mpr ⟨h1.symm, h2.symm⟩
    · intro a b c h h'
      obtain ⟨h1, h2⟩ := (hpul a b).mp h
      obtain ⟨h3, h4⟩ := (hpul b c).mp h'
      exact (hpul a c).mpr ⟨h1.trans h3, h2.trans h4⟩

/-! ## C43 -/

open FieldReconstruction in
theorem field_round_trip [Field 𝕜] (f : FieldReconstruction 𝕜) :
    FieldReconstruction.ofJSON f.toJSON =
      .ok { f with conductorPotentials := withIds (SMap.vals f.conductorPotentials) 0 } := by
  unfold FieldReconstruction.ofJSON
  have h1 : f.toJSON.at_ "innerRegionAveragePotential" = .ok (.num f.innerRegionAveragePotential) := rfl
  have h2 : f.toJSON.at_ "expansionCenter" =
    .ok (.arr [.num f.expansionCenter.1, .num f.expansionCenter.2]) := rfl
  have h3 : f.toJSON.at_ "ab" = .ok (.arr (f.ab.map (fun p => .arr [.num p.1, .num p.2]))) := rfl
  have h4 : f.toJSON.at_ "conductorPotentials" =
    .ok (.arr (f.conductorPotentials.map (fun kv => .num kv.2))) := rfl
  rw [h1, h2, h3, h4]
  simp only [Outcome.ok_bind]
  have hab : FieldReconstruction.abFromJSON (.arr (f.ab.map (fun p => Json.arr [.num p.1, .num p.2]))) =
      .ok f.ab := by
    unfold FieldReconstruction.abFromJSON
    simp only [Json.values]
    rw [Json.convertAll_map _ (fun p : 𝕜 × 𝕜 => Json.arr [.num p.1, .num p.2]) id (fun _ => rfl), List.map_id]
  have hps : Json.convertAll Json.getDouble
      (Json.values (.arr (f.conductorPotentials.map (fun kv => Json.num kv.2)))) =
      .ok (SMap.vals f.conductorPotentials) :=
    Json.convertAll_map _ (fun kv : Int × 𝕜 => Json.num kv.2) Prod.snd (fun _ => rfl) _
  rw [hab, hps]
  simp only [Outcome.ok_bind, numbered_nil]
  rfl

open FieldReconstruction in
theorem keyed_iff {α : Type _} (m : SMap Int α) : KeyedFromZero m ↔ withIds (SMap.vals m) 0 = m := by
  have hlen : (SMap.vals m).length = m.length := by simp [SMap.vals]
  constructor
  · intro h
    apply map_ext
    · rw [withIds_keys, hlen, h]; simp
    · exact withIds_vals _ _
  · intro h
    have h2 := congrArg SMap.keys h
    rw [withIds_keys, hlen] at h2
    unfold KeyedFromZero
    rw [← h2]; simp

/-- The field with its conductors renumbered from 0. -/
def renumbered (f : FieldReconstruction 𝕜) : FieldReconstruction 𝕜 :=
  { f with conductorPotentials := FieldReconstruction.withIds (SMap.vals f.conductorPotentials) 0 }

open FieldReconstruction in
theorem potentials_round_trip [Field 𝕜] (m : SMap Int (FieldReconstruction 𝕜)) :
    potentialsFromJSON (.arr (m.map (fun kv => kv.2.toJSON))) =
      .ok (withIds ((SMap.vals m).map renumbered) 0) := by
  unfold potentialsFromJSON
  simp only [Json.values]
  rw [Json.convertAll_map _ (fun kv : Int × FieldReconstruction 𝕜 => kv.2.toJSON) (fun kv => renumbered kv.2)
    (fun kv => field_round_trip kv.2)]
  simp only [Outcome.ok_bind, numbered_nil]
  congr 2
  unfold SMap.vals
  rw [List.map_map]; rfl

open FieldReconstruction in
theorem restored_iff (m : SMap Int (FieldReconstruction 𝕜)) :
    m = withIds ((SMap.vals m).map renumbered) 0 ↔
      KeyedFromZero m ∧ ∀ kv ∈ m, KeyedFromZero kv.2.conductorPotentials := by
  have hmem : ∀ x, x ∈ SMap.vals m ↔ ∃ kv ∈ m, kv.2 = x := by
    intro x; unfold SMap.vals; rw [List.mem_map]
  constructor
  · intro h
    have hv : SMap.vals m = (SMap.vals m).map renumbered := by
      conv_lhs => rw [h]
      rw [withIds_vals]
    refine ⟨(keyed_iff m).mpr ?_, ?_⟩
    · rw [← hv] at h; exact h.symm
    · intro kv hkv
      have h1 : ∀ x ∈ SMap.vals m, renumbered x = x := by
        intro x hx
        have := List.map_inj_left.mp ((List.map_id (SMap.vals m)).trans hv) x hx
        exact this.symm
      have h2 := h1 kv.2 ((hmem _).mpr ⟨kv, hkv, rfl⟩)
      exact (keyed_iff _).mpr (congrArg FieldReconstruction.conductorPotentials h2)
  · rintro ⟨h1, h2⟩
    have hv : (SMap.vals m).map renumbered = SMap.vals m := by
      conv_rhs => rw [← List.map_id (SMap.vals m)]
      apply List.map_congr_left
      intro x hx
      obtain ⟨kv, hkv, rfl⟩ := (hmem x).mp hx
      unfold renumbered
      rw [(keyed_iff _).mp (h2 kv hkv)]
      rfl
    rw [hv]
    exact ((keyed_iff m).mp h1).symm

theorem withIds_sorted {α : Type _} (l : List α) : ∀ k : Int, SMap.Sorted (FieldReconstruction.withIds l k) := by
  induction l with
  | nil => intro k; exact List.Pairwise.nil
  | cons x xs ih =>
    intro k
    refine List.Pairwise.cons ?_ (ih (k + 1))
    intro y hy
    have hk : y.1 ∈ SMap.keys (FieldReconstruction.withIds xs (k + 1)) := List.mem_map.mpr ⟨y, hy, rfl⟩
    rw [FieldReconstruction.withIds_keys] at hk
    obtain ⟨n, _, hn⟩ := List.mem_map.mp hk
    show k < y.1
    omega

/-- **C43.** Reading back serialised in-cell potentials never fails, and gives the same results if and only
if all maps are keyed 0, 1, ..., n-1. -/
theorem C43_round_trip [Field 𝕜] [DecidableEq 𝕜] (p : InCellPotentials 𝕜) (hp : MapsSorted p) :
    ∃ q, InCellPotentials.ofJSON p.toJSON = .ok q ∧ (p.eq q = true ↔ AllKeyedFromZero p) ∧
      (AllKeyedFromZero p → q = p) := by
  have h1 : p.toJSON.at_ "innerRegionBox" = .ok (.obj
    [("max", .arr [.num p.innerRegionBox.max.1, .num p.innerRegionBox.max.2]),
      ("min", .arr [.num p.innerRegionBox.min.1, .num p.innerRegionBox.min.2])]) := rfl
  have h2 : p.toJSON.at_ "electric" = .ok (.arr (p.electric.map (fun kv => kv.2.toJSON))) := rfl
  have h3 : p.toJSON.at_ "magnetic" = .ok (.arr (p.magnetic.map (fun kv => kv.2.toJSON))) := rfl
  let q : InCellPotentials 𝕜 := ⟨p.innerRegionBox,
    FieldReconstruction.withIds ((SMap.vals p.electric).map renumbered) 0,
    FieldReconstruction.withIds ((SMap.vals p.magnetic).map renumbered) 0⟩
  have hq : InCellPotentials.ofJSON p.toJSON = .ok q := by
    unfold InCellPotentials.ofJSON
    rw [h1, h2, h3]
    simp only [Outcome.ok_bind, potentials_round_trip]
    rfl
  have hren : ∀ (m : SMap Int (FieldReconstruction 𝕜)), ∀ kv ∈ FieldReconstruction.withIds ((SMap.vals m).map renumbered) 0,
      SMap.Sorted kv.2.conductorPotentials := by
    intro m kv hkv
    have hv : kv.2 ∈ SMap.vals (FieldReconstruction.withIds ((SMap.vals m).map renumbered) 0) :=
      List.mem_map.mpr ⟨kv, hkv, rfl⟩
    rw [FieldReconstruction.withIds_vals] at hv
    obtain ⟨f, _, hf⟩ := List.mem_map.mp hv
    rw [← hf]
    exact withIds_sorted _ 0
  have hqs : MapsSorted q := ⟨withIds_sorted _ 0, withIds_sorted _ 0, hren _, hren _⟩
  have hiff : p = q ↔ AllKeyedFromZero p := by
    have e1 := restored_iff p.electric
    have e2 := restored_iff p.magnetic
    constructor
    · intro h
      have k1 := e1.mp (congrArg InCellPotentials.electric h)
      have k2 := e2.mp (congrArg InCellPotentials.magnetic h)
      exact ⟨k1.1, k2.1, k1.2, k2.2⟩
    · rintro ⟨a, b, c, d⟩
      show p = ⟨p.innerRegionBox, _, _⟩
      rw [← e1.mpr ⟨a, c⟩, ← e2.mpr ⟨b, d⟩]
  refine ⟨q, hq, ?_, fun h => (hiff.mpr h).symm⟩
  rw [C44_equality.2.1 p q hp hqs, hiff]

/-- C43 at work: keys 0, 1 survive, a map with the single key 1 comes back with key 0. -/
example : (∃ q, InCellPotentials.ofJSON (InCellPotentials.toJSON (𝕜 := ℚ)
      ⟨⟨(0, 0), (1, 1)⟩, [(1, ⟨1, (0, 0), [(1, 0)], [(0, 1)]⟩)], []⟩) = .ok q ∧
    q.electric = [(0, ⟨1, (0, 0), [(1, 0)], [(0, 1)]⟩)]) ∧
    AllKeyedFromZero (𝕜 := ℚ) ⟨⟨(0, 0), (1, 1)⟩, [(0, ⟨1, (0, 0), [(1, 0)], [(0, 1), (1, 2)]⟩)], []⟩ := by
  refine ⟨⟨_, rfl, rfl⟩, rfl, rfl, ?_, by simp⟩
  intro kv hkv
  obtain rfl := List.mem_singleton.mp hkv
  rfl

/-! ## C45 -/

theorem getDouble_ok [Field 𝕜] {j : Json 𝕜} {x : 𝕜} : j.getDouble = .ok x ↔ number? j = some x := by
  cases j <;> simp [Json.getDouble, number?]

theorem getDouble_cases [Field 𝕜] (j : Json 𝕜) : (∃ x, j.getDouble = .ok x) ∨ j.getDouble = .throw .json := by
  cases j <;> simp [Json.getDouble]

theorem convertAll_ok {α β : Type _} {g : α → Outcome β} : ∀ {l : List α} {r : List β},
    Json.convertAll g l = .ok r ↔ l.map g = r.map Outcome.ok
  | [], r => by
    cases r <;> simp [Json.convertAll]
  | a :: l, r => by
    rw [Json.convertAll]
    constructor
    · intro h
      obtain ⟨y, h1, h⟩ := Outcome.bind_eq_ok.mp h
      obtain ⟨ys, h2, h⟩ := Outcome.bind_eq_ok.mp h
      cases h
      rw [List.map_cons, List.map_cons, h1, convertAll_ok.mp h2]
    · intro h
      cases r with
      | nil => simp at h
      | cons y ys =>
        simp only [List.map_cons, List.cons.injEq] at h
        rw [h.1, convertAll_ok.mpr h.2]
        rfl

theorem convertAll_cases {α β : Type _} {g : α → Outcome β}
    (h : ∀ a, (∃ x, g a = .ok x) ∨ g a = .throw .json) :
    ∀ l, (∃ r, Json.convertAll g l = .ok r) ∨ Json.convertAll g l = .throw .json
  | [] => Or.inl ⟨_, rfl⟩
  | a :: l => by
    rw [Json.convertAll]
    rcases h a with ⟨x, hx⟩ | hx
    · rw [hx]
      rcases convertAll_cases h l with ⟨r, hr⟩ | hr
      · rw [hr]; exact Or.inl ⟨_, rfl⟩
      · rw [hr]; exact Or.inr rfl
    · rw [hx]; exact Or.inr rfl

theorem getVector_cases {α : Type _} {g : Json 𝕜 → Outcome α}
    (h : ∀ a, (∃ x, g a = .ok x) ∨ g a = .throw .json) (j : Json 𝕜) :
    (∃ r, j.getVector g = .ok r) ∨ j.getVector g = .throw .json := by
  cases j with
  | arr xs => exact convertAll_cases h xs
  | _ => exact Or.inr rfl

/-- Reading an array of arrays of numbers succeeds exactly on documents that are such arrays. -/
theorem rows_ok [Field 𝕜] {j : Json 𝕜} {v : List (List 𝕜)} :
    j.getVector (Json.getVector Json.getDouble) = .ok v ↔ DenotesRows j v := by
  have row : ∀ (a : Json 𝕜) (r : List 𝕜), a.getVector Json.getDouble = .ok r ↔
      ∃ xs : List (Json 𝕜), a = .arr xs ∧ xs.map number? = r.map some := by
    intro a r
    cases a with
    | arr xs =>
      show Json.convertAll Json.getDouble xs = .ok r ↔ _
      rw [convertAll_ok]
      constructor
      · intro h
        refine ⟨xs, rfl, ?_⟩
        apply List.ext_getElem?
        intro i
        have := congrArg (fun l => l[i]?) h
        simp only [List.getElem?_map] at *
        cases hx : xs[i]? <;> cases hr : r[i]? <;> rw [hx, hr] at this <;> simp at this ⊢
        exact getDouble_ok.mp this
      · rintro ⟨ys, e, h⟩
        cases e
        apply List.ext_getElem?
        intro i
        have := congrArg (fun l => l[i]?) h
        simp only [List.getElem?_map] at *
        cases hx : xs[i]? <;> cases hr : r[i]? <;> rw [hx, hr] at this <;> simp at this ⊢
        exact getDouble_ok.mpr this
    | _ => simp [Json.getVector]
  constructor
  · intro h
    cases j with
    | arr xs =>
      replace h : Json.convertAll (Json.getVector Json.getDouble) xs = .ok v := h
      rw [convertAll_ok] at h
      unfold DenotesRows
      induction xs generalizing v with
      | nil =>
        cases v with
        | nil => exact ⟨[], rfl, rfl⟩
        | cons _ _ => simp at h
      | cons a xs ih =>
        cases v with
        | nil => simp at h
        | cons r v =>
          simp only [List.map_cons, List.cons.injEq] at h
          obtain ⟨as, rfl, ha⟩ := (row a r).mp h.1
          obtain ⟨rows, e, hr⟩ := ih h.2
          refine ⟨as :: rows, ?_, ?_⟩
          · cases e; rfl
          · rw [List.map_cons, List.map_cons, ha, hr]
    | _ => simp [Json.getVector] at h
  · rintro ⟨rows, rfl, h⟩
    show Json.convertAll (Json.getVector Json.getDouble) (rows.map Json.arr) = .ok v
    rw [convertAll_ok]
    induction rows generalizing v with
    | nil =>
      cases v with
      | nil => rfl
      | cons _ _ => simp at h
    | cons as rows ih =>
      cases v with
      | nil => simp at h
      | cons r v =>
        simp only [List.map_cons, List.cons.injEq] at h ⊢
        exact ⟨(row _ r).mpr ⟨as, rfl, h.1⟩, ih h.2⟩

theorem hasRows_of {M : DMat 𝕜} {v : List (List 𝕜)} {m : Nat} (hr : ∀ r ∈ v, r.length = m)
    (h2 : toVecVec M = v) (hw : M.w = m) : HasRows M v := by
  subst h2
  refine ⟨(toVecVec_length M).symm, ?_⟩
  intro i hi
  have hi' : i < M.h := by rw [← toVecVec_length]; exact hi
  refine ⟨by rw [hr _ (List.getElem_mem hi), hw], ?_⟩
  intro j hj
  have hj' : j < M.w := by rw [hr _ (List.getElem_mem hi), ← hw] at hj; exact hj
  rw [DMat.get_ok hi' hj']
  congr 1
  have e := toVecVec_getElem M i hi
  have := List.getElem_of_eq e hj
  rw [this]; simp

/-- What reading one matrix does. -/
theorem matrix_read [Field 𝕜] (v : List (List 𝕜)) :
    (Rectangular v → (∀ r ∈ v, r ≠ []) → ∃ M, toMFEMDenseMatrix v = .ok M ∧ HasRows M v) ∧
    (v.head? = some [] → toMFEMDenseMatrix v = .ok (DMat.zero 0 0)) ∧
    (v.head? ≠ some [] → ¬ Rectangular v →
      toMFEMDenseMatrix v = .throw (.runtimeError "vec-vec matrix is not square.")) := by
  refine ⟨?_, ?_, ?_⟩
  · intro hrect hne
    cases v with
    | nil =>
      exact ⟨DMat.zero 0 0, rfl, rfl, fun i hi => absurd hi (by simp)⟩
    | cons r0 rs =>
      have hr : ∀ r ∈ r0 :: rs, r.length = r0.length := fun r h => hrect r h r0 (by simp)
      obtain ⟨M, h1, h2, h3, h4⟩ := toMFEM_rect (List.length_pos_iff.mpr (hne r0 (by simp))) (by simp) hr
      exact ⟨M, h1, hasRows_of hr h2 h4⟩
  · intro h
    cases v with
    | nil => simp at h
    | cons r0 rs =>
      simp only [List.head?_cons, Option.some.injEq] at h
      subst h; rfl
  · intro h hnr
    cases v with
    | nil => exact absurd (fun r hr => by simp at hr) hnr
    | cons r0 rs =>
      simp only [List.head?_cons, ne_eq, Option.some.injEq] at h
      apply toMFEM_ragged h
      by_contra hc
      push Not at hc
      apply hnr
      intro r hr s hs
      rw [hc r hr, hc s hs]

/-- **C45, what holds.** Without member C or L reading throws; if a member is not an array of arrays of
numbers it throws; if both are, with non-empty rows of one length each, the matrices have exactly the entries
of the document; if C's first row is not empty and its rows differ in length it throws, and likewise for L. -/
theorem C45_reading_partial [Field 𝕜] (j : Json 𝕜) :
    ((∀ x, j.at_ "C" ≠ .ok x) ∨ (∀ x, j.at_ "L" ≠ .ok x) →
      PULParameters.ofJSON j = .throw (.runtimeError "JSON does not contain C and/or L.")) ∧
    ∀ jC jL, j.at_ "C" = .ok jC → j.at_ "L" = .ok jL →
      ((∀ v, ¬ DenotesRows jC v) → PULParameters.ofJSON j = .throw .json) ∧
      ∀ vC, DenotesRows jC vC →
        (vC.head? ≠ some [] → ¬ Rectangular vC →
          PULParameters.ofJSON j = .throw (.runtimeError "vec-vec matrix is not square.")) ∧
        (Rectangular vC → (∀ r ∈ vC, r ≠ []) →
          ((∀ v, ¬ DenotesRows jL v) → PULParameters.ofJSON j = .throw .json) ∧
          ∀ vL, DenotesRows jL vL →
            (vL.head? ≠ some [] → ¬ Rectangular vL →
              PULParameters.ofJSON j = .throw (.runtimeError "vec-vec matrix is not square.")) ∧
            (Rectangular vL → (∀ r ∈ vL, r ≠ []) →
              ∃ p, PULParameters.ofJSON j = .ok p ∧ HasRows p.C vC ∧ HasRows p.L vL)) := by
  have keyOf : ∀ k, j.hasKey k = true ↔ ∃ x, j.at_ k = .ok x := by
    intro k
    cases j with
    | obj fs =>
      simp only [Json.hasKey, Json.at_, SMap.contains]
      cases SMap.find? fs k <;> simp
    | _ => simp [Json.hasKey, Json.at_]
  have rowsFail : ∀ x : Json 𝕜, (∀ v, ¬ DenotesRows x v) →
      x.getVector (Json.getVector Json.getDouble) = .throw .json := by
    intro x hx
    rcases getVector_cases (fun a => getVector_cases (getDouble_cases (𝕜 := 𝕜)) a) x with ⟨r, hr⟩ | h
    · exact absurd (rows_ok.mp hr) (hx r)
    · exact h
  constructor
  · intro h
    unfold PULParameters.ofJSON
    rw [if_pos]
    rw [Bool.or_eq_true]
    rcases h with h | h
    · left
      have : ¬ j.hasKey "C" = true := fun hk => by obtain ⟨x, hx⟩ := (keyOf "C").mp hk; exact h x hx
      simpa using this
    · right
      have : ¬ j.hasKey "L" = true := fun hk => by obtain ⟨x, hx⟩ := (keyOf "L").mp hk; exact h x hx
      simpa using this
  · intro jC jL hC hL
    have hkC : j.hasKey "C" = true := (keyOf "C").mpr ⟨_, hC⟩
    have hkL : j.hasKey "L" = true := (keyOf "L").mpr ⟨_, hL⟩
    have hread : PULParameters.ofJSON j = (do
        let vc ← jC.getVector (Json.getVector Json.getDouble)
        let C ← toMFEMDenseMatrix vc
        let vl ← jL.getVector (Json.getVector Json.getDouble)
        let L ← toMFEMDenseMatrix vl
        Outcome.ok { L := L, C := C }) := by
      unfold PULParameters.ofJSON
      rw [hkC, hkL, hC, hL]
      simp
    rw [hread]
    refine ⟨fun h => by rw [rowsFail jC h]; rfl, ?_⟩
    intro vC hvC
    rw [rows_ok.mpr hvC]
    obtain ⟨m1, m2, m3⟩ := matrix_read vC
    refine ⟨fun h1 h2 => by rw [Outcome.ok_bind, m3 h1 h2]; rfl, ?_⟩
    intro h1 h2
    obtain ⟨C, e, hC'⟩ := m1 h1 h2
    rw [Outcome.ok_bind, e, Outcome.ok_bind]
    refine ⟨fun h => by rw [rowsFail jL h]; rfl, ?_⟩
    intro vL hvL
    rw [rows_ok.mpr hvL]
    obtain ⟨n1, n2, n3⟩ := matrix_read vL
    refine ⟨fun h1 h2 => by rw [Outcome.ok_bind, n3 h1 h2]; rfl, ?_⟩
    intro k1 k2
    obtain ⟨L, e', hL'⟩ := n1 k1 k2
    exact ⟨⟨L, C⟩, by rw [Outcome.ok_bind, e']; rfl, hC', hL'⟩

theorem hasRows_unique {v : List (List 𝕜)} (hv : v ≠ []) {M N : DMat 𝕜} (hM : HasRows M v) (hN : HasRows N v) : M = N := by
  obtain ⟨h, w, f⟩ := M
  obtain ⟨h', w', f'⟩ := N
  obtain ⟨m1, m2⟩ := hM
  obtain ⟨n1, n2⟩ := hN
  simp only at m1 n1
  have e1 : h = h' := m1.trans n1.symm
  have hpos : 0 < v.length := List.length_pos_iff.mpr hv
  have e2 : w = w' := (m2 0 hpos).1.trans (n2 0 hpos).1.symm
  subst e1 e2
  congr 1
  funext i j
  have hi : i.1 < v.length := m1 ▸ i.2
  have hw := (m2 i.1 hi).1
  have hj : j.1 < v[i.1].length := hw ▸ j.2
  have a := (m2 i.1 hi).2 j.1 hj
  have b := (n2 i.1 hi).2 j.1 hj
  rw [← b] at a
  simpa [DMat.get] using a

theorem matrix_iff [Field 𝕜] (v : List (List 𝕜)) :
    (∀ M, toMFEMDenseMatrix v = .ok M ↔ ReadAs v M) ∧
    ((∀ M, ¬ ReadAs v M) → ∃ e, toMFEMDenseMatrix v = .throw e) := by
  obtain ⟨m1, m2, m3⟩ := matrix_read v
  have hz : ∀ M : DMat 𝕜, M.h = 0 ∧ M.w = 0 ↔ DMat.zero 0 0 = M := by
    rintro ⟨h, w, f⟩
    constructor
    · rintro ⟨rfl, rfl⟩
      unfold DMat.zero
      congr 1
      funext i
      exact i.elim0
    · intro e; rw [← e]; exact ⟨rfl, rfl⟩
  by_cases h0 : v.head?.getD [] = []
  · have e : toMFEMDenseMatrix v = .ok (DMat.zero 0 0) := by
      cases v with
      | nil => rfl
      | cons r t => exact m2 (by simpa using h0)
    have hr : ∀ M, ReadAs v M ↔ DMat.zero 0 0 = M := by
      intro M
      unfold ReadAs
      rw [← hz]
      simp [h0]
    refine ⟨fun M => ?_, fun hno => absurd ((hr _).mpr rfl) (hno _)⟩
    rw [e, hr]
    simp
  · have hh : v.head? ≠ some [] := fun h => h0 (by rw [h]; rfl)
    have hv : v ≠ [] := by rintro rfl; exact h0 rfl
    by_cases hrect : Rectangular v
    · have hne : ∀ r ∈ v, r ≠ [] := by
        intro r hr he
        obtain ⟨a, t, rfl⟩ := List.exists_cons_of_ne_nil hv
        have := hrect a (by simp) r hr
        rw [he] at this
        exact h0 (List.length_eq_zero_iff.mp this)
      obtain ⟨N, e, hN⟩ := m1 hrect hne
      have hr : ReadAs v N := Or.inr ⟨h0, hrect, hN⟩
      refine ⟨fun M => ?_, fun hno => absurd hr (hno N)⟩
      rw [e]
      constructor
      · intro he; cases he; exact hr
      · rintro (⟨h, _⟩ | ⟨_, _, hM⟩)
        · exact absurd h h0
        · rw [hasRows_unique hv hN hM]
    · have e := m3 hh hrect
      refine ⟨fun M => ?_, fun _ => ⟨_, e⟩⟩
      rw [e]
      constructor
      · intro he; cases he
      · rintro (⟨h, _⟩ | ⟨_, h, _⟩)
        · exact absurd h h0
        · exact absurd h hrect

/-- **C45, exactly what is accepted** (partial: more than the property allows). Reading gives `p` exactly when the
document has members C and L that are arrays of arrays of numbers, read as the matrices of `p`: rows of one length are
read as they are, but if there is no row or the first one is empty, the matrix is empty whatever else there is. In all
other cases reading throws. -/
theorem C45_exact_partial [Field 𝕜] (j : Json 𝕜) :
    (∀ p, PULParameters.ofJSON j = .ok p ↔ ∃ jC jL vC vL, j.at_ "C" = .ok jC ∧ j.at_ "L" = .ok jL ∧
      DenotesRows jC vC ∧ DenotesRows jL vL ∧ ReadAs vC p.C ∧ ReadAs vL p.L) ∧
    ((∀ p, PULParameters.ofJSON j ≠ .ok p) → ∃ e, PULParameters.ofJSON j = .throw e) := by
  obtain ⟨hmiss, hread⟩ := C45_reading_partial j
  by_cases hk : (∀ x, j.at_ "C" ≠ .ok x) ∨ (∀ x, j.at_ "L" ≠ .ok x)
  · have e := hmiss hk
    refine ⟨fun p => ?_, fun _ => ⟨_, e⟩⟩
    rw [e]
    constructor
    · intro h; cases h
    · rintro ⟨jC, jL, _, _, h1, h2, _⟩
      rcases hk with h | h
      · exact absurd h1 (h _)
      · exact absurd h2 (h _)
  · push Not at hk
    obtain ⟨⟨jC, hC⟩, jL, hL⟩ := hk
    have keyOf : ∀ k, (∃ x, j.at_ k = .ok x) → j.hasKey k = true := by
      intro k
      cases j with
      | obj fs =>
        simp only [Json.hasKey, Json.at_, SMap.contains]
        cases SMap.find? fs k <;> simp
      | _ => simp [Json.at_]
    have hd : PULParameters.ofJSON j = (do
        let vc ← jC.getVector (Json.getVector Json.getDouble)
        let C ← toMFEMDenseMatrix vc
        let vl ← jL.getVector (Json.getVector Json.getDouble)
        let L ← toMFEMDenseMatrix vl
        Outcome.ok { L := L, C := C }) := by
      unfold PULParameters.ofJSON
      rw [keyOf "C" ⟨_, hC⟩, keyOf "L" ⟨_, hL⟩, hC, hL]
      simp
    have rows : ∀ x : Json 𝕜, (∃ v, DenotesRows x v ∧ x.getVector (Json.getVector Json.getDouble) = .ok v) ∨
        ((∀ v, ¬ DenotesRows x v) ∧ x.getVector (Json.getVector Json.getDouble) = .throw .json) := by
      intro x
      rcases getVector_cases (fun a => getVector_cases (getDouble_cases (𝕜 := 𝕜)) a) x with ⟨r, hr⟩ | h
      · exact Or.inl ⟨r, rows_ok.mp hr, hr⟩
      · refine Or.inr ⟨fun v hv => ?_, h⟩
        rw [rows_ok.mpr hv] at h
        cases h
    have inj : ∀ (x : Json 𝕜) v v', DenotesRows x v → DenotesRows x v' → v = v' := by
      intro x v v' h h'
      have := (rows_ok.mpr h).symm.trans (rows_ok.mpr h')
      exact Outcome.ok.inj this
    have main : ∀ p, PULParameters.ofJSON j = .ok p ↔ ∃ vC vL, DenotesRows jC vC ∧ DenotesRows jL vL ∧ ReadAs vC p.C ∧ ReadAs vL p.L := by
      intro p
      rw [hd]
      rcases rows jC with ⟨vC, dC, eC⟩ | ⟨dC, eC⟩
      · rw [eC, Outcome.ok_bind]
        rcases hcm : toMFEMDenseMatrix vC with C | e | _ | _
        · rw [Outcome.ok_bind]
          rcases rows jL with ⟨vL, dL, eL⟩ | ⟨dL, eL⟩
          · rw [eL, Outcome.ok_bind]
            rcases hlm : toMFEMDenseMatrix vL with L | e | _ | _
            · rw [Outcome.ok_bind]
              constructor
              · intro h
                cases h
                exact ⟨vC, vL, dC, dL, ((matrix_iff vC).1 _).mp hcm, ((matrix_iff vL).1 _).mp hlm⟩
              · rintro ⟨vC', vL', dC', dL', r1, r2⟩
                cases inj _ _ _ dC dC'
                cases inj _ _ _ dL dL'
                have a := hcm.symm.trans (((matrix_iff vC).1 _).mpr r1)
                have b := hlm.symm.trans (((matrix_iff vL).1 _).mpr r2)
                cases a; cases b
                rfl
            all_goals
              constructor
              · intro h; cases h
              · rintro ⟨vC', vL', dC', dL', r1, r2⟩
                cases inj _ _ _ dL dL'
                have b := hlm.symm.trans (((matrix_iff vL).1 _).mpr r2)
                cases b
          · rw [eL]
            constructor
            · intro h; cases h
            · rintro ⟨vC', vL', dC', dL', r1, r2⟩; exact absurd dL' (dL _)
        all_goals
          constructor
          · intro h; cases h
          · rintro ⟨vC', vL', dC', dL', r1, r2⟩
            cases inj _ _ _ dC dC'
            have b := hcm.symm.trans (((matrix_iff vC).1 _).mpr r1)
            cases b
      · rw [eC]
        constructor
        · intro h; cases h
        · rintro ⟨vC', vL', dC', dL', r1, r2⟩; exact absurd dC' (dC _)
    refine ⟨fun p => ?_, fun hno => ?_⟩
    · rw [main]
      constructor
      · rintro ⟨vC, vL, h⟩; exact ⟨jC, jL, vC, vL, hC, hL, h⟩
      · rintro ⟨jC', jL', vC, vL, h1, h2, h⟩
        cases hC.symm.trans h1
        cases hL.symm.trans h2
        exact ⟨vC, vL, h⟩
    · rw [hd] at hno ⊢
      rcases rows jC with ⟨vC, dC, eC⟩ | ⟨dC, eC⟩
      · rw [eC, Outcome.ok_bind] at hno ⊢
        by_cases hc : ∃ C, ReadAs vC C
        · obtain ⟨C, hc⟩ := hc
          rw [((matrix_iff vC).1 C).mpr hc, Outcome.ok_bind] at hno ⊢
          rcases rows jL with ⟨vL, dL, eL⟩ | ⟨dL, eL⟩
          · rw [eL, Outcome.ok_bind] at hno ⊢
            by_cases hl : ∃ L, ReadAs vL L
            · obtain ⟨L, hl⟩ := hl
              rw [((matrix_iff vL).1 L).mpr hl, Outcome.ok_bind] at hno
              exact absurd rfl (hno _)
            · push Not at hl
              obtain ⟨e, he⟩ := (matrix_iff vL).2 hl
              exact ⟨e, by rw [he]; rfl⟩
          · exact ⟨_, by rw [eL]; rfl⟩
        · push Not at hc
          obtain ⟨e, he⟩ := (matrix_iff vC).2 hc
          exact ⟨e, by rw [he]; rfl⟩
      · exact ⟨_, by rw [eC]; rfl⟩

/-- **C45 fails** when the first row is empty: rows of different lengths are accepted and the numbers in the
others are dropped. -/
theorem C45_refuted : ∃ p : PULParameters ℚ,
    DenotesRows (.arr [.arr [], .arr [.num 7]]) [[], [(7 : ℚ)]] ∧ ¬ Rectangular [[], [(7 : ℚ)]] ∧
    PULParameters.ofJSON (.obj [("C", .arr [.arr [], .arr [.num 7]]), ("L", .arr [.arr [.num 1]])]) = .ok p ∧
    p.C.h = 0 := by
  refine ⟨_, ⟨[[], [.num 7]], rfl, rfl⟩, ?_, rfl, rfl⟩
  intro h
  have := h [] (by simp) [7] (by simp)
  simp at this

/-- the last case of C45 is met by a document with a 1x2 and a 2x1 matrix; integers are read too -/
example : ∃ p : PULParameters ℚ, PULParameters.ofJSON
    (.obj [("C", .arr [.arr [.int 1, .num (1/2)]]), ("L", .arr [.arr [.num 3], .arr [.num 4]])]) = .ok p ∧
    p.C.get 0 1 = .ok (1/2) ∧ p.L.get 1 0 = .ok 4 := ⟨_, rfl, by decide +kernel, by decide +kernel⟩

/-! ## C46 -/

/-- **C46.** For a matrix with as many columns as rows or more and non-zero diagonal, coupling coefficient
(i,j) is C(i,j)/C(i,i); the diagonal is 1; scaling C by a non-zero factor changes nothing. -/
theorem C46_coupling [Field 𝕜] [DecidableEq 𝕜] (p : PULParameters 𝕜) (hsq : p.C.h ≤ p.C.w)
    (hd : ∀ i, i < p.C.h → ∃ x, x ≠ 0 ∧ p.C.get i i = .ok x) :
    ∃ r, p.getCapacitiveCouplingCoefficients = .ok r ∧ r.h = p.C.h ∧ r.w = p.C.w ∧
      (∀ i j x y, p.C.get i i = .ok x → p.C.get i j = .ok y → i < p.C.h → r.get i j = .ok (y / x)) ∧
      (∀ i, i < p.C.h → r.get i i = .ok 1) ∧
      ∀ c, c ≠ 0 → ({ p with C := p.C.smul c } : PULParameters 𝕜).getCapacitiveCouplingCoefficients = .ok r := by
  have main : ∀ (q : PULParameters 𝕜) (_ : q.C.h ≤ q.C.w), (∀ i, i < q.C.h → ∃ x, x ≠ 0 ∧ q.C.get i i = .ok x) →
      q.getCapacitiveCouplingCoefficients = .ok ⟨q.C.h, q.C.w, fun i j =>
        q.C.f i j / q.C.f i ⟨i.1, by omega⟩⟩ := by
    intro q hsq hd
    unfold PULParameters.getCapacitiveCouplingCoefficients
    have := fillLoop (n := q.C.h) (m := q.C.w) 0 0
      (fun i j => if h : i < q.C.h ∧ j < q.C.w then q.C.f ⟨i, h.1⟩ ⟨j, h.2⟩ / q.C.f ⟨i, h.1⟩ ⟨i, by omega⟩ else 0)
      (fun i j r => do
        let s ← q.C.get i i
        let x ← q.C.get i j
        let y ← divide x s
        r.set i j y)
      (by
        intro i j C hi hj
        rw [Nat.zero_add, Nat.zero_add]
        obtain ⟨x, hx, e⟩ := hd i hi
        rw [DMat.get_ok hi (by omega)] at e
        rw [DMat.get_ok hi (by omega), DMat.get_ok hi hj]
        cases e
        simp only [Outcome.ok_bind, divide, if_neg hx]
        rw [dif_pos ⟨hi, hj⟩])
      (fun _ _ => 0)
    have e : (fun (i : Fin q.C.h) (j : Fin q.C.w) => if h : i.1 < q.C.h ∧ j.1 < q.C.w then
        q.C.f ⟨i.1, h.1⟩ ⟨j.1, h.2⟩ / q.C.f ⟨i.1, h.1⟩ ⟨i.1, by omega⟩ else (0 : 𝕜)) =
        fun i j => q.C.f i j / q.C.f i ⟨i.1, by omega⟩ := by
      funext i j
      rw [dif_pos ⟨i.2, j.2⟩]
    rw [e] at this
    rw [← this]
    -- the code reads the diagonal once per row
    have hrow : ∀ (k i : Nat) (r : DMat 𝕜), k ≤ q.C.h → i + k = q.C.h →
        forRange (fun i r => do
          let selfC ← q.C.get i i
          forRange (fun j r => do
            let x ← q.C.get i j
            let y ← divide x selfC
            r.set i j y) 0 q.C.w r) i k r =
        forRange (fun i r => forRange (fun j r => do
          let s ← q.C.get i i
          let x ← q.C.get i j
          let y ← divide x s
          r.set i j y) 0 q.C.w r) i k r := by
      intro k
      induction k with
      | zero => intro i r _ _; rfl
      | succ k ih =>
        intro i r hk hi
        rw [forRange, forRange, DMat.get_ok (show i < q.C.h by omega) (show i < q.C.w by omega)]
        simp only [Outcome.ok_bind]
        congr 1
        funext r'
        exact ih (i + 1) r' (by omega) (by omega)
    exact hrow q.C.h 0 _ (le_refl _) (by omega)
  have hd' : ∀ i (hi : i < p.C.h), p.C.f ⟨i, hi⟩ ⟨i, by omega⟩ ≠ 0 := by
    intro i hi
    obtain ⟨x, hx, e⟩ := hd i hi
    rw [DMat.get_ok hi (by omega)] at e
    cases e; exact hx
  refine ⟨_, main p hsq hd, rfl, rfl, ?_, ?_, ?_⟩
  · intro i j x y hx hy hi
    rw [DMat.get_ok hi (by omega)] at hx
    by_cases hj : j < p.C.w
    · rw [DMat.get_ok hi hj] at hy
      cases hx; cases hy
      simp [DMat.get, hi, hj]
    · simp [DMat.get, hj] at hy
  · intro i hi
    simp [DMat.get, hi, show i < p.C.w by omega, div_self (hd' i hi)]
  · intro c hc
    rw [main { p with C := p.C.smul c } hsq (by
      intro i hi
      refine ⟨p.C.f ⟨i, hi⟩ ⟨i, lt_of_lt_of_le hi hsq⟩ * c, mul_ne_zero (hd' i hi) hc, ?_⟩
      rw [DMat.get_ok (A := p.C.smul c) hi (lt_of_lt_of_le hi hsq)]
      rfl)]
    have : (fun (i : Fin p.C.h) (j : Fin p.C.w) => p.C.f i j * c / (p.C.f i ⟨i.1, by omega⟩ * c)) =
        fun i j => p.C.f i j / p.C.f i ⟨i.1, by omega⟩ := by
      funext i j
      rw [mul_div_mul_right _ _ hc]
    show Outcome.ok (⟨p.C.h, p.C.w, fun (i : Fin p.C.h) (j : Fin p.C.w) =>
      p.C.f i j * c / (p.C.f i ⟨i.1, by omega⟩ * c)⟩ : DMat 𝕜) = _
    rw [this]

/-- a 2x2 matrix with non-zero diagonal -/
example : ∃ r : DMat ℚ, PULParameters.getCapacitiveCouplingCoefficients
    ⟨DMat.zero 0 0, ⟨2, 2, fun i j => if i = j then 2 else -1⟩⟩ = .ok r ∧ r.get 0 1 = .ok (-1/2) := by
  obtain ⟨r, h1, -, -, h2, -⟩ := C46_coupling
    (⟨DMat.zero 0 0, ⟨2, 2, fun i j => if i = j then 2 else -1⟩⟩ : PULParameters ℚ) (by decide) (by
      intro i hi
      have hi : i < 2 := hi
      refine ⟨2, by decide, ?_⟩
      interval_cases i <;> decide +kernel)
  exact ⟨r, h1, by rw [h2 0 1 2 (-1) (by decide +kernel) (by decide +kernel) (by decide)]⟩

end Tulip.Props
