import Verif.Spec.Parser
import Mathlib.Tactic.Ring
import Mathlib.Tactic.Linarith
import Mathlib.Data.List.TakeWhile

namespace Tulip
open Spec

theorem find?_iff_mem_of_unique {𝕜 : Type _} {fs : List (String × Json 𝕜)} (h : UniqueKeys fs)
    {k : String} {v : Json 𝕜} : SMap.find? fs k = some v ↔ (k, v) ∈ fs := by
  induction fs with
  | nil => simp
  | cons a t ih =>
    obtain ⟨k', v'⟩ := a
    unfold UniqueKeys at h
    rw [List.map_cons, List.nodup_cons] at h
    rw [SMap.find?_cons]
    by_cases e : k' = k
    · subst e
      simp only [if_true, Option.some.injEq, List.mem_cons, Prod.mk.injEq, true_and]
      constructor
      · rintro rfl; exact Or.inl rfl
      · rintro (rfl | hm)
        · rfl
        · exact absurd (List.mem_map_of_mem (f := Prod.fst) hm) h.1
    · rw [if_neg e, ih h.2]
      simp only [List.mem_cons, Prod.mk.injEq]
      constructor
      · exact Or.inr
      · rintro (⟨rfl, _⟩ | hm)
        · exact absurd rfl e
        · exact hm

theorem find?_none_iff {𝕜 : Type _} {fs : List (String × Json 𝕜)} (h : UniqueKeys fs)
    {k : String} : SMap.find? fs k = none ↔ ∀ v, (k, v) ∉ fs := by
  constructor
  · intro hn v hv
    rw [(find?_iff_mem_of_unique h).mpr hv] at hn; cases hn
  · intro hn
    cases hf : SMap.find? fs k with
    | none => rfl
    | some v => exact absurd ((find?_iff_mem_of_unique h).mp hf) (hn v)

section
variable {𝕜 : Type _} [Field 𝕜] [LinearOrder 𝕜] [IsStrictOrderedRing 𝕜] [FloorRing 𝕜]

theorem getInt_iff {v : Json 𝕜} (hr : ¬ TooLarge v) {t : Int} :
    v.getInt = .ok t ↔ IntValue v t := by
  cases v with
  | null => exact ⟨fun h => by simp [Json.getInt] at h, fun h => by cases h⟩
  | str s => exact ⟨fun h => by simp [Json.getInt] at h, fun h => by cases h⟩
  | arr s => exact ⟨fun h => by simp [Json.getInt] at h, fun h => by cases h⟩
  | obj s => exact ⟨fun h => by simp [Json.getInt] at h, fun h => by cases h⟩
  | bool b =>
    constructor
    · intro h
      cases b
      · simp [Json.getInt] at h; subst h; exact .false
      · simp [Json.getInt] at h; subst h; exact .true
    · intro h; cases h <;> rfl
  | int z =>
    simp only [TooLarge, not_or, not_lt] at hr
    have hw : Json.wrap32 z = z := by unfold Json.wrap32; omega
    simp only [Json.getInt, hw, Outcome.ok.injEq]
    constructor
    · rintro rfl; exact .int z hr.1 hr.2
    · intro h; cases h; rfl
  | num x =>
    simp only [TooLarge, not_or, not_le] at hr
    obtain ⟨hr1, hr2⟩ := hr
    simp only [Json.getInt, Json.truncToInt]
    by_cases hx : 0 ≤ x
    · rw [if_pos hx]
      have hfl : ⌊x⌋ ≤ 2147483647 := by
        rw [← Int.lt_add_one_iff]; rw [Int.floor_lt]; push_cast; linarith
      have hf0 : 0 ≤ ⌊x⌋ := Int.floor_nonneg.mpr hx
      rw [if_pos ⟨by omega, hfl⟩, Outcome.ok.injEq]
      constructor
      · rintro rfl
        exact .pos x _ hx (Int.floor_le x) (Int.lt_floor_add_one x) hfl
      · intro h
        cases h with
        | pos _ _ _ h1 h2 _ => exact Int.floor_eq_iff.mpr ⟨h1, h2⟩
        | neg _ _ h0 => exact absurd h0 (not_lt.mpr hx)
    · rw [if_neg hx]
      have hx' := not_le.mp hx
      have hc0 : ⌈x⌉ ≤ 0 := Int.ceil_le.mpr (by simpa using hx'.le)
      have hcl : -2147483648 ≤ ⌈x⌉ := by
        have : (-2147483649 : Int) < ⌈x⌉ := by rw [Int.lt_ceil]; push_cast; linarith
        omega
      rw [if_pos ⟨hcl, by omega⟩, Outcome.ok.injEq]
      constructor
      · rintro rfl
        exact .neg x _ hx' (Int.le_ceil x) (Int.ceil_lt_add_one x) hcl
      · intro h
        cases h with
        | pos _ _ h0 => exact absurd h0 hx
        | neg _ _ _ h1 h2 _ => exact Int.ceil_eq_iff.mpr ⟨by linarith, h1⟩

/-- On usable-size numbers `getInt` either returns or throws. -/
theorem getInt_total {v : Json 𝕜} (hr : ¬ TooLarge v) :
    (∃ t, v.getInt = .ok t) ∨ ∃ e, v.getInt = .throw e := by
  cases v with
  | null => exact Or.inr ⟨_, rfl⟩
  | str s => exact Or.inr ⟨_, rfl⟩
  | arr s => exact Or.inr ⟨_, rfl⟩
  | obj s => exact Or.inr ⟨_, rfl⟩
  | bool b => exact Or.inl ⟨_, rfl⟩
  | int z => exact Or.inl ⟨_, rfl⟩
  | num x =>
    left
    by_cases hx : 0 ≤ x
    · refine ⟨⌊x⌋, (getInt_iff hr).mpr ?_⟩
      simp only [TooLarge, not_or, not_le] at hr
      refine .pos x _ hx (Int.floor_le x) (Int.lt_floor_add_one x) ?_
      rw [← Int.lt_add_one_iff]; rw [Int.floor_lt]; push_cast; linarith
    · refine ⟨⌈x⌉, (getInt_iff hr).mpr ?_⟩
      simp only [TooLarge, not_or, not_le] at hr
      refine .neg x _ (not_le.mp hx) (Int.le_ceil x) (Int.ceil_lt_add_one x) ?_
      have : (-2147483649 : Int) < ⌈x⌉ := by rw [Int.lt_ceil]; push_cast; linarith
      omega

omit [LinearOrder 𝕜] [IsStrictOrderedRing 𝕜] [FloorRing 𝕜] in
theorem getDouble_iff {v : Json 𝕜} {x : 𝕜} : v.getDouble = .ok x ↔ NumberValue v x := by
  cases v with
  | null => exact ⟨fun h => by simp [Json.getDouble] at h, fun h => by cases h⟩
  | str s => exact ⟨fun h => by simp [Json.getDouble] at h, fun h => by cases h⟩
  | arr s => exact ⟨fun h => by simp [Json.getDouble] at h, fun h => by cases h⟩
  | obj s => exact ⟨fun h => by simp [Json.getDouble] at h, fun h => by cases h⟩
  | bool b => exact ⟨fun h => by simp [Json.getDouble] at h, fun h => by cases h⟩
  | int z =>
    simp only [Json.getDouble, Outcome.ok.injEq]
    exact ⟨fun h => h ▸ .int z, fun h => by cases h; rfl⟩
  | num z =>
    simp only [Json.getDouble, Outcome.ok.injEq]
    exact ⟨fun h => h ▸ .num z, fun h => by cases h; rfl⟩

omit [LinearOrder 𝕜] [IsStrictOrderedRing 𝕜] [FloorRing 𝕜] in
theorem getDouble_total (v : Json 𝕜) :
    (∃ t, v.getDouble = .ok t) ∨ ∃ e, v.getDouble = .throw e := by
  cases v <;> simp [Json.getDouble]

omit [Field 𝕜] [LinearOrder 𝕜] [IsStrictOrderedRing 𝕜] [FloorRing 𝕜] in
theorem getString_iff {v : Json 𝕜} {s : String} : v.getString = .ok s ↔ v = .str s := by
  cases v <;> simp [Json.getString]

omit [Field 𝕜] [LinearOrder 𝕜] [IsStrictOrderedRing 𝕜] [FloorRing 𝕜] in
theorem getBool_iff {v : Json 𝕜} {s : Bool} : v.getBool = .ok s ↔ v = .bool s := by
  cases v <;> simp [Json.getBool]

/-- Result of adding one material. -/
def addMaterial (m : Materials 𝕜) : AnyMaterial 𝕜 → Materials 𝕜
  | .pec p => { m with pecs := m.pecs ++ [p] }
  | .openBoundary p => { m with openBoundaries := m.openBoundaries ++ [p] }
  | .dielectric p => { m with dielectrics := m.dielectrics ++ [p] }

/-- Entry objects have unique keys and tags that are not out of the range of `int`. -/
def GoodEntry (v : Json 𝕜) : Prop :=
  ∀ fs, v = .obj fs → UniqueKeys fs ∧ ∀ t, ("tag", t) ∈ fs → ¬ TooLarge t

theorem readMaterial_spec (res : Materials 𝕜) (name : String) {v : Json 𝕜} (hg : GoodEntry v) :
    (∀ d, Denotes name v d → readMaterial res name v = .ok (addMaterial res d)) ∧
    ((¬ ∃ d, Denotes name v d) → ∃ e, readMaterial res name v = .throw e) := by
  cases v with
  | null => exact ⟨fun d h => (by cases h), fun _ => ⟨_, rfl⟩⟩
  | str s => exact ⟨fun d h => (by cases h), fun _ => ⟨_, rfl⟩⟩
  | arr s => exact ⟨fun d h => (by cases h), fun _ => ⟨_, rfl⟩⟩
  | bool s => exact ⟨fun d h => (by cases h), fun _ => ⟨_, rfl⟩⟩
  | int s => exact ⟨fun d h => (by cases h), fun _ => ⟨_, rfl⟩⟩
  | num s => exact ⟨fun d h => (by cases h), fun _ => ⟨_, rfl⟩⟩
  | obj fs =>
    obtain ⟨hu, htag⟩ := hg fs rfl
    have F : ∀ {k v}, (k, v) ∈ fs → SMap.find? fs k = some v :=
      fun h => (find?_iff_mem_of_unique hu).mpr h
    constructor
    · intro d hd
      cases hd with
      | pecNoArea h1 h2 h3 h4 =>
        simp [readMaterial, Json.at_, F h1, F h2, Json.getString, materialTypeOfLabel,
          (getInt_iff (htag _ h2)).mpr h3, Json.valueDouble, (find?_none_iff hu).mpr h4, addMaterial]
      | pecArea h1 h2 h3 h4 h5 =>
        simp [readMaterial, Json.at_, F h1, F h2, F h4, Json.getString, materialTypeOfLabel,
          (getInt_iff (htag _ h2)).mpr h3, Json.valueDouble, getDouble_iff.mpr h5, addMaterial,
          div_eq_mul_inv]
        norm_num
      | openBoundary h1 h2 h3 =>
        simp [readMaterial, Json.at_, F h1, F h2, Json.getString, materialTypeOfLabel,
          (getInt_iff (htag _ h2)).mpr h3, addMaterial]
      | vacuum h1 h2 h3 =>
        simp [readMaterial, Json.at_, F h1, F h2, Json.getString, materialTypeOfLabel,
          (getInt_iff (htag _ h2)).mpr h3, addMaterial]
      | dielectric h1 h2 h3 h4 h5 =>
        simp [readMaterial, Json.at_, F h1, F h2, F h4, Json.getString, materialTypeOfLabel,
          (getInt_iff (htag _ h2)).mpr h3, getDouble_iff.mpr h5, addMaterial]
    · intro hno
      cases ht : SMap.find? fs "type" with
      | none => exact ⟨.json, by simp [readMaterial, Json.at_, ht]⟩
      | some tv =>
        have htm := (find?_iff_mem_of_unique hu).mp ht
        cases hs : tv.getString with
        | throw e => exact ⟨e, by simp [readMaterial, Json.at_, ht, hs]⟩
        | ub => cases tv <;> simp [Json.getString] at hs
        | nonfinite => cases tv <;> simp [Json.getString] at hs
        | ok label =>
          have htv := getString_iff.mp hs
          subst htv
          cases hl : materialTypeOfLabel label with
          | throw e => exact ⟨e, by simp [readMaterial, Json.at_, ht, hs, hl]⟩
          | ub => simp only [materialTypeOfLabel] at hl; split_ifs at hl
          | nonfinite => simp only [materialTypeOfLabel] at hl; split_ifs at hl
          | ok ty =>
            cases ha : SMap.find? fs "tag" with
            | none => exact ⟨.json, by simp [readMaterial, Json.at_, ht, hs, hl, ha]⟩
            | some av =>
              have ham := (find?_iff_mem_of_unique hu).mp ha
              rcases getInt_total (htag _ ham) with ⟨t, hi⟩ | ⟨e, hi⟩
              · have hiv := (getInt_iff (htag _ ham)).mp hi
                cases ty with
                | PEC =>
                  have : label = "PEC" := by
                    simp only [materialTypeOfLabel] at hl; split_ifs at hl <;> simp_all
                  subst this
                  cases hr : SMap.find? fs "area" with
                  | none =>
                    exact absurd ⟨_, .pecNoArea htm ham hiv ((find?_none_iff hu).mp hr)⟩ hno
                  | some w =>
                    have hwm := (find?_iff_mem_of_unique hu).mp hr
                    rcases getDouble_total w with ⟨x, hx⟩ | ⟨e, hx⟩
                    · exact absurd ⟨_, .pecArea htm ham hiv hwm (getDouble_iff.mp hx)⟩ hno
                    · exact ⟨e, by simp [readMaterial, Json.at_, ht, hs, hl, ha, hi, hr, hx,
                        Json.valueDouble]⟩
                | OpenBoundary =>
                  have : label = "OpenBoundary" := by
                    simp only [materialTypeOfLabel] at hl; split_ifs at hl <;> simp_all
                  subst this
                  exact absurd ⟨_, .openBoundary htm ham hiv⟩ hno
                | Vacuum =>
                  have : label = "Vacuum" := by
                    simp only [materialTypeOfLabel] at hl; split_ifs at hl <;> simp_all
                  subst this
                  exact absurd ⟨_, .vacuum htm ham hiv⟩ hno
                | Dielectric =>
                  have : label = "Dielectric" := by
                    simp only [materialTypeOfLabel] at hl; split_ifs at hl <;> simp_all
                  subst this
                  cases hr : SMap.find? fs "eps_r" with
                  | none => exact ⟨.json, by simp [readMaterial, Json.at_, ht, hs, hl, ha, hi, hr]⟩
                  | some w =>
                    have hwm := (find?_iff_mem_of_unique hu).mp hr
                    rcases getDouble_total w with ⟨x, hx⟩ | ⟨e, hx⟩
                    · exact absurd ⟨_, .dielectric htm ham hiv hwm (getDouble_iff.mp hx)⟩ hno
                    · exact ⟨e, by simp [readMaterial, Json.at_, ht, hs, hl, ha, hi, hr, hx]⟩
              · exact ⟨e, by simp [readMaterial, Json.at_, ht, hs, hl, ha, hi]⟩

omit [Field 𝕜] [LinearOrder 𝕜] [IsStrictOrderedRing 𝕜] [FloorRing 𝕜] in
theorem addMaterial_collect (ds : List (AnyMaterial 𝕜)) (d : AnyMaterial 𝕜) :
    addMaterial (collect ds) d = collect (ds ++ [d]) := by
  cases d <;> simp [addMaterial, collect]

theorem readMaterialsLoop_spec (fs : List (String × Json 𝕜)) (hg : ∀ kv ∈ fs, GoodEntry kv.2)
    (ds0 : List (AnyMaterial 𝕜)) :
    (∀ ds, List.Forall₂ (fun kv d => Denotes kv.1 kv.2 d) fs ds →
      readMaterialsLoop fs (collect ds0) = .ok (collect (ds0 ++ ds))) ∧
    ((∃ kv ∈ fs, ¬ ∃ d, Denotes kv.1 kv.2 d) →
      ∃ e, readMaterialsLoop fs (collect ds0) = .throw e) := by
  induction fs generalizing ds0 with
  | nil =>
    constructor
    · intro ds h; cases h; simp [readMaterialsLoop]
    · rintro ⟨_, h, _⟩; simp at h
  | cons a t ih =>
    obtain ⟨name, v⟩ := a
    obtain ⟨hok, hno⟩ := readMaterial_spec (collect ds0) name (hg (name, v) (by simp))
    have ih' := fun ds0 => ih (fun kv h => hg kv (List.mem_cons_of_mem _ h)) ds0
    constructor
    · intro ds h
      cases h with
      | cons h1 h2 =>
        rename_i d ds'
        simp only [readMaterialsLoop, hok d h1, Outcome.ok_bind, addMaterial_collect]
        rw [(ih' (ds0 ++ [d])).1 ds' h2]; simp
    · intro h
      by_cases hd : ∃ d, Denotes name v d
      · obtain ⟨d, hd⟩ := hd
        obtain ⟨kv, hm, hkv⟩ := h
        rcases List.mem_cons.mp hm with rfl | hm
        · exact absurd ⟨d, hd⟩ hkv
        · simp only [readMaterialsLoop, hok d hd, Outcome.ok_bind, addMaterial_collect]
          exact (ih' (ds0 ++ [d])).2 ⟨kv, hm, hkv⟩
      · obtain ⟨e, he⟩ := hno hd
        exact ⟨e, by simp [readMaterialsLoop, he]⟩

end
end Tulip
