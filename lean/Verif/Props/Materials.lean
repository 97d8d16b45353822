import Mathlib.Data.Finset.Card
import Verif.Proofs.Materials
import Mathlib.Data.List.TakeWhile

/-!
# C09–C12: material names, lookups and the filter of the Model constructor
-/

namespace Tulip.Props
open Tulip Tulip.Spec

theorem afterUnderscore_append {p s : List Char} (hp : '_' ∉ p) :
    afterUnderscore (p ++ '_' :: s) = s := by
  unfold afterUnderscore
  have : (p ++ '_' :: s).dropWhile (fun c => decide (c ≠ '_')) = '_' :: s := by
    rw [List.dropWhile_append_of_pos]
    · simp
    · intro a ha
      simp only [ne_eq, decide_not, Bool.not_eq_eq_eq_not, Bool.not_true, decide_eq_false_iff_not]
      rintro rfl; exact hp ha
  rw [this]

/-- **C09.** For every prefix without underscore, any number of leading zeros, every number `k` and any
continuation that does not start with a digit, the id is `k`, saturated at `INT_MAX`. -/
theorem C09_id_from_name (p : String) (hp : '_' ∉ p.toList) (zeros k : Nat) (suffix : String)
    (hs : ∀ c, suffix.toList.head? = some c → c.isDigit = false) :
    getMaterialIdFromName
      (p ++ "_" ++ String.ofList (List.replicate zeros '0') ++ toString k ++ suffix) =
      .ok (min (k : Int) 2147483647) := by
  unfold getMaterialIdFromName
  have hlist : (p ++ "_" ++ String.ofList (List.replicate zeros '0') ++ toString k ++ suffix).toList =
      p.toList ++ '_' :: (List.replicate zeros '0' ++ Nat.toDigits 10 k ++ suffix.toList) := by
    simp
  rw [hlist, afterUnderscore_append hp]
  have hdig : ∀ c ∈ List.replicate zeros '0' ++ Nat.toDigits 10 k, c.isDigit = true := by
    intro c hc
    rcases List.mem_append.mp hc with h | h
    · rw [List.mem_replicate] at h; rw [h.2]; decide
    · exact Nat.isDigit_of_mem_toDigits (by omega) (by omega) h
  have hne : List.replicate zeros '0' ++ Nat.toDigits 10 k ≠ [] := by
    simp [Nat.toDigits_ne_nil]
  have htw : ∀ ds : List Char, (∀ c ∈ ds, c.isDigit = true) →
      (ds ++ suffix.toList).takeWhile Char.isDigit = ds := by
    intro ds hds
    rw [List.takeWhile_append_of_pos hds]
    cases hsl : suffix.toList with
    | nil => simp
    | cons c t =>
      have := hs c (by rw [hsl]; rfl)
      rw [List.takeWhile_cons_of_neg (by simp [this])]; simp
  have hval : Nat.ofDigitChars 10 (List.replicate zeros '0' ++ Nat.toDigits 10 k) 0 = k := by
    rw [Nat.ofDigitChars_append, Nat.ofDigitChars_replicate_zero, Nat.mul_zero,
      Nat.ofDigitChars_toDigits (by omega) (by omega)]
  cases hds : List.replicate zeros '0' ++ Nat.toDigits 10 k with
  | nil => exact absurd hds hne
  | cons c t =>
    rw [hds] at hdig hval
    have hc := hdig c (by simp)
    have h1 : c ≠ '-' := by rintro rfl; exact absurd hc (by decide)
    have h2 : c ≠ '+' := by rintro rfl; exact absurd hc (by decide)
    have h3 : isSpaceC c = false := by
      unfold isSpaceC
      simp only [Bool.or_eq_false_iff, decide_eq_false_iff_not]
      refine ⟨⟨⟨⟨⟨?_, ?_⟩, ?_⟩, ?_⟩, ?_⟩, ?_⟩ <;> (rintro rfl; exact absurd hc (by decide))
    unfold readInt
    rw [List.cons_append, List.dropWhile_cons_of_neg (by simp [h3])]
    simp only [h1, h2, or_self, if_false, decide_false, Bool.false_eq_true]
    rw [← List.cons_append, htw _ hdig, hval]
    congr 1
    unfold clampInt INT_MAX INT_MIN
    split
    · omega
    · split <;> omega

/-- **C09, signed.** White space and a sign after the underscore are honoured: the id is the signed
number, saturated at the limits of `int`. -/
theorem C09_signed (p : String) (hp : '_' ∉ p.toList) (blanks zeros k : Nat) (neg : Bool)
    (suffix : String) (hs : ∀ c, suffix.toList.head? = some c → c.isDigit = false) :
    getMaterialIdFromName
      (p ++ "_" ++ String.ofList (List.replicate blanks ' ') ++ (if neg then "-" else "+") ++
        String.ofList (List.replicate zeros '0') ++ toString k ++ suffix) =
      .ok (if neg then max (-(k : Int)) (-2147483648) else min (k : Int) 2147483647) := by
  unfold getMaterialIdFromName
  obtain ⟨sg, hsg, hsg'⟩ : ∃ sg : Char, (if neg then "-" else "+").toList = [sg] ∧
      (sg = if neg then '-' else '+') := by
    cases neg <;> exact ⟨_, rfl, rfl⟩
  have hlist : (p ++ "_" ++ String.ofList (List.replicate blanks ' ') ++ (if neg then "-" else "+") ++
      String.ofList (List.replicate zeros '0') ++ toString k ++ suffix).toList =
      p.toList ++ '_' :: (List.replicate blanks ' ' ++ sg ::
        (List.replicate zeros '0' ++ Nat.toDigits 10 k ++ suffix.toList)) := by
    simp [hsg]
  rw [hlist, afterUnderscore_append hp]
  have hdig : ∀ c ∈ List.replicate zeros '0' ++ Nat.toDigits 10 k, c.isDigit = true := by
    intro c hc
    rcases List.mem_append.mp hc with h | h
    · rw [List.mem_replicate] at h; rw [h.2]; decide
    · exact Nat.isDigit_of_mem_toDigits (by omega) (by omega) h
  have htw : ∀ ds : List Char, (∀ c ∈ ds, c.isDigit = true) →
      (ds ++ suffix.toList).takeWhile Char.isDigit = ds := by
    intro ds hds
    rw [List.takeWhile_append_of_pos hds]
    cases hsl : suffix.toList with
    | nil => simp
    | cons c t =>
      have := hs c (by rw [hsl]; rfl)
      rw [List.takeWhile_cons_of_neg (by simp [this])]; simp
  have hval : Nat.ofDigitChars 10 (List.replicate zeros '0' ++ Nat.toDigits 10 k) 0 = k := by
    rw [Nat.ofDigitChars_append, Nat.ofDigitChars_replicate_zero, Nat.mul_zero,
      Nat.ofDigitChars_toDigits (by omega) (by omega)]
  have hsp : isSpaceC sg = false := by rw [hsg']; cases neg <;> decide
  unfold readInt
  rw [List.dropWhile_append_of_pos (by
    intro a ha; rw [List.mem_replicate] at ha; rw [ha.2]; decide),
    List.dropWhile_cons_of_neg (by simp [hsp])]
  have hor : sg = '-' ∨ sg = '+' := by rw [hsg']; cases neg <;> simp
  simp only [hor, if_true]
  rw [htw _ hdig, hval]
  congr 1
  unfold clampInt INT_MAX INT_MIN
  cases neg
  · have : sg ≠ '-' := by rw [hsg']; decide
    simp only [this, decide_false, Bool.false_eq_true, if_false]
    split
    · omega
    · split <;> omega
  · have : sg = '-' := by rw [hsg']; rfl
    simp only [this, decide_true, if_true]
    split
    · omega
    · split <;> omega

example : getMaterialIdFromName "Conductor_ -12 V" = .ok (-12) := by decide
example : getMaterialIdFromName "Conductor_0012" = .ok 12 := by decide
example : getMaterialIdFromName "Conductor_99999999999" = .ok 2147483647 := by decide
example : getMaterialIdFromName "A_7_extra" = .ok 7 := by decide

theorem white_iff (c : Char) : White c ↔ isSpaceC c = true := by
  unfold White isSpaceC
  simp only [Bool.or_eq_true, decide_eq_true_eq]
  have key : ∀ d : Char, c = d ↔ c.toNat = d.toNat :=
    fun d => ⟨fun h => h ▸ rfl, fun h => Char.ext (UInt32.toNat_inj.mp h)⟩
  simp only [key]
  have h1 : (' ' : Char).toNat = 32 := rfl
  have h2 : ('\t' : Char).toNat = 9 := rfl
  have h3 : ('\n' : Char).toNat = 10 := rfl
  have h4 : ('\x0b' : Char).toNat = 11 := rfl
  have h5 : ('\x0c' : Char).toNat = 12 := rfl
  have h6 : ('\r' : Char).toNat = 13 := rfl
  rw [h1, h2, h3, h4, h5, h6]
  omega

/-- **C10, refuted.** A trailing underscore (or an empty name) makes the function return an uninitialised
variable. -/
theorem C10_refuted :
    getMaterialIdFromName "Conductor_" = .ub ∧ getMaterialIdFromName "" = .ub := by decide

/-- **C10, the part that holds.** The result is indeterminate exactly when nothing but white space follows
the first underscore (or makes up a name without underscore); the call never throws; whenever the first
other character is neither a sign nor a digit, the id is 0. -/
theorem C10_determinate_partial (p s : String) (hp : '_' ∉ p.toList) :
    (getMaterialIdFromName (p ++ "_" ++ s) = .ub ↔ ∀ c ∈ s.toList, White c) ∧
    (getMaterialIdFromName p = .ub ↔ ∀ c ∈ p.toList, White c) ∧
    (∀ e, getMaterialIdFromName (p ++ "_" ++ s) ≠ .throw e ∧ getMaterialIdFromName p ≠ .throw e) ∧
    (∀ ws c t, s.toList = ws ++ c :: t → (∀ w ∈ ws, White w) → ¬ White c →
      c ≠ '-' → c ≠ '+' → c.isDigit = false → getMaterialIdFromName (p ++ "_" ++ s) = .ok 0) := by
  have hw : ∀ c : Char, White c ↔ isSpaceC c = true := white_iff
  have hw' : ∀ c : Char, ¬ White c ↔ isSpaceC c = false := fun c => by rw [hw, Bool.not_eq_true]
  simp only [hw, hw', Bool.not_eq_true]
  have key : ∀ l : List Char, readInt l = .ub ↔ ∀ c ∈ l, isSpaceC c = true := by
    intro l
    unfold readInt
    rw [← List.dropWhile_eq_nil_iff]
    cases List.dropWhile isSpaceC l <;> simp
  have kt : ∀ (l : List Char) e, readInt l ≠ .throw e := by
    intro l e
    unfold readInt
    cases List.dropWhile isSpaceC l <;> simp
  have h1 : afterUnderscore (p ++ "_" ++ s).toList = s.toList := by
    have : (p ++ "_" ++ s).toList = p.toList ++ '_' :: s.toList := by simp
    rw [this, afterUnderscore_append hp]
  have h2 : afterUnderscore p.toList = p.toList := by
    unfold afterUnderscore
    have : p.toList.dropWhile (fun c => decide (c ≠ '_')) = [] := by
      rw [List.dropWhile_eq_nil_iff]
      intro c hc
      simp only [ne_eq, decide_not, Bool.not_eq_eq_eq_not, Bool.not_true, decide_eq_false_iff_not]
      rintro rfl; exact hp hc
    rw [this]
  unfold getMaterialIdFromName
  rw [h1, h2]
  refine ⟨key _, key _, fun e => ⟨kt _ e, kt _ e⟩, ?_⟩
  intro ws c t e hws hc h3 h4 h5
  unfold readInt
  rw [e, List.dropWhile_append_of_pos hws, List.dropWhile_cons_of_neg (by simp [hc])]
  simp only [h3, h4, or_self, if_false, decide_false, Bool.false_eq_true]
  rw [List.takeWhile_cons_of_neg (by simp [h5])]
  decide

example : getMaterialIdFromName "Conductor_abc" = .ok 0 := by decide
example : getMaterialIdFromName "Shield" = .ok 0 := by decide

variable {𝕜 : Type _}

/-- **C11.** For materials with distinct names, the Model constructor keeps, in order and unmodified,
exactly those whose tag occurs in the mesh; filtering again changes nothing. -/
theorem C11_filter (mesh : Mesh 𝕜) (mats : Materials 𝕜) (hd : DistinctNames mats) :
    (Model.make mesh mats).materials.pecs = mats.pecs.filter (fun x => decide (TagInMesh mesh x.tag)) ∧
    (Model.make mesh mats).materials.openBoundaries =
      mats.openBoundaries.filter (fun x => decide (TagInMesh mesh x.tag)) ∧
    (Model.make mesh mats).materials.dielectrics =
      mats.dielectrics.filter (fun x => decide (TagInMesh mesh x.tag)) ∧
    (Model.make mesh mats).mesh = mesh ∧
    (Model.make mesh (Model.make mesh mats).materials).materials = (Model.make mesh mats).materials := by
  have main : ∀ mats : Materials 𝕜, DistinctNames mats →
      filterOutMaterialsNotPresentInMesh mats mesh =
        { pecs := mats.pecs.filter (fun x => decide (TagInMesh mesh x.tag)),
          openBoundaries := mats.openBoundaries.filter (fun x => decide (TagInMesh mesh x.tag)),
          dielectrics := mats.dielectrics.filter (fun x => decide (TagInMesh mesh x.tag)) } := by
    intro mats hd
    unfold filterOutMaterialsNotPresentInMesh Materials.removeMaterialsNotInList
    simp only [Materials.mk.injEq]
    refine ⟨?_, ?_, ?_⟩ <;>
    · apply List.filter_congr
      intro x hx
      rw [Bool.eq_iff_iff, decide_eq_true_eq]
      apply filter_contains_distinct hd
      unfold declared
      simp only [List.mem_append, List.mem_map]
      first
        | exact Or.inl (Or.inl ⟨x, hx, rfl⟩)
        | exact Or.inl (Or.inr ⟨x, hx, rfl⟩)
        | exact Or.inr ⟨x, hx, rfl⟩
  have e := main mats hd
  refine ⟨by simp only [Model.make, e], by simp only [Model.make, e], by simp only [Model.make, e],
    rfl, ?_⟩
  simp only [Model.make, e]
  rw [main]
  · simp
  · unfold DistinctNames declared at hd ⊢
    refine hd.sublist ?_
    apply List.Sublist.map
    exact ((List.filter_sublist.map _).append (List.filter_sublist.map _)).append
      (List.filter_sublist.map _)

/-- The distinct-names hypothesis is satisfiable and the filter is not trivial. -/
example :
    let mesh : Mesh Int := { elems := [⟨7, [0, 1, 2], 1⟩], bdr := [⟨1, [0, 1], 1⟩], coord := fun _ => (0, 0) }
    let mats : Materials Int := { pecs := [⟨"Conductor_0", 1, 0⟩, ⟨"Conductor_1", 2, 0⟩],
                                  dielectrics := [⟨"Dielectric_1", 7, 3⟩] }
    DistinctNames mats ∧ (Model.make mesh mats).materials =
      { pecs := [⟨"Conductor_0", 1, 0⟩], dielectrics := [⟨"Dielectric_1", 7, 3⟩] } := by
  refine ⟨by unfold DistinctNames; decide, by decide⟩

theorem throws_iff {α : Type _} (P : α → Prop) [DecidablePred P] (l : List α) :
    (∃ e, Outcome.ofOption Materials.invalidTypeErr (l.find? (fun y => decide (P y))) = .throw e) ↔
      ∀ y ∈ l, ¬ P y := by
  have : (∀ y ∈ l, ¬ P y) ↔ l.find? (fun y => decide (P y)) = none := by
    rw [List.find?_eq_none]; simp only [decide_eq_true_eq]
  rw [this]
  cases l.find? (fun y => decide (P y)) <;> simp [Outcome.ofOption]

/-- **C12.** Lookups agree with the declarations. -/
theorem C12_lookup (mats : Materials 𝕜) :
    (mats.buildNameToAttrMap.keys.Pairwise (· < ·)) ∧
    (DistinctNames mats → ∀ name tag,
      mats.buildNameToAttrMap.find? name = some tag ↔ (name, tag) ∈ declared mats) ∧
    (∀ name x, mats.getPEC name = .ok x ↔ IsFirst (fun y => y.name = name) mats.pecs x) ∧
    (∀ name x, mats.getOpenBoundary name = .ok x ↔
      IsFirst (fun y => y.name = name) mats.openBoundaries x) ∧
    (∀ name x, mats.getDielectric name = .ok x ↔
      IsFirst (fun y => y.name = name) mats.dielectrics x) ∧
    (∀ name, (∃ e, mats.getPEC name = .throw e) ↔ ∀ y ∈ mats.pecs, y.name ≠ name) ∧
    (∀ name, (∃ e, mats.getDielectric name = .throw e) ↔ ∀ y ∈ mats.dielectrics, y.name ≠ name) ∧
    (∀ name, (∃ e, mats.getOpenBoundary name = .throw e) ↔ ∀ y ∈ mats.openBoundaries, y.name ≠ name) := by
  refine ⟨(mats.buildNameToAttrMap_sorted).keys_pairwise,
    fun hd => Materials.mem_declared_of_distinct hd, ?_, ?_, ?_, ?_, ?_, ?_⟩
  · intro name x; simp [Materials.getPEC, ← isFirst_find?]
  · intro name x; simp [Materials.getOpenBoundary, ← isFirst_find?]
  · intro name x; simp [Materials.getDielectric, ← isFirst_find?]
  · exact fun name => throws_iff _ _
  · exact fun name => throws_iff _ _
  · exact fun name => throws_iff _ _

theorem getByIdLoop_spec {α : Type _} (name : α → String) (ids : String → Int) (l : List α)
    (hp : ∀ x ∈ l, getMaterialIdFromName (name x) = .ok (ids (name x))) (id : Int) :
    (∀ x, Materials.getByIdLoop name id l = .ok x ↔ IsFirst (fun y => ids (name y) = id) l x) ∧
    ((∃ e, Materials.getByIdLoop name id l = .throw e) ↔ ∀ y ∈ l, ids (name y) ≠ id) := by
  refine ⟨?_, ?_⟩
  · intro x
    rw [getByIdLoop_ok]
    constructor
    · rintro ⟨pre, post, e, h1, h2⟩
      have hx : x ∈ l := by rw [e]; simp
      rw [hp x hx] at h1
      refine ⟨pre, post, e, Outcome.ok.inj h1, ?_⟩
      intro y hy
      obtain ⟨i, hi, hne⟩ := h2 y hy
      rw [hp y (by rw [e]; simp [hy])] at hi
      intro hyp; exact hne ((Outcome.ok.inj hi).symm.trans hyp)
    · rintro ⟨pre, post, e, h1, h2⟩
      have hx : x ∈ l := by rw [e]; simp
      refine ⟨pre, post, e, by rw [hp x hx, h1], ?_⟩
      intro y hy
      exact ⟨_, hp y (by rw [e]; simp [hy]), h2 y hy⟩
  · induction l with
    | nil => simp [Materials.getByIdLoop]
    | cons a t ih =>
      rw [Materials.getByIdLoop, hp a (by simp)]
      simp only [Outcome.ok_bind]
      by_cases e : ids (name a) = id
      · simp [e]
      · rw [if_neg e, ih (fun x hx => hp x (by simp [hx]))]
        simp [e]

/-- **C12, by id.** Lookup by id returns the first material of the kind whose name has that id (given that the ids
are determinate) and throws iff there is none. -/
theorem C12_lookup_by_id (mats : Materials 𝕜) (ids : String → Int) (id : Int) :
    ((∀ x ∈ mats.pecs, getMaterialIdFromName x.name = .ok (ids x.name)) →
      (∀ x, mats.getPECById id = .ok x ↔ IsFirst (fun y => ids y.name = id) mats.pecs x) ∧
      ((∃ e, mats.getPECById id = .throw e) ↔ ∀ y ∈ mats.pecs, ids y.name ≠ id)) ∧
    ((∀ x ∈ mats.openBoundaries, getMaterialIdFromName x.name = .ok (ids x.name)) →
      (∀ x, mats.getOpenBoundaryById id = .ok x ↔ IsFirst (fun y => ids y.name = id) mats.openBoundaries x) ∧
      ((∃ e, mats.getOpenBoundaryById id = .throw e) ↔ ∀ y ∈ mats.openBoundaries, ids y.name ≠ id)) ∧
    ((∀ x ∈ mats.dielectrics, getMaterialIdFromName x.name = .ok (ids x.name)) →
      (∀ x, mats.getDielectricById id = .ok x ↔ IsFirst (fun y => ids y.name = id) mats.dielectrics x) ∧
      ((∃ e, mats.getDielectricById id = .throw e) ↔ ∀ y ∈ mats.dielectrics, ids y.name ≠ id)) :=
  ⟨fun h => getByIdLoop_spec _ ids _ h id, fun h => getByIdLoop_spec _ ids _ h id, fun h => getByIdLoop_spec _ ids _ h id⟩

theorem getByIdLoop_message {α : Type _} (name : α → String) (id : Int) : ∀ (l : List α)
    (_ : ∀ x ∈ l, ∃ i, getMaterialIdFromName (name x) = .ok i) (e : Err),
    Materials.getByIdLoop name id l = .throw e → e = .runtimeError "Invalid material type"
  | [], _, e, h => by cases h; rfl
  | a :: t, hp, e, h => by
    obtain ⟨i, hi⟩ := hp a (by simp)
    rw [Materials.getByIdLoop, hi] at h
    simp only [Outcome.ok_bind] at h
    split at h
    · cases h
    · exact getByIdLoop_message name id t (fun x hx => hp x (by simp [hx])) e h

/-- **C12, messages.** A lookup that fails, by name or by number, fails with "Invalid material type". -/
theorem C12_messages (mats : Materials 𝕜) (name : String) (id : Int) (e : Err) :
    (mats.getPEC name = .throw e → e = .runtimeError "Invalid material type") ∧
    (mats.getOpenBoundary name = .throw e → e = .runtimeError "Invalid material type") ∧
    (mats.getDielectric name = .throw e → e = .runtimeError "Invalid material type") ∧
    ((∀ x ∈ mats.pecs, ∃ i, getMaterialIdFromName x.name = .ok i) → mats.getPECById id = .throw e →
      e = .runtimeError "Invalid material type") ∧
    ((∀ x ∈ mats.openBoundaries, ∃ i, getMaterialIdFromName x.name = .ok i) → mats.getOpenBoundaryById id = .throw e →
      e = .runtimeError "Invalid material type") ∧
    ((∀ x ∈ mats.dielectrics, ∃ i, getMaterialIdFromName x.name = .ok i) → mats.getDielectricById id = .throw e →
      e = .runtimeError "Invalid material type") := by
  have key : ∀ {α : Type _} (o : Option α), Outcome.ofOption Materials.invalidTypeErr o = .throw e →
      e = .runtimeError "Invalid material type" := by
    intro α o h
    cases o <;> cases h
    rfl
  exact ⟨key _, key _, key _, fun h => getByIdLoop_message _ _ _ h e,
    fun h => getByIdLoop_message _ _ _ h e, fun h => getByIdLoop_message _ _ _ h e⟩

/-- a lookup that fails -/
example :
    let mats : Materials Int := { pecs := [⟨"Conductor_0", 1, 0⟩] }
    mats.getPEC "Conductor_1" = .throw (.runtimeError "Invalid material type") ∧
      mats.getPECById 4 = .throw (.runtimeError "Invalid material type") := by
  decide +kernel

theorem idMapLoop_spec {α : Type _} (name : α → String) (tag : α → Int) (ids : String → Int) :
    ∀ (l : List α) (m : SMap Int Int), (∀ x ∈ l, getMaterialIdFromName (name x) = .ok (ids (name x))) →
      Materials.idMapLoop name tag l m = .ok (SMap.setAll m (fun x => ids (name x)) tag l)
  | [], _, _ => rfl
  | x :: l, m, h => by
    rw [Materials.idMapLoop, h x (by simp)]
    simp only [Outcome.ok_bind]
    rw [idMapLoop_spec name tag ids l _ (fun y hy => h y (by simp [hy]))]
    rfl

/-- **C12, ids to tags.** The map from ids to tags of a kind of material (given that the ids are determinate) holds for
each id the tag of the last material declared with it. -/
theorem C12_id_map (mats : Materials 𝕜) (ids : String → Int) :
    ((∀ x ∈ mats.pecs, getMaterialIdFromName x.name = .ok (ids x.name)) →
      ∃ m, mats.buildIdToAttrMapForPEC = .ok m ∧ ∀ id, m.find? id =
        ((mats.pecs.filter (fun x => decide (ids x.name = id))).getLast?).map PEC.tag) ∧
    ((∀ x ∈ mats.openBoundaries, getMaterialIdFromName x.name = .ok (ids x.name)) →
      ∃ m, mats.buildIdToAttrMapForOpenBoundary = .ok m ∧ ∀ id, m.find? id =
        ((mats.openBoundaries.filter (fun x => decide (ids x.name = id))).getLast?).map OpenBoundary.tag) ∧
    ((∀ x ∈ mats.dielectrics, getMaterialIdFromName x.name = .ok (ids x.name)) →
      ∃ m, mats.buildIdToAttrMapForDielectric = .ok m ∧ ∀ id, m.find? id =
        ((mats.dielectrics.filter (fun x => decide (ids x.name = id))).getLast?).map Dielectric.tag) := by
  refine ⟨fun h => ⟨_, idMapLoop_spec _ _ ids _ _ h, fun id => ?_⟩, fun h => ⟨_, idMapLoop_spec _ _ ids _ _ h, fun id => ?_⟩,
    fun h => ⟨_, idMapLoop_spec _ _ ids _ _ h, fun id => ?_⟩⟩ <;>
  · rw [SMap.find?_setAll SMap.Sorted.nil]
    simp

example : (⟨[⟨"Conductor_1", 4, 0⟩, ⟨"Wire_1", 7, 0⟩, ⟨"Conductor_0", 2, 0⟩], [], []⟩ : Materials ℚ).buildIdToAttrMapForPEC =
    .ok [(0, 2), (1, 7)] := by decide +kernel

/-- **C12, counting.** The number of conductors of a model is the number of different names declared for conductors. -/
theorem C12_count (m : Model 𝕜) : m.numberOfConductors = (m.materials.pecs.map PEC.name).toFinset.card := by
  unfold Model.numberOfConductors
  have hs : SMap.Sorted m.materials.buildNameToAttrMapForPEC := SMap.Sorted.nil.setAll _ _ _
  have hk : (SMap.keys m.materials.buildNameToAttrMapForPEC).toFinset =
      (m.materials.pecs.map PEC.name).toFinset := by
    ext k
    rw [List.mem_toFinset, List.mem_toFinset]
    unfold Materials.buildNameToAttrMapForPEC
    rw [SMap.keys_setAll_mem SMap.Sorted.nil]
    simp [SMap.keys]
  rw [← hk, List.toFinset_card_of_nodup hs.keys_nodup]
  exact (List.length_map _).symm

example :
    let m : Model Int := { materials := { pecs := [⟨"A_0", 1, 0⟩, ⟨"B_1", 2, 0⟩, ⟨"A_0", 3, 0⟩], dielectrics := [⟨"D", 7, 3⟩] }, mesh := ⟨[], [], fun _ => (0, 0)⟩ }
    m.numberOfConductors = 2 := by decide

/-- **C12, repeated names.** Conductors win over open boundaries, these over dielectrics; within a class
the last declaration wins. -/
theorem C12_precedence (mats : Materials 𝕜) (name : String) :
    mats.buildNameToAttrMap.find? name =
      ((((mats.pecs.filter (fun x => decide (x.name = name))).getLast?).map PEC.tag).or
        (((mats.openBoundaries.filter (fun x => decide (x.name = name))).getLast?).map
          OpenBoundary.tag)).or
        (((mats.dielectrics.filter (fun x => decide (x.name = name))).getLast?).map Dielectric.tag) := by
  rw [Materials.buildNameToAttrMap_find?]
  unfold Materials.buildNameToAttrMapForPEC Materials.buildNameToAttrMapForOpenBoundary
    Materials.buildNameToAttrMapForDielectric
  rw [SMap.find?_setAll SMap.Sorted.nil, SMap.find?_setAll SMap.Sorted.nil,
    SMap.find?_setAll SMap.Sorted.nil]
  simp

example :
    let mats : Materials Int := { pecs := [⟨"A_0", 1, 0⟩, ⟨"A_0", 2, 0⟩], dielectrics := [⟨"A_0", 7, 3⟩] }
    mats.buildNameToAttrMap.find? "A_0" = some 2 := by decide

end Tulip.Props
