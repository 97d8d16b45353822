import Verif.Proofs.Parser
import Mathlib.Data.Rat.Floor

/-!
# C13–C15: reading the input file
-/

namespace Tulip.Props
open Tulip Tulip.Spec

section
variable {𝕜 : Type _} [Field 𝕜] [LinearOrder 𝕜] [IsStrictOrderedRing 𝕜] [FloorRing 𝕜]

/-- **C13.** If every entry of the materials object denotes a material, reading returns exactly these
materials, in order; otherwise (some entry has no usable type, tag, eps_r or area) it throws. The entries
are objects without repeated keys and no tag exceeds the range of `int`. -/
theorem C13_materials (fs : List (String × Json 𝕜))
    (hu : ∀ kv ∈ fs, ∀ es, kv.2 = .obj es → UniqueKeys es)
    (hr : ∀ kv ∈ fs, ∀ es, kv.2 = .obj es → ∀ t, ("tag", t) ∈ es → ¬ TooLarge t) :
    (∀ ds, List.Forall₂ (fun kv d => Denotes kv.1 kv.2 d) fs ds →
      readMaterials (.obj fs) = .ok (collect ds)) ∧
    ((∃ kv ∈ fs, ¬ ∃ d, Denotes kv.1 kv.2 d) → ∃ e, readMaterials (.obj fs) = .throw e) := by
  have := readMaterialsLoop_spec fs (fun kv h es he => ⟨hu kv h es he, hr kv h es he⟩) []
  simpa [readMaterials, Json.items, collect] using this

/-- C13, converse direction: what is returned is what the entries denote. -/
theorem C13_materials_only (fs : List (String × Json 𝕜))
    (hu : ∀ kv ∈ fs, ∀ es, kv.2 = .obj es → UniqueKeys es)
    (hr : ∀ kv ∈ fs, ∀ es, kv.2 = .obj es → ∀ t, ("tag", t) ∈ es → ¬ TooLarge t)
    (m : Materials 𝕜) (h : readMaterials (.obj fs) = .ok m) :
    ∃ ds, List.Forall₂ (fun kv d => Denotes kv.1 kv.2 d) fs ds ∧ m = collect ds := by
  obtain ⟨h1, h2⟩ := C13_materials fs hu hr
  by_cases hall : ∀ kv ∈ fs, ∃ d, Denotes kv.1 kv.2 d
  · have : ∃ ds, List.Forall₂ (fun (kv : String × Json 𝕜) d => Denotes kv.1 kv.2 d) fs ds := by
      clear h h1 h2 hu hr
      induction fs with
      | nil => exact ⟨[], .nil⟩
      | cons a t ih =>
        obtain ⟨d, hd⟩ := hall a (by simp)
        obtain ⟨ds, hds⟩ := ih (fun kv h => hall kv (List.mem_cons_of_mem _ h))
        exact ⟨d :: ds, .cons hd hds⟩
    obtain ⟨ds, hds⟩ := this
    refine ⟨ds, hds, ?_⟩
    rw [h1 ds hds] at h; cases h; rfl
  · simp only [not_forall] at hall
    obtain ⟨kv, hm, hkv⟩ := hall
    obtain ⟨e, he⟩ := h2 ⟨kv, hm, hkv⟩
    rw [he] at h; cases h
end

/-- C13: a tag beyond the range of `int` is silently replaced by another number, so the range hypothesis
is needed. -/
theorem C13_refuted_wide_tag :
    readMaterials (𝕜 := ℚ) (.obj [("A", .obj [("tag", .int 4294967301), ("type", .str "Vacuum")])]) =
      .ok { dielectrics := [⟨"A", 5, 1⟩] } := by
  simp [readMaterials, Json.items, readMaterialsLoop, readMaterial, Json.at_, SMap.find?, Json.getString,
    materialTypeOfLabel, Json.getInt, Json.wrap32]

/-- A complete document for C13. -/
def exDoc : List (String × Json ℚ) :=
  [("Conductor_0", .obj [("area", .num 3), ("tag", .int 2), ("type", .str "PEC")]),
   ("Conductor_1", .obj [("tag", .int 3), ("type", .str "PEC")]),
   ("D", .obj [("eps_r", .num 4), ("tag", .int 5), ("type", .str "Dielectric")]),
   ("O", .obj [("tag", .int 7), ("type", .str "OpenBoundary")]),
   ("V", .obj [("tag", .int 9), ("type", .str "Vacuum")])]

example : readMaterials (.obj exDoc) = .ok
    { pecs := [⟨"Conductor_0", 2, 3 / 1000000⟩, ⟨"Conductor_1", 3, 0⟩]
      openBoundaries := [⟨"O", 7⟩]
      dielectrics := [⟨"D", 5, 4⟩, ⟨"V", 9, 1⟩] } := by
  have := (C13_materials exDoc
    (by
      intro kv hkv es he
      simp only [exDoc, List.mem_cons, List.not_mem_nil, or_false] at hkv
      rcases hkv with rfl | rfl | rfl | rfl | rfl <;> (cases he; unfold UniqueKeys; decide))
    (by
      intro kv hkv es he t ht
      simp only [exDoc, List.mem_cons, List.not_mem_nil, or_false] at hkv
      rcases hkv with rfl | rfl | rfl | rfl | rfl <;>
        (cases he; simp at ht; subst ht; simp [TooLarge]))).1
    [.pec ⟨"Conductor_0", 2, 3 / 1000000⟩, .pec ⟨"Conductor_1", 3, 0⟩, .dielectric ⟨"D", 5, 4⟩,
      .openBoundary ⟨"O", 7⟩, .dielectric ⟨"V", 9, 1⟩]
    (.cons (.pecArea (by simp) (v := .int 2) (w := .num 3) (by simp) (.int 2 (by simp) (by simp))
        (by simp) (.num 3))
      (.cons (.pecNoArea (by simp) (v := .int 3) (by simp) (.int 3 (by simp) (by simp)) (by simp))
      (.cons (.dielectric (by simp) (v := .int 5) (w := .num 4) (by simp) (.int 5 (by simp) (by simp))
        (by simp) (.num 4))
      (.cons (.openBoundary (by simp) (v := .int 7) (by simp) (.int 7 (by simp) (by simp)))
      (.cons (.vacuum (by simp) (v := .int 9) (by simp) (.int 9 (by simp) (by simp))) .nil)))))
  simpa [collect] using this

example : ∃ e, readMaterials (𝕜 := ℚ)
    (.obj [("A", .obj [("tag", .int 1), ("type", .str "Wood")])]) = .throw e := by
  refine (C13_materials _ ?_ ?_).2 ⟨_, List.mem_cons_self .., ?_⟩
  · intro kv hkv es he; simp at hkv; subst hkv; cases he; unfold UniqueKeys; decide
  · intro kv hkv es he t ht; simp at hkv; subst hkv; cases he; simp at ht; subst ht; simp [TooLarge]
  · rintro ⟨d, hd⟩
    cases hd <;> simp_all

/-- **C13, other shapes.** Materials given as a list are named by their positions, `null` means no materials, and anything
else is an error. -/
theorem C13_other_shapes {𝕜 : Type _} [Field 𝕜] [LinearOrder 𝕜] [IsStrictOrderedRing 𝕜] [FloorRing 𝕜] :
    (∀ xs : List (Json 𝕜), (∀ x ∈ xs, ∀ es, x = .obj es → UniqueKeys es ∧ ∀ t, ("tag", t) ∈ es → ¬ TooLarge t) →
      (∀ ds, List.Forall₂ (fun (p : Json 𝕜 × Nat) d => Denotes (toString p.2) p.1 d) xs.zipIdx ds →
        readMaterials (.arr xs) = .ok (collect ds)) ∧
      ((∃ p ∈ xs.zipIdx, ¬ ∃ d, Denotes (toString p.2) p.1 d) → ∃ e, readMaterials (.arr xs) = .throw e)) ∧
    readMaterials (𝕜 := 𝕜) .null = .ok {} ∧
    (∀ j : Json 𝕜, (∀ fs, j ≠ .obj fs) → (∀ xs, j ≠ .arr xs) → j ≠ .null → readMaterials j = .throw .json) := by
  refine ⟨fun xs hx => ?_, rfl, fun j h1 h2 h3 => ?_⟩
  · have e : readMaterials (.arr xs) = readMaterials (.obj (xs.zipIdx.map (fun p => (toString p.2, p.1)))) := rfl
    have hmem : ∀ kv ∈ xs.zipIdx.map (fun p => (toString p.2, p.1)), kv.2 ∈ xs := by
      intro kv hkv
      obtain ⟨p, hp, rfl⟩ := List.mem_map.mp hkv
      exact List.fst_mem_of_mem_zipIdx hp
    obtain ⟨c1, c2⟩ := C13_materials (xs.zipIdx.map (fun p => (toString p.2, p.1)))
      (fun kv h es he => (hx kv.2 (hmem kv h) es he).1) (fun kv h es he => (hx kv.2 (hmem kv h) es he).2)
    rw [e]
    refine ⟨fun ds hds => c1 ds ?_, ?_⟩
    · rw [List.forall₂_map_left_iff]
      exact hds
    · rintro ⟨p, hp, hn⟩
      exact c2 ⟨_, List.mem_map.mpr ⟨p, hp, rfl⟩, hn⟩
  · cases j with
    | obj fs => exact absurd rfl (h1 fs)
    | arr xs => exact absurd rfl (h2 xs)
    | null => exact absurd rfl h3
    | _ => rfl

/-- Two materials in a list: "0" and "1". -/
example : readMaterials (𝕜 := ℚ) (.arr [.obj [("tag", .int 7), ("type", .str "OpenBoundary")],
      .obj [("tag", .int 9), ("type", .str "Vacuum")]]) =
    .ok { pecs := [], openBoundaries := [⟨"0", 7⟩], dielectrics := [⟨"1", 9, 1⟩] } := by
  have := (C13_other_shapes (𝕜 := ℚ)).1 [.obj [("tag", .int 7), ("type", .str "OpenBoundary")],
      .obj [("tag", .int 9), ("type", .str "Vacuum")]]
    (by
      intro x hx es he
      simp only [List.mem_cons, List.not_mem_nil, or_false] at hx
      rcases hx with rfl | rfl <;> (cases he; refine ⟨by unfold UniqueKeys; decide, ?_⟩; intro t ht; simp at ht; subst ht; simp [TooLarge]))
    |>.1 [.openBoundary ⟨"0", 7⟩, .dielectric ⟨"1", 9, 1⟩]
    (.cons (.openBoundary (by simp) (v := .int 7) (by simp) (.int 7 (by simp) (by simp)))
      (.cons (.vacuum (by simp) (v := .int 9) (by simp) (.int 9 (by simp) (by simp))) .nil))
  simpa [collect] using this

/-! ## C14 -/

section
variable {𝕜 : Type _} [Field 𝕜] [LinearOrder 𝕜] [IsStrictOrderedRing 𝕜] [FloorRing 𝕜]

/-- **C14, the part that holds.** When reading succeeds, four of the five documented options have the
given value or the documented default, the expansion order keeps its default 5, and
`exportParaViewSolution` follows the (undocumented) key `exportParaviewSolution`. Reading succeeds iff
all present values have the right type; otherwise it throws. -/
theorem C14_options_partial (doc a : List (String × Json 𝕜)) (hd : UniqueKeys doc)
    (ha : ("analysis", .obj a) ∈ doc) (hu : UniqueKeys a)
    (hr : ∀ v, ("order", v) ∈ a → ¬ TooLarge v) :
    (∀ o, readDriverOptions (.obj doc) = .ok o ↔
      (Honoured a "order" IntValue 3 o.solverOptions.order ∧
       Honoured a "printIterations" BoolValue false o.solverOptions.printIterations ∧
       Honoured a "exportVisItSolution" BoolValue false o.exportVisItSolution ∧
       Honoured a "exportFolder" StringValue "./" o.exportFolder ∧
       o.multipolarExpansionOrder = 5 ∧
       Honoured a "exportParaviewSolution" BoolValue true o.exportParaViewSolution)) ∧
    ((∀ o, readDriverOptions (.obj doc) ≠ .ok o) → ∃ e, readDriverOptions (.obj doc) = .throw e) := by
  have hdoc : SMap.find? doc "analysis" = some (.obj a) := (find?_iff_mem_of_unique hd).mpr ha
  have hI : ∀ (key : String) (d x : Int), (∀ v, (key, v) ∈ a → ¬ TooLarge v) →
      (setIfExistsInt (.obj a) d key = .ok x ↔ Honoured a key IntValue d x) := by
    intro key d x hr
    unfold Honoured
    cases hf : SMap.find? a key with
    | none =>
      have hn := (find?_none_iff hu).mp hf
      simp only [setIfExistsInt, Json.find, hf, Outcome.ok.injEq]
      exact ⟨fun h => Or.inr ⟨hn, h.symm⟩, fun h => h.elim (fun ⟨v, hv, _⟩ => absurd hv (hn v))
        (fun h => h.2.symm)⟩
    | some v =>
      have hm := (find?_iff_mem_of_unique hu).mp hf
      simp only [setIfExistsInt, Json.find, hf, getInt_iff (hr v hm)]
      constructor
      · exact fun h => Or.inl ⟨v, hm, h⟩
      · rintro (⟨w, hw, h⟩ | ⟨h, _⟩)
        · rw [(find?_iff_mem_of_unique hu).mpr hw] at hf; cases hf; exact h
        · exact absurd hm (h v)
  have hB : ∀ (key : String) (d x : Bool),
      (setIfExistsBool (.obj a) d key = .ok x ↔ Honoured a key BoolValue d x) := by
    intro key d x
    unfold Honoured
    cases hf : SMap.find? a key with
    | none =>
      have hn := (find?_none_iff hu).mp hf
      simp only [setIfExistsBool, Json.find, hf, Outcome.ok.injEq]
      exact ⟨fun h => Or.inr ⟨hn, h.symm⟩, fun h => h.elim (fun ⟨v, hv, _⟩ => absurd hv (hn v))
        (fun h => h.2.symm)⟩
    | some v =>
      have hm := (find?_iff_mem_of_unique hu).mp hf
      simp only [setIfExistsBool, Json.find, hf, getBool_iff]
      constructor
      · exact fun h => Or.inl ⟨v, hm, h⟩
      · rintro (⟨w, hw, h⟩ | ⟨h, _⟩)
        · rw [(find?_iff_mem_of_unique hu).mpr hw] at hf; cases hf; exact h
        · exact absurd hm (h v)
  have hS : ∀ (key : String) (d x : String),
      (setIfExistsString (.obj a) d key = .ok x ↔ Honoured a key StringValue d x) := by
    intro key d x
    unfold Honoured
    cases hf : SMap.find? a key with
    | none =>
      have hn := (find?_none_iff hu).mp hf
      simp only [setIfExistsString, Json.find, hf, Outcome.ok.injEq]
      exact ⟨fun h => Or.inr ⟨hn, h.symm⟩, fun h => h.elim (fun ⟨v, hv, _⟩ => absurd hv (hn v))
        (fun h => h.2.symm)⟩
    | some v =>
      have hm := (find?_iff_mem_of_unique hu).mp hf
      simp only [setIfExistsString, Json.find, hf, getString_iff]
      constructor
      · exact fun h => Or.inl ⟨v, hm, h⟩
      · rintro (⟨w, hw, h⟩ | ⟨h, _⟩)
        · rw [(find?_iff_mem_of_unique hu).mpr hw] at hf; cases hf; exact h
        · exact absurd hm (h v)
  constructor
  · intro o
    simp only [readDriverOptions, Json.at_, hdoc, Outcome.ofOption_some, Outcome.ok_bind,
      Outcome.bind_eq_ok, hI "order" 3 _ hr, hB, hS]
    constructor
    · rintro ⟨x1, h1, x2, h2, x3, h3, x4, h4, x5, h5, h⟩
      cases h
      exact ⟨h1, h2, h4, h5, rfl, h3⟩
    · rintro ⟨h1, h2, h4, h5, h6, h3⟩
      refine ⟨_, h1, _, h2, _, h3, _, h4, _, h5, ?_⟩
      obtain ⟨⟨o1, o2⟩, o3, o4, o5, o6⟩ := o
      simp only at h6 ⊢
      subst h6; rfl
  · intro hno
    have tI : (∃ x, setIfExistsInt (.obj a) 3 "order" = .ok x) ∨
        ∃ e, setIfExistsInt (.obj a) 3 "order" = .throw e := by
      cases hf : SMap.find? a "order" with
      | none => exact Or.inl ⟨_, by simp only [setIfExistsInt, Json.find, hf]; rfl⟩
      | some v =>
        simp only [setIfExistsInt, Json.find, hf]
        exact getInt_total (hr v ((find?_iff_mem_of_unique hu).mp hf))
    have tB : ∀ d key, (∃ x, setIfExistsBool (.obj a) d key = .ok x) ∨
        ∃ e, setIfExistsBool (.obj a) d key = .throw e := by
      intro d key
      cases hf : SMap.find? a key with
      | none => exact Or.inl ⟨_, by simp only [setIfExistsBool, Json.find, hf]; rfl⟩
      | some v => cases v <;> simp [setIfExistsBool, Json.find, hf, Json.getBool]
    have tS : ∀ d key, (∃ x, setIfExistsString (.obj a) d key = .ok x) ∨
        ∃ e, setIfExistsString (.obj a) d key = .throw e := by
      intro d key
      cases hf : SMap.find? a key with
      | none => exact Or.inl ⟨_, by simp only [setIfExistsString, Json.find, hf]; rfl⟩
      | some v => cases v <;> simp [setIfExistsString, Json.find, hf, Json.getString]
    rcases tI with ⟨x1, h1⟩ | ⟨e, h1⟩
    · rcases tB false "printIterations" with ⟨x2, h2⟩ | ⟨e, h2⟩
      · rcases tB true "exportParaviewSolution" with ⟨x3, h3⟩ | ⟨e, h3⟩
        · rcases tB false "exportVisItSolution" with ⟨x4, h4⟩ | ⟨e, h4⟩
          · rcases tS "./" "exportFolder" with ⟨x5, h5⟩ | ⟨e, h5⟩
            · exact absurd (by simp [readDriverOptions, Json.at_, hdoc, h1, h2, h3, h4, h5])
                (hno ⟨⟨x1, x2⟩, 5, x3, x4, x5⟩)
            · exact ⟨e, by simp [readDriverOptions, Json.at_, hdoc, h1, h2, h3, h4, h5]⟩
          · exact ⟨e, by simp [readDriverOptions, Json.at_, hdoc, h1, h2, h3, h4]⟩
        · exact ⟨e, by simp [readDriverOptions, Json.at_, hdoc, h1, h2, h3]⟩
      · exact ⟨e, by simp [readDriverOptions, Json.at_, hdoc, h1, h2]⟩
    · exact ⟨e, by simp [readDriverOptions, Json.at_, hdoc, h1]⟩

end

/-- **C14, refuted.** The documented option `exportParaViewSolution` is ignored: set to `false`, the
result still says `true`. -/
theorem C14_refuted :
    ∃ o, readDriverOptions (𝕜 := ℚ)
        (.obj [("analysis", .obj [("exportParaViewSolution", .bool false)])]) = .ok o ∧
      ¬ Honoured (𝕜 := ℚ) [("exportParaViewSolution", .bool false)] "exportParaViewSolution" BoolValue true
        o.exportParaViewSolution := by
  refine ⟨{}, ?_, ?_⟩
  · simp [readDriverOptions, Json.at_, SMap.find?, setIfExistsInt, setIfExistsBool, setIfExistsString,
      Json.find]
  · simp [Honoured, BoolValue]

example : readDriverOptions (𝕜 := ℚ) (.obj [("analysis", .obj
    [("exportFolder", .str "out/"), ("exportVisItSolution", .bool true), ("order", .int 2),
     ("printIterations", .bool true)])]) =
    .ok { solverOptions := ⟨2, true⟩, exportVisItSolution := true, exportFolder := "out/" } := by
  refine ((C14_options_partial _ _ (by unfold UniqueKeys; decide) (List.mem_cons_self ..)
    (by unfold UniqueKeys; decide) ?_).1 _).mpr ?_
  · intro v hv; simp at hv; subst hv; simp [TooLarge]
  · simp [Honoured, BoolValue, StringValue]
    exact .int 2 (by simp) (by simp)

/-! ## C15 -/

theorem splitSlash_ne_nil (p : List Char) : splitSlash p ≠ [] := by
  induction p with
  | nil => simp [splitSlash]
  | cons c t ih =>
    unfold splitSlash
    split
    · simp
    · cases h : splitSlash t <;> simp

theorem splitSlash_append_slash (p q : List Char) :
    splitSlash (p ++ '/' :: q) = splitSlash p ++ splitSlash q := by
  induction p with
  | nil => simp [splitSlash]
  | cons c t ih =>
    rw [List.cons_append, splitSlash.eq_2, splitSlash.eq_2, ih]
    split
    · simp
    · cases h : splitSlash t with
      | nil => exact absurd h (splitSlash_ne_nil t)
      | cons a b => simp

theorem components_append_slash (p q : List Char) :
    components (p ++ '/' :: q) = components p ++ components q := by
  simp [components, splitSlash_append_slash]

theorem components_nil : components [] = [] := by simp [components, splitSlash]

theorem components_slashes (n : Nat) (p : List Char) :
    components (p ++ List.replicate n '/') = components p := by
  induction n with
  | zero => simp
  | succ n ih =>
    rw [List.replicate_succ', ← List.append_assoc, components_append_slash, ih, components_nil,
      List.append_nil]

theorem components_dot_slash (p : List Char) : components ("./".toList ++ p) = components p := by
  have : ("./".toList ++ p) = ['.'] ++ '/' :: p := by simp
  rw [this, components_append_slash]
  have : components ['.'] = [] := by simp [components, splitSlash]
  rw [this, List.nil_append]

theorem dropWhile_slash_reverse (d : List Char) :
    ∃ n, d = (d.reverse.dropWhile (fun c => c = '/')).reverse ++ List.replicate n '/' := by
  refine ⟨(d.reverse.takeWhile (fun c => c = '/')).length, ?_⟩
  have h1 : List.replicate (d.reverse.takeWhile (fun c => decide (c = '/'))).length '/' =
      d.reverse.takeWhile (fun c => decide (c = '/')) := by
    symm
    rw [List.eq_replicate_iff]
    refine ⟨rfl, fun c hc => ?_⟩
    simpa using List.mem_takeWhile_imp hc
  rw [h1]
  have h2 := List.takeWhile_append_dropWhile (p := fun c => decide (c = '/')) (l := d.reverse)
  have h3 := congrArg List.reverse h2
  rw [List.reverse_append, List.reverse_reverse] at h3
  have h4 : (d.reverse.takeWhile (fun c => decide (c = '/'))).reverse =
      d.reverse.takeWhile (fun c => decide (c = '/')) := by
    rw [← h1, List.reverse_replicate]
  rw [h4] at h3
  exact h3.symm

theorem components_parentPath (d name : List Char) (hn : '/' ∉ name) :
    components (parentPath (d ++ '/' :: name)) = components d := by
  unfold parentPath
  have hrev : ((d ++ '/' :: name).reverse.dropWhile (fun c => decide (c ≠ '/'))) = '/' :: d.reverse := by
    rw [List.reverse_append, List.reverse_cons, List.append_assoc, List.dropWhile_append_of_pos]
    · simp
    · intro c hc; simp only [List.mem_reverse] at hc
      simp only [ne_eq, decide_not, Bool.not_eq_eq_eq_not, Bool.not_true, decide_eq_false_iff_not]
      rintro rfl; exact hn hc
  simp only [hrev]
  rw [List.dropWhile_cons_of_pos (by simp)]
  obtain ⟨n, hdn⟩ := dropWhile_slash_reverse d
  split
  · rename_i h
    rw [h.1, List.nil_append] at hdn
    rw [hdn]
    have h1 : components ['/'] = [] := by simp [components, splitSlash]
    have h2 := components_slashes n []
    rw [List.nil_append, components_nil] at h2
    rw [h1, h2]
  · conv_rhs => rw [hdn, components_slashes]

theorem parentPath_plain (name : List Char) (hn : '/' ∉ name) : parentPath name = [] := by
  unfold parentPath
  have hd : name.reverse.dropWhile (fun c => decide (c ≠ '/')) = [] := by
    rw [List.dropWhile_eq_nil_iff]
    intro c hc; simp only [List.mem_reverse] at hc
    simp only [ne_eq, decide_not, Bool.not_eq_eq_eq_not, Bool.not_true, decide_eq_false_iff_not]
    rintro rfl; exact hn hc
  simp only [hd, List.dropWhile_nil, List.reverse_nil, true_and]
  split
  · rename_i h
    cases name with
    | nil => simp at h
    | cons c t => simp at h; exact absurd h (fun h => hn (by simp [h]))
  · rfl

/-- **C15, anywhere** (what the code does for every input path, absolute or relative): the mesh is looked for in the
folder one gets by following the directory of the input path from the working directory, even if that path starts at the
root. -/
theorem C15_anywhere_partial (cwd : List (List Char)) (d name g : List Char) (hn : '/' ∉ name) :
    locate cwd (meshFilename (d ++ '/' :: name) g) = cwd ++ components d ++ components g ∧
    locate cwd (meshFilename name g) = cwd ++ components g := by
  have key : ∀ f, locate cwd (meshFilename f g) = cwd ++ components (parentPath f) ++ components g := by
    intro f
    unfold locate meshFilename directoryOf
    have : ("./".toList ++ parentPath f ++ ['/'] ++ g).head? ≠ some '/' := by simp
    rw [if_neg this, List.append_assoc, List.append_assoc, components_dot_slash, List.singleton_append,
      components_append_slash, List.append_assoc]
  exact ⟨by rw [key, components_parentPath d name hn], by rw [key, parentPath_plain name hn, components_nil, List.append_nil]⟩

/-- **C15, the part that holds.** For a relative input path, whatever the current directory: the mesh is
read from the `gmshFile` entry inside the directory of the input file (`d` may itself contain any
number of directories and repeated slashes). -/
theorem C15_mesh_path_partial (cwd : List (List Char)) (d name g : List Char) (hn : '/' ∉ name) :
    (d.head? ≠ some '/' → d ≠ [] →
      locate cwd (meshFilename (d ++ '/' :: name) g) = locate cwd d ++ components g) ∧
    locate cwd (meshFilename name g) = cwd ++ components g := by
  obtain ⟨ha, hb⟩ := C15_anywhere_partial cwd d name g hn
  refine ⟨fun h1 _ => ?_, hb⟩
  rw [ha]
  unfold locate; rw [if_neg h1]

/-- **C15, refuted** for absolute input paths: run from `/home`, the input `/data/in.json` makes the
program look for the mesh in `/home/data`. -/
theorem C15_refuted :
    locate [['h', 'o', 'm', 'e']] (meshFilename "/data/in.json".toList "m.msh".toList) ≠
      locate [['h', 'o', 'm', 'e']] "/data".toList ++ components "m.msh".toList := by
  decide

example : locate [['h']] (meshFilename "cases//a/in.json".toList "m.msh".toList) =
    ["h".toList, "cases".toList, "a".toList, "m.msh".toList] :=
  (C15_mesh_path_partial [['h']] "cases//a".toList "in.json".toList "m.msh".toList (by decide)).1
    (by decide) (by decide)

/-- Run from `/home`, the input `/data/in.json` makes the program look for the mesh in `/home/data`. -/
example : locate ["home".toList] (meshFilename "/data/in.json".toList "m.msh".toList) =
    ["home".toList, "data".toList, "m.msh".toList] :=
  (C15_anywhere_partial ["home".toList] "/data".toList "in.json".toList "m.msh".toList (by decide)).1

end Tulip.Props
