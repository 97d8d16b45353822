import Verif.Props.JsonText
import Verif.Props.Input

/-!
# C118: from the text of the input file to the text of the results file
-/

namespace Tulip.Props
open Tulip Tulip.Spec Tulip.JsonText
variable {𝕜 : Type _}

/-- The documents in files with texts: none where there is no file, `some none` where `json::parse` throws. -/
def documents (fmt : NumberFormat 𝕜) (texts : List (List Char) → Option (List Char)) :
    List (List Char) → Option (Option (Json 𝕜)) := fun l => (texts l).map (parse fmt)

/-- The JSON files that are written, with their texts (`ofs << j`, Results.cpp:100-104). -/
def textFiles (fmt : NumberFormat 𝕜) (evs : List (Event 𝕜)) : List (String × List Char) :=
  (jsonFiles evs).map (fun f => (f.1, dump fmt f.2))

/-! ## Formatting -/

/-- **C118, formatting.** Two texts are read alike if and only if they denote the same values; so white space, the way in which
characters are escaped and the spelling of numbers do not matter. -/
theorem C118_formatting (fmt : NumberFormat 𝕜) (s s' : List Char) :
    parse fmt s = parse fmt s' ↔ ∀ j, JsonDocument fmt j s ↔ JsonDocument fmt j s' := by
  constructor
  · intro h j
    rw [← parse_iff, ← parse_iff, h]
  · intro h
    apply Option.ext
    intro j
    have := h j
    rwa [← parse_iff, ← parse_iff] at this

theorem find?_foldl_nodup {V : Type _} {fs : List (String × V)} (h : (fs.map Prod.fst).Nodup) (k : String) (v : V) :
    SMap.find? (fs.foldl (fun m kv => SMap.set m kv.1 kv.2) []) k = some v ↔ (k, v) ∈ fs := by
  have key : ∀ (fs : List (String × V)) (m : SMap String V), SMap.Sorted m → (fs.map Prod.fst).Nodup →
      (SMap.find? (fs.foldl (fun m kv => SMap.set m kv.1 kv.2) m) k = some v ↔
        (k, v) ∈ fs ∨ (k ∉ fs.map Prod.fst ∧ SMap.find? m k = some v)) := by
    intro fs
    induction fs with
    | nil => intro m _ _; simp
    | cons a t ih =>
      intro m hm hn
      obtain ⟨ka, va⟩ := a
      rw [List.map_cons, List.nodup_cons] at hn
      rw [List.foldl_cons, ih _ (hm.set _ _) hn.2, SMap.find?_set hm]
      simp only [List.map_cons, List.mem_cons, Prod.mk.injEq, not_or]
      by_cases e : ka = k
      · subst e
        have hnm : ∀ w, (ka, w) ∉ t := fun w hw => hn.1 (List.mem_map.mpr ⟨_, hw, rfl⟩)
        simp only [if_pos, hnm v, false_or, true_and, or_false, not_true_eq_false, false_and, hn.1, not_false_eq_true,
          Option.some.injEq]
        exact eq_comm
      · have e' : ¬ k = ka := fun h => e h.symm
        simp only [if_neg e, e', false_and, false_or, not_false_eq_true, true_and]
  have := key fs [] SMap.Sorted.nil h
  simpa using this

theorem sorted_foldl {V : Type _} : ∀ (fs : List (String × V)) (m : SMap String V), SMap.Sorted m →
    SMap.Sorted (fs.foldl (fun m kv => SMap.set m kv.1 kv.2) m)
  | [], _, h => h
  | _ :: t, _, h => sorted_foldl t _ (h.set _ _)

/-- **C118, order of members.** Members with distinct names may come in any order: the objects are the same. -/
theorem C118_order (fmt : NumberFormat 𝕜) {fs fs' : List (String × Json 𝕜)} {t t' : List Char} (h : MembersText fmt fs t)
    (h' : MembersText fmt fs' t') (hp : fs.Perm fs') (hn : (fs.map Prod.fst).Nodup) :
    ∃ o, (∀ k v, SMap.find? o k = some v ↔ (k, v) ∈ fs) ∧
      parse fmt ('{' :: t ++ ['}']) = some (.obj o) ∧ parse fmt ('{' :: t' ++ ['}']) = some (.obj o) := by
  have hn' : (fs'.map Prod.fst).Nodup := (hp.map _).nodup_iff.mp hn
  have e : fs'.foldl (fun m kv => SMap.set m kv.1 kv.2) [] = fs.foldl (fun m kv => SMap.set m kv.1 kv.2) [] := by
    apply SMap.ext (sorted_foldl _ _ SMap.Sorted.nil) (sorted_foldl _ _ SMap.Sorted.nil)
    intro k
    apply Option.ext
    intro v
    rw [find?_foldl_nodup hn', find?_foldl_nodup hn]
    exact hp.symm.mem_iff
  have hd : ∀ {j : Json 𝕜} {s : List Char}, ValueText fmt j s → parse fmt s = some j := fun {j s} h =>
    (parse_iff j s).mpr ⟨[], s, [], by simp, blank_nil, h, blank_nil⟩
  refine ⟨_, find?_foldl_nodup hn, hd (.members h), ?_⟩
  rw [← e]
  exact hd (.members h')

section
variable [Field 𝕜] [DecidableEq 𝕜] [LinearOrder 𝕜] [IsStrictOrderedRing 𝕜] [FloorRing 𝕜]

omit [IsStrictOrderedRing 𝕜] in
/-- **C118, texts that are not JSON.** Nothing is written if the input file is missing or does not belong to the grammar: after
its usage the program ends with an exception of the JSON library. -/
theorem C118_refuses (fmt : NumberFormat 𝕜) (E : Engine 𝕜) (texts : List (List Char) → Option (List Char))
    (load : List Char → Outcome (Mesh 𝕜)) (cwd : List (List Char)) (f : List Char)
    (h : ∀ s, texts (locate cwd f) = some s → ¬ ∃ j, JsonDocument fmt j s) :
    mainProgram E (fun p => documents fmt texts (locate cwd p)) load ⟨false, some f⟩ = (.throw .json, [.usage]) := by
  have hl : loadInputs (fun p => documents fmt texts (locate cwd p)) load f = .throw .json := by
    have hj : readJSON (fun p => documents fmt texts (locate cwd p)) f = .throw .json := by
      unfold readJSON documents
      show (match (texts (locate cwd f)).map (parse fmt) with | none => _ | some none => _ | some (some j) => _) = _
      cases e : texts (locate cwd f) with
      | none => rfl
      | some s =>
        show (match some (parse fmt s) with | none => _ | some none => _ | some (some j) => _) = _
        cases e' : parse fmt s with
        | none => rfl
        | some j => exact absurd ⟨j, (parse_iff j s).mp e'⟩ (h s e)
    unfold loadInputs
    rw [hj, Outcome.throw_bind]
  rw [main_eq, hl]
  rfl

/-- **C118, the program, from text to text.** The hypotheses are those of C78, except that the input file is a text that
denotes the document in the grammar of JSON: the program succeeds and writes one file, the text of the parameters; they are read
back from this text alone, if all entries can be printed, and are the matrices of charges and voltages of C78. -/
theorem C118_program (fmt : NumberFormat 𝕜) (E : Engine 𝕜) (texts : List (List Char) → Option (List Char))
    (meshAt : List (List Char) → Outcome (Mesh 𝕜)) (cwd : List (List Char)) {f name : List Char}
    (hrel : f.head? ≠ some '/') (hf : f = name ∨ ∃ dir, f = dir ++ '/' :: name) (hn : '/' ∉ name) (h1 : name ≠ [])
    (h2 : name ≠ ['.']) {s : List Char} {doc : List (String × Json 𝕜)} (htext : texts (locate cwd f) = some s)
    (hdoc : JsonDocument fmt (.obj doc) s)
    (hr : RegularInput doc) {model : Model 𝕜} {opts : DriverOptions}
    (hm : DescribesModel meshAt (locate cwd f).dropLast doc model) (hopt : DescribesOptions doc opts)
    {ps : List (PEC 𝕜)} (hN : Numbering model.materials ps) (h3 : 2 ≤ ps.length) (ht : (ps.map PEC.tag).Nodup)
    (hcl : model.determineOpenness = .ok .closed) (hB : Buildable (E.fem model opts) model.materials)
    (hW : WellDeclared model.materials) (hP : ExactSolver E.pcg)
    (he : Elliptic E.analytic (E.fem model opts) model.materials) (hs : Separate (E.fem model opts) model.materials)
    (hc : Conservative E.analytic (E.fem model opts) model.materials) (h1p : OnePiece (E.fem model opts) model.materials)
    (heps : 0 < E.eps0SI) (hmu : 0 < E.mu0SI) :
    ∃ (n : Nat) (hn : ps.length = n + 1) (path : String) (t : List Char) (p : PULParameters 𝕜) (C L : Matrix (Fin n) (Fin n) 𝕜),
      (mainProgram E (fun p => documents fmt texts (locate cwd p)) (fun p => meshAt (locate cwd p)) ⟨false, some f⟩).1 =
        .ok ⟨⟩ ∧
      textFiles fmt (mainProgram E (fun p => documents fmt texts (locate cwd p)) (fun p => meshAt (locate cwd p))
        ⟨false, some f⟩).2 = [(path, t)] ∧
      locate cwd path.toList = (locate cwd f).dropLast ++ ["pulmtln.out.json".toList] ∧
      ((∀ i j, Prints fmt (C i j)) → (∀ i j, Prints fmt (L i j)) →
        ∃ j, parse fmt t = some j ∧ JsonDocument fmt j t ∧ PULParameters.ofJSON j = .ok p) ∧
      p.C = DMat.ofMatrix C ∧ p.L = DMat.ofMatrix L ∧ PD C ∧ PD L ∧
      (∀ (V : Int → 𝕜) (t : SolverSolution (E.fem model opts)),
        PrescribedField E.analytic (E.fem model opts) model.materials false V t → V (ps[0]'(by omega)).tag = 0 →
        ∀ i : Fin n, E.eps0SI * chargeOn t (ps[i.1 + 1]'(by omega)).tag =
          ∑ j : Fin n, C i j * V (ps[j.1 + 1]'(by omega)).tag) ∧
      (∀ (V : Int → 𝕜) (t : SolverSolution (E.fem model opts)),
        PrescribedField E.analytic (E.fem model opts) model.materials true V t → V (ps[0]'(by omega)).tag = 0 →
        ∀ i : Fin n, E.mu0SI * V (ps[i.1 + 1]'(by omega)).tag =
          ∑ j : Fin n, L i j * chargeOn t (ps[j.1 + 1]'(by omega)).tag) := by
  have hfile : documents fmt texts (locate cwd f) = some (some (.obj doc)) := by
    unfold documents
    rw [htext, Option.map_some, (parse_iff _ _).mpr hdoc]
  obtain ⟨n, en, path, j, p, C, L, r1, r2, r3, r4, r5, r6, r7, r8, r9, r10, r11⟩ :=
    C78_program E (documents fmt texts) meshAt cwd hrel hf hn h1 h2 hfile hr hm hopt hN h3 ht hcl hB hW hP he hs hc h1p heps hmu
  refine ⟨n, en, path, dump fmt j, p, C, L, r1, ?_, r3, ?_, r5, r6, r7, r8, r9, r10⟩
  · unfold textFiles
    rw [r2]
    rfl
  · intro pC pL
    have hw : Writable fmt j := by
      rw [r11]
      refine writable_pul fmt p ?_ ?_
      · rw [r5]; exact pC
      · rw [r6]; exact pL
    exact ⟨j, (C117_writes fmt hw).2, (C117_writes fmt hw).1, r4⟩

end

/-! ## Example -/

/-- A format that prints all rational numbers: numerator and denominator with a point between them (3/14 as `3.14`). -/
def fractions : NumberFormat ℚ where
  write x := dumpInt x.num ++ '.' :: Nat.toDigits 10 x.den
  read t := some ((intValue (t.takeWhile (· ≠ '.')) : ℚ) / decimal (t.dropWhile (· ≠ '.')).tail)

theorem fractions_prints (x : ℚ) : Prints fractions x := by
  have hi := intText_dump x.num
  have hc : ∀ c ∈ dumpInt x.num, (decide (c ≠ '.')) = true := by
    intro c hc
    obtain ⟨neg, ds, e, hd, -⟩ := hi
    rw [e] at hc
    rcases List.mem_append.mp hc with h | h
    · cases neg <;> simp at h
      subst h; decide
    · have := hd.2 c h
      simp only [decide_eq_true_eq]
      rintro rfl
      revert this; decide
  have hr : NotHead (fun c => decide (c ≠ '.')) ('.' :: Nat.toDigits 10 x.den) := notHead_cons (by decide)
  have hd : Digits (Nat.toDigits 10 x.den) := ⟨Nat.toDigits_ne_nil, fun c hc =>
    Nat.isDigit_of_mem_toDigits (by omega) (by omega) hc⟩
  refine ⟨⟨_, _, '.' :: Nat.toDigits 10 x.den, [], ?_, hi, Or.inr ⟨_, rfl, hd⟩, Or.inl rfl, Or.inl (by simp)⟩, ?_⟩
  · simp [fractions]
  simp only [fractions]
  rw [takeWhile_append hc hr, dropWhile_append hc hr, List.tail_cons, (scanInt_complete hi (NotHead.nil _)).2,
    decimal_toDigits, Rat.num_div_den]

/-- `cases/pair.json` as text. -/
def pairText : List Char := "
{
  \"model\": {
    \"materials\": {
      \"Shield_0\":     {\"type\": \"PEC\", \"tag\": 1},
      \"Conductor_1\":  {\"type\": \"PEC\", \"tag\": 2},
      \"Dielectric_1\": {\"type\": \"Dielectric\", \"tag\": 1, \"eps_r\": 3.1}
    },
    \"gmshFile\": \"pair.msh\"
  },
  \"analysis\": {\"exportFolder\": \"elsewhere\"}
}
".toList

mutual
/-- Equality of JSON values, to be computed. -/
def same : Json ℚ → Json ℚ → Bool
  | .null, .null => true
  | .bool a, .bool b => decide (a = b)
  | .int a, .int b => decide (a = b)
  | .num a, .num b => decide (a = b)
  | .str a, .str b => decide (a = b)
  | .arr a, .arr b => sameElems a b
  | .obj a, .obj b => sameMembers a b
  | _, _ => false

def sameElems : List (Json ℚ) → List (Json ℚ) → Bool
  | [], [] => true
  | a :: l, b :: m => same a b && sameElems l m
  | _, _ => false

def sameMembers : List (String × Json ℚ) → List (String × Json ℚ) → Bool
  | [], [] => true
  | (k, a) :: l, (k', b) :: m => decide (k = k') && same a b && sameMembers l m
  | _, _ => false
end

mutual
theorem same_eq : ∀ (a b : Json ℚ), same a b = true → a = b
  | .null, b, h => by cases b <;> simp_all [same]
  | .bool a, b, h => by cases b <;> simp_all [same]
  | .int a, b, h => by cases b <;> simp_all [same]
  | .num a, b, h => by cases b <;> simp_all [same]
  | .str a, b, h => by cases b <;> simp_all [same]
  | .arr a, b, h => by
    cases b <;> simp only [same, Bool.false_eq_true] at h
    rw [sameElems_eq _ _ h]
  | .obj a, b, h => by
    cases b <;> simp only [same, Bool.false_eq_true] at h
    rw [sameMembers_eq _ _ h]

theorem sameElems_eq : ∀ (a b : List (Json ℚ)), sameElems a b = true → a = b
  | [], b, h => by cases b <;> simp_all [sameElems]
  | a :: l, b, h => by
    cases b with
    | nil => simp [sameElems] at h
    | cons b m =>
      simp only [sameElems, Bool.and_eq_true] at h
      rw [same_eq _ _ h.1, sameElems_eq _ _ h.2]

theorem sameMembers_eq : ∀ (a b : List (String × Json ℚ)), sameMembers a b = true → a = b
  | [], b, h => by cases b <;> simp_all [sameMembers]
  | (k, a) :: l, b, h => by
    cases b with
    | nil => simp [sameMembers] at h
    | cons b m =>
      obtain ⟨k', b⟩ := b
      simp only [sameMembers, Bool.and_eq_true, decide_eq_true_eq] at h
      rw [same_eq _ _ h.1.2, sameMembers_eq _ _ h.2, h.1.1]
end

/-- It denotes the document of the example of C78. -/
theorem pairText_denotes : JsonDocument fractions (.obj pairFields) pairText := by
  rw [← parse_iff]
  have h : (match parse fractions pairText with | some j => same j (.obj pairFields) | none => false) = true := by
    decide +kernel
  cases e : parse fractions pairText with
  | none => rw [e] at h; cases h
  | some j => rw [e] at h; rw [same_eq _ _ h]

/-- a disk holding `home/cases/pair.json` and nothing else -/
def pairTexts : List (List Char) → Option (List Char) := fun l =>
  if l = ["home".toList, "cases".toList, "pair.json".toList] then some pairText else none

/-- The hypotheses of `C118_program` are met: from `cases/pair.json` the program writes a text from which the parameters are
read back. -/
example : ∃ (n : Nat) (path : String) (t : List Char) (j : Json ℚ) (p : PULParameters ℚ) (C L : Matrix (Fin n) (Fin n) ℚ),
    2 = n + 1 ∧
    textFiles fractions (mainProgram chainEngine (fun p => documents fractions pairTexts (locate ["home".toList] p))
      (fun p => pairMeshAt (locate ["home".toList] p)) ⟨false, some "cases/pair.json".toList⟩).2 = [(path, t)] ∧
    locate ["home".toList] path.toList = ["home".toList, "cases".toList, "pulmtln.out.json".toList] ∧
    parse fractions t = some j ∧ PULParameters.ofJSON j = .ok p ∧ p.C = DMat.ofMatrix C ∧ p.L = DMat.ofMatrix L ∧
    PD C ∧ PD L := by
  have hl : locate ["home".toList] "cases/pair.json".toList = ["home".toList, "cases".toList, "pair.json".toList] := by
    decide +kernel
  have htext : pairTexts (locate ["home".toList] "cases/pair.json".toList) = some pairText := by
    rw [hl]; rfl
  obtain ⟨hm, ho⟩ := pair_described
  obtain ⟨n, en, path, t, p, C, L, _, h1, h2, h3, h4, h5, h6, h7, _⟩ := C118_program fractions chainEngine pairTexts pairMeshAt
    ["home".toList] (f := "cases/pair.json".toList) (name := "pair.json".toList)
    (by decide +kernel) (Or.inr ⟨"cases".toList, by decide +kernel⟩) (by decide +kernel) (by decide +kernel)
    (by decide +kernel) htext pairText_denotes pair_regular hm ho pair_numbering (by decide +kernel) (by decide +kernel)
    pair_closed (pair_buildable _) pair_declared inverseSolver_exact pair_elliptic pair_separate pair_conservative
    chain_onePiece (by decide +kernel) (by decide +kernel)
  obtain ⟨j, j1, -, j2⟩ := h3 (fun i j => fractions_prints _) (fun i j => fractions_prints _)
  exact ⟨n, path, t, j, p, C, L, en, h1, h2.trans (by rw [hl]; rfl), j1, j2, h4, h5, h6, h7⟩

end Tulip.Props
