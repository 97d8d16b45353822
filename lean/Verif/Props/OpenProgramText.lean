import Verif.Props.ProgramText
import Verif.Props.OpenProgram

/-!
# C118 for open problems: from the text of the input file to the text of the in-cell results
-/

set_option linter.unusedSectionVars false

namespace Tulip.Props
open Tulip Tulip.Spec Tulip.JsonText Matrix

section
variable {𝕜 : Type} [Field 𝕜] [DecidableEq 𝕜] [LinearOrder 𝕜] [IsStrictOrderedRing 𝕜] [FloorRing 𝕜]

/-- **C118, open problems, from text to text.** The hypotheses are those of C78 on open problems, except that the input file is
a text that denotes the document in the grammar of JSON: the program succeeds and writes one file, whose text alone gives the
in-cell results back, if all their numbers can be printed. -/
theorem C118_open_program (fmt : NumberFormat 𝕜) (E : Engine 𝕜) (texts : List (List Char) → Option (List Char))
    (meshAt : List (List Char) → Outcome (Mesh 𝕜)) (cwd : List (List Char)) {f name : List Char}
    (hrel : f.head? ≠ some '/') (hf : f = name ∨ ∃ dir, f = dir ++ '/' :: name) (hn : '/' ∉ name) (h1 : name ≠ [])
    (h2 : name ≠ ['.']) {s : List Char} {doc : List (String × Json 𝕜)} (htext : texts (locate cwd f) = some s)
    (hdoc : JsonDocument fmt (.obj doc) s)
    (hr : RegularInput doc) {model : Model 𝕜} {opts : DriverOptions}
    (hm : DescribesModel meshAt (locate cwd f).dropLast doc model) (hopt : DescribesOptions doc opts)
    {ps : List (PEC 𝕜)} (hN : Numbering model.materials ps) (ht : (ps.map PEC.tag).Nodup)
    (ho : model.determineOpenness = .ok .open_) (hB : Buildable (E.fem model opts) model.materials)
    (hW : WellDeclared model.materials) (hP : ExactSolver E.pcg)
    (he : Elliptic E.analytic (E.fem model opts) model.materials) (hs : Separate (E.fem model opts) model.materials)
    (hc : Conservative E.analytic (E.fem model opts) model.materials)
    (hG : Balanced E.analytic (E.fem model opts) model.materials)
    (h1p : OnePiece (E.fem model opts) model.materials) (habs : Absorbing E.analytic (E.fem model opts) model.materials)
    (hdn : DistinctNames model.materials) (hset : InCellSetting model (E.fem model opts))
    (hA : FirstMoments E.analytic) {m : Nat} (hord : opts.multipolarExpansionOrder = m) :
    ∃ (path : String) (t : List Char) (p : InCellPotentials 𝕜) (rs : Bool → Fin ps.length → FieldReconstruction 𝕜),
      (mainProgram E (fun p => documents fmt texts (locate cwd p)) (fun p => meshAt (locate cwd p)) ⟨false, some f⟩).1 =
        .ok ⟨⟩ ∧
      textFiles fmt (mainProgram E (fun p => documents fmt texts (locate cwd p)) (fun p => meshAt (locate cwd p))
        ⟨false, some f⟩).2 = [(path, t)] ∧
      locate cwd path.toList = (locate cwd f).dropLast ++ ["inCellPotentials.out.json".toList] ∧
      ((∀ x ∈ cellNumbers p, Prints fmt x) →
        ∃ j, parse fmt t = some j ∧ JsonDocument fmt j t ∧ InCellPotentials.ofJSON j = .ok p) ∧
      p.electric = (List.finRange ps.length).map (fun i => ((i.1 : Int), rs false i)) ∧
      p.magnetic = (List.finRange ps.length).map (fun i => ((i.1 : Int), rs true i)) ∧
      ∀ b i, InCellEntry E.analytic (E.fem model opts) model b m ps i (rs b i) := by
  have hfile : documents fmt texts (locate cwd f) = some (some (.obj doc)) := by
    unfold documents
    rw [htext, Option.map_some, (parse_iff _ _).mpr hdoc]
  obtain ⟨path, j, p, rs, r1, r2, r3, r4, r5, r6, r7, r8⟩ :=
    C78_open_program E (documents fmt texts) meshAt cwd hrel hf hn h1 h2 hfile hr hm hopt hN ht ho hB hW hP he hs hc hG h1p habs
      hdn hset hA hord
  refine ⟨path, dump fmt j, p, rs, r1, ?_, r3, ?_, r5, r6, r7⟩
  · unfold textFiles
    rw [r2]
    rfl
  · intro hp
    have hw : Writable fmt j := by
      rw [r8]
      exact writable_cell fmt p hp
    exact ⟨j, (C117_writes fmt hw).2, (C117_writes fmt hw).1, r4⟩

end

/-! ## Example -/

/-- `cases/wires.json` as text; characters may be escaped, members come in any order. -/
def wiresText : List Char := "{ \"model\": { \"gmshFile\": \"wires.msh\",
    \"materials\": {
      \"Shield_0\":       {\"type\": \"PEC\", \"tag\": 1, \"area\": 1000000.1},
      \"Conductor_1\":    {\"type\": \"PEC\", \"tag\": 2, \"area\": 1000000.1},
      \"OpenBoundary_0\": {\"type\": \"OpenBoundary\", \"tag\": 3},
      \"Vacuum_0\":       {\"type\": \"\\u0056acuum\", \"tag\": 1},
      \"Wax_1\":          {\"type\": \"Dielectric\", \"tag\": 2, \"eps_r\": 2.1}
    }
  },
  \"analysis\": {\"order\": 2}
}".toList

/-- It denotes the document of the example of C78 on open problems. -/
theorem wiresText_denotes : JsonDocument fractions (.obj wiresFields) wiresText := by
  rw [← parse_iff]
  have h : (match parse fractions wiresText with | some j => same j (.obj wiresFields) | none => false) = true := by
    decide +kernel
  cases e : parse fractions wiresText with
  | none => rw [e] at h; cases h
  | some j => rw [e] at h; rw [same_eq _ _ h]

/-- a disk holding `home/cases/wires.json` and nothing else -/
def wiresTexts : List (List Char) → Option (List Char) := fun l =>
  if l = ["home".toList, "cases".toList, "wires.json".toList] then some wiresText else none

/-- The hypotheses of `C118_open_program` are met: from `cases/wires.json` the program writes a text from which the in-cell
results are read back. -/
example : ∃ (path : String) (t : List Char) (j : Json ℚ) (p : InCellPotentials ℚ)
    (rs : Bool → Fin 2 → FieldReconstruction ℚ),
    textFiles fractions (mainProgram lineEngine (fun p => documents fractions wiresTexts (locate ["home".toList] p))
      (fun p => wiresMeshAt (locate ["home".toList] p)) ⟨false, some "cases/wires.json".toList⟩).2 = [(path, t)] ∧
    locate ["home".toList] path.toList = ["home".toList, "cases".toList, "inCellPotentials.out.json".toList] ∧
    parse fractions t = some j ∧ InCellPotentials.ofJSON j = .ok p ∧
    p.electric = [(0, rs false 0), (1, rs false 1)] ∧ p.magnetic = [(0, rs true 0), (1, rs true 1)] ∧
    ∀ b i, InCellEntry lineAnalytic line wires b 5 wiresPs i (rs b i) := by
  have hl : locate ["home".toList] "cases/wires.json".toList = ["home".toList, "cases".toList, "wires.json".toList] := by
    decide +kernel
  have htext : wiresTexts (locate ["home".toList] "cases/wires.json".toList) = some wiresText := by
    rw [hl]; rfl
  obtain ⟨hm, ho⟩ := wires_described
  obtain ⟨path, t, p, rs, _, h1, h2, h3, h4, h5, h6⟩ := C118_open_program fractions lineEngine wiresTexts wiresMeshAt
    ["home".toList] (f := "cases/wires.json".toList) (name := "wires.json".toList)
    (by decide +kernel) (Or.inr ⟨"cases".toList, by decide +kernel⟩) (by decide +kernel) (by decide +kernel)
    (by decide +kernel) htext wiresText_denotes wires_regular hm ho wires_numbering (by decide +kernel) wires_open
    (wires_buildable _) wires_declared inverseSolver_exact wires_elliptic wires_separate wires_conservative wires_balanced
    line_onePiece line_absorbing wires_distinct wires_setting lineAnalytic_first (m := 5) rfl
  obtain ⟨j, j1, -, j2⟩ := h3 (fun x _ => fractions_prints x)
  exact ⟨path, t, j, p, rs, h1, h2.trans (by rw [hl]; rfl), j1, j2, h4, h5, h6⟩

end Tulip.Props
