import Verif.Proofs.DriverFolder

/-!
# What the calls on a driver write
-/

set_option linter.unusedSectionVars false
set_option linter.unusedSimpArgs false

namespace Tulip
open Spec Matrix

section
variable {𝕜 : Type} [Field 𝕜] {F : FEM 𝕜} {α β : Type}

theorem exportFieldSolutions_eq (opts : DriverOptions) (t : SolverSolution F) (name : String) (b : Bool) :
    exportFieldSolutions opts t name b = fieldFiles opts name b t := by
  unfold exportFieldSolutions fieldFiles
  have h : ∀ v : String, ("/" ++ v : String) = "/" ++ v := fun _ => rfl
  cases b
  · simp only [Bool.false_eq_true, if_false, String.append_assoc, String.append_empty]
    rfl
  · simp only [if_true, String.append_assoc]
    rfl

/-- A field file in the export folder, of an enabled kind. -/
def FieldEvent (o : DriverOptions) (e : Event 𝕜) : Prop :=
  ∃ (v : Viewer) (name : String) (G : FEM 𝕜) (t : SolverSolution G),
    e = .field v (o.exportFolder ++ "/" ++ name) G t ∧
    (v = .paraView → o.exportParaViewSolution = true) ∧ (v = .visIt → o.exportVisItSolution = true)

theorem exportFieldSolutions_field (o : DriverOptions) (t : SolverSolution F) (name : String) (b : Bool) :
    ∀ e ∈ exportFieldSolutions o t name b, FieldEvent o e := by
  intro e he
  unfold exportFieldSolutions at he
  rcases List.mem_append.mp he with he | he
  · split at he
    · next h =>
      rw [List.mem_singleton.mp he]
      cases b
      · exact ⟨.paraView, "ParaView/" ++ name, F, t, by simp only [Bool.false_eq_true, if_false, if_true, String.append_assoc], fun _ => h,
          fun h => by cases h⟩
      · exact ⟨.paraView, "ParaView/" ++ name ++ "_no_dielectrics", F, t, by simp only [Bool.false_eq_true, if_false, if_true, String.append_assoc], fun _ => h,
          fun h => by cases h⟩
    · cases he
  · split at he
    · next h =>
      rw [List.mem_singleton.mp he]
      cases b
      · exact ⟨.visIt, "VisIt/" ++ name, F, t, by simp only [Bool.false_eq_true, if_false, if_true, String.append_assoc],
          (fun h => by cases h), fun _ => h⟩
      · exact ⟨.visIt, "VisIt/" ++ name ++ "_no_dielectrics", F, t, by simp only [Bool.false_eq_true, if_false, if_true, String.append_assoc],
          (fun h => by cases h), fun _ => h⟩
    · cases he

/-- With the options `o` the call writes field files only. -/
def FieldsOnly (o : DriverOptions) (x : Act F α) : Prop := ∀ d, d.opts = o → ∀ e ∈ (x d).2.2, FieldEvent o e

section
variable {o : DriverOptions}

theorem FieldsOnly.bind {x : Act F α} {f : α → Act F β} (hk : Keeps x) (hx : FieldsOnly o x)
    (hf : ∀ a, FieldsOnly o (f a)) : FieldsOnly o (x >>= f) := by
  intro d ho e he
  rw [bind_def] at he
  have h1 := hx d ho
  have h2 := forget_opts (hk d)
  rcases ex : x d with ⟨ox, dx, wx⟩
  rw [ex] at he h1 h2
  simp only at h1 h2
  cases ox with
  | ok a =>
    rcases List.mem_append.mp he with he | he
    · exact h1 e he
    · exact hf a dx (h2.trans ho) e he
  | throw _ => exact h1 e he
  | ub => exact h1 e he
  | nonfinite => exact h1 e he

theorem FieldsOnly.lift (x : Outcome α) : FieldsOnly o (Act.lift (F := F) x) := fun _ _ _ h => by cases h
theorem FieldsOnly.pure (x : α) : FieldsOnly o (Pure.pure x : Act F α) := fun _ _ _ h => by cases h
theorem FieldsOnly.read (g : Driver F → α) : FieldsOnly o (Act.read g) := fun _ _ _ h => by cases h
theorem FieldsOnly.updateSolver (b : Bool) (g : Solver F → Solver F) : FieldsOnly o (Driver.updateSolver b g) :=
  fun _ _ _ h => by cases h

/-- Reading the options. -/
theorem FieldsOnly.opts {k : DriverOptions → Act F β} (h : FieldsOnly o (k o)) :
    FieldsOnly o (Act.read Driver.opts >>= k) := by
  intro d ho e he
  rw [Act.read_bind, ho] at he
  exact h d ho e he

theorem FieldsOnly.emit (t : SolverSolution F) (name : String) (b : Bool) :
    FieldsOnly o (Act.emit (F := F) (exportFieldSolutions o t name b)) :=
  fun _ _ e he => exportFieldSolutions_field o t name b e he

end

variable {o : DriverOptions}

theorem generalizedLoop_fields (b : Bool) (c : SMap Int Int) : ∀ (l : List (Int × Int)) (C : DMat 𝕜),
    FieldsOnly (F := F) o (Driver.generalizedLoop b c l C)
  | [], C => FieldsOnly.pure C
  | (i, _) :: t, C => by
    rw [Driver.generalizedLoop]
    exact FieldsOnly.bind (Keeps.read _) (FieldsOnly.read _) (fun sP => FieldsOnly.bind (Keeps.lift _) (FieldsOnly.lift _)
      (fun sol => FieldsOnly.bind (Keeps.updateSolver b (fun s => setSolution_forget s _)) (FieldsOnly.updateSolver b _)
        (fun _ => FieldsOnly.bind (Keeps.read _) (FieldsOnly.read _) (fun sP => FieldsOnly.bind (Keeps.lift _)
          (FieldsOnly.lift _) (fun C => FieldsOnly.bind (Keeps.read _) (FieldsOnly.read _) (fun mats =>
            FieldsOnly.bind (Keeps.lift _) (FieldsOnly.lift _) (fun pec => FieldsOnly.opts (FieldsOnly.bind
              (Keeps.emit _) (FieldsOnly.emit _ _ _) (fun _ => generalizedLoop_fields b c t C)))))))))

theorem getGeneralizedCMatrix_fields (b : Bool) : FieldsOnly (F := F) o (Driver.getGeneralizedCMatrix b) := by
  unfold Driver.getGeneralizedCMatrix
  refine FieldsOnly.bind (Keeps.read _) (FieldsOnly.read _) (fun m => FieldsOnly.bind (Keeps.lift _) (FieldsOnly.lift _)
    (fun c => FieldsOnly.bind (Keeps.lift _) (FieldsOnly.lift _) (fun o => ?_)))
  split
  · exact FieldsOnly.lift _
  · exact FieldsOnly.bind (generalizedLoop_keeps b c c _) (generalizedLoop_fields b c c _) (fun C => FieldsOnly.lift _)

variable [DecidableEq 𝕜]

theorem getCMatrix_fields : FieldsOnly (F := F) o Driver.getCMatrix := by
  unfold Driver.getCMatrix
  exact FieldsOnly.bind (getGeneralizedCMatrix_clean false).keeps (getGeneralizedCMatrix_fields false) (fun g =>
    FieldsOnly.bind (Keeps.read _) (FieldsOnly.read _) (fun m => FieldsOnly.bind (Keeps.lift _) (FieldsOnly.lift _)
      (fun o => FieldsOnly.lift _)))

theorem getLMatrix_fields : FieldsOnly (F := F) o Driver.getLMatrix := by
  unfold Driver.getLMatrix
  exact FieldsOnly.bind (getGeneralizedCMatrix_clean true).keeps (getGeneralizedCMatrix_fields true) (fun g =>
    FieldsOnly.bind (Keeps.read _) (FieldsOnly.read _) (fun m => FieldsOnly.bind (Keeps.lift _) (FieldsOnly.lift _)
      (fun o => FieldsOnly.bind (Keeps.lift _) (FieldsOnly.lift _) (fun r => FieldsOnly.lift _))))

theorem getPULMTL_fields (E : Engine 𝕜) : FieldsOnly (F := F) o (Driver.getPULMTL E) := by
  unfold Driver.getPULMTL Driver.buildPULParametersForModel
  exact FieldsOnly.bind getCMatrix_clean.keeps getCMatrix_fields (fun C => FieldsOnly.bind getLMatrix_clean.keeps
    getLMatrix_fields (fun L => FieldsOnly.pure _))

theorem getFloatingPotentialsMatrix_fields (b : Bool) :
    FieldsOnly (F := F) o (Driver.getFloatingPotentialsMatrix b) := by
  unfold Driver.getFloatingPotentialsMatrix
  refine FieldsOnly.bind (Keeps.read _) (FieldsOnly.read _) (fun m => ?_)
  split
  · exact FieldsOnly.pure _
  · refine FieldsOnly.bind (Keeps.lift _) (FieldsOnly.lift _) (fun o => ?_)
    cases o with
    | closed =>
      exact FieldsOnly.bind (getGeneralizedCMatrix_clean b).keeps (getGeneralizedCMatrix_fields b) (fun g =>
        FieldsOnly.bind (Keeps.lift _) (FieldsOnly.lift _) (fun C => FieldsOnly.lift _))
    | open_ =>
      exact FieldsOnly.bind (getGeneralizedCMatrix_clean b).keeps (getGeneralizedCMatrix_fields b) (fun g =>
        FieldsOnly.lift _)
    | semiopen => exact FieldsOnly.lift _

theorem getFloatingPotentials_fields : FieldsOnly (F := F) o Driver.getFloatingPotentials := by
  unfold Driver.getFloatingPotentials
  exact FieldsOnly.bind (getFloatingPotentialsMatrix_clean false).keeps (getFloatingPotentialsMatrix_fields false)
    (fun e => FieldsOnly.bind (getFloatingPotentialsMatrix_clean true).keeps (getFloatingPotentialsMatrix_fields true)
      (fun m => FieldsOnly.pure _))

theorem superposeLoop_fields (b : Bool) (fp : DMat 𝕜) (i : Int) : ∀ l : List (Int × Int),
    FieldsOnly (F := F) o (Driver.superposeLoop b fp i l)
  | [] => FieldsOnly.pure _
  | (j, _) :: t => by
    rw [Driver.superposeLoop]
    exact FieldsOnly.bind (Keeps.lift _) (FieldsOnly.lift _) (fun c => FieldsOnly.bind (Keeps.read _) (FieldsOnly.read _)
      (fun sP => FieldsOnly.bind (Keeps.lift _) (FieldsOnly.lift _) (fun sol => FieldsOnly.bind
        (Keeps.updateSolver b (fun s => addScaled_forget _ _ s)) (FieldsOnly.updateSolver b _)
          (fun _ => superposeLoop_fields b fp i t))))

theorem fieldLoop_fields (E : Engine 𝕜) (b : Bool) (fp : DMat 𝕜) (c : SMap Int Int) : ∀ (l : List (Int × Int))
    (res : SMap Int (FieldReconstruction 𝕜)), FieldsOnly (F := F) o (Driver.fieldLoop E b fp c l res)
  | [], res => FieldsOnly.pure _
  | (i, _) :: t, res => by
    rw [Driver.fieldLoop]
    exact FieldsOnly.bind (Keeps.updateSolver b (fun s => by rw [scaleZero_eq]; rfl)) (FieldsOnly.updateSolver b _)
      (fun _ => FieldsOnly.bind (superposeLoop_keeps b fp i c) (superposeLoop_fields b fp i c) (fun _ =>
        FieldsOnly.bind (Keeps.read _) (FieldsOnly.read _) (fun m => FieldsOnly.opts (FieldsOnly.bind (Keeps.read _)
          (FieldsOnly.read _) (fun sP => FieldsOnly.bind (Keeps.lift _) (FieldsOnly.lift _) (fun pec =>
            FieldsOnly.bind (Keeps.emit _) (FieldsOnly.emit _ _ _) (fun _ => FieldsOnly.bind (Keeps.lift _)
              (FieldsOnly.lift _) (fun av => FieldsOnly.bind (Keeps.lift _) (FieldsOnly.lift _) (fun cc =>
                FieldsOnly.bind (Keeps.lift _) (FieldsOnly.lift _) (fun ab => FieldsOnly.bind (Keeps.lift _)
                  (FieldsOnly.lift _) (fun ps => fieldLoop_fields E b fp c t _)))))))))))

theorem getFieldParameters_fields (E : Engine 𝕜) (b : Bool) :
    FieldsOnly (F := F) o (Driver.getFieldParameters E b) := by
  unfold Driver.getFieldParameters
  exact FieldsOnly.bind (getFloatingPotentialsMatrix_clean b).keeps (getFloatingPotentialsMatrix_fields b) (fun fp =>
    FieldsOnly.bind (Keeps.read _) (FieldsOnly.read _) (fun m => FieldsOnly.bind (Keeps.lift _) (FieldsOnly.lift _)
      (fun c => fieldLoop_fields E b fp c c [])))

theorem getInCellPotentials_fields [LinearOrder 𝕜] (E : Engine 𝕜) :
    FieldsOnly (F := F) o (Driver.getInCellPotentials E) := by
  unfold Driver.getInCellPotentials
  refine FieldsOnly.bind (Keeps.read _) (FieldsOnly.read _) (fun m => FieldsOnly.bind (Keeps.lift _) (FieldsOnly.lift _)
    (fun o => ?_))
  split
  · exact FieldsOnly.lift _
  · exact FieldsOnly.bind (Keeps.lift _) (FieldsOnly.lift _) (fun eb => FieldsOnly.bind (Keeps.lift _)
      (FieldsOnly.lift _) (fun box => FieldsOnly.bind (getFieldParameters_clean E false).keeps
        (getFieldParameters_fields E false) (fun e => FieldsOnly.bind (getFieldParameters_clean E true).keeps
          (getFieldParameters_fields E true) (fun m => FieldsOnly.pure _))))

/-! ## Construction -/

/-- The computation writes field files only. -/
def LFieldsOnly (o : DriverOptions) (x : Logged 𝕜 α) : Prop := ∀ e ∈ x.2, FieldEvent o e

theorem LFieldsOnly.bind {x : Logged 𝕜 α} {f : α → Logged 𝕜 β} (hx : LFieldsOnly o x) (hf : ∀ a, LFieldsOnly o (f a)) :
    LFieldsOnly o (x >>= f) := by
  intro e he
  rw [Logged.bind_def] at he
  have h1 := hx
  unfold LFieldsOnly at h1
  rcases ex : x with ⟨ox, wx⟩
  rw [ex] at he h1
  simp only at h1
  cases ox with
  | ok a =>
    rcases List.mem_append.mp he with he | he
    · exact h1 e he
    · exact hf a e he
  | throw _ => exact h1 e he
  | ub => exact h1 e he
  | nonfinite => exact h1 e he

theorem LFieldsOnly.lift (x : Outcome α) : LFieldsOnly o (Logged.lift (𝕜 := 𝕜) x) := fun _ h => by cases h
theorem LFieldsOnly.pure (x : α) : LFieldsOnly o (Pure.pure x : Logged 𝕜 α) := fun _ h => by cases h

theorem solveLoop_fields (P : LinSolver 𝕜) (mats : Materials 𝕜) (b : Bool) (base : AttrToValueMap 𝕜) :
    ∀ (l : List (Int × Int)) (sp : SolvedProblem F), LFieldsOnly o (solveLoop P mats o b base l sp)
  | [], sp => LFieldsOnly.pure _
  | (i, a) :: t, sp => by
    rw [solveLoop]
    exact LFieldsOnly.bind (LFieldsOnly.lift _) (fun s => LFieldsOnly.bind (LFieldsOnly.lift _) (fun pec =>
      LFieldsOnly.bind (fun e he => exportFieldSolutions_field o _ _ _ e he) (fun _ => LFieldsOnly.bind
        (LFieldsOnly.lift _) (fun sols => solveLoop_fields P mats b base t _))))

theorem solveForAll_fields (E : Engine 𝕜) (F : FEM 𝕜) (model : Model 𝕜) (b : Bool) :
    LFieldsOnly o (solveForAllConductors E F model o b) := by
  unfold solveForAllConductors
  exact LFieldsOnly.bind (LFieldsOnly.lift _) (fun base => LFieldsOnly.bind (LFieldsOnly.lift _) (fun s =>
    LFieldsOnly.bind (LFieldsOnly.lift _) (fun c => solveLoop_fields _ _ b _ _ _)))

theorem construct_fields (E : Engine 𝕜) (model : Model 𝕜) : LFieldsOnly o (Driver.construct E model o) := by
  unfold Driver.construct
  exact LFieldsOnly.bind (LFieldsOnly.lift _) (fun _ => LFieldsOnly.bind (solveForAll_fields E _ model false) (fun el =>
    LFieldsOnly.bind (solveForAll_fields E _ model true) (fun mg => LFieldsOnly.pure _)))

theorem bind_ok_of_fst {x : Logged 𝕜 α} {f : α → Logged 𝕜 β} {b : β} (h : (x >>= f).1 = .ok b) :
    ∃ a, x.1 = .ok a ∧ (f a).1 = .ok b := Logged.bind_fst_ok h

theorem construct_opts {E : Engine 𝕜} {model : Model 𝕜} {d : Driver (E.fem model o)}
    (h : (Driver.construct E model o).1 = .ok d) : d.opts = o ∧ d.model = model := by
  unfold Driver.construct at h
  obtain ⟨_, _, h⟩ := bind_ok_of_fst h
  obtain ⟨el, _, h⟩ := bind_ok_of_fst h
  obtain ⟨mg, _, h⟩ := bind_ok_of_fst h
  cases h
  exact ⟨rfl, rfl⟩

theorem LFieldsOnly.bind' {x : Logged 𝕜 α} {f : α → Logged 𝕜 β} (hx : LFieldsOnly o x)
    (hf : ∀ a, x.1 = .ok a → LFieldsOnly o (f a)) : LFieldsOnly o (x >>= f) := by
  intro e he
  rw [Logged.bind_def] at he
  have h1 := hx
  unfold LFieldsOnly at h1
  rcases ex : x with ⟨ox, wx⟩
  rw [ex] at he h1 hf
  simp only at h1
  cases ox with
  | ok a =>
    rcases List.mem_append.mp he with he | he
    · exact h1 e he
    · exact hf a rfl e he
  | throw _ => exact h1 e he
  | ub => exact h1 e he
  | nonfinite => exact h1 e he

theorem domainPUL_fields (E : Engine 𝕜) (model : Model 𝕜) (dom : Domain) :
    LFieldsOnly o (Driver.domainPUL E model o dom) := by
  unfold Driver.domainPUL
  exact LFieldsOnly.bind (LFieldsOnly.lift _) (fun dm => LFieldsOnly.bind' (construct_fields E dm.1) (fun d hd =>
    getPULMTL_fields E d (construct_opts hd).1))

theorem domainsPULLoop_fields (E : Engine 𝕜) (model : Model 𝕜) : ∀ (l : List (Int × Domain))
    (res : SMap Int (PULParameters 𝕜)), LFieldsOnly o (Driver.domainsPULLoop E model o l res)
  | [], res => LFieldsOnly.pure _
  | (i, dom) :: t, res => by
    rw [Driver.domainsPULLoop]
    exact LFieldsOnly.bind (domainPUL_fields E model dom) (fun p => domainsPULLoop_fields E model t _)

theorem getPULMTLByDomains_fields (E : Engine 𝕜) : FieldsOnly (F := F) o (Driver.getPULMTLByDomains E) := by
  unfold Driver.getPULMTLByDomains
  exact FieldsOnly.bind (Keeps.read _) (FieldsOnly.read _) (fun m => FieldsOnly.opts (FieldsOnly.bind (Keeps.lift _)
    (FieldsOnly.lift _) (fun ds => FieldsOnly.bind (Keeps.ofLogged _)
      (fun _ _ e he => domainsPULLoop_fields E m ds [] e he) (fun r => FieldsOnly.bind (Keeps.lift _) (FieldsOnly.lift _)
        (fun t => FieldsOnly.pure _)))))

/-- Queries other than `run` write field files only. -/
theorem exec_fields [LinearOrder 𝕜] (E : Engine 𝕜) (q : Query) (hq : q ≠ .run) : FieldsOnly (F := F) o (q.exec E) := by
  cases q with
  | generalizedC b =>
    exact FieldsOnly.bind (getGeneralizedCMatrix_clean (F := F) b).keeps (getGeneralizedCMatrix_fields b) (fun _ => FieldsOnly.pure _)
  | cMatrix =>
    exact FieldsOnly.bind (getCMatrix_clean (F := F)).keeps getCMatrix_fields (fun _ => FieldsOnly.pure _)
  | lMatrix =>
    exact FieldsOnly.bind (getLMatrix_clean (F := F)).keeps getLMatrix_fields (fun _ => FieldsOnly.pure _)
  | floatingMatrix b =>
    exact FieldsOnly.bind (getFloatingPotentialsMatrix_clean (F := F) b).keeps (getFloatingPotentialsMatrix_fields b) (fun _ => FieldsOnly.pure _)
  | floating =>
    exact FieldsOnly.bind (getFloatingPotentials_clean (F := F)).keeps getFloatingPotentials_fields (fun _ => FieldsOnly.pure _)
  | pulMTL =>
    exact FieldsOnly.bind (getPULMTL_clean (F := F) E).keeps (getPULMTL_fields E) (fun _ => FieldsOnly.pure _)
  | pulMTLByDomains =>
    exact FieldsOnly.bind (getPULMTLByDomains_clean (F := F) E).keeps (getPULMTLByDomains_fields E) (fun _ => FieldsOnly.pure _)
  | inCell =>
    exact FieldsOnly.bind (getInCellPotentials_clean (F := F) E).keeps (getInCellPotentials_fields E) (fun _ => FieldsOnly.pure _)
  | run => exact absurd rfl hq
  | setExportFolder f => intro d _ e he; cases he

end
end Tulip
