import Verif.Proofs.DriverInCell

/-!
# Answers do not depend on the export folder, and histories
-/

set_option linter.unusedSectionVars false

namespace Tulip
open Spec Matrix

section
variable {𝕜 : Type} [Field 𝕜] {F : FEM 𝕜} {α β : Type}

/-- Two calls that answer the same on drivers differing in the export folder, and keep them so. -/
def SameUpToFolder (x y : Act F α) : Prop := ∀ (d : Driver F) (f : String),
  (y (d.setExportFolder f)).1 = (x d).1 ∧ (y (d.setExportFolder f)).2.1 = (x d).2.1.setExportFolder f

namespace SameUpToFolder

theorem bind {x y : Act F α} {f g : α → Act F β} (hx : SameUpToFolder x y) (hf : ∀ a, SameUpToFolder (f a) (g a)) :
    SameUpToFolder (x >>= f) (y >>= g) := by
  intro d w
  rw [bind_def, bind_def]
  obtain ⟨h1, h2⟩ := hx d w
  rcases ex : x d with ⟨ox, dx, wx⟩
  rcases ey : y (d.setExportFolder w) with ⟨oy, dy, wy⟩
  rw [ex, ey] at h1 h2
  simp only at h1 h2
  subst h1
  subst h2
  cases oy with
  | ok a => exact hf a dx w
  | _ => exact ⟨rfl, rfl⟩

theorem lift (x : Outcome α) : SameUpToFolder (Act.lift (F := F) x) (Act.lift x) := fun _ _ => ⟨rfl, rfl⟩

theorem pure (x : α) : SameUpToFolder (pure x : Act F α) (pure x : Act F α) := fun _ _ => ⟨rfl, rfl⟩

theorem emit (w w' : List (Event 𝕜)) : SameUpToFolder (Act.emit (F := F) w) (Act.emit w') := fun _ _ => ⟨rfl, rfl⟩

theorem ofLogged {x y : Logged 𝕜 α} (h : x.1 = y.1) : SameUpToFolder (Act.ofLogged (F := F) x) (Act.ofLogged y) :=
  fun _ _ => ⟨h.symm, rfl⟩

theorem read {g : Driver F → α} (hg : ∀ d f, g (d.setExportFolder f) = g d) :
    SameUpToFolder (Act.read g) (Act.read g) := fun d f => ⟨congrArg Outcome.ok (hg d f), rfl⟩

theorem model : SameUpToFolder (Act.read (Driver.model (F := F))) (Act.read Driver.model) := read (fun _ _ => rfl)

theorem problem (b : Bool) : SameUpToFolder (Act.read (Driver.problem (F := F) b)) (Act.read (Driver.problem b)) :=
  read (fun _ _ => by cases b <;> rfl)

theorem updateSolver (b : Bool) (g : Solver F → Solver F) :
    SameUpToFolder (Driver.updateSolver b g) (Driver.updateSolver b g) := by
  intro d f
  cases b <;> exact ⟨rfl, rfl⟩

/-- Reading the options. -/
theorem opts {k l : DriverOptions → Act F β}
    (h : ∀ o f, SameUpToFolder (k o) (l { o with exportFolder := f })) :
    SameUpToFolder (Act.read Driver.opts >>= k) (Act.read Driver.opts >>= l) := by
  intro d f
  rw [Act.read_bind, Act.read_bind]
  exact h d.opts f d f

end SameUpToFolder

open SameUpToFolder

theorem generalizedLoop_folder (b : Bool) (c : SMap Int Int) : ∀ (l : List (Int × Int)) (C : DMat 𝕜),
    SameUpToFolder (F := F) (Driver.generalizedLoop b c l C) (Driver.generalizedLoop b c l C)
  | [], C => SameUpToFolder.pure C
  | (i, _) :: t, C => by
    rw [Driver.generalizedLoop]
    refine SameUpToFolder.bind (SameUpToFolder.problem b) (fun sP => SameUpToFolder.bind (SameUpToFolder.lift _)
      (fun sol => SameUpToFolder.bind (SameUpToFolder.updateSolver b _) (fun _ =>
        SameUpToFolder.bind (SameUpToFolder.problem b) (fun sP => SameUpToFolder.bind (SameUpToFolder.lift _)
          (fun C => SameUpToFolder.bind (SameUpToFolder.read (fun _ _ => rfl)) (fun mats =>
            SameUpToFolder.bind (SameUpToFolder.lift _) (fun pec => SameUpToFolder.opts (fun o f =>
              SameUpToFolder.bind (SameUpToFolder.emit _ _) (fun _ => generalizedLoop_folder b c t C)))))))))

theorem getGeneralizedCMatrix_folder (b : Bool) :
    SameUpToFolder (F := F) (Driver.getGeneralizedCMatrix b) (Driver.getGeneralizedCMatrix b) := by
  unfold Driver.getGeneralizedCMatrix
  refine SameUpToFolder.bind SameUpToFolder.model (fun m => SameUpToFolder.bind (SameUpToFolder.lift _) (fun c =>
    SameUpToFolder.bind (SameUpToFolder.lift _) (fun o => ?_)))
  split
  · exact SameUpToFolder.lift _
  · exact SameUpToFolder.bind (generalizedLoop_folder b c c _) (fun C => SameUpToFolder.lift _)

variable [DecidableEq 𝕜]

theorem getCMatrix_folder : SameUpToFolder (F := F) Driver.getCMatrix Driver.getCMatrix := by
  unfold Driver.getCMatrix
  exact SameUpToFolder.bind (getGeneralizedCMatrix_folder false) (fun g => SameUpToFolder.bind SameUpToFolder.model
    (fun m => SameUpToFolder.bind (SameUpToFolder.lift _) (fun o => SameUpToFolder.lift _)))

theorem getLMatrix_folder : SameUpToFolder (F := F) Driver.getLMatrix Driver.getLMatrix := by
  unfold Driver.getLMatrix
  exact SameUpToFolder.bind (getGeneralizedCMatrix_folder true) (fun g => SameUpToFolder.bind SameUpToFolder.model
    (fun m => SameUpToFolder.bind (SameUpToFolder.lift _) (fun o => SameUpToFolder.bind (SameUpToFolder.lift _)
      (fun r => SameUpToFolder.lift _))))

theorem getPULMTL_folder (E : Engine 𝕜) : SameUpToFolder (F := F) (Driver.getPULMTL E) (Driver.getPULMTL E) := by
  unfold Driver.getPULMTL Driver.buildPULParametersForModel
  exact SameUpToFolder.bind getCMatrix_folder (fun C => SameUpToFolder.bind getLMatrix_folder
    (fun L => SameUpToFolder.pure _))

theorem getFloatingPotentialsMatrix_folder (b : Bool) :
    SameUpToFolder (F := F) (Driver.getFloatingPotentialsMatrix b) (Driver.getFloatingPotentialsMatrix b) := by
  unfold Driver.getFloatingPotentialsMatrix
  refine SameUpToFolder.bind SameUpToFolder.model (fun m => ?_)
  split
  · exact SameUpToFolder.pure _
  · refine SameUpToFolder.bind (SameUpToFolder.lift _) (fun o => ?_)
    cases o with
    | closed =>
      exact SameUpToFolder.bind (getGeneralizedCMatrix_folder b) (fun g => SameUpToFolder.bind (SameUpToFolder.lift _)
        (fun C => SameUpToFolder.lift _))
    | open_ => exact SameUpToFolder.bind (getGeneralizedCMatrix_folder b) (fun g => SameUpToFolder.lift _)
    | semiopen => exact SameUpToFolder.lift _

theorem getFloatingPotentials_folder :
    SameUpToFolder (F := F) Driver.getFloatingPotentials Driver.getFloatingPotentials := by
  unfold Driver.getFloatingPotentials
  exact SameUpToFolder.bind (getFloatingPotentialsMatrix_folder false) (fun e => SameUpToFolder.bind
    (getFloatingPotentialsMatrix_folder true) (fun m => SameUpToFolder.pure _))

theorem superposeLoop_folder (b : Bool) (fp : DMat 𝕜) (i : Int) : ∀ l : List (Int × Int),
    SameUpToFolder (F := F) (Driver.superposeLoop b fp i l) (Driver.superposeLoop b fp i l)
  | [] => SameUpToFolder.pure _
  | (j, _) :: t => by
    rw [Driver.superposeLoop]
    exact SameUpToFolder.bind (SameUpToFolder.lift _) (fun c => SameUpToFolder.bind (SameUpToFolder.problem b)
      (fun sP => SameUpToFolder.bind (SameUpToFolder.lift _) (fun sol => SameUpToFolder.bind
        (SameUpToFolder.updateSolver b _) (fun _ => superposeLoop_folder b fp i t))))

theorem fieldLoop_folder (E : Engine 𝕜) (b : Bool) (fp : DMat 𝕜) (c : SMap Int Int) : ∀ (l : List (Int × Int))
    (res : SMap Int (FieldReconstruction 𝕜)),
    SameUpToFolder (F := F) (Driver.fieldLoop E b fp c l res) (Driver.fieldLoop E b fp c l res)
  | [], res => SameUpToFolder.pure _
  | (i, _) :: t, res => by
    rw [Driver.fieldLoop]
    refine SameUpToFolder.bind (SameUpToFolder.updateSolver b _) (fun _ => SameUpToFolder.bind
      (superposeLoop_folder b fp i c) (fun _ => SameUpToFolder.bind SameUpToFolder.model (fun m =>
        SameUpToFolder.opts (fun o f => SameUpToFolder.bind (SameUpToFolder.problem b) (fun sP =>
          SameUpToFolder.bind (SameUpToFolder.lift _) (fun pec => SameUpToFolder.bind (SameUpToFolder.emit _ _)
            (fun _ => SameUpToFolder.bind (SameUpToFolder.lift _) (fun av => SameUpToFolder.bind
              (SameUpToFolder.lift _) (fun cc => SameUpToFolder.bind (SameUpToFolder.lift _) (fun ab =>
                SameUpToFolder.bind (SameUpToFolder.lift _) (fun ps => fieldLoop_folder E b fp c t _)))))))))))

theorem getFieldParameters_folder (E : Engine 𝕜) (b : Bool) :
    SameUpToFolder (F := F) (Driver.getFieldParameters E b) (Driver.getFieldParameters E b) := by
  unfold Driver.getFieldParameters
  exact SameUpToFolder.bind (getFloatingPotentialsMatrix_folder b) (fun fp => SameUpToFolder.bind
    SameUpToFolder.model (fun m => SameUpToFolder.bind (SameUpToFolder.lift _) (fun c =>
      fieldLoop_folder E b fp c c [])))

theorem getInCellPotentials_folder [LinearOrder 𝕜] (E : Engine 𝕜) :
    SameUpToFolder (F := F) (Driver.getInCellPotentials E) (Driver.getInCellPotentials E) := by
  unfold Driver.getInCellPotentials
  refine SameUpToFolder.bind SameUpToFolder.model (fun m => SameUpToFolder.bind (SameUpToFolder.lift _) (fun o => ?_))
  split
  · exact SameUpToFolder.lift _
  · exact SameUpToFolder.bind (SameUpToFolder.lift _) (fun eb => SameUpToFolder.bind (SameUpToFolder.lift _)
      (fun box => SameUpToFolder.bind (getFieldParameters_folder E false) (fun e => SameUpToFolder.bind
        (getFieldParameters_folder E true) (fun m => SameUpToFolder.pure _))))

theorem run_folder [LinearOrder 𝕜] (E : Engine 𝕜) : SameUpToFolder (F := F) (Driver.run E) (Driver.run E) := by
  unfold Driver.run
  refine SameUpToFolder.bind SameUpToFolder.model (fun m => SameUpToFolder.bind (SameUpToFolder.lift _) (fun o => ?_))
  cases o with
  | closed =>
    exact SameUpToFolder.bind (getPULMTL_folder E) (fun p => SameUpToFolder.opts (fun o f => SameUpToFolder.emit _ _))
  | open_ =>
    exact SameUpToFolder.bind (getInCellPotentials_folder E) (fun p => SameUpToFolder.opts (fun o f =>
      SameUpToFolder.emit _ _))
  | semiopen => exact SameUpToFolder.lift _

/-! ## Construction -/

theorem Logged.bind_def (x : Logged 𝕜 α) (f : α → Logged 𝕜 β) : (x >>= f) = match x.1 with
    | .ok a => ((f a).1, x.2 ++ (f a).2)
    | .throw e => (.throw e, x.2)
    | .ub => (.ub, x.2)
    | .nonfinite => (.nonfinite, x.2) := rfl

theorem Logged.bind_fst_congr {x y : Logged 𝕜 α} {f g : α → Logged 𝕜 β} (h : x.1 = y.1) (hf : ∀ a, (f a).1 = (g a).1) :
    (x >>= f).1 = (y >>= g).1 := by
  rw [Logged.bind_def, Logged.bind_def, h]
  cases y.1 with
  | ok a => exact hf a
  | _ => rfl

theorem solveLoop_folder {F : FEM 𝕜} (P : LinSolver 𝕜) (mats : Materials 𝕜) (o : DriverOptions) (f : String) (b : Bool)
    (base : AttrToValueMap 𝕜) : ∀ (l : List (Int × Int)) (sp : SolvedProblem F),
    (solveLoop P mats { o with exportFolder := f } b base l sp).1 = (solveLoop P mats o b base l sp).1
  | [], sp => rfl
  | (i, a) :: t, sp => by
    rw [solveLoop, solveLoop]
    exact Logged.bind_fst_congr rfl (fun s => Logged.bind_fst_congr rfl (fun pec => Logged.bind_fst_congr rfl (fun _ =>
      Logged.bind_fst_congr rfl (fun sols => solveLoop_folder P mats o f b base t _))))

theorem solveForAll_folder (E : Engine 𝕜) (F : FEM 𝕜) (model : Model 𝕜) (o : DriverOptions) (f : String) (b : Bool) :
    (solveForAllConductors E F model { o with exportFolder := f } b).1 = (solveForAllConductors E F model o b).1 := by
  unfold solveForAllConductors
  exact Logged.bind_fst_congr rfl (fun base => Logged.bind_fst_congr rfl (fun s => Logged.bind_fst_congr rfl (fun c =>
    solveLoop_folder _ _ o f b _ _ _)))

/-- The constructor with the discretisation made explicit. -/
def constructIn (E : Engine 𝕜) (F : FEM 𝕜) (model : Model 𝕜) (o : DriverOptions) : Logged 𝕜 (Driver F) :=
  Logged.lift (checkConductors model.materials) >>= fun _ =>
    solveForAllConductors E F model o false >>= fun el =>
      solveForAllConductors E F model o true >>= fun mg =>
        pure { model := model, opts := o, electric := el, magnetic := mg }

theorem constructIn_bind_folder (E : Engine 𝕜) (F : FEM 𝕜) (model : Model 𝕜) (o : DriverOptions) (f : String)
    (g g' : Driver F → Logged 𝕜 α) (h : ∀ d, (g' (d.setExportFolder f)).1 = (g d).1) :
    (constructIn E F model { o with exportFolder := f } >>= g').1 = (constructIn E F model o >>= g).1 := by
  have key : ∀ o', (constructIn E F model o').1 =
      ((checkConductors model.materials) >>= fun _ => (solveForAllConductors E F model o' false).1 >>= fun el =>
        (solveForAllConductors E F model o' true).1 >>= fun mg => Outcome.ok ⟨model, o', el, mg⟩) := by
    intro o'
    unfold constructIn
    rw [Logged.bind_def]
    cases hc : checkConductors model.materials with
    | ok u =>
      show (solveForAllConductors E F model o' false >>= _ : Logged 𝕜 (Driver F)).1 = _
      rw [Logged.bind_def]
      cases h1 : (solveForAllConductors E F model o' false).1 with
      | ok el =>
        show (solveForAllConductors E F model o' true >>= _ : Logged 𝕜 (Driver F)).1 = _
        rw [Logged.bind_def]
        cases h2 : (solveForAllConductors E F model o' true).1 <;> rfl
      | _ => rfl
    | _ => rfl
  rw [Logged.bind_def, Logged.bind_def, key, key, solveForAll_folder E F model o f false, solveForAll_folder E F model o f true]
  cases checkConductors model.materials with
  | ok u =>
    cases (solveForAllConductors E F model o false).1 with
    | ok el =>
      cases (solveForAllConductors E F model o true).1 with
      | ok mg => exact h ⟨model, o, el, mg⟩
      | _ => rfl
    | _ => rfl
  | _ => rfl

theorem domainPUL_folder (E : Engine 𝕜) (model : Model 𝕜) (o : DriverOptions) (f : String) (dom : Domain) :
    (Driver.domainPUL E model { o with exportFolder := f } dom).1 = (Driver.domainPUL E model o dom).1 := by
  unfold Driver.domainPUL
  refine Logged.bind_fst_congr rfl (fun dm => ?_)
  exact constructIn_bind_folder E (E.fem dm.1 o) dm.1 o f _ _ (fun d => (getPULMTL_folder E d f).1)

theorem domainsPULLoop_folder (E : Engine 𝕜) (model : Model 𝕜) (o : DriverOptions) (f : String) :
    ∀ (l : List (Int × Domain)) (res : SMap Int (PULParameters 𝕜)),
    (Driver.domainsPULLoop E model { o with exportFolder := f } l res).1 = (Driver.domainsPULLoop E model o l res).1
  | [], res => rfl
  | (i, dom) :: t, res => by
    rw [Driver.domainsPULLoop, Driver.domainsPULLoop]
    exact Logged.bind_fst_congr (domainPUL_folder E model o f dom) (fun p => domainsPULLoop_folder E model o f t _)

theorem getPULMTLByDomains_folder (E : Engine 𝕜) :
    SameUpToFolder (F := F) (Driver.getPULMTLByDomains E) (Driver.getPULMTLByDomains E) := by
  unfold Driver.getPULMTLByDomains
  refine SameUpToFolder.bind SameUpToFolder.model (fun m => SameUpToFolder.opts (fun o f => SameUpToFolder.bind
    (SameUpToFolder.lift _) (fun ds => SameUpToFolder.bind (SameUpToFolder.ofLogged
      (domainsPULLoop_folder E m o f ds []).symm) (fun r => SameUpToFolder.bind (SameUpToFolder.lift _)
        (fun t => SameUpToFolder.pure _)))))

theorem exec_folder [LinearOrder 𝕜] (E : Engine 𝕜) (q : Query) (hq : ∀ f, q ≠ .setExportFolder f) :
    SameUpToFolder (F := F) (q.exec E) (q.exec E) := by
  cases q with
  | generalizedC b => exact SameUpToFolder.bind (getGeneralizedCMatrix_folder b) (fun _ => SameUpToFolder.pure _)
  | cMatrix => exact SameUpToFolder.bind getCMatrix_folder (fun _ => SameUpToFolder.pure _)
  | lMatrix => exact SameUpToFolder.bind getLMatrix_folder (fun _ => SameUpToFolder.pure _)
  | floatingMatrix b => exact SameUpToFolder.bind (getFloatingPotentialsMatrix_folder b) (fun _ => SameUpToFolder.pure _)
  | floating => exact SameUpToFolder.bind getFloatingPotentials_folder (fun _ => SameUpToFolder.pure _)
  | pulMTL => exact SameUpToFolder.bind (getPULMTL_folder E) (fun _ => SameUpToFolder.pure _)
  | pulMTLByDomains => exact SameUpToFolder.bind (getPULMTLByDomains_folder E) (fun _ => SameUpToFolder.pure _)
  | inCell => exact SameUpToFolder.bind (getInCellPotentials_folder E) (fun _ => SameUpToFolder.pure _)
  | run => exact SameUpToFolder.bind (run_folder E) (fun _ => SameUpToFolder.pure _)
  | setExportFolder f => exact absurd rfl (hq f)

/-! ## Histories -/

theorem exec_clean [LinearOrder 𝕜] (E : Engine 𝕜) (q : Query) (hq : ∀ f, q ≠ .setExportFolder f) :
    Clean (F := F) (q.exec E) := by
  cases q with
  | generalizedC b => exact (getGeneralizedCMatrix_clean b).bind (fun _ => Clean.pure _)
  | cMatrix => exact getCMatrix_clean.bind (fun _ => Clean.pure _)
  | lMatrix => exact getLMatrix_clean.bind (fun _ => Clean.pure _)
  | floatingMatrix b => exact (getFloatingPotentialsMatrix_clean b).bind (fun _ => Clean.pure _)
  | floating => exact getFloatingPotentials_clean.bind (fun _ => Clean.pure _)
  | pulMTL => exact (getPULMTL_clean E).bind (fun _ => Clean.pure _)
  | pulMTLByDomains => exact (getPULMTLByDomains_clean E).bind (fun _ => Clean.pure _)
  | inCell => exact (getInCellPotentials_clean E).bind (fun _ => Clean.pure _)
  | run => exact (run_clean E).bind (fun _ => Clean.pure _)
  | setExportFolder f => exact absurd rfl (hq f)

theorem setExportFolder_forget {d d' : Driver F} (h : d.forget = d'.forget) (f : String) :
    (d.setExportFolder f).forget = (d'.setExportFolder f).forget :=
  congrArg (fun x => x.setExportFolder f) h

theorem setExportFolder_same (d : Driver F) : d.setExportFolder d.opts.exportFolder = d := rfl

/-- The driver after any history is, up to the fields of its solvers, the original one with the last folder. -/
theorem afterQueries_forget [LinearOrder 𝕜] (E : Engine 𝕜) : ∀ (qs : List Query) (d : Driver F),
    (afterQueries E qs d).forget = (d.setExportFolder (folderAfter qs d.opts.exportFolder)).forget
  | [], d => rfl
  | q :: qs, d => by
    rw [afterQueries, afterQueries_forget E qs]
    by_cases hq : ∃ f, q = .setExportFolder f
    · obtain ⟨f, rfl⟩ := hq
      rfl
    · have hq' : ∀ f, q ≠ .setExportFolder f := fun f h => hq ⟨f, h⟩
      have hk := (exec_clean E q hq').keeps d
      rw [forget_opts hk]
      have : folderAfter (q :: qs) d.opts.exportFolder = folderAfter qs d.opts.exportFolder := by
        cases q with
        | setExportFolder f => exact absurd rfl (hq' f)
        | _ => rfl
      rw [this]
      exact setExportFolder_forget hk _

end
end Tulip
