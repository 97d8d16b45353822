import Verif.Proofs.DriverEvents
import Verif.Proofs.DriverReady
import Verif.Spec.FieldFiles

/-!
# Which fields the calls on a driver write, and to which files
-/

set_option linter.unusedSectionVars false

namespace Tulip
open Spec Matrix

section
variable {𝕜 : Type} [Field 𝕜] {F : FEM 𝕜} {α β : Type}

/-- On drivers with the data of `d0` the call writes only what `P` allows. -/
def Writes (d0 : Driver F) (P : Event 𝕜 → Prop) (x : Act F α) : Prop :=
  ∀ d, d.forget = d0.forget → ∀ e ∈ (x d).2.2, P e

section
variable {d0 : Driver F} {P Q : Event 𝕜 → Prop}

theorem Writes.mono {x : Act F α} (h : Writes d0 P x) (hPQ : ∀ e, P e → Q e) : Writes d0 Q x :=
  fun d hd e he => hPQ e (h d hd e he)

theorem Writes.bind {x : Act F α} {f : α → Act F β} (hk : Keeps x) (hx : Writes d0 P x)
    (hf : ∀ a, Writes d0 P (f a)) : Writes d0 P (x >>= f) := by
  intro d ho e he
  rw [bind_def] at he
  have h1 := hx d ho
  have h2 := hk d
  rcases ex : x d with ⟨ox, dx, wx⟩
  rw [ex] at he h1 h2
  simp only at h1 h2
  cases ox with
  | ok a =>
    rcases List.mem_append.mp he with he | he
    · exact h1 e he
    · exact hf a dx (h2.trans ho) e he
  | throw _ => exact h1 e he
  | ub => exact h1 e he
  | nonfinite => exact h1 e he

theorem Writes.lift (x : Outcome α) : Writes d0 P (Act.lift (F := F) x) := fun _ _ _ h => by cases h
theorem Writes.pure (x : α) : Writes d0 P (Pure.pure x : Act F α) := fun _ _ _ h => by cases h
theorem Writes.read (g : Driver F → α) : Writes d0 P (Act.read g) := fun _ _ _ h => by cases h
theorem Writes.updateSolver (b : Bool) (g : Solver F → Solver F) : Writes d0 P (Driver.updateSolver b g) :=
  fun _ _ _ h => by cases h

theorem Writes.lift_bind {x : Outcome α} {f : α → Act F β} (hf : ∀ a, x = .ok a → Writes d0 P (f a)) :
    Writes d0 P (Act.lift x >>= f) := by
  cases x with
  | ok a => rw [Act.lift_ok_bind]; exact hf a rfl
  | throw _ => intro _ _ _ h; cases h
  | ub => intro _ _ _ h; cases h
  | nonfinite => intro _ _ _ h; cases h

/-- Reading something that does not depend on the fields in the solvers. -/
theorem Writes.read_bind {g : Driver F → α} {k : α → Act F β} (hg : ∀ d, d.forget = d0.forget → g d = g d0)
    (h : Writes d0 P (k (g d0))) : Writes d0 P (Act.read g >>= k) := by
  intro d ho e he
  rw [Act.read_bind, hg d ho] at he
  exact h d ho e he

theorem Writes.model {k : Model 𝕜 → Act F β} (h : Writes d0 P (k d0.model)) :
    Writes d0 P (Act.read Driver.model >>= k) := Writes.read_bind (fun _ h => forget_model h) h

theorem Writes.opts {k : DriverOptions → Act F β} (h : Writes d0 P (k d0.opts)) :
    Writes d0 P (Act.read Driver.opts >>= k) := Writes.read_bind (fun _ h => forget_opts h) h

end

variable {d0 : Driver F}

/-- A file with a stored field of the driver, under the name of its conductor. -/
def StoredFile (d0 : Driver F) (e : Event 𝕜) : Prop := ∃ (i : Int) (b : Bool) (pec : PEC 𝕜) (t : SolverSolution F),
  d0.model.materials.getPECById i = .ok pec ∧ Driver.solutionAt (Driver.problem b d0) i = .ok t ∧
    e ∈ exportFieldSolutions d0.opts t pec.name b

/-- A file with the field of a prescribed conductor, the others floating. -/
def FloatingFile (d0 : Driver F) (e : Event 𝕜) : Prop := ∃ (i : Int) (b : Bool) (pec : PEC 𝕜) (t : SolverSolution F),
  d0.model.materials.getPECById i = .ok pec ∧
    e ∈ exportFieldSolutions d0.opts t (pec.name ++ "_prescribed_and_others_floating") b

theorem generalizedLoop_writes (b : Bool) (c : SMap Int Int) : ∀ (l : List (Int × Int)) (C : DMat 𝕜),
    Writes d0 (StoredFile d0) (Driver.generalizedLoop b c l C)
  | [], C => Writes.pure C
  | (i, _) :: t, C => by
    rw [Driver.generalizedLoop]
    intro d hd e he
    rw [Act.read_bind] at he
    have hs : Driver.solutionAt (Driver.problem b d) i = Driver.solutionAt (Driver.problem b d0) i :=
      solutionAt_congr (forget_solutions hd b) i
    rcases ht : Driver.solutionAt (Driver.problem b d0) i with sol | _ | _ | _
    · rw [hs, ht, Act.lift_ok_bind, bind_def, updateSolver_eq] at he
      simp only [List.nil_append] at he
      have hd' : (d.withSolver b ((Driver.problem b d).solver.setSolution sol)).forget = d0.forget := by
        rw [← hd]
        exact withSolver_forget (setSolution_forget _ _)
      rw [Act.read_bind, withSolver_solver] at he
      have hsol : ((Driver.problem b d).solver.setSolution sol).sol = sol := rfl
      have key : Writes d0 (StoredFile d0) (do
          let C ← Act.lift (Driver.chargesLoop ((Driver.problem b d).solver.setSolution sol) c i c C)
          let mats ← Act.read (fun d => d.model.materials)
          let pec ← Act.lift (mats.getPECById i)
          let opts ← Act.read Driver.opts
          Act.emit (exportFieldSolutions opts ((Driver.problem b d).solver.setSolution sol).sol pec.name b)
          Driver.generalizedLoop b c t C) := by
        refine Writes.bind (Keeps.lift _) (Writes.lift _) fun C => Writes.read_bind (fun _ h => by rw [forget_model h]) ?_
        refine Writes.lift_bind fun pec hp => Writes.opts (Writes.bind (Keeps.emit _) ?_ fun _ => generalizedLoop_writes b c t C)
        intro _ _ e he
        rw [hsol] at he
        exact ⟨i, b, pec, sol, hp, ht, he⟩
      exact key _ hd' e he
    all_goals (rw [hs, ht] at he; cases he)

theorem getGeneralizedCMatrix_writes (b : Bool) :
    Writes d0 (StoredFile d0) (Driver.getGeneralizedCMatrix b) := by
  unfold Driver.getGeneralizedCMatrix
  refine Writes.bind (Keeps.read _) (Writes.read _) (fun m => Writes.bind (Keeps.lift _) (Writes.lift _)
    (fun c => Writes.bind (Keeps.lift _) (Writes.lift _) (fun o => ?_)))
  split
  · exact Writes.lift _
  · exact Writes.bind (generalizedLoop_keeps b c c _) (generalizedLoop_writes b c c _) (fun C => Writes.lift _)

variable [DecidableEq 𝕜]

theorem getCMatrix_writes : Writes d0 (StoredFile d0) Driver.getCMatrix := by
  unfold Driver.getCMatrix
  exact Writes.bind (getGeneralizedCMatrix_clean false).keeps (getGeneralizedCMatrix_writes false) (fun g =>
    Writes.bind (Keeps.read _) (Writes.read _) (fun m => Writes.bind (Keeps.lift _) (Writes.lift _)
      (fun o => Writes.lift _)))

theorem getLMatrix_writes : Writes d0 (StoredFile d0) Driver.getLMatrix := by
  unfold Driver.getLMatrix
  exact Writes.bind (getGeneralizedCMatrix_clean true).keeps (getGeneralizedCMatrix_writes true) (fun g =>
    Writes.bind (Keeps.read _) (Writes.read _) (fun m => Writes.bind (Keeps.lift _) (Writes.lift _)
      (fun o => Writes.bind (Keeps.lift _) (Writes.lift _) (fun r => Writes.lift _))))

theorem getPULMTL_writes (E : Engine 𝕜) : Writes d0 (StoredFile d0) (Driver.getPULMTL E) := by
  unfold Driver.getPULMTL Driver.buildPULParametersForModel
  exact Writes.bind getCMatrix_clean.keeps getCMatrix_writes (fun C => Writes.bind getLMatrix_clean.keeps
    getLMatrix_writes (fun L => Writes.pure _))

theorem getFloatingPotentialsMatrix_writes (b : Bool) :
    Writes d0 (StoredFile d0) (Driver.getFloatingPotentialsMatrix b) := by
  unfold Driver.getFloatingPotentialsMatrix
  refine Writes.bind (Keeps.read _) (Writes.read _) (fun m => ?_)
  split
  · exact Writes.pure _
  · refine Writes.bind (Keeps.lift _) (Writes.lift _) (fun o => ?_)
    cases o with
    | closed =>
      exact Writes.bind (getGeneralizedCMatrix_clean b).keeps (getGeneralizedCMatrix_writes b) (fun g =>
        Writes.bind (Keeps.lift _) (Writes.lift _) (fun C => Writes.lift _))
    | open_ =>
      exact Writes.bind (getGeneralizedCMatrix_clean b).keeps (getGeneralizedCMatrix_writes b) (fun g =>
        Writes.lift _)
    | semiopen => exact Writes.lift _

theorem getFloatingPotentials_writes : Writes d0 (StoredFile d0) Driver.getFloatingPotentials := by
  unfold Driver.getFloatingPotentials
  exact Writes.bind (getFloatingPotentialsMatrix_clean false).keeps (getFloatingPotentialsMatrix_writes false)
    (fun e => Writes.bind (getFloatingPotentialsMatrix_clean true).keeps (getFloatingPotentialsMatrix_writes true)
      (fun m => Writes.pure _))

theorem superposeLoop_writes {P : Event 𝕜 → Prop} (b : Bool) (fp : DMat 𝕜) (i : Int) : ∀ l : List (Int × Int),
    Writes d0 P (Driver.superposeLoop b fp i l)
  | [] => Writes.pure _
  | (j, _) :: t => by
    rw [Driver.superposeLoop]
    exact Writes.bind (Keeps.lift _) (Writes.lift _) (fun c => Writes.bind (Keeps.read _) (Writes.read _)
      (fun sP => Writes.bind (Keeps.lift _) (Writes.lift _) (fun sol => Writes.bind
        (Keeps.updateSolver b (fun s => addScaled_forget _ _ s)) (Writes.updateSolver b _)
          (fun _ => superposeLoop_writes b fp i t))))

theorem fieldLoop_writes (E : Engine 𝕜) (b : Bool) (fp : DMat 𝕜) (c : SMap Int Int) : ∀ (l : List (Int × Int))
    (res : SMap Int (FieldReconstruction 𝕜)), Writes d0 (FloatingFile d0) (Driver.fieldLoop E b fp c l res)
  | [], res => Writes.pure _
  | (i, _) :: t, res => by
    rw [Driver.fieldLoop]
    refine Writes.bind (Keeps.updateSolver b (fun s => by rw [scaleZero_eq]; rfl)) (Writes.updateSolver b _)
      (fun _ => Writes.bind (superposeLoop_keeps b fp i c) (superposeLoop_writes b fp i c) (fun _ => Writes.model
        (Writes.opts (Writes.bind (Keeps.read _) (Writes.read _) (fun sP => Writes.lift_bind (fun pec hp =>
            Writes.bind (Keeps.emit _) ?_ (fun _ => Writes.bind (Keeps.lift _)
              (Writes.lift _) (fun av => Writes.bind (Keeps.lift _) (Writes.lift _) (fun cc =>
                Writes.bind (Keeps.lift _) (Writes.lift _) (fun ab => Writes.bind (Keeps.lift _)
                  (Writes.lift _) (fun ps => fieldLoop_writes E b fp c t _)))))))))))
    intro _ _ e he
    exact ⟨i, b, pec, sP.solver.sol, hp, he⟩

/-- A field file a driver may write. -/
def DriverFile (d0 : Driver F) (e : Event 𝕜) : Prop := StoredFile d0 e ∨ FloatingFile d0 e

theorem getFieldParameters_writes (E : Engine 𝕜) (b : Bool) :
    Writes d0 (DriverFile d0) (Driver.getFieldParameters E b) := by
  unfold Driver.getFieldParameters
  exact Writes.bind (getFloatingPotentialsMatrix_clean b).keeps ((getFloatingPotentialsMatrix_writes b).mono (fun _ => Or.inl)) (fun fp =>
    Writes.bind (Keeps.read _) (Writes.read _) (fun m => Writes.bind (Keeps.lift _) (Writes.lift _)
      (fun c => (fieldLoop_writes E b fp c c []).mono (fun _ => Or.inr))))

theorem getInCellPotentials_writes [LinearOrder 𝕜] (E : Engine 𝕜) :
    Writes d0 (DriverFile d0) (Driver.getInCellPotentials E) := by
  unfold Driver.getInCellPotentials
  refine Writes.bind (Keeps.read _) (Writes.read _) (fun m => Writes.bind (Keeps.lift _) (Writes.lift _)
    (fun o => ?_))
  split
  · exact Writes.lift _
  · exact Writes.bind (Keeps.lift _) (Writes.lift _) (fun eb => Writes.bind (Keeps.lift _)
      (Writes.lift _) (fun box => Writes.bind (getFieldParameters_clean E false).keeps
        (getFieldParameters_writes E false) (fun e => Writes.bind (getFieldParameters_clean E true).keeps
          (getFieldParameters_writes E true) (fun m => Writes.pure _))))

/-- A driver file or a JSON file. -/
def AnyFile (d0 : Driver F) (e : Event 𝕜) : Prop := DriverFile d0 e ∨ ∃ p c, e = .json p c

theorem emitJson_writes (p : String) (c : Json 𝕜) : Writes d0 (AnyFile d0) (Act.emit (F := F) [.json p c]) :=
  fun _ _ _ he => Or.inr ⟨_, _, List.mem_singleton.mp he⟩

theorem run_writes [LinearOrder 𝕜] (E : Engine 𝕜) : Writes d0 (AnyFile d0) (Driver.run E) := by
  unfold Driver.run
  refine Writes.bind (Keeps.read _) (Writes.read _) (fun m => Writes.bind (Keeps.lift _) (Writes.lift _)
    (fun o => ?_))
  cases o with
  | closed =>
    exact Writes.bind (getPULMTL_clean E).keeps ((getPULMTL_writes E).mono (fun _ h => Or.inl (Or.inl h))) (fun p =>
      Writes.bind (Keeps.read _) (Writes.read _) (fun o => emitJson_writes _ _))
  | open_ =>
    exact Writes.bind (getInCellPotentials_clean E).keeps ((getInCellPotentials_writes E).mono (fun _ h => Or.inl h))
      (fun p => Writes.bind (Keeps.read _) (Writes.read _) (fun o => emitJson_writes _ _))
  | semiopen => exact Writes.lift _

/-- What the queries other than by domains write. -/
theorem exec_writes [LinearOrder 𝕜] (E : Engine 𝕜) (q : Query) (hq : q ≠ .pulMTLByDomains) :
    Writes d0 (AnyFile d0) (q.exec E) := by
  have hi : ∀ e, StoredFile d0 e → AnyFile d0 e := fun _ h => Or.inl (Or.inl h)
  cases q with
  | generalizedC b =>
    exact Writes.bind (getGeneralizedCMatrix_clean (F := F) b).keeps ((getGeneralizedCMatrix_writes b).mono hi) (fun _ => Writes.pure _)
  | cMatrix => exact Writes.bind (getCMatrix_clean (F := F)).keeps (getCMatrix_writes.mono hi) (fun _ => Writes.pure _)
  | lMatrix => exact Writes.bind (getLMatrix_clean (F := F)).keeps (getLMatrix_writes.mono hi) (fun _ => Writes.pure _)
  | floatingMatrix b =>
    exact Writes.bind (getFloatingPotentialsMatrix_clean (F := F) b).keeps ((getFloatingPotentialsMatrix_writes b).mono hi) (fun _ => Writes.pure _)
  | floating =>
    exact Writes.bind (getFloatingPotentials_clean (F := F)).keeps (getFloatingPotentials_writes.mono hi) (fun _ => Writes.pure _)
  | pulMTL => exact Writes.bind (getPULMTL_clean (F := F) E).keeps ((getPULMTL_writes E).mono hi) (fun _ => Writes.pure _)
  | pulMTLByDomains => exact absurd rfl hq
  | inCell =>
    exact Writes.bind (getInCellPotentials_clean (F := F) E).keeps ((getInCellPotentials_writes E).mono (fun _ h => Or.inl h)) (fun _ => Writes.pure _)
  | run => exact Writes.bind (run_clean (F := F) E).keeps (run_writes E) (fun _ => Writes.pure _)
  | setExportFolder f => intro d _ e he; cases he

theorem written_files [LinearOrder 𝕜] (E : Engine 𝕜) : ∀ (qs : List Query) (d : Driver F), d.forget = d0.forget →
    (∀ q ∈ qs, q ≠ .pulMTLByDomains ∧ ∀ f, q ≠ .setExportFolder f) → ∀ e ∈ written E qs d, AnyFile d0 e
  | [], _, _, _, e, he => by cases he
  | q :: qs, d, hd, hq, e, he => by
    obtain ⟨h1, h2⟩ := hq q (List.mem_cons_self ..)
    rcases List.mem_append.mp he with he | he
    · exact exec_writes E q h1 d hd e he
    · exact written_files E qs _ (((exec_clean E q h2).keeps d).trans hd)
        (fun q' h => hq q' (List.mem_cons_of_mem _ h)) e he

end
end Tulip
