import Verif.Proofs.DriverBuild

/-!
# Queries on a driver: dependence on the state
-/

set_option linter.unusedSectionVars false

namespace Tulip
open Spec Matrix

section
variable {𝕜 : Type} [Field 𝕜] {F : FEM 𝕜} {α β : Type}

namespace Act

theorem bind_ok {x : Act F α} {f : α → Act F β} {d d' : Driver F} {a : α} {w : List (Event 𝕜)}
    (h : x d = (.ok a, d', w)) : (x >>= f) d = ((f a d').1, (f a d').2.1, w ++ (f a d').2.2) := by
  show bind x f d = _
  unfold bind; rw [h]

theorem bind_throw {x : Act F α} {f : α → Act F β} {d d' : Driver F} {e : Err} {w : List (Event 𝕜)}
    (h : x d = (.throw e, d', w)) : (x >>= f) d = (.throw e, d', w) := by
  show bind x f d = _
  unfold bind; rw [h]

@[simp] theorem lift_ok_bind (a : α) (f : α → Act F β) : (lift (.ok a) >>= f) = f a := by
  funext d
  rw [bind_ok (a := a) (d' := d) (w := []) rfl]
  rfl

@[simp] theorem read_bind (g : Driver F → α) (f : α → Act F β) (d : Driver F) :
    (read g >>= f) d = f (g d) d := by
  rw [bind_ok (a := g d) (d' := d) (w := []) rfl]
  rfl

@[simp] theorem lift_throw_bind (e : Err) (f : α → Act F β) (d : Driver F) :
    ((lift (.throw e) : Act F α) >>= f) d = (.throw e, d, []) := rfl

end Act

/-- A solver without its field. -/
def Solver.forget (s : Solver F) : Solver F :=
  { s with sol := { phi := fun _ => 0, e := fun _ => 0, d := fun _ => 0 } }

/-- A driver without the fields its solvers hold. -/
def Driver.forget (d : Driver F) : Driver F :=
  { d with electric := { d.electric with solver := d.electric.solver.forget }
           magnetic := { d.magnetic with solver := d.magnetic.solver.forget } }

theorem forget_model {d d' : Driver F} (h : d.forget = d'.forget) : d.model = d'.model :=
  congrArg (fun d => d.model) h

theorem forget_opts {d d' : Driver F} (h : d.forget = d'.forget) : d.opts = d'.opts :=
  congrArg (fun d => d.opts) h

theorem forget_solutions {d d' : Driver F} (h : d.forget = d'.forget) (b : Bool) :
    (Driver.problem b d).solutions = (Driver.problem b d').solutions := by
  cases b with
  | false => exact congrArg (fun d => d.electric.solutions) h
  | true => exact congrArg (fun d => d.magnetic.solutions) h

theorem forget_solver {d d' : Driver F} (h : d.forget = d'.forget) (b : Bool) :
    (Driver.problem b d).solver.forget = (Driver.problem b d').solver.forget := by
  cases b with
  | false => exact congrArg (fun d => d.electric.solver) h
  | true => exact congrArg (fun d => d.magnetic.solver) h

/-- The driver with another solver in one of its problems. -/
def Driver.withSolver (b : Bool) (s : Solver F) (d : Driver F) : Driver F :=
  if b then { d with magnetic := { d.magnetic with solver := s } }
  else { d with electric := { d.electric with solver := s } }

theorem updateSolver_eq (b : Bool) (g : Solver F → Solver F) (d : Driver F) :
    Driver.updateSolver b g d = (.ok (), d.withSolver b (g (Driver.problem b d).solver), []) := by
  cases b <;> rfl

@[simp] theorem withSolver_model (b : Bool) (s : Solver F) (d : Driver F) : (d.withSolver b s).model = d.model := by
  cases b <;> rfl

@[simp] theorem withSolver_opts (b : Bool) (s : Solver F) (d : Driver F) : (d.withSolver b s).opts = d.opts := by
  cases b <;> rfl

@[simp] theorem withSolver_solver (b : Bool) (s : Solver F) (d : Driver F) :
    (Driver.problem b (d.withSolver b s)).solver = s := by
  cases b <;> rfl

@[simp] theorem withSolver_solutions (b c : Bool) (s : Solver F) (d : Driver F) :
    (Driver.problem b (d.withSolver c s)).solutions = (Driver.problem b d).solutions := by
  cases b <;> cases c <;> rfl

theorem withSolver_forget {b : Bool} {s : Solver F} {d : Driver F}
    (h : s.forget = (Driver.problem b d).solver.forget) : (d.withSolver b s).forget = d.forget := by
  cases b with
  | false =>
    unfold Driver.withSolver Driver.forget
    simp only [Bool.false_eq_true, if_false]
    rw [h]; rfl
  | true =>
    unfold Driver.withSolver Driver.forget
    simp only [if_true]
    rw [h]; rfl

/-! ## Independence of the fields held -/

/-- The call leaves everything but the fields of the solvers. -/
def Keeps (x : Act F α) : Prop := ∀ d, (x d).2.1.forget = d.forget

/-- Answer and output do not depend on the fields of the solvers. -/
def Indep (x : Act F α) : Prop := ∀ d d', d.forget = d'.forget → (x d).1 = (x d').1 ∧ (x d).2.2 = (x d').2.2

/-- Answer, output and new state of problem `b` depend on the fields of that problem only. -/
def IndepOn (b : Bool) (x : Act F α) : Prop := ∀ d d', d.forget = d'.forget →
  Driver.problem b d = Driver.problem b d' →
  (x d).1 = (x d').1 ∧ (x d).2.2 = (x d').2.2 ∧ Driver.problem b (x d).2.1 = Driver.problem b (x d').2.1

/-- Answer and output depend on the fields of problem `b` only. -/
def IndepOn' (b : Bool) (x : Act F α) : Prop := ∀ d d', d.forget = d'.forget →
  Driver.problem b d = Driver.problem b d' → (x d).1 = (x d').1 ∧ (x d).2.2 = (x d').2.2

theorem bind_def (x : Act F α) (f : α → Act F β) (d : Driver F) : (x >>= f) d = match x d with
    | (.ok a, d', w) => ((f a d').1, (f a d').2.1, w ++ (f a d').2.2)
    | (.throw e, d', w) => (.throw e, d', w)
    | (.ub, d', w) => (.ub, d', w)
    | (.nonfinite, d', w) => (.nonfinite, d', w) := rfl

theorem Keeps.bind {x : Act F α} {f : α → Act F β} (hx : Keeps x) (hf : ∀ a, Keeps (f a)) : Keeps (x >>= f) := by
  intro d
  have h := hx d
  rw [bind_def]
  rcases hxd : x d with ⟨a | e | _ | _, d', w⟩ <;> rw [hxd] at h
  · exact (hf a d').trans h
  · exact h
  · exact h
  · exact h

theorem Keeps.lift (x : Outcome α) : Keeps (Act.lift (F := F) x) := fun _ => rfl
theorem Keeps.pure (x : α) : Keeps (pure x : Act F α) := fun _ => rfl
theorem Keeps.read (g : Driver F → α) : Keeps (Act.read g) := fun _ => rfl
theorem Keeps.emit (w : List (Event 𝕜)) : Keeps (Act.emit (F := F) w) := fun _ => rfl
theorem Keeps.ofLogged (x : Logged 𝕜 α) : Keeps (Act.ofLogged (F := F) x) := fun _ => rfl

theorem Keeps.updateSolver (b : Bool) {g : Solver F → Solver F} (hg : ∀ s, (g s).forget = s.forget) :
    Keeps (Driver.updateSolver b g) := by
  intro d
  rw [updateSolver_eq]
  exact withSolver_forget (hg _)

theorem Indep.bind {x : Act F α} {f : α → Act F β} (hk : Keeps x) (hx : Indep x) (hf : ∀ a, Indep (f a)) :
    Indep (x >>= f) := by
  intro d d' h
  obtain ⟨h1, h2⟩ := hx d d' h
  have k : (x d).2.1.forget = (x d').2.1.forget := (hk d).trans (h.trans (hk d').symm)
  rw [bind_def, bind_def]
  rcases hxd : x d with ⟨r, d1, w⟩
  rcases hxd' : x d' with ⟨r', d1', w'⟩
  rw [hxd, hxd'] at h1 h2 k
  simp only at h1 h2 k
  subst h1 h2
  cases r with
  | ok a =>
    obtain ⟨h3, h4⟩ := hf a d1 d1' k
    exact ⟨h3, by simp only [h4]⟩
  | _ => exact ⟨rfl, rfl⟩

theorem IndepOn.bind {b : Bool} {x : Act F α} {f : α → Act F β} (hk : Keeps x) (hx : IndepOn b x)
    (hf : ∀ a, IndepOn b (f a)) : IndepOn b (x >>= f) := by
  intro d d' h hp
  obtain ⟨h1, h2, h5⟩ := hx d d' h hp
  have k : (x d).2.1.forget = (x d').2.1.forget := (hk d).trans (h.trans (hk d').symm)
  rw [bind_def, bind_def]
  rcases hxd : x d with ⟨r, d1, w⟩
  rcases hxd' : x d' with ⟨r', d1', w'⟩
  rw [hxd, hxd'] at h1 h2 h5 k
  simp only at h1 h2 h5 k
  subst h1 h2
  cases r with
  | ok a =>
    obtain ⟨h3, h4, h6⟩ := hf a d1 d1' k h5
    exact ⟨h3, by simp only [h4], h6⟩
  | _ => exact ⟨rfl, rfl, h5⟩

theorem IndepOn.bind' {b : Bool} {x : Act F α} {f : α → Act F β} (hk : Keeps x) (hx : IndepOn b x)
    (hf : ∀ a, IndepOn' b (f a)) : IndepOn' b (x >>= f) := by
  intro d d' h hp
  obtain ⟨h1, h2, h5⟩ := hx d d' h hp
  have k : (x d).2.1.forget = (x d').2.1.forget := (hk d).trans (h.trans (hk d').symm)
  rw [bind_def, bind_def]
  rcases hxd : x d with ⟨r, d1, w⟩
  rcases hxd' : x d' with ⟨r', d1', w'⟩
  rw [hxd, hxd'] at h1 h2 h5 k
  simp only at h1 h2 h5 k
  subst h1 h2
  cases r with
  | ok a =>
    obtain ⟨h3, h4⟩ := hf a d1 d1' k h5
    exact ⟨h3, by simp only [h4]⟩
  | _ => exact ⟨rfl, rfl⟩

theorem Indep.on {b : Bool} {x : Act F α} (h : Indep x) : IndepOn' b x := fun d d' hd _ => h d d' hd

theorem Indep.lift (x : Outcome α) : Indep (Act.lift (F := F) x) := fun _ _ _ => ⟨rfl, rfl⟩
theorem Indep.pure (x : α) : Indep (pure x : Act F α) := fun _ _ _ => ⟨rfl, rfl⟩
theorem Indep.emit (w : List (Event 𝕜)) : Indep (Act.emit (F := F) w) := fun _ _ _ => ⟨rfl, rfl⟩
theorem Indep.ofLogged (x : Logged 𝕜 α) : Indep (Act.ofLogged (F := F) x) := fun _ _ _ => ⟨rfl, rfl⟩

theorem Indep.read {g : Driver F → α} (hg : ∀ d d', d.forget = d'.forget → g d = g d') : Indep (Act.read g) := by
  intro d d' h
  exact ⟨congrArg Outcome.ok (hg d d' h), rfl⟩

theorem Indep.model : Indep (Act.read (Driver.model (F := F))) := Indep.read (fun _ _ h => forget_model h)
theorem Indep.opts : Indep (Act.read (Driver.opts (F := F))) := Indep.read (fun _ _ h => forget_opts h)

theorem IndepOn.lift {b : Bool} (x : Outcome α) : IndepOn b (Act.lift (F := F) x) := fun _ _ _ h => ⟨rfl, rfl, h⟩
theorem IndepOn.emit {b : Bool} (w : List (Event 𝕜)) : IndepOn b (Act.emit (F := F) w) := fun _ _ _ h => ⟨rfl, rfl, h⟩
theorem IndepOn.pure {b : Bool} (x : α) : IndepOn b (pure x : Act F α) := fun _ _ _ h => ⟨rfl, rfl, h⟩

theorem IndepOn.read {b : Bool} {g : Driver F → α} (hg : ∀ d d', d.forget = d'.forget →
    Driver.problem b d = Driver.problem b d' → g d = g d') : IndepOn b (Act.read g) := by
  intro d d' h hp
  exact ⟨congrArg Outcome.ok (hg d d' h hp), rfl, hp⟩

theorem IndepOn.problem {b : Bool} : IndepOn (F := F) b (Act.read (Driver.problem b)) :=
  IndepOn.read (fun _ _ _ h => h)

theorem withSolver_congr {b : Bool} {d d' : Driver F} (hp : (Driver.problem b d).solutions =
    (Driver.problem b d').solutions) (s : Solver F) :
    Driver.problem b (d.withSolver b s) = Driver.problem b (d'.withSolver b s) := by
  cases b with
  | false =>
    unfold Driver.problem Driver.withSolver at *
    simp only [Bool.false_eq_true, if_false] at *
    rw [hp]
  | true =>
    unfold Driver.problem Driver.withSolver at *
    simp only [if_true] at *
    rw [hp]

theorem IndepOn.updateSolver {b : Bool} (g : Solver F → Solver F) : IndepOn b (Driver.updateSolver b g) := by
  intro d d' h hp
  rw [updateSolver_eq, updateSolver_eq]
  refine ⟨rfl, rfl, ?_⟩
  rw [hp]
  exact withSolver_congr (forget_solutions h b) _

/-- A call that begins by overwriting the field of problem `b` does not depend on the fields. -/
theorem Indep.overwrite {b : Bool} {g : Solver F → Solver F} {f : Unit → Act F β}
    (hg : ∀ s s' : Solver F, s.forget = s'.forget → g s = g s') (hgf : ∀ s, (g s).forget = s.forget)
    (hf : IndepOn' b (f ())) : Indep (Driver.updateSolver b g >>= f) := by
  intro d d' h
  rw [Act.bind_ok (updateSolver_eq b g d), Act.bind_ok (updateSolver_eq b g d')]
  have e := hg _ _ (forget_solver h b)
  rw [e]
  obtain ⟨h1, h2⟩ := hf (d.withSolver b (g (Driver.problem b d').solver)) (d'.withSolver b (g (Driver.problem b d').solver))
    (by
      rw [withSolver_forget, withSolver_forget, h]
      · exact hgf _
      · rw [hgf]; exact (forget_solver h b).symm)
    (withSolver_congr (forget_solutions h b) _)
  exact ⟨h1, by simp only [h2]⟩

theorem setSolution_forget (s : Solver F) (t : SolverSolution F) : (s.setSolution t).forget = s.forget := rfl

theorem addScaled_forget (c : 𝕜) (t : SolverSolution F) (s : Solver F) : (Driver.addScaled c t s).forget = s.forget := rfl

theorem forget_setSolution (s : Solver F) (t : SolverSolution F) : s.forget.setSolution t = s.setSolution t := rfl

theorem setSolution_overwrite (t : SolverSolution F) (s s' : Solver F) (h : s.forget = s'.forget) :
    s.setSolution t = s'.setSolution t := by
  rw [← forget_setSolution s, ← forget_setSolution s', h]

theorem scaleZero_eq (s : Solver F) : Driver.scaleZero s = s.forget := by
  unfold Driver.scaleZero Solver.forget
  simp only [mul_zero]

theorem forget_forget (s : Solver F) : s.forget.forget = s.forget := rfl

theorem solutionAt_congr {sP sP' : SolvedProblem F} (h : sP.solutions = sP'.solutions) (i : Int) :
    Driver.solutionAt sP i = Driver.solutionAt sP' i := by
  unfold Driver.solutionAt; rw [h]

/-! ### The queries -/

theorem generalizedLoop_keeps (b : Bool) (conductors : SMap Int Int) : ∀ (l : List (Int × Int)) (C : DMat 𝕜),
    Keeps (F := F) (Driver.generalizedLoop b conductors l C) := by
  intro l
  induction l with
  | nil => intro C; exact Keeps.pure C
  | cons x t ih =>
    intro C
    obtain ⟨i, a⟩ := x
    rw [Driver.generalizedLoop]
    refine (Keeps.read _).bind fun sP => (Keeps.lift _).bind fun sol => (Keeps.updateSolver b fun s => setSolution_forget s sol).bind fun _ =>
      (Keeps.read _).bind fun sP => (Keeps.lift _).bind fun C => (Keeps.read _).bind fun m => (Keeps.lift _).bind fun p =>
      (Keeps.read _).bind fun o => (Keeps.emit _).bind fun _ => ih C

theorem generalizedLoop_indep (b : Bool) (conductors : SMap Int Int) : ∀ (l : List (Int × Int)) (C : DMat 𝕜),
    Indep (F := F) (Driver.generalizedLoop b conductors l C) := by
  intro l
  induction l with
  | nil => intro C; exact Indep.pure C
  | cons x t ih =>
    intro C
    obtain ⟨i, a⟩ := x
    rw [Driver.generalizedLoop]
    have key : ∀ sol : SolverSolution F, Indep (F := F) (do
        Driver.updateSolver b (fun s => s.setSolution sol)
        let sP ← Act.read (Driver.problem b)
        let C ← Act.lift (Driver.chargesLoop sP.solver conductors i conductors C)
        let mats ← Act.read (fun d => d.model.materials)
        let pec ← Act.lift (mats.getPECById i)
        let opts ← Act.read Driver.opts
        Act.emit (exportFieldSolutions opts sP.solver.sol pec.name b)
        Driver.generalizedLoop b conductors t C) := by
      intro sol
      refine Indep.overwrite (setSolution_overwrite sol) (fun s => rfl) ?_
      refine IndepOn.bind' (Keeps.read _) IndepOn.problem fun sP => IndepOn.bind' (Keeps.lift _) (IndepOn.lift _) fun C =>
        IndepOn.bind' (Keeps.read _) (IndepOn.read fun d d' h _ => by rw [forget_model h]) fun m =>
        IndepOn.bind' (Keeps.lift _) (IndepOn.lift _) fun p =>
        IndepOn.bind' (Keeps.read _) (IndepOn.read fun d d' h _ => forget_opts h) fun o =>
        IndepOn.bind' (Keeps.emit _) (IndepOn.emit _) fun _ => (ih C).on
    intro d d' h
    simp only [Act.read_bind]
    rw [solutionAt_congr (forget_solutions h b)]
    rcases Driver.solutionAt (Driver.problem b d') i with sol | e | _ | _
    · simp only [Act.lift_ok_bind]
      exact key sol d d' h
    · exact ⟨rfl, rfl⟩
    · exact ⟨rfl, rfl⟩
    · exact ⟨rfl, rfl⟩

/-- The call neither depends on the fields of the solvers nor changes anything else. -/
structure Clean (x : Act F α) : Prop where
  keeps : Keeps x
  indep : Indep x

theorem Clean.bind {x : Act F α} {f : α → Act F β} (hx : Clean x) (hf : ∀ a, Clean (f a)) : Clean (x >>= f) :=
  ⟨hx.keeps.bind fun a => (hf a).keeps, Indep.bind hx.keeps hx.indep fun a => (hf a).indep⟩

theorem Clean.lift (x : Outcome α) : Clean (Act.lift (F := F) x) := ⟨Keeps.lift x, Indep.lift x⟩
theorem Clean.pure (x : α) : Clean (pure x : Act F α) := ⟨Keeps.pure x, Indep.pure x⟩
theorem Clean.emit (w : List (Event 𝕜)) : Clean (Act.emit (F := F) w) := ⟨Keeps.emit w, Indep.emit w⟩
theorem Clean.ofLogged (x : Logged 𝕜 α) : Clean (Act.ofLogged (F := F) x) := ⟨Keeps.ofLogged x, Indep.ofLogged x⟩
theorem Clean.model : Clean (Act.read (Driver.model (F := F))) := ⟨Keeps.read _, Indep.model⟩
theorem Clean.opts : Clean (Act.read (Driver.opts (F := F))) := ⟨Keeps.read _, Indep.opts⟩

theorem getGeneralizedCMatrix_clean (b : Bool) : Clean (F := F) (Driver.getGeneralizedCMatrix b) := by
  unfold Driver.getGeneralizedCMatrix
  refine Clean.model.bind fun m => (Clean.lift _).bind fun c => (Clean.lift _).bind fun o => ?_
  split
  · exact Clean.lift _
  · exact Clean.bind ⟨generalizedLoop_keeps _ _ _ _, generalizedLoop_indep _ _ _ _⟩ fun C => Clean.lift _

variable [DecidableEq 𝕜]

theorem getCMatrix_clean : Clean (F := F) Driver.getCMatrix :=
  (getGeneralizedCMatrix_clean false).bind fun _ => Clean.model.bind fun _ => (Clean.lift _).bind fun _ => Clean.lift _

theorem getLMatrix_clean : Clean (F := F) Driver.getLMatrix :=
  (getGeneralizedCMatrix_clean true).bind fun _ => Clean.model.bind fun _ => (Clean.lift _).bind fun _ =>
    (Clean.lift _).bind fun _ => Clean.lift _

theorem getPULMTL_clean (E : Engine 𝕜) : Clean (F := F) (Driver.getPULMTL E) :=
  getCMatrix_clean.bind fun _ => getLMatrix_clean.bind fun _ => Clean.pure _

theorem getFloatingPotentialsMatrix_clean (b : Bool) : Clean (F := F) (Driver.getFloatingPotentialsMatrix b) := by
  unfold Driver.getFloatingPotentialsMatrix
  refine Clean.model.bind fun m => ?_
  split
  · exact Clean.pure _
  · refine (Clean.lift _).bind fun o => ?_
    cases o with
    | closed => exact (getGeneralizedCMatrix_clean b).bind fun _ => (Clean.lift _).bind fun _ => Clean.lift _
    | open_ => exact (getGeneralizedCMatrix_clean b).bind fun _ => Clean.lift _
    | semiopen => exact Clean.lift _

theorem getFloatingPotentials_clean : Clean (F := F) Driver.getFloatingPotentials :=
  (getFloatingPotentialsMatrix_clean false).bind fun _ => (getFloatingPotentialsMatrix_clean true).bind fun _ =>
    Clean.pure _

theorem superposeLoop_keeps (b : Bool) (fp : DMat 𝕜) (i : Int) : ∀ l : List (Int × Int),
    Keeps (F := F) (Driver.superposeLoop b fp i l) := by
  intro l
  induction l with
  | nil => exact Keeps.pure _
  | cons x t ih =>
    rw [Driver.superposeLoop]
    exact (Keeps.lift _).bind fun c => (Keeps.read _).bind fun sP => (Keeps.lift _).bind fun sol =>
      (Keeps.updateSolver b fun s => addScaled_forget c sol s).bind fun _ => ih

theorem superposeLoop_on (b : Bool) (fp : DMat 𝕜) (i : Int) : ∀ l : List (Int × Int),
    IndepOn (F := F) b (Driver.superposeLoop b fp i l) := by
  intro l
  induction l with
  | nil => exact IndepOn.pure _
  | cons x t ih =>
    rw [Driver.superposeLoop]
    exact IndepOn.bind (Keeps.lift _) (IndepOn.lift _) fun c => IndepOn.bind (Keeps.read _) IndepOn.problem fun sP =>
      IndepOn.bind (Keeps.lift _) (IndepOn.lift _) fun sol =>
      IndepOn.bind (Keeps.updateSolver b fun s => addScaled_forget c sol s) (IndepOn.updateSolver _) fun _ => ih

theorem fieldLoop_clean (E : Engine 𝕜) (b : Bool) (fp : DMat 𝕜) (conductors : SMap Int Int) :
    ∀ (l : List (Int × Int)) (res : SMap Int (FieldReconstruction 𝕜)),
    Clean (F := F) (Driver.fieldLoop E b fp conductors l res) := by
  intro l
  induction l with
  | nil => intro res; exact Clean.pure _
  | cons x t ih =>
    intro res
    rw [Driver.fieldLoop]
    constructor
    · exact (Keeps.updateSolver b fun s => by rw [scaleZero_eq]; rfl).bind fun _ =>
        (superposeLoop_keeps _ _ _ _).bind fun _ => (Keeps.read _).bind fun _ => (Keeps.read _).bind fun _ =>
        (Keeps.read _).bind fun _ => (Keeps.lift _).bind fun _ => (Keeps.emit _).bind fun _ => (Keeps.lift _).bind fun _ =>
        (Keeps.lift _).bind fun _ => (Keeps.lift _).bind fun _ => (Keeps.lift _).bind fun _ => (ih _).keeps
    · refine Indep.overwrite (fun s s' h => by rw [scaleZero_eq, scaleZero_eq, h])
        (fun s => by rw [scaleZero_eq]; rfl) ?_
      exact IndepOn.bind' (superposeLoop_keeps _ _ _ _) (superposeLoop_on _ _ _ _) fun _ =>
        IndepOn.bind' (Keeps.read _) (IndepOn.read fun d d' h _ => forget_model h) fun _ =>
        IndepOn.bind' (Keeps.read _) (IndepOn.read fun d d' h _ => forget_opts h) fun _ =>
        IndepOn.bind' (Keeps.read _) IndepOn.problem fun _ =>
        IndepOn.bind' (Keeps.lift _) (IndepOn.lift _) fun _ => IndepOn.bind' (Keeps.emit _) (IndepOn.emit _) fun _ =>
        IndepOn.bind' (Keeps.lift _) (IndepOn.lift _) fun _ => IndepOn.bind' (Keeps.lift _) (IndepOn.lift _) fun _ =>
        IndepOn.bind' (Keeps.lift _) (IndepOn.lift _) fun _ => IndepOn.bind' (Keeps.lift _) (IndepOn.lift _) fun _ =>
        (ih _).indep.on

theorem getFieldParameters_clean (E : Engine 𝕜) (b : Bool) : Clean (F := F) (Driver.getFieldParameters E b) :=
  (getFloatingPotentialsMatrix_clean b).bind fun _ => Clean.model.bind fun _ => (Clean.lift _).bind fun _ =>
    fieldLoop_clean _ _ _ _ _ _

variable [LinearOrder 𝕜]

theorem getInCellPotentials_clean (E : Engine 𝕜) : Clean (F := F) (Driver.getInCellPotentials E) := by
  unfold Driver.getInCellPotentials
  refine Clean.model.bind fun m => (Clean.lift _).bind fun o => ?_
  split
  · exact Clean.lift _
  · exact (Clean.lift _).bind fun _ => (Clean.lift _).bind fun _ => (getFieldParameters_clean E false).bind fun _ =>
      (getFieldParameters_clean E true).bind fun _ => Clean.pure _

theorem run_clean (E : Engine 𝕜) : Clean (F := F) (Driver.run E) := by
  unfold Driver.run
  refine Clean.model.bind fun m => (Clean.lift _).bind fun o => ?_
  cases o with
  | closed => exact (getPULMTL_clean E).bind fun _ => Clean.opts.bind fun _ => Clean.emit _
  | open_ => exact (getInCellPotentials_clean E).bind fun _ => Clean.opts.bind fun _ => Clean.emit _
  | semiopen => exact Clean.lift _

theorem getPULMTLByDomains_clean (E : Engine 𝕜) : Clean (F := F) (Driver.getPULMTLByDomains E) :=
  Clean.model.bind fun _ => Clean.opts.bind fun _ => (Clean.lift _).bind fun _ => (Clean.ofLogged _).bind fun _ =>
    (Clean.lift _).bind fun _ => Clean.pure _

end
end Tulip
