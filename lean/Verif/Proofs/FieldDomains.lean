import Verif.Proofs.FieldPaths

/-!
# Which fields the drivers of domains write
-/

set_option linter.unusedSectionVars false

namespace Tulip
open Spec Matrix

section
variable {𝕜 : Type} [Field 𝕜] [DecidableEq 𝕜] {F : FEM 𝕜} {α β : Type}

/-- The computation writes only what `P` allows. -/
def LWrites (P : Event 𝕜 → Prop) (x : Logged 𝕜 α) : Prop := ∀ e ∈ x.2, P e

section
variable {P : Event 𝕜 → Prop}

theorem LWrites.bind {x : Logged 𝕜 α} {f : α → Logged 𝕜 β} (hx : LWrites P x) (hf : ∀ a, x.1 = .ok a → LWrites P (f a)) :
    LWrites P (x >>= f) := by
  intro e he
  rw [Logged.bind_def] at he
  have h1 := hx
  unfold LWrites at h1
  rcases ex : x with ⟨ox, wx⟩
  rw [ex] at he h1 hf
  simp only at h1
  cases ox with
  | ok a =>
    rcases List.mem_append.mp he with he | he
    · exact h1 e he
    · exact hf a rfl e he
  | throw _ => exact h1 e he
  | ub => exact h1 e he
  | nonfinite => exact h1 e he

theorem LWrites.lift (x : Outcome α) : LWrites P (Logged.lift (𝕜 := 𝕜) x) := fun _ h => by cases h
theorem LWrites.pure (x : α) : LWrites P (Pure.pure x : Logged 𝕜 α) := fun _ h => by cases h

theorem LWrites.mem_left {x : Logged 𝕜 α} {f : α → Logged 𝕜 β} {e : Event 𝕜} (h : e ∈ x.2) : e ∈ (x >>= f).2 := by
  rw [Logged.bind_def]
  rcases ex : x with ⟨ox, wx⟩
  rw [ex] at h
  cases ox with
  | ok a => exact List.mem_append_left _ h
  | throw _ => exact h
  | ub => exact h
  | nonfinite => exact h

end

/-- A field on this discretisation. -/
def FieldOn (F : FEM 𝕜) (e : Event 𝕜) : Prop := ∃ v p u, e = .field v p F u

theorem export_on {F : FEM 𝕜} {o : DriverOptions} {t : SolverSolution F} {n : String} {b : Bool} {e : Event 𝕜}
    (h : e ∈ exportFieldSolutions o t n b) : FieldOn F e :=
  let ⟨v, _, he⟩ := mem_export.mp h
  ⟨v, _, t, he⟩

variable {o : DriverOptions}

theorem solveLoop_on (P : LinSolver 𝕜) (mats : Materials 𝕜) (b : Bool) (base : AttrToValueMap 𝕜) :
    ∀ (l : List (Int × Int)) (sp : SolvedProblem F), LWrites (FieldOn F) (solveLoop P mats o b base l sp)
  | [], sp => LWrites.pure _
  | (i, a) :: t, sp => by
    rw [solveLoop]
    exact LWrites.bind (LWrites.lift _) (fun s _ => LWrites.bind (LWrites.lift _) (fun pec _ =>
      LWrites.bind (fun e he => export_on he) (fun _ _ => LWrites.bind
        (LWrites.lift _) (fun sols _ => solveLoop_on P mats b base t _))))

theorem solveForAll_on (E : Engine 𝕜) (F : FEM 𝕜) (model : Model 𝕜) (b : Bool) :
    LWrites (FieldOn F) (solveForAllConductors E F model o b) := by
  unfold solveForAllConductors
  exact LWrites.bind (LWrites.lift _) (fun base _ => LWrites.bind (LWrites.lift _) (fun s _ =>
    LWrites.bind (LWrites.lift _) (fun c _ => solveLoop_on _ _ b _ _ _)))

theorem construct_on (E : Engine 𝕜) (model : Model 𝕜) :
    LWrites (FieldOn (E.fem model o)) (Driver.construct E model o) := by
  unfold Driver.construct
  exact LWrites.bind (LWrites.lift _) (fun _ _ => LWrites.bind (solveForAll_on E _ model false) (fun el _ =>
    LWrites.bind (solveForAll_on E _ model true) (fun mg _ => LWrites.pure _)))

theorem stored_on {d0 : Driver F} {e : Event 𝕜} (h : StoredFile d0 e) : FieldOn F e :=
  let ⟨_, _, _, _, _, _, he⟩ := h
  export_on he

/-- A field on the discretisation of the model of one of the domains. -/
def FieldOfDomain (E : Engine 𝕜) (model : Model 𝕜) (o : DriverOptions) (ds : List (Int × Domain)) (e : Event 𝕜) : Prop :=
  ∃ q ∈ ds, ∃ sub mesh, buildModelForDomain model.mesh model.materials q.2 = .ok (sub, mesh) ∧ FieldOn (E.fem sub o) e

theorem domainPUL_on (E : Engine 𝕜) (model : Model 𝕜) {ds : List (Int × Domain)} {q : Int × Domain} (hq : q ∈ ds) :
    LWrites (FieldOfDomain E model o ds) (Driver.domainPUL E model o q.2) := by
  unfold Driver.domainPUL
  refine LWrites.bind (LWrites.lift _) (fun dm hdm => ?_)
  have hb : buildModelForDomain model.mesh model.materials q.2 = .ok (dm.1, dm.2) := hdm
  exact LWrites.bind (fun e he => ⟨q, hq, _, _, hb, construct_on E dm.1 e he⟩)
    (fun d hd e he => ⟨q, hq, _, _, hb, stored_on (getPULMTL_writes E d rfl e he)⟩)

theorem domainsPULLoop_on (E : Engine 𝕜) (model : Model 𝕜) {ds : List (Int × Domain)} : ∀ (l : List (Int × Domain))
    (res : SMap Int (PULParameters 𝕜)), (∀ q ∈ l, q ∈ ds) →
    LWrites (FieldOfDomain E model o ds) (Driver.domainsPULLoop E model o l res)
  | [], res, _ => LWrites.pure _
  | q :: t, res, h => by
    rw [Driver.domainsPULLoop]
    exact LWrites.bind (domainPUL_on E model (h q (List.mem_cons_self ..)))
      (fun p _ => domainsPULLoop_on E model t _ (fun q' h' => h q' (List.mem_cons_of_mem _ h')))

theorem byDomains_events [LinearOrder 𝕜] (E : Engine 𝕜) {d : Driver F} {ds : IdToDomain} (hds : buildDomains d.model = .ok ds) :
    (Query.pulMTLByDomains.exec E d).2.2 = (Driver.domainsPULLoop E d.model d.opts ds []).2 := by
  have h0 : (Query.pulMTLByDomains.exec E d).2.2 = (Driver.getPULMTLByDomains E d).2.2 := by
    show ((Driver.getPULMTLByDomains E >>= fun p => pure (Answer.pulByDomain p)) d).2.2 = _
    rw [bind_def]
    rcases Driver.getPULMTLByDomains E d with ⟨x, y, z⟩
    cases x with
    | ok a => exact List.append_nil _
    | _ => rfl
  rw [h0]
  unfold Driver.getPULMTLByDomains
  rw [Act.read_bind, Act.read_bind, hds, Act.lift_ok_bind, bind_def]
  unfold Act.ofLogged
  rcases Driver.domainsPULLoop E d.model d.opts ds [] with ⟨x, z⟩
  cases x with
  | ok a =>
    show z ++ _ = z
    rcases Tulip.domainTree ds with _ | _ | _ | _ <;> exact List.append_nil _
  | _ => rfl

/-- Constructing the driver of the first domain writes what it writes. -/
theorem byDomains_first [LinearOrder 𝕜] (E : Engine 𝕜) {d : Driver F} {q : Int × Domain} {ds : IdToDomain}
    (hds : buildDomains d.model = .ok (q :: ds)) {sub : Model 𝕜} {mesh : Mesh 𝕜}
    (hb : buildModelForDomain d.model.mesh d.model.materials q.2 = .ok (sub, mesh)) :
    ∀ e ∈ (Driver.construct E sub d.opts).2, e ∈ (Query.pulMTLByDomains.exec E d).2.2 := by
  intro e he
  rw [byDomains_events E hds, Driver.domainsPULLoop]
  refine LWrites.mem_left ?_
  unfold Driver.domainPUL
  rw [hb, Logged.bind_def]
  exact LWrites.mem_left (x := Driver.construct E sub d.opts) he

end
end Tulip
