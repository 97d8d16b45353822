import Verif.Proofs.Renumber
import Verif.Proofs.Flux
import Verif.Spec.Galerkin

/-!
# Drivers with corresponding discretisations, side by side
-/

set_option linter.unusedSectionVars false

namespace Tulip
open Spec Matrix

variable {𝕜 : Type} [Field 𝕜] {F F' : FEM 𝕜} {α β γ δ : Type}

/-! ## Correspondence of fields -/

/-- How coefficients of fields of `F'` translate to `F`. -/
structure Transfer (F F' : FEM 𝕜) where
  phi : (Fin F'.n → 𝕜) →ₗ[𝕜] (Fin F.n → 𝕜)
  d : (Fin F'.nd → 𝕜) →ₗ[𝕜] (Fin F.nd → 𝕜)

/-- Integrals are the same; those of the flux with weights only if `w`. -/
structure Faithful (τ : Transfer F F') (w : Prop) : Prop where
  one : τ.phi (fun _ => 1) = fun _ => 1
  flux : ∀ (sel : Int → Bool) (c : 𝕜) (D : Fin F'.nd → 𝕜), F'.flux sel (fun _ => c) D = F.flux sel (fun _ => c) (τ.d D)
  weighted : w → ∀ (sel : Int → Bool) (f : 𝕜 × 𝕜 → 𝕜) (D : Fin F'.nd → 𝕜), F'.flux sel f D = F.flux sel f (τ.d D)
  domInt : ∀ a u, F'.domInt a u = F.domInt a (τ.phi u)
  bdrInt : ∀ a u, F'.bdrInt a u = F.bdrInt a (τ.phi u)

/-- Potential and displacement, without E (which no query looks at). -/
def SolverSolution.halves (t : SolverSolution F) : (Fin F.n → 𝕜) × (Fin F.nd → 𝕜) := (t.phi, t.d)

def Transfer.back (τ : Transfer F F') (t : SolverSolution F') : (Fin F.n → 𝕜) × (Fin F.nd → 𝕜) := (τ.phi t.phi, τ.d t.d)

variable {τ : Transfer F F'} {w : Prop}

/-! ## Solvers -/

/-- Solvers with corresponding fields, as far as queries can tell. -/
structure TwinSolver (τ : Transfer F F') (s : Solver F) (s' : Solver F') : Prop where
  opens : s'.params.openBoundaries = s.params.openBoundaries
  dirichlet : SMap.keys s'.params.dirichletBoundaries = SMap.keys s.params.dirichletBoundaries
  neumann : SMap.keys s'.params.neumannBoundaries = SMap.keys s.params.neumannBoundaries
  sol : s.sol.halves = τ.back s'.sol

theorem TwinSolver.phi {s : Solver F} {s' : Solver F'} (hs : TwinSolver τ s s') : s.sol.phi = τ.phi s'.sol.phi :=
  (Prod.mk.inj hs.sol).1

theorem TwinSolver.d {s : Solver F} {s' : Solver F'} (hs : TwinSolver τ s s') : s.sol.d = τ.d s'.sol.d :=
  (Prod.mk.inj hs.sol).2

section
variable {s : Solver F} {s' : Solver F'} (h : Faithful τ w) (hs : TwinSolver τ s s')
include h hs

theorem TwinSolver.flux (sel : Int → Bool) (c : 𝕜) : F'.flux sel (fun _ => c) s'.sol.d = F.flux sel (fun _ => c) s.sol.d := by
  rw [h.flux, hs.d]

theorem TwinSolver.charge (a : Int) : s'.getChargeInBoundary a = s.getChargeInBoundary a := hs.flux h _ _

theorem TwinSolver.total : s'.getTotalCharge = s.getTotalCharge := hs.flux h _ _

theorem TwinSolver.moment (hw : w) (A : Analytic 𝕜) (n d : Nat) (c : 𝕜 × 𝕜) :
    s'.getChargeMomentComponent A n d c = s.getChargeMomentComponent A n d c := by
  have hc : s'.chargedBoundaries = s.chargedBoundaries := by
    unfold Solver.chargedBoundaries
    rw [hs.dirichlet, hs.neumann]
  unfold Solver.getChargeMomentComponent
  rw [hc]
  simp only [hs.charge h, h.weighted hw, hs.d]

variable [DecidableEq 𝕜]

theorem TwinSolver.center (hw : w) (A : Analytic 𝕜) : s'.getCenterOfCharge A = s.getCenterOfCharge A := by
  unfold Solver.getCenterOfCharge
  rw [hs.opens]
  simp only [hs.moment h hw, hs.charge h, hs.total h]

theorem TwinSolver.multipolar (hw : w) (A : Analytic 𝕜) (order : Int) :
    s'.getMultipolarCoefficients A order = s.getMultipolarCoefficients A order := by
  unfold Solver.getMultipolarCoefficients
  rw [hs.center h hw]
  simp only [hs.moment h hw]

theorem TwinSolver.domainAverage (a : Int) : s'.getAveragePotentialInDomain a = s.getAveragePotentialInDomain a := by
  unfold Solver.getAveragePotentialInDomain
  rw [h.domInt, h.domInt, h.one, hs.phi]

theorem TwinSolver.boundaryAverage (a : Int) : s'.getAveragePotentialInBoundary a = s.getAveragePotentialInBoundary a := by
  unfold Solver.getAveragePotentialInBoundary
  rw [h.bdrInt, h.bdrInt, h.one, hs.phi]

end

theorem TwinSolver.set {s : Solver F} {s' : Solver F'} (hs : TwinSolver τ s s') {t : SolverSolution F}
    {t' : SolverSolution F'} (ht : t.halves = τ.back t') : TwinSolver τ (s.setSolution t) (s'.setSolution t') :=
  ⟨hs.opens, hs.dirichlet, hs.neumann, ht⟩

theorem TwinSolver.zero {s : Solver F} {s' : Solver F'} (hs : TwinSolver τ s s') :
    TwinSolver τ (Driver.scaleZero s) (Driver.scaleZero s') :=
  ⟨hs.opens, hs.dirichlet, hs.neumann, by
    have z : ∀ {n m : Nat} (L : (Fin m → 𝕜) →ₗ[𝕜] (Fin n → 𝕜)) (u : Fin n → 𝕜) (v : Fin m → 𝕜),
        (fun k => u k * 0) = L (fun k => v k * 0) := by
      intro n m L u v
      have : (fun k => v k * 0) = (0 : Fin m → 𝕜) := by funext k; exact mul_zero _
      rw [this, map_zero]
      funext k
      exact mul_zero _
    exact Prod.ext (z _ _ _) (z _ _ _)⟩

theorem TwinSolver.add {s : Solver F} {s' : Solver F'} (hs : TwinSolver τ s s') (c : 𝕜) {t : SolverSolution F}
    {t' : SolverSolution F'} (ht : t.halves = τ.back t') : TwinSolver τ (Driver.addScaled c t s) (Driver.addScaled c t' s') :=
  ⟨hs.opens, hs.dirichlet, hs.neumann, by
    have z : ∀ {n m : Nat} (L : (Fin m → 𝕜) →ₗ[𝕜] (Fin n → 𝕜)) {u x : Fin n → 𝕜} {v y : Fin m → 𝕜},
        u = L v → x = L y → (fun k => u k + c * x k) = L (fun k => v k + c * y k) := by
      intro n m L u x v y e1 e2
      have : (fun k => v k + c * y k) = v + c • y := rfl
      rw [this, map_add, map_smul, ← e1, ← e2]
      rfl
    exact Prod.ext (z _ hs.phi (Prod.mk.inj ht).1) (z _ hs.d (Prod.mk.inj ht).2)⟩

/-! ## Drivers -/

/-- Solved problems with corresponding fields. -/
structure TwinProblem (τ : Transfer F F') (p : SolvedProblem F) (p' : SolvedProblem F') : Prop where
  solver : TwinSolver τ p.solver p'.solver
  solutions : p.solutions.map (Option.map SolverSolution.halves) = p'.solutions.map (Option.map τ.back)

/-- Models that queries cannot tell apart, except by the mesh. -/
structure TwinModel [LinearOrder 𝕜] (w : Prop) (m m' : Model 𝕜) : Prop where
  materials : m'.materials = m.materials
  openness : m'.determineOpenness = m.determineOpenness
  area : ∀ name, m'.getAreaOfMaterial name = m.getAreaOfMaterial name
  box : ∀ name, m'.getBoundingBoxOfMaterial name = m.getBoundingBoxOfMaterial name
  opened : m.determineOpenness = .ok .open_ → w

/-- Drivers with corresponding fields. -/
structure Twin [LinearOrder 𝕜] (τ : Transfer F F') (w : Prop) (d : Driver F) (d' : Driver F') : Prop where
  model : TwinModel w d.model d'.model
  order : d'.opts.multipolarExpansionOrder = d.opts.multipolarExpansionOrder
  folder : d'.opts.exportFolder = d.opts.exportFolder
  problem : ∀ b, TwinProblem τ (Driver.problem b d) (Driver.problem b d')

/-- Outcomes of the same kind with related values. -/
inductive ORel (R : α → β → Prop) : Outcome α → Outcome β → Prop where
  | ok {a : α} {b : β} (h : R a b) : ORel R (.ok a) (.ok b)
  | throw (e : Err) : ORel R (.throw e) (.throw e)
  | ub : ORel R .ub .ub
  | nonfinite : ORel R .nonfinite .nonfinite

theorem ORel.refl (x : Outcome α) : ORel (fun a b : α => a = b) x x := by
  cases x
  · exact .ok rfl
  · exact .throw _
  · exact .ub
  · exact .nonfinite

theorem ORel.eq {x y : Outcome α} (h : ORel (fun a b : α => a = b) x y) : x = y := by
  cases h
  · rename_i h; rw [h]
  all_goals rfl

theorem jsonFiles_append (a b : List (Event 𝕜)) : jsonFiles (a ++ b) = jsonFiles a ++ jsonFiles b := by
  unfold jsonFiles
  rw [List.filterMap_append]

variable [DecidableEq 𝕜] [LinearOrder 𝕜]

/-- Calls that answer alike, write the same JSON files and keep drivers alike. -/
def Sim (τ : Transfer F F') (w : Prop) (R : α → β → Prop) (x : Act F α) (y : Act F' β) : Prop := ∀ d d', Twin τ w d d' →
  ORel R (x d).1 (y d').1 ∧ Twin τ w (x d).2.1 (y d').2.1 ∧ jsonFiles (x d).2.2 = jsonFiles (y d').2.2

theorem Sim.bind {R : α → β → Prop} {S : γ → δ → Prop} {x : Act F α} {y : Act F' β} {f : α → Act F γ} {g : β → Act F' δ}
    (h : Sim τ w R x y) (hf : ∀ a b, R a b → Sim τ w S (f a) (g b)) : Sim τ w S (x >>= f) (y >>= g) := by
  intro d d' hd
  obtain ⟨h1, h2, h3⟩ := h d d' hd
  rw [bind_def, bind_def]
  rcases hx : x d with ⟨o, d1, w⟩
  rcases hy : y d' with ⟨o', d1', w'⟩
  rw [hx, hy] at h1 h2 h3
  cases h1 with
  | ok hab =>
    obtain ⟨k1, k2, k3⟩ := hf _ _ hab d1 d1' h2
    exact ⟨k1, k2, by simp only [jsonFiles_append]; rw [k3]; exact congrArg (· ++ _) h3⟩
  | throw e => exact ⟨.throw e, h2, h3⟩
  | ub => exact ⟨.ub, h2, h3⟩
  | nonfinite => exact ⟨.nonfinite, h2, h3⟩

theorem Sim.liftR {R : α → β → Prop} {x : Outcome α} {y : Outcome β} (h : ORel R x y) :
    Sim τ w R (Act.lift (F := F) x) (Act.lift (F := F') y) := fun _ _ hd => ⟨h, hd, rfl⟩

theorem Sim.lift (x : Outcome α) : Sim τ w (fun a b : α => a = b) (Act.lift (F := F) x) (Act.lift (F := F') x) := .liftR (.refl x)

theorem Sim.lift_bind {R : γ → δ → Prop} (x : Outcome α) {f : α → Act F γ} {g : α → Act F' δ}
    (h : ∀ a, x = .ok a → Sim τ w R (f a) (g a)) : Sim τ w R (Act.lift (F := F) x >>= f) (Act.lift (F := F') x >>= g) := by
  cases x with
  | ok a =>
    refine (Sim.liftR (R := fun b b' : α => b = a ∧ b' = a) (.ok ⟨rfl, rfl⟩)).bind fun b b' e => ?_
    rw [e.1, e.2]
    exact h a rfl
  | throw e => exact (Sim.liftR (R := fun _ _ : α => False) (.throw e)).bind fun _ _ e => e.elim
  | ub => exact (Sim.liftR (R := fun _ _ : α => False) .ub).bind fun _ _ e => e.elim
  | nonfinite => exact (Sim.liftR (R := fun _ _ : α => False) .nonfinite).bind fun _ _ e => e.elim

theorem Sim.pure {R : α → β → Prop} {a : α} {b : β} (h : R a b) : Sim τ w R (pure a : Act F α) (pure b : Act F' β) :=
  fun _ _ hd => ⟨.ok h, hd, rfl⟩

theorem Sim.emit {x x' : List (Event 𝕜)} (h : jsonFiles x = jsonFiles x') :
    Sim τ w (fun _ _ => True) (Act.emit (F := F) x) (Act.emit (F := F') x') := fun _ _ hd => ⟨.ok trivial, hd, h⟩

theorem Sim.read {R : α → β → Prop} {f : Driver F → α} {g : Driver F' → β} (h : ∀ d d', Twin τ w d d' → R (f d) (g d')) :
    Sim τ w R (Act.read f) (Act.read g) := fun d d' hd => ⟨.ok (h d d' hd), hd, rfl⟩

theorem Sim.model : Sim τ w (TwinModel w) (Act.read (F := F) Driver.model) (Act.read (F := F') Driver.model) :=
  .read fun _ _ h => h.model

theorem Sim.problem (b : Bool) : Sim τ w (TwinProblem τ) (Act.read (Driver.problem b)) (Act.read (Driver.problem b)) :=
  .read fun _ _ h => h.problem b

/-- Options, as far as answers and JSON files depend on them. -/
def SameOpts (o o' : DriverOptions) : Prop :=
  o'.multipolarExpansionOrder = o.multipolarExpansionOrder ∧ o'.exportFolder = o.exportFolder

theorem Sim.opts : Sim τ w SameOpts (Act.read (F := F) Driver.opts) (Act.read (F := F') Driver.opts) :=
  .read fun _ _ h => ⟨h.order, h.folder⟩

theorem Sim.update (b : Bool) {f : Solver F → Solver F} {g : Solver F' → Solver F'}
    (h : ∀ s s', TwinSolver τ s s' → TwinSolver τ (f s) (g s')) :
    Sim τ w (fun _ _ => True) (Driver.updateSolver b f) (Driver.updateSolver b g) := by
  intro d d' hd
  refine ⟨.ok trivial, ?_, rfl⟩
  have h0 := hd.problem false
  have h1 := hd.problem true
  cases b
  · exact ⟨hd.model, hd.order, hd.folder, fun b => by
      cases b
      · exact ⟨h _ _ h0.solver, h0.solutions⟩
      · exact h1⟩
  · exact ⟨hd.model, hd.order, hd.folder, fun b => by
      cases b
      · exact h0
      · exact ⟨h _ _ h1.solver, h1.solutions⟩⟩

theorem solutionAt_twin {p : SolvedProblem F} {p' : SolvedProblem F'} (h : TwinProblem τ p p') (i : Int) :
    ORel (fun t t' => t.halves = τ.back t') (Driver.solutionAt p i) (Driver.solutionAt p' i) := by
  unfold Driver.solutionAt vecGet
  by_cases hi : 0 ≤ i
  · rw [if_pos hi, if_pos hi]
    have e := congrArg (fun l => l[i.toNat]?) h.solutions
    simp only [List.getElem?_map] at e
    rcases h1 : p.solutions[i.toNat]? with _ | _ | t <;> rcases h2 : p'.solutions[i.toNat]? with _ | _ | t' <;>
      rw [h1, h2] at e <;> simp at e
    · exact .ub
    · exact .ub
    · exact .ok e
  · rw [if_neg hi, if_neg hi]
    exact .ub

theorem exportFieldSolutions_json {o : DriverOptions} {G : FEM 𝕜} (t : SolverSolution G) (name : String) (b : Bool) :
    jsonFiles (exportFieldSolutions o t name b) = [] := by
  unfold exportFieldSolutions
  cases o.exportParaViewSolution <;> cases o.exportVisItSolution <;> rfl

theorem Sim.export {o o' : DriverOptions} (t : SolverSolution F) (t' : SolverSolution F') (name name' : String) (b b' : Bool) :
    Sim τ w (fun _ _ => True) (Act.emit (F := F) (exportFieldSolutions o t name b))
      (Act.emit (F := F') (exportFieldSolutions o' t' name' b')) :=
  .emit (by rw [exportFieldSolutions_json, exportFieldSolutions_json])

section
variable (h : Faithful τ w)
include h

theorem chargesLoop_twin {s : Solver F} {s' : Solver F'} (hs : TwinSolver τ s s') (cs : SMap Int Int) (i : Int) :
    ∀ (l : List (Int × Int)) (C : DMat 𝕜), Driver.chargesLoop s' cs i l C = Driver.chargesLoop s cs i l C
  | [], _ => rfl
  | (j, _) :: t, C => by
    unfold Driver.chargesLoop
    simp only [hs.charge h, chargesLoop_twin hs cs i t]

theorem Sim.generalizedLoop (b : Bool) (cs : SMap Int Int) : ∀ (l : List (Int × Int)) (C : DMat 𝕜),
    Sim τ w (fun A B => A = B) (Driver.generalizedLoop (F := F) b cs l C) (Driver.generalizedLoop (F := F') b cs l C)
  | [], C => .pure rfl
  | (i, _) :: t, C => by
    unfold Driver.generalizedLoop
    refine (Sim.problem b).bind fun p p' hp => (Sim.liftR (solutionAt_twin hp i)).bind fun u u' hu =>
      (Sim.update b fun s s' hs => hs.set hu).bind fun _ _ _ => (Sim.problem b).bind fun p p' hp => ?_
    rw [chargesLoop_twin h hp.solver]
    refine (Sim.lift _).bind fun C' _ e => ?_
    subst e
    refine Sim.bind (Sim.read (R := fun m m' => m' = m) fun d d' hd => hd.model.materials) fun m m' e => ?_
    subst e
    refine (Sim.lift _).bind fun pec _ e => ?_
    subst e
    exact Sim.opts.bind fun o o' _ => (Sim.export _ _ _ _ _ _).bind fun _ _ _ => Sim.generalizedLoop b cs t C'

theorem Sim.generalized (b : Bool) :
    Sim τ w (fun A B => A = B) (Driver.getGeneralizedCMatrix (F := F) b) (Driver.getGeneralizedCMatrix (F := F') b) := by
  unfold Driver.getGeneralizedCMatrix
  refine Sim.model.bind fun m m' hm => ?_
  rw [hm.materials, hm.openness]
  refine (Sim.lift _).bind fun cs _ e => ?_
  subst e
  refine (Sim.lift _).bind fun o _ e => ?_
  subst e
  split
  · exact Sim.lift _
  · refine (Sim.generalizedLoop h b cs cs _).bind fun C _ e => ?_
    subst e
    exact Sim.lift _

theorem Sim.cMatrix : Sim τ w (fun A B => A = B) (Driver.getCMatrix (F := F)) (Driver.getCMatrix (F := F')) := by
  unfold Driver.getCMatrix
  refine (Sim.generalized h false).bind fun C _ e => ?_
  subst e
  refine Sim.model.bind fun m m' hm => ?_
  rw [hm.openness]
  refine (Sim.lift _).bind fun o _ e => ?_
  subst e
  exact Sim.lift _

theorem Sim.lMatrix : Sim τ w (fun A B => A = B) (Driver.getLMatrix (F := F)) (Driver.getLMatrix (F := F')) := by
  unfold Driver.getLMatrix
  refine (Sim.generalized h true).bind fun C _ e => ?_
  subst e
  refine Sim.model.bind fun m m' hm => ?_
  rw [hm.openness]
  refine (Sim.lift _).bind fun o _ e => ?_
  subst e
  refine (Sim.lift _).bind fun o _ e => ?_
  subst e
  exact Sim.lift _

theorem Sim.pul {E E' : Engine 𝕜} (hE : SameLaws E E') : Sim τ w (fun A B => A = B) (Driver.buildPULParametersForModel (F := F) E)
    (Driver.buildPULParametersForModel (F := F') E') := by
  unfold Driver.buildPULParametersForModel
  refine (Sim.cMatrix h).bind fun C _ e => ?_
  subst e
  refine (Sim.lMatrix h).bind fun L _ e => ?_
  subst e
  exact Sim.pure (by rw [hE.eps0, hE.mu0])

theorem Sim.floatingMatrix (b : Bool) : Sim τ w (fun A B => A = B) (Driver.getFloatingPotentialsMatrix (F := F) b)
    (Driver.getFloatingPotentialsMatrix (F := F') b) := by
  unfold Driver.getFloatingPotentialsMatrix
  refine Sim.model.bind fun m m' hm => ?_
  rw [hm.openness, hm.materials]
  split
  · exact Sim.pure rfl
  · refine (Sim.lift _).bind fun o _ e => ?_
    subst e
    cases o with
    | closed =>
      refine (Sim.generalized h b).bind fun C _ e => ?_
      subst e
      refine (Sim.lift _).bind fun o _ e => ?_
      subst e
      exact Sim.lift _
    | open_ =>
      refine (Sim.generalized h b).bind fun C _ e => ?_
      subst e
      exact Sim.lift _
    | semiopen => exact Sim.lift _

theorem Sim.floating : Sim τ w (fun A B => A = B) (Driver.getFloatingPotentials (F := F)) (Driver.getFloatingPotentials (F := F')) := by
  unfold Driver.getFloatingPotentials
  refine (Sim.floatingMatrix h false).bind fun C _ e => ?_
  subst e
  refine (Sim.floatingMatrix h true).bind fun C _ e => ?_
  subst e
  exact Sim.pure rfl

theorem innerLoop_twin {m m' : Model 𝕜} (hm : TwinModel w m m') {s : Solver F} {s' : Solver F'} (hs : TwinSolver τ s s')
    (names : NameToAttrMap) : ∀ (l : List String) (x y : 𝕜),
    Driver.innerLoop m' s' names l x y = Driver.innerLoop m s names l x y
  | [], _, _ => rfl
  | n :: t, x, y => by
    unfold Driver.innerLoop
    simp only [hm.materials, hm.area, hs.domainAverage h, hs.boundaryAverage h, innerLoop_twin hm hs names t]

theorem average_twin {m m' : Model 𝕜} (hm : TwinModel w m m') {s : Solver F} {s' : Solver F'} (hs : TwinSolver τ s s')
    (b : Bool) : Driver.getInnerRegionAveragePotential m' s' b = Driver.getInnerRegionAveragePotential m s b := by
  unfold Driver.getInnerRegionAveragePotential
  rw [innerLoop_twin h hm hs]
  simp only [Driver.listMaterialsInInnerRegion, hm.materials]

omit h in
theorem Sim.superposeLoop (b : Bool) (fp : DMat 𝕜) (i : Int) : ∀ l : List (Int × Int),
    Sim τ w (fun _ _ => True) (Driver.superposeLoop (F := F) b fp i l) (Driver.superposeLoop (F := F') b fp i l)
  | [] => .pure trivial
  | (j, _) :: t => by
    unfold Driver.superposeLoop
    refine (Sim.lift _).bind fun c _ e => ?_
    subst e
    exact (Sim.problem b).bind fun p p' hp => (Sim.liftR (solutionAt_twin hp j)).bind fun u u' hu =>
      (Sim.update b fun s s' hs => hs.add c hu).bind fun _ _ _ => Sim.superposeLoop b fp i t

theorem Sim.fieldLoop (hw : w) {E E' : Engine 𝕜} (hE : SameLaws E E') (b : Bool) (fp : DMat 𝕜) (cs : SMap Int Int) :
    ∀ (l : List (Int × Int)) (res : SMap Int (FieldReconstruction 𝕜)),
    Sim τ w (fun A B => A = B) (Driver.fieldLoop (F := F) E b fp cs l res) (Driver.fieldLoop (F := F') E' b fp cs l res)
  | [], _ => .pure rfl
  | (i, _) :: t, res => by
    unfold Driver.fieldLoop
    refine (Sim.update b fun s s' hs => hs.zero).bind fun _ _ _ => (Sim.superposeLoop b fp i cs).bind fun _ _ _ =>
      Sim.model.bind fun m m' hm => Sim.opts.bind fun o o' ho => (Sim.problem b).bind fun p p' hp => ?_
    rw [hm.materials, average_twin h hm hp.solver, hE.analytic, hp.solver.center h hw, ho.1, hp.solver.multipolar h hw]
    refine (Sim.lift _).bind fun pec _ e => ?_
    subst e
    refine (Sim.export _ _ _ _ _ _).bind fun _ _ _ => (Sim.lift _).bind fun av _ e => ?_
    subst e
    refine (Sim.lift _).bind fun c _ e => ?_
    subst e
    refine (Sim.lift _).bind fun ab _ e => ?_
    subst e
    refine (Sim.lift _).bind fun ps _ e => ?_
    subst e
    exact Sim.fieldLoop hw hE b fp cs t _

theorem Sim.fieldParameters (hw : w) {E E' : Engine 𝕜} (hE : SameLaws E E') (b : Bool) : Sim τ w (fun A B => A = B) (Driver.getFieldParameters (F := F) E b)
    (Driver.getFieldParameters (F := F') E' b) := by
  unfold Driver.getFieldParameters
  refine (Sim.floatingMatrix h b).bind fun fp _ e => ?_
  subst e
  refine Sim.model.bind fun m m' hm => ?_
  rw [hm.materials]
  refine (Sim.lift _).bind fun cs _ e => ?_
  subst e
  exact Sim.fieldLoop h hw hE b fp cs cs _

theorem Sim.inCell {E E' : Engine 𝕜} (hE : SameLaws E E') : Sim τ w (fun A B => A = B) (Driver.getInCellPotentials (F := F) E)
    (Driver.getInCellPotentials (F := F') E') := by
  unfold Driver.getInCellPotentials
  refine Sim.model.bind fun m m' hm => ?_
  rw [hm.openness, hm.box]
  refine Sim.lift_bind _ fun o ho => ?_
  by_cases e : o = .open_
  swap
  · rw [if_pos e, if_pos e]
    exact Sim.lift _
  · have hw := hm.opened (by rw [ho, e])
    rw [if_neg (not_not.mpr e), if_neg (not_not.mpr e)]
    refine (Sim.lift _).bind fun eb _ e => ?_
    subst e
    refine (Sim.lift _).bind fun box _ e => ?_
    subst e
    refine (Sim.fieldParameters h hw hE false).bind fun a _ e => ?_
    subst e
    refine (Sim.fieldParameters h hw hE true).bind fun b _ e => ?_
    subst e
    exact Sim.pure rfl

theorem Sim.run {E E' : Engine 𝕜} (hE : SameLaws E E') : Sim τ w (fun _ _ => True) (Driver.run (F := F) E) (Driver.run (F := F') E') := by
  unfold Driver.run
  refine Sim.model.bind fun m m' hm => ?_
  rw [hm.openness]
  refine (Sim.lift _).bind fun o _ e => ?_
  subst e
  cases o with
  | closed =>
    refine (Sim.pul h hE).bind fun p _ e => ?_
    subst e
    refine Sim.opts.bind fun o o' ho => ?_
    rw [ho.2]
    exact Sim.emit rfl
  | open_ =>
    refine (Sim.inCell h hE).bind fun p _ e => ?_
    subst e
    refine Sim.opts.bind fun o o' ho => ?_
    rw [ho.2]
    exact Sim.emit rfl
  | semiopen => exact Sim.liftR (.throw _)

/-- All queries but the one by domains. -/
theorem Sim.exec {E E' : Engine 𝕜} (hE : SameLaws E E') {q : Query} (hq : q ≠ .pulMTLByDomains) :
    Sim τ w (fun A B => A = B) (q.exec E (F := F)) (q.exec E' (F := F')) := by
  cases q with
  | generalizedC b => exact (Sim.generalized h b).bind fun a _ e => Sim.pure (by rw [e])
  | cMatrix => exact (Sim.cMatrix h).bind fun a _ e => Sim.pure (by rw [e])
  | lMatrix => exact (Sim.lMatrix h).bind fun a _ e => Sim.pure (by rw [e])
  | floatingMatrix b => exact (Sim.floatingMatrix h b).bind fun a _ e => Sim.pure (by rw [e])
  | floating => exact (Sim.floating h).bind fun a _ e => Sim.pure (by rw [e])
  | pulMTL => exact (Sim.pul h hE).bind fun a _ e => Sim.pure (by rw [e])
  | pulMTLByDomains => exact absurd rfl hq
  | inCell => exact (Sim.inCell h hE).bind fun a _ e => Sim.pure (by rw [e])
  | run => exact (Sim.run h hE).bind fun a _ e => Sim.pure rfl
  | setExportFolder f =>
    intro d d' hd
    exact ⟨.ok rfl, ⟨hd.model, hd.order, rfl, fun b => by cases b <;> exact hd.problem _⟩, rfl⟩

end

end Tulip
