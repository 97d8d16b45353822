import Verif.Props.Solver
import Verif.Props.Model
import Verif.Proofs.DriverSpec

/-!
# Example models for the theorems about the driver

`pair`: two conductors at the ends of the chain of `Props/Solver.lean`, filled with a dielectric (closed).
`wires`: conductors at nodes 0 and 2 of a row of four nodes, an open boundary at node 3; the last element is a
dielectric (open).
-/

namespace Tulip.Props
open Tulip Tulip.Spec Matrix

/-! ## Closed -/

/-- discretisation by the chain, exact linear solver -/
noncomputable def chainEngine : Engine ℚ where
  disc := fun _ _ => chain
  pcg := inverseSolver
  analytic := noAnalytic
  eps0SI := 1 / 7
  mu0SI := 5
  raw := fun _ _ => ⟨fun _ => 0, fun _ => 0, fun _ => 0⟩

/-- two conductors, declared in reverse order, and a dielectric between them -/
def pair : Model ℚ where
  materials := { pecs := [⟨"Conductor_1", 2, 0⟩, ⟨"Shield_0", 1, 0⟩], dielectrics := [⟨"Dielectric_1", 1, 3⟩] }
  mesh := ⟨[⟨1, [0, 1, 2], 2⟩], [⟨1, [0, 1], 1⟩, ⟨2, [1, 2], 1⟩, ⟨2, [2, 0], 1⟩], fun i => (i, i * i)⟩

/-- `pair` with another mesh and ground -/
def pairOn (mesh : Mesh ℚ) (ground : Int) : Model ℚ := { pair with mesh := mesh, groundConductorId := ground }

/-- the conductors of `pair` by number -/
def pairPs : List (PEC ℚ) := [⟨"Shield_0", 1, 0⟩, ⟨"Conductor_1", 2, 0⟩]

theorem pair_numbering : Numbering pair.materials pairPs where
  all := List.Perm.swap _ _ _
  ids := by
    intro i h
    match i, h with
    | 0, _ => show getMaterialIdFromName "Shield_0" = .ok 0; decide +kernel
    | 1, _ => show getMaterialIdFromName "Conductor_1" = .ok 1; decide +kernel
  nonempty := by simp [pairPs]

theorem pair_declared : WellDeclared pair.materials where
  names := by decide +kernel
  tags := by decide +kernel
  opens := by decide +kernel

theorem pair_buildable (opts : DriverOptions) : Buildable (chainEngine.fem pair opts) pair.materials where
  bdr := chain_valid
  bdrAttrs := List.cons_ne_nil _ _
  points := show ∀ q ∈ chain.bdr, 1 ≤ q.attr by decide +kernel
  pecs := by decide +kernel
  opens := by intro o ho; cases ho
  names := by decide +kernel
  dielectrics := by
    intro d hd
    rw [List.mem_singleton.mp hd]
    exact ⟨le_refl _, 1, List.mem_singleton.mpr rfl, le_refl _⟩

theorem pair_system (b : Bool) : systemMatrix noAnalytic chain pair.materials b =
    (if b then (1 : ℚ) else 3) • !![1, -1, 0; -1, 2, -1; 0, -1, 1] := by
  ext i j
  cases b <;> fin_cases i <;> fin_cases j <;> decide +kernel

theorem regular_smul {n : Nat} {K : Matrix (Fin n) (Fin n) ℚ} {fixed : Fin n → Prop} (h : Regular K fixed) {c : ℚ}
    (hc : c ≠ 0) : Regular (c • K) fixed := by
  refine ⟨fun u hu => h.1 u ⟨hu.1, fun i hi => ?_⟩, fun i hi => ?_⟩
  · have := hu.2 i hi
    rw [smul_mulVec, Pi.smul_apply, smul_eq_mul] at this
    exact (mul_eq_zero.mp this).resolve_left hc
  · rw [Matrix.smul_apply, smul_eq_mul]
    exact mul_ne_zero hc (h.2 i hi)

theorem pair_posed : WellPosed noAnalytic chain pair.materials := by
  refine Spec.WellPosed.of_system (fun b => ?_) chain_det
  rw [pair_system]
  refine regular_smul (chainK_regular _ ⟨⟨"Shield_0", 1, 0⟩, by decide +kernel, ?_⟩) (by cases b <;> norm_num)
  exact (chain_on 1 0).mpr (Or.inl ⟨rfl, rfl⟩)

/-! ## Open -/

/-- four nodes in a row -/
def line : FEM ℚ where
  n := 4
  ne := 3
  nd := 3
  bdrAttrs := [1, 2, 3]
  domAttrs := [1, 2]
  bdrElems := [(1, [0]), (2, [2]), (3, [3])]
  node := fun i => (i.1, 0)
  dom := [{ attr := 1, w := 1, N := ![1/2, 1/2, 0, 0], gradN := ![(-1, 0), (1, 0), (0, 0), (0, 0)],
            W := ![(1, 0), (0, 0), (0, 0)], R := ![(1, 0), (0, 0), (0, 0)] },
          { attr := 1, w := 1, N := ![0, 1/2, 1/2, 0], gradN := ![(0, 0), (-1, 0), (1, 0), (0, 0)],
            W := ![(0, 0), (1, 0), (0, 0)], R := ![(0, 0), (1, 0), (0, 0)] },
          { attr := 2, w := 1, N := ![0, 0, 1/2, 1/2], gradN := ![(0, 0), (0, 0), (-1, 0), (1, 0)],
            W := ![(0, 0), (0, 0), (1, 0)], R := ![(0, 0), (0, 0), (1, 0)] }]
  bdr := [{ attr := 1, w := 1, pos := (0, 0), N := ![1, 0, 0, 0], fl := ![-1, 0, 0] },
          { attr := 2, w := 1, pos := (2, 0), N := ![0, 0, 1, 0], fl := ![0, 1, -1] },
          { attr := 3, w := 1, pos := (3, 0), N := ![0, 0, 0, 1], fl := ![0, 0, 1] }]
  grad := !![-1, 1, 0, 0; 0, -1, 1, 0; 0, 0, -1, 1]

/-- coefficient 1 on the open boundary, moments of first order -/
def lineAnalytic : Analytic ℚ where
  abc := fun _ => 1
  moment := fun p n d c => if n = 1 then (if d = 0 then p.1 - c.1 else p.2 - c.2) else 0

/-- discretisation by the line, exact linear solver -/
noncomputable def lineEngine : Engine ℚ where
  disc := fun _ _ => line
  pcg := inverseSolver
  analytic := lineAnalytic
  eps0SI := 1 / 7
  mu0SI := 5
  raw := fun _ _ => ⟨fun _ => 0, fun _ => 0, fun _ => 0⟩

/-- two conductors, a vacuum region, a dielectric and an open boundary -/
def wires : Model ℚ where
  materials := {
    pecs := [⟨"Conductor_1", 2, 1⟩, ⟨"Shield_0", 1, 1⟩]
    openBoundaries := [⟨"OpenBoundary_0", 3⟩]
    dielectrics := [⟨"Vacuum_0", 1, 1⟩, ⟨"Wax_1", 2, 2⟩] }
  mesh := ⟨[⟨1, [0, 1, 2], 2⟩, ⟨2, [1, 2, 3], 1⟩], [⟨3, [0, 1], 1⟩, ⟨3, [1, 2], 1⟩, ⟨3, [2, 0], 1⟩],
    fun i => (i, i * i)⟩

/-- the conductors of `wires` by number -/
def wiresPs : List (PEC ℚ) := [⟨"Shield_0", 1, 1⟩, ⟨"Conductor_1", 2, 1⟩]

theorem wires_numbering : Numbering wires.materials wiresPs where
  all := List.Perm.swap _ _ _
  ids := by
    intro i h
    match i, h with
    | 0, _ => show getMaterialIdFromName "Shield_0" = .ok 0; decide +kernel
    | 1, _ => show getMaterialIdFromName "Conductor_1" = .ok 1; decide +kernel
  nonempty := by simp [wiresPs]

theorem wires_declared : WellDeclared wires.materials where
  names := by decide +kernel
  tags := by decide +kernel
  opens := by decide +kernel

theorem line_on (a : Int) (i : Fin 4) :
    OnBoundary line a i ↔ (a = 1 ∧ i = 0) ∨ (a = 2 ∧ i = 2) ∨ (a = 3 ∧ i = 3) := by
  unfold OnBoundary
  constructor
  · rintro ⟨b, hb, rfl, hi⟩
    rcases List.mem_cons.mp hb with rfl | hb
    · exact Or.inl ⟨rfl, List.mem_singleton.mp hi⟩
    · rcases List.mem_cons.mp hb with rfl | hb
      · exact Or.inr (Or.inl ⟨rfl, List.mem_singleton.mp hi⟩)
      · rcases List.mem_cons.mp hb with rfl | hb
        · exact Or.inr (Or.inr ⟨rfl, List.mem_singleton.mp hi⟩)
        · cases hb
  · rintro (⟨rfl, rfl⟩ | ⟨rfl, rfl⟩ | ⟨rfl, rfl⟩)
    · exact ⟨((1 : Int), [(0 : Fin 4)]), List.mem_cons_self, rfl, List.mem_singleton.mpr rfl⟩
    · exact ⟨((2 : Int), [(2 : Fin 4)]), List.mem_cons_of_mem _ List.mem_cons_self, rfl, List.mem_singleton.mpr rfl⟩
    · exact ⟨((3 : Int), [(3 : Fin 4)]), List.mem_cons_of_mem _ (List.mem_cons_of_mem _ List.mem_cons_self), rfl,
        List.mem_singleton.mpr rfl⟩

theorem line_valid : ValidBoundary line := by
  constructor
  · intro b hb
    rcases List.mem_cons.mp hb with rfl | hb
    · decide
    · rcases List.mem_cons.mp hb with rfl | hb
      · decide
      · rcases List.mem_cons.mp hb with rfl | hb
        · decide
        · cases hb
  · decide

theorem wires_buildable (opts : DriverOptions) : Buildable (lineEngine.fem wires opts) wires.materials where
  bdr := line_valid
  bdrAttrs := List.cons_ne_nil _ _
  points := show ∀ q ∈ line.bdr, 1 ≤ q.attr by decide +kernel
  pecs := by decide +kernel
  opens := by decide +kernel
  names := by decide +kernel
  dielectrics := by
    intro d hd
    rcases List.mem_cons.mp hd with rfl | hd
    · exact ⟨by decide, 2, List.mem_cons_of_mem _ List.mem_cons_self, by decide⟩
    · rw [List.mem_singleton.mp hd]
      exact ⟨by decide, 2, List.mem_cons_of_mem _ List.mem_cons_self, by decide⟩

theorem line_massD : line.massD = 1 := by
  ext i j
  fin_cases i <;> fin_cases j <;> decide +kernel

theorem wires_system (b : Bool) : systemMatrix lineAnalytic line wires.materials b =
    if b then !![1, -1, 0, 0; -1, 2, -1, 0; 0, -1, 2, -1; 0, 0, -1, 2]
    else !![1, -1, 0, 0; -1, 2, -1, 0; 0, -1, 3, -2; 0, 0, -2, 3] := by
  ext i j
  cases b <;> fin_cases i <;> fin_cases j <;> decide +kernel

theorem wires_fixed : (fun k => ∃ p ∈ wires.materials.pecs, OnBoundary line p.tag k) = fun k : Fin 4 => k = 0 ∨ k = 2 := by
  funext k
  apply propext
  constructor
  · rintro ⟨p, hp, ho⟩
    rcases List.mem_cons.mp hp with rfl | hp
    · rcases (line_on 2 k).mp ho with ⟨h, _⟩ | ⟨_, h⟩ | ⟨h, _⟩
      · cases h
      · exact Or.inr h
      · cases h
    · rw [List.mem_singleton.mp hp] at ho
      rcases (line_on 1 k).mp ho with ⟨_, h⟩ | ⟨h, _⟩ | ⟨h, _⟩
      · exact Or.inl h
      · cases h
      · cases h
  · rintro (rfl | rfl)
    · exact ⟨⟨"Shield_0", 1, 1⟩, by decide +kernel, (line_on 1 0).mpr (Or.inl ⟨rfl, rfl⟩)⟩
    · exact ⟨⟨"Conductor_1", 2, 1⟩, by decide +kernel, (line_on 2 2).mpr (Or.inr (Or.inl ⟨rfl, rfl⟩))⟩

theorem wires_posed : WellPosed lineAnalytic line wires.materials := by
  refine Spec.WellPosed.of_system (fun b => ?_) (by rw [line_massD, det_one]; exact one_ne_zero)
  rw [wires_system, wires_fixed]
  show Regular (n := 4) _ _
  constructor
  · intro u hu
    have h0 : u (0 : Fin 4) = 0 := hu.1 (0 : Fin 4) (Or.inl rfl)
    have h2 : u (2 : Fin 4) = 0 := hu.1 (2 : Fin 4) (Or.inr rfl)
    have h1 := hu.2 (1 : Fin 4) (by decide)
    have h3 := hu.2 (3 : Fin 4) (by decide)
    have k1 : u (1 : Fin 4) = 0 := by
      revert h1
      cases b <;> simp [mulVec, dotProduct, Fin.sum_univ_four, h0, h2]
    have k3 : u (3 : Fin 4) = 0 := by
      revert h3
      cases b <;> simp [mulVec, dotProduct, Fin.sum_univ_four, h0, h2]
    funext k
    have : ∀ k : Fin 4, u k = 0 := by
      intro k
      fin_cases k
      · exact h0
      · exact k1
      · exact h2
      · exact k3
    exact this k
  · rintro i (rfl | rfl) <;> cases b <;> simp

theorem wires_open : wires.determineOpenness = .ok .open_ := by
  have hb : closedLoopsBuild (𝕜 := ℚ) [⟨3, [0, 1], 1⟩, ⟨3, [1, 2], 1⟩, ⟨3, [2, 0], 1⟩] DGraph.empty [] =
      .ok (DGraph.run [.addEdge 0 1, .addEdge 1 2, .addEdge 2 0],
        [(0, ⟨3, [0, 1], 1⟩), (1, ⟨3, [1, 2], 1⟩), (2, ⟨3, [2, 0], 1⟩)]) := by decide +kernel
  have hc : (DGraph.run [.addEdge 0 1, .addEdge 1 2, .addEdge 2 0]).findCycles = some [[0, 1, 2]] :=
    findCyclesFuel_sound (k := 20) (by decide)
  have he : getElementsWithAttribute wires.mesh 3 = [⟨3, [0, 1], 1⟩, ⟨3, [1, 2], 1⟩, ⟨3, [2, 0], 1⟩] := by
    decide +kernel
  show (do let b ← elementsFormOpenLoops (getElementsWithAttribute wires.mesh 3)
           if !b then Outcome.ok Openness.open_ else Model.opennessLoop wires.mesh []) = _
  rw [he]
  unfold elementsFormOpenLoops determineClosedLoops
  rw [hb]
  simp only [Outcome.ok_bind, hc]
  decide +kernel

theorem pair_closed : pair.determineOpenness = .ok .closed := by decide +kernel

/-! ## Fields of the examples -/

theorem line_mixed (b : Bool) : line.mixed (declaredEps wires.materials b) =
    if b then !![1, 0, 0; 0, 1, 0; 0, 0, 1] else !![1, 0, 0; 0, 1, 0; 0, 0, 2] := by
  ext i j
  cases b <;> fin_cases i <;> fin_cases j <;> decide +kernel

theorem line_grad (u : Fin 4 → ℚ) (k : Fin 3) : (line.grad.mulVec u) k = ![u 1 - u 0, u 2 - u 1, u 3 - u 2] k := by
  show ∑ j : Fin 4, (!![-1, 1, 0, 0; 0, -1, 1, 0; 0, 0, -1, 1] : Matrix (Fin 3) (Fin 4) ℚ) k j * u j = _
  rw [Fin.sum_univ_four]
  fin_cases k <;> simp <;> ring

/-- The field of `wires` for any potentials of its conductors. -/
theorem wires_field {b : Bool} {V : Int → ℚ} {t : SolverSolution line}
    (h : PrescribedField lineAnalytic line wires.materials b V t) :
    t.phi = (![V 1, (V 1 + V 2) / 2, V 2, (if b then 1 / 2 else 2 / 3) * V 2] : Fin 4 → ℚ) ∧
    t.d = (![(V 1 - V 2) / 2, (V 1 - V 2) / 2, (if b then 1 / 2 else 2 / 3) * V 2] : Fin 3 → ℚ) := by
  have v : ∀ (k : Fin 4) (a : Int), (a = 1 ∧ k = 0) ∨ (a = 2 ∧ k = 2) → t.phi k = V a := by
    intro k a hk
    refine h.values k (V a) ?_ ?_
    · rcases hk with ⟨rfl, rfl⟩ | ⟨rfl, rfl⟩
      · exact ⟨⟨"Shield_0", 1, 1⟩, by decide +kernel, (line_on 1 0).mpr (by decide)⟩
      · exact ⟨⟨"Conductor_1", 2, 1⟩, by decide +kernel, (line_on 2 2).mpr (by decide)⟩
    · intro p _ ho
      rcases (line_on _ _).mp ho with ⟨e, e'⟩ | ⟨e, e'⟩ | ⟨e, e'⟩ <;> rcases hk with ⟨rfl, rfl⟩ | ⟨rfl, rfl⟩
      · rw [e]
      · cases e'
      · cases e'
      · rw [e]
      · cases e'
      · cases e'
  have v0 := v 0 1 (by decide)
  have v2 := v 2 2 (by decide)
  have free : ∀ k : Fin 4, ¬ (k = 0 ∨ k = 2) → (systemMatrix lineAnalytic line wires.materials b).mulVec t.phi k = 0 := by
    intro k hk
    refine (systemMatrix_mulVec (F := line) _ b t.phi k).trans (h.equations k ?_)
    have := congrFun wires_fixed k
    intro p hp ho
    exact hk (this.mp ⟨p, hp, ho⟩)
  have e1 : (systemMatrix lineAnalytic line wires.materials b).mulVec t.phi (1 : Fin 4) = 0 := free 1 (by decide)
  have e3 : (systemMatrix lineAnalytic line wires.materials b).mulVec t.phi (3 : Fin 4) = 0 := free 3 (by decide)
  have hphi : t.phi = (![V 1, (V 1 + V 2) / 2, V 2, (if b then 1 / 2 else 2 / 3) * V 2] : Fin 4 → ℚ) := by
    have sum : ∀ f : Fin line.n → ℚ, ∑ k, f k = f (0 : Fin 4) + f (1 : Fin 4) + f (2 : Fin 4) + f (3 : Fin 4) :=
      fun f => Fin.sum_univ_four f
    rw [wires_system] at e1 e3
    simp only [mulVec, dotProduct, sum, v0, v2] at e1 e3
    have k : ∀ k : Fin 4, t.phi k = (![V 1, (V 1 + V 2) / 2, V 2, (if b then 1 / 2 else 2 / 3) * V 2] : Fin 4 → ℚ) k := by
      intro k
      fin_cases k
      · exact v0
      · cases b <;> simp at e1 ⊢ <;> linarith
      · exact v2
      · cases b <;> simp at e3 ⊢ <;> linarith
    exact funext k
  refine ⟨hphi, ?_⟩
  have hd := (displacement_iff _ _ _).mp h.d
  rw [line_massD, one_mulVec, line_mixed] at hd
  rw [hd]
  have he : ∀ k : Fin 3, t.e k = (![(V 1 - V 2) / 2, (V 1 - V 2) / 2, (if b then 1 / 2 else 1 / 3) * V 2] : Fin 3 → ℚ) k := by
    intro k
    refine (h.e k).trans ((congrArg Neg.neg (line_grad t.phi k)).trans ?_)
    rw [hphi]
    fin_cases k <;> cases b <;> simp <;> ring
  have he' : t.e = (![(V 1 - V 2) / 2, (V 1 - V 2) / 2, (if b then 1 / 2 else 1 / 3) * V 2] : Fin 3 → ℚ) := funext he
  rw [he']
  have k : ∀ k : Fin 3, ((if b then !![1, 0, 0; 0, 1, 0; 0, 0, 1] else !![1, 0, 0; 0, 1, 0; 0, 0, 2] :
      Matrix (Fin 3) (Fin 3) ℚ) *ᵥ (![(V 1 - V 2) / 2, (V 1 - V 2) / 2, (if b then 1 / 2 else 1 / 3) * V 2])) k =
      (![(V 1 - V 2) / 2, (V 1 - V 2) / 2, (if b then 1 / 2 else 2 / 3) * V 2] : Fin 3 → ℚ) k := by
    intro k
    simp only [mulVec, dotProduct, Fin.sum_univ_three]
    fin_cases k <;> cases b <;> simp <;> ring
  exact funext k

/-- The charges on the conductors of `wires`. -/
theorem wires_charges {b : Bool} {V : Int → ℚ} {t : SolverSolution line}
    (h : PrescribedField lineAnalytic line wires.materials b V t) :
    chargeOn t 1 = (V 1 - V 2) / 2 ∧
    chargeOn t 2 = (if b then 1 else 7 / 6) * V 2 - V 1 / 2 := by
  have hd := (wires_field h).2
  simp only [chargeOn, ← flux_neg_one]
  unfold FEM.flux
  rw [hd]
  have sum : ∀ f : Fin line.nd → ℚ, ∑ k, f k = f (0 : Fin 3) + f (1 : Fin 3) + f (2 : Fin 3) :=
    fun f => Fin.sum_univ_three f
  rw [sum, sum]
  constructor <;> simp [line, List.filter] <;> cases b <;> simp <;> ring

theorem chain_mixed (b : Bool) : chain.mixed (declaredEps pair.materials b) = if b then !![1, 0; 0, 1] else !![3, 0; 0, 3] := by
  ext i j
  cases b <;> fin_cases i <;> fin_cases j <;> decide +kernel

theorem chain_grad (u : Fin 3 → ℚ) (k : Fin 2) : (chain.grad.mulVec u) k = ![u 1 - u 0, u 2 - u 1] k := by
  show ∑ j : Fin 3, (!![-1, 1, 0; 0, -1, 1] : Matrix (Fin 2) (Fin 3) ℚ) k j * u j = _
  rw [Fin.sum_univ_three]
  fin_cases k <;> simp <;> ring

/-- The charges on the conductors of `pair`. -/
theorem pair_charges {b : Bool} {V : Int → ℚ} {t : SolverSolution chain}
    (h : PrescribedField noAnalytic chain pair.materials b V t) :
    chargeOn t 1 = (if b then 1 else 3) * (V 1 - V 2) / 2 ∧ chargeOn t 2 = (if b then 1 else 3) * (V 2 - V 1) / 2 := by
  have v : ∀ (k : Fin 3) (a : Int), (a = 1 ∧ k = 0) ∨ (a = 2 ∧ k = 2) → t.phi k = V a := by
    intro k a hk
    refine h.values k (V a) ?_ ?_
    · rcases hk with ⟨rfl, rfl⟩ | ⟨rfl, rfl⟩
      · exact ⟨⟨"Shield_0", 1, 0⟩, by decide +kernel, (chain_on 1 0).mpr (by decide)⟩
      · exact ⟨⟨"Conductor_1", 2, 0⟩, by decide +kernel, (chain_on 2 2).mpr (by decide)⟩
    · intro p _ ho
      rcases (chain_on _ _).mp ho with ⟨e, e'⟩ | ⟨e, e'⟩ <;> rcases hk with ⟨rfl, rfl⟩ | ⟨rfl, rfl⟩
      · rw [e]
      · cases e'
      · cases e'
      · rw [e]
  have v0 := v 0 1 (by decide)
  have v2 := v 2 2 (by decide)
  have e1 : (systemMatrix noAnalytic chain pair.materials b).mulVec t.phi (1 : Fin 3) = 0 := by
    refine (systemMatrix_mulVec (F := chain) _ b t.phi (1 : Fin 3)).trans (h.equations _ ?_)
    intro p _ ho
    rcases (chain_on _ _).mp ho with ⟨_, e⟩ | ⟨_, e⟩ <;> cases e
  have sum : ∀ f : Fin chain.n → ℚ, ∑ k, f k = f (0 : Fin 3) + f (1 : Fin 3) + f (2 : Fin 3) :=
    fun f => Fin.sum_univ_three f
  have v1 : t.phi (1 : Fin 3) = (V 1 + V 2) / 2 := by
    rw [pair_system] at e1
    have e2 : ∑ j : Fin 3, ((if b then (1 : ℚ) else 3) • !![1, -1, 0; -1, 2, -1; 0, -1, 1] :
        Matrix (Fin 3) (Fin 3) ℚ) 1 j * t.phi j = 0 := e1
    rw [Fin.sum_univ_three, v0, v2] at e2
    cases b <;> simp at e2 <;> linarith
  have hd := (displacement_iff _ _ _).mp h.d
  rw [chain_massD, one_mulVec, chain_mixed] at hd
  have d0 : t.d (0 : Fin 2) = (if b then 1 else 3) * ((V 1 - V 2) / 2) := by
    have h0 : t.e (0 : Fin 2) = _ := (h.e (0 : Fin 2)).trans (congrArg Neg.neg (chain_grad t.phi (0 : Fin 2)))
    rw [hd]
    show ∑ j : Fin 2, (if b then !![1, 0; 0, 1] else !![3, 0; 0, 3] : Matrix (Fin 2) (Fin 2) ℚ) _ j * t.e j = _
    rw [Fin.sum_univ_two]
    cases b <;> simp [h0, v0, v1, v2] <;> ring
  have d1 : t.d (1 : Fin 2) = (if b then 1 else 3) * ((V 1 - V 2) / 2) := by
    have h1 : t.e (1 : Fin 2) = _ := (h.e (1 : Fin 2)).trans (congrArg Neg.neg (chain_grad t.phi (1 : Fin 2)))
    rw [hd]
    show ∑ j : Fin 2, (if b then !![1, 0; 0, 1] else !![3, 0; 0, 3] : Matrix (Fin 2) (Fin 2) ℚ) _ j * t.e j = _
    rw [Fin.sum_univ_two]
    cases b <;> simp [h1, v0, v1, v2] <;> ring
  simp only [chargeOn, ← flux_neg_one]
  unfold FEM.flux
  have sumd : ∀ f : Fin chain.nd → ℚ, ∑ k, f k = f (0 : Fin 2) + f (1 : Fin 2) := fun f => Fin.sum_univ_two f
  rw [sumd, sumd, d0, d1]
  constructor <;> simp [chain, List.filter] <;> cases b <;> simp <;> ring

end Tulip.Props
