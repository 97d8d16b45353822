import Verif.Props.ElementExamples
import Verif.Props.ElementRegions
import Verif.Props.Patch

/-!
# C92, C93: the chambers and an oblique capacitor at the default order
-/

namespace Tulip.Props
open Tulip Tulip.Spec Matrix

/-- The hypotheses of `C92_shielded` hold for the chambers at order 7. -/
example : ∃ (E : Engine ℚ) (d : _) (M : Matrix (Fin 3) (Fin 3) ℚ),
    (Driver.construct E (chamberModel 4) { solverOptions := { order := 7 } }).1 = .ok d ∧
    ((Query.generalizedC false).exec E d).1 = .ok (.matrix (DMat.ofMatrix M)) ∧ M 1 2 = 0 := by
  obtain ⟨S, h⟩ := chambers_elements (r := 4) (by norm_num) (p := 7) (by norm_num)
  obtain ⟨_, _, d, hd, _⟩ := C90_orders _ h
  obtain ⟨M, e, hM⟩ := C92_shielded _ h hd rfl (by decide) false
  exact ⟨_, d, M, hd, e, hM (1 : Fin 3) (2 : Fin 3) chambers_shielded⟩

/-- The hypotheses of `C92_elsewhere` hold for the entry of conductor 1 with itself when the other chamber is filled with
something else. -/
example : ∃ (E : Engine ℚ) (d d' : _) (M M' : Matrix (Fin 3) (Fin 3) ℚ),
    (Driver.construct E (chamberModel 4) { solverOptions := { order := 7 } }).1 = .ok d ∧
    (Driver.construct E (chamberModel 9) { solverOptions := { order := 7 } }).1 = .ok d' ∧
    ((Query.generalizedC false).exec E d).1 = .ok (.matrix (DMat.ofMatrix M)) ∧
    ((Query.generalizedC false).exec E d').1 = .ok (.matrix (DMat.ofMatrix M')) ∧ M 1 1 = M' 1 1 := by
  obtain ⟨S, h⟩ := chambers_elements (r := 4) (by norm_num) (p := 7) (by norm_num)
  have c' := chambers_case (r := 9) (by norm_num)
  have h' : ElementCase (shapesEngine S (gridRule ℚ 7)) S (gridRule ℚ 7) 7 (chamberModel 9) { solverOptions := { order := 7 } } chamberPecs :=
    { mesh := rfl, order := rfl, disc := rfl, elements := h.elements, rule := h.rule, solver := h.solver
      numbering := c'.numbering, proper := c'.proper, sensible := c'.sensible, joined := c'.joined, apart := c'.apart
      absorb := fun s _ ⟨o, ho, _⟩ => by cases ho }
  obtain ⟨_, _, d, hd, _⟩ := C90_orders _ h
  obtain ⟨_, _, d', hd', _⟩ := C90_orders _ h'
  obtain ⟨M, M', e, e', hM⟩ := C92_elsewhere _ h h' rfl rfl hd hd' rfl (by decide) false false
  refine ⟨_, d, d', M, M', hd, hd', e, e', hM (1 : Fin 3) (1 : Fin 3) ?_⟩
  rintro x hx ⟨v, w, h1, h2, h3⟩ _
  have hw := (chambers_region h3).mp (chambers_tag2 v h1)
  have key : ∀ x ∈ chambers.tris, ∀ w : Fin chambers.nv, IsVertex x w → w.1 < 4 →
      declaredEps (chamberModel 4).materials false x.attr = declaredEps (chamberModel 9).materials false x.attr := by
    unfold IsVertex
    decide +kernel
  exact key x hx w h2 hw

theorem chambers_conforming : Conforming chambers where
  sides := by decide +kernel
  once := by decide +kernel
  boundary := by unfold IsSide; decide +kernel

/-- conductor 1 at `c`, conductor 2 at `2 c` -/
def chamberVolts (c : ℚ) (tag : Int) : ℚ := c * if tag = 2 then 1 else if tag = 3 then 2 else 0

/-- The field without dielectrics with conductor 1 at `c` and conductor 2 at `2 c` is uniform. -/
theorem chambers_uniform (A : Analytic ℚ) (r c : ℚ) : UniformField A chambers (chamberModel r).materials (declaredEps (chamberModel r).materials true)
    (chamberVolts c) (fun v => c * [0, 1, 1, 0, 0, 2, 2, 0].getD v.1 0) (c, 0) where
  slope := by
    have key : ∀ t ∈ chambers.tris, ∀ v w : Fin chambers.nv, IsVertex t v → IsVertex t w →
        ([0, 1, 1, 0, 0, 2, 2, 0].getD w.1 0 - [0, 1, 1, 0, 0, 2, 2, 0].getD v.1 0 : ℚ) =
          (chambers.coord w).1 - (chambers.coord v).1 := by
      unfold IsVertex
      decide +kernel
    intro t ht v w hv hw
    show (1 : ℚ) * _ = _
    dsimp only
    linear_combination c * key t ht v w hv hw
  conductors := by
    have key : ∀ s ∈ chambers.segs, ∀ p ∈ chamberPecs, s.attr = p.tag →
        ([0, 1, 1, 0, 0, 2, 2, 0].getD s.a.1 0 : ℚ) = (if p.tag = 2 then 1 else if p.tag = 3 then 2 else 0) ∧
        ([0, 1, 1, 0, 0, 2, 2, 0].getD s.b.1 0 : ℚ) = (if p.tag = 2 then 1 else if p.tag = 3 then 2 else 0) := by
      decide +kernel
    intro s hs p hp e
    obtain ⟨h1, h2⟩ := key s hs p hp e
    exact ⟨congrArg (c * ·) h1, congrArg (c * ·) h2⟩
  free := by
    have key : ∀ s ∈ chambers.segs, (∀ p ∈ chamberPecs, s.attr ≠ p.tag) → (chambers.coord s.b).2 - (chambers.coord s.a).2 = 0 := by
      decide +kernel
    intro s hs h _
    dsimp only
    rw [key s hs h, mul_zero, zero_mul, sub_zero]
  opens := fun s _ _ ⟨o, ho, _⟩ => by cases ho

/-- The hypotheses of `C92_line` hold for the two lines at the default order; the groups are conductor 1 and conductor 2.
(That the inductance exists follows from C92 and C93.) -/
example : ∃ (E : Engine ℚ) (d : _) (p : PULParameters ℚ) (C L : Matrix (Fin 2) (Fin 2) ℚ),
    (Driver.construct E (chamberModel 4) {}).1 = .ok d ∧
    (Query.pulMTL.exec E d).1 = .ok (.pul p) ∧ p.C = DMat.ofMatrix C ∧ p.L = DMat.ofMatrix L ∧ C 0 1 = 0 ∧ L 0 1 = 0 := by
  have c := chambers_case (r := 4) (by norm_num)
  obtain ⟨S, hS⟩ := elements_exist chambers_proper (p := 3) (by norm_num)
  have h : ElementCase (shapesEngine S (cubicRule ℚ)) S (cubicRule ℚ) 3 (chamberModel 4) {} chamberPecs :=
    { mesh := rfl, order := rfl, disc := rfl, elements := hS, rule := cubicRule_adequate le_rfl, solver := inverseSolver_exact
      numbering := c.numbering, proper := c.proper, sensible := c.sensible, joined := c.joined, apart := c.apart
      absorb := fun s _ ⟨o, ho, _⟩ => by cases ho }
  obtain ⟨_, _, d, hd, _⟩ := C90_orders _ h
  obtain ⟨_, _, _, G, hG, _⟩ := element_case _ h hd rfl (by decide) false rfl
  obtain ⟨hex, _, _, G0, hG0, g0⟩ := element_case _ h hd rfl (by decide) true rfl
  obtain ⟨M, e, hM⟩ := C92_shielded _ h hd rfl (by decide) true
  have hMG := ofMatrix_eq (Answer.matrix.inj (Outcome.ok.inj (e.symm.trans hG0)))
  subst hMG
  have ch : ∀ (c : ℚ) (tag : Int) (t : SolverSolution (chambers.femWith S (cubicRule ℚ))),
      PrescribedField (shapesEngine S (cubicRule ℚ)).analytic (chambers.femWith S (cubicRule ℚ)) (chamberModel 4).materials true
        (oneVolt tag) t →
      (∀ p ∈ chamberPecs, ShareRegion chambers tag p.tag → oneVolt tag p.tag = chamberVolts c p.tag) →
      chargeOn t tag = fluxThrough chambers (c, 0) tag := by
    intro c tag t ht hV
    obtain ⟨t', ht'⟩ := hex (chamberVolts c)
    rw [← (C93_field h.elements h.rule cubicRule_exact h.proper chambers_conforming h.sensible h.joined h.apart h.absorb true
      (chambers_uniform _ 4 c) ht').2.2.2 tag]
    exact C92_charges h.elements h.rule h.proper h.sensible h.joined h.apart h.absorb true ht ht' hV
  obtain ⟨t1, ht1⟩ := hex (oneVolt 2)
  obtain ⟨t2, ht2⟩ := hex (oneVolt 3)
  have swap : ¬ ShareRegion chambers 3 2 := fun ⟨v, w, h1, h2, h3⟩ => chambers_shielded ⟨w, v, h2, h1, sameRegion_symm h3⟩
  have q1 : chargeOn t1 2 = 1 := (ch 1 2 t1 ht1 (fun p hp hr => by
    by_cases hp3 : p.tag = 3
    · exact absurd (hp3 ▸ hr) chambers_shielded
    · unfold oneVolt chamberVolts
      rw [if_neg hp3, one_mul])).trans (by decide +kernel)
  have q2 : chargeOn t2 3 = 1 / 2 := (ch (1 / 2) 3 t2 ht2 (fun p hp hr => by
    by_cases hp2 : p.tag = 2
    · exact absurd (hp2 ▸ hr) swap
    · unfold oneVolt chamberVolts
      rw [if_neg hp2]
      by_cases h3 : p.tag = 3 <;> simp [h3])).trans (by decide +kernel)
  have m11 : M (1 : Fin 3) (1 : Fin 3) = 1 := (g0 (1 : Fin 3) (1 : Fin 3) t1 t1 ht1 ht1).trans
    ((congrArg (fun x : ℚ => (x + x) / 2) q1).trans (by norm_num : ((1 : ℚ) + 1) / 2 = 1))
  have m22 : M (2 : Fin 3) (2 : Fin 3) = 1 / 2 := (g0 (2 : Fin 3) (2 : Fin 3) t2 t2 ht2 ht2).trans
    ((congrArg (fun x : ℚ => (x + x) / 2) q2).trans (by norm_num : ((1 / 2 : ℚ) + 1 / 2) / 2 = 1 / 2))
  have m12 : M (1 : Fin 3) (2 : Fin 3) = 0 := hM (1 : Fin 3) (2 : Fin 3) chambers_shielded
  have m21 : M (2 : Fin 3) (1 : Fin 3) = 0 := hM (2 : Fin 3) (1 : Fin 3) swap
  obtain ⟨p, hp⟩ := (C73_success _ h.numbering hd rfl (n := 2) hG hG0).mpr ⟨fun h => absurd rfl h, by
    intro v hv0 hz i
    simp only [if_true] at hv0
    have sum : ∀ i : Fin 3, charges M v i = M i (0 : Fin 3) * v 0 + M i (1 : Fin 3) * v 1 + M i (2 : Fin 3) * v 2 :=
      fun i => Fin.sum_univ_three (f := fun k => M i k * v k)
    have z1 := (sum 1).symm.trans (hz 0)
    have z2 := (sum 2).symm.trans (hz 1)
    rw [hv0, m11, m12] at z1
    rw [hv0, m21, m22] at z2
    rw [hv0]
    match i with
    | 0 => show v 1 = 0; linarith
    | 1 => show v 2 = 0; linarith⟩
  obtain ⟨C, L, e1, e2, h⟩ := C92_line _ h rfl hd hp (n := 2) rfl (by decide) (fun i => i = 0) (by
      intro i j hi hj
      subst hi
      match j, hj with
      | 0, hj => exact absurd rfl hj
      | 1, _ => exact chambers_shielded)
  obtain ⟨h1, _, h2, _⟩ := h 0 1 rfl (by decide)
  exact ⟨_, d, p, C, L, hd, hp, e1, e2, h1, h2⟩

/-- a square with sides of length 5, not parallel to the axes, between two plates (tags 1 and 2) -/
def oblique : Triangulation ℚ where
  nv := 4
  coord := ![(0, 0), (4, 3), (1, 7), (-3, 4)]
  tris := [⟨1, 0, 1, 2⟩, ⟨1, 0, 2, 3⟩]
  segs := [⟨3, 0, 1, 5⟩, ⟨2, 1, 2, 5⟩, ⟨3, 2, 3, 5⟩, ⟨1, 3, 0, 5⟩]

def obliquePecs : List (PEC ℚ) := [⟨"Conductor_0", 1, 0⟩, ⟨"Conductor_1", 2, 0⟩]

/-- filled with a dielectric of relative permittivity 3 -/
def obliqueModel : Model ℚ where
  materials := { pecs := obliquePecs, dielectrics := [⟨"Dielectric_1", 1, 3⟩] }
  mesh := oblique.toMesh

theorem oblique_proper : Proper oblique where
  area := by decide +kernel
  segs := by unfold IsSide; decide +kernel
  boundary := List.cons_ne_nil _ _
  triAttrs := by decide +kernel
  segAttrs := by decide +kernel

theorem oblique_conforming : Conforming oblique where
  sides := by decide +kernel
  once := by decide +kernel
  boundary := by unfold IsSide; decide +kernel

theorem oblique_uniform (A : Analytic ℚ) (b : Bool) : UniformField A oblique obliqueModel.materials (declaredEps obliqueModel.materials b) (oneVolt 2)
    (fun v => [0, 1, 1, 0].getD v.1 0) (if b then (4 / 25, 3 / 25) else (12 / 25, 9 / 25)) := by
  cases b
  · exact ⟨by unfold IsVertex; decide +kernel, by show ∀ s ∈ oblique.segs, ∀ p ∈ obliquePecs, _; decide +kernel,
      by
        have key : ∀ s ∈ oblique.segs, (∀ p ∈ obliquePecs, s.attr ≠ p.tag) →
          4 * ((oblique.coord s.b).2 - (oblique.coord s.a).2) - 3 * ((oblique.coord s.b).1 - (oblique.coord s.a).1) = 0 := by
          decide +kernel
        intro s hs h _
        have := key s hs h
        simp only [if_true, Bool.false_eq_true, if_false]
        linarith,
      fun s _ _ ⟨o, ho, _⟩ => by cases ho⟩
  · exact ⟨by unfold IsVertex; decide +kernel, by show ∀ s ∈ oblique.segs, ∀ p ∈ obliquePecs, _; decide +kernel,
      by
        have key : ∀ s ∈ oblique.segs, (∀ p ∈ obliquePecs, s.attr ≠ p.tag) →
          4 * ((oblique.coord s.b).2 - (oblique.coord s.a).2) - 3 * ((oblique.coord s.b).1 - (oblique.coord s.a).1) = 0 := by
          decide +kernel
        intro s hs h _
        have := key s hs h
        simp only [if_true, Bool.false_eq_true, if_false]
        linarith,
      fun s _ _ ⟨o, ho, _⟩ => by cases ho⟩

theorem oblique_case {S : Shapes oblique} (hS : Elements S 3) :
    ElementCase (shapesEngine S (cubicRule ℚ)) S (cubicRule ℚ) 3 obliqueModel {} [⟨"Conductor_0", 1, 0⟩, ⟨"Conductor_1", 2, 0⟩] where
  mesh := rfl
  order := rfl
  disc := rfl
  elements := hS
  rule := cubicRule_adequate le_rfl
  solver := inverseSolver_exact
  numbering := {
    all := List.Perm.refl _
    ids := by
      intro i h
      match i, h with
      | 0, _ => show getMaterialIdFromName "Conductor_0" = .ok 0; decide +kernel
      | 1, _ => show getMaterialIdFromName "Conductor_1" = .ok 1; decide +kernel
    nonempty := by simp }
  proper := oblique_proper
  sensible := {
    pecs := by show ∀ p ∈ obliquePecs, _; decide +kernel
    opens := by intro o ho; cases ho
    dielectrics := by
      intro d hd
      rw [List.mem_singleton.mp hd]
      show (1 : Int) ≤ 1 ∧ ∃ t ∈ oblique.tris, (1 : Int) ≤ t.attr
      decide +kernel
    names := by simp [obliqueModel]
    tags := by simp [obliqueModel]
    openNames := List.nodup_nil
    permittivities := by
      intro d hd
      rw [List.mem_singleton.mp hd]
      norm_num }
  joined := fun v => by
    have key : ∀ v : Fin oblique.nv, ∃ p ∈ obliquePecs, OnTag oblique p.tag v := by
      unfold OnTag
      decide +kernel
    obtain ⟨p, hp, h⟩ := key v
    exact ⟨p, hp, v, h, .refl⟩
  apart := by
    have key : ∀ p ∈ obliquePecs, ∀ q ∈ obliquePecs, p.tag ≠ q.tag →
        ∀ v : Fin oblique.nv, OnTag oblique p.tag v → ¬ OnTag oblique q.tag v := by
      unfold OnTag
      decide +kernel
    exact key
  absorb := fun s _ ⟨o, ho, _⟩ => by cases ho

/-- The hypotheses of `C93_line` hold for the oblique capacitor at the default order: `C = 3 eps0`, `L = mu0`. -/
example : ∃ (E : Engine ℚ) (d : _) (p : PULParameters ℚ), (Driver.construct E obliqueModel {}).1 = .ok d ∧
    (Query.pulMTL.exec E d).1 = .ok (.pul p) ∧ p.C = DMat.ofMatrix !![1 / 7 * 3] ∧ p.L = DMat.ofMatrix !![5 / 1] := by
  obtain ⟨S, hS⟩ := elements_exist oblique_proper (p := 3) (by norm_num)
  have f1 : fluxThrough oblique (12 / 25, 9 / 25) 2 = 3 := by decide +kernel
  have f0 : fluxThrough oblique (4 / 25, 3 / 25) 2 = 1 := by decide +kernel
  obtain ⟨d, p, h1, h2, h3, h4⟩ := C93_line _ (oblique_case hS) cubicRule_exact oblique_conforming rfl (oblique_uniform _ false)
    (oblique_uniform _ true) (by
      show fluxThrough oblique (4 / 25, 3 / 25) 2 ≠ 0
      rw [f0]
      norm_num)
  refine ⟨_, d, p, h1, h2, ?_, ?_⟩
  · rw [h3]
    exact congrArg (fun x => DMat.ofMatrix !![(1 / 7 : ℚ) * x]) f1
  · rw [h4]
    exact congrArg (fun x => DMat.ofMatrix !![(5 : ℚ) / x]) f0

/-- the same square with one conductor and an open boundary on the opposite side -/
def obliqueOpen : Model ℚ where
  materials := { pecs := [⟨"Conductor_0", 1, 0⟩], openBoundaries := [⟨"OpenBoundary_0", 2⟩] }
  mesh := oblique.toMesh

/-- an engine with these elements and a constant coefficient on open boundaries -/
noncomputable def openEngine {T : Triangulation ℚ} (S : Shapes T) (Q : Rule ℚ) : Engine ℚ :=
  { chainEngine with disc := fun _ _ => T.femWith S Q, analytic := { chainEngine.analytic with abc := fun _ => 1 / 5 } }

theorem obliqueOpen_case {S : Shapes oblique} (hS : Elements S 3) :
    ElementCase (openEngine S (cubicRule ℚ)) S (cubicRule ℚ) 3 obliqueOpen {} [⟨"Conductor_0", 1, 0⟩] where
  mesh := rfl
  order := rfl
  disc := rfl
  elements := hS
  rule := cubicRule_adequate le_rfl
  solver := inverseSolver_exact
  numbering := {
    all := List.Perm.refl _
    ids := by
      intro i h
      match i, h with
      | 0, _ => show getMaterialIdFromName "Conductor_0" = .ok 0; decide +kernel
    nonempty := by simp }
  proper := oblique_proper
  sensible := {
    pecs := by
      intro p hp
      rw [List.mem_singleton.mp hp]
    opens := by
      intro o ho
      rw [List.mem_singleton.mp ho]
      show (1 : Int) ≤ 2
      norm_num
    dielectrics := by intro d hd; cases hd
    names := by simp [obliqueOpen]
    tags := by simp [obliqueOpen]
    openNames := by simp [obliqueOpen]
    permittivities := by intro d hd; cases hd }
  joined := fun v => by
    refine ⟨⟨"Conductor_0", 1, 0⟩, List.mem_singleton.mpr rfl, ?_⟩
    have key : ∀ v : Fin oblique.nv, ∃ w : Fin oblique.nv, OnTag oblique 1 w ∧ Adjacent oblique v w := by
      unfold OnTag Adjacent IsVertex
      decide +kernel
    obtain ⟨w, h1, h2⟩ := key v
    exact ⟨w, h1, .single h2⟩
  apart := by
    intro p hp q hq hne
    rw [List.mem_singleton.mp hp, List.mem_singleton.mp hq] at hne
    exact absurd rfl hne
  absorb := fun s hs _ => ⟨by
    have key : ∀ s ∈ oblique.segs, 0 ≤ s.len := by decide +kernel
    exact key s hs, fun _ _ _ _ _ => by show (0 : ℚ) ≤ 1 / 5; norm_num⟩

/-- The potential falls from 1 V at the conductor to 1/2 V at the open boundary. -/
theorem obliqueOpen_uniform {S : Shapes oblique} (b : Bool) : UniformField (openEngine S (cubicRule ℚ)).analytic oblique obliqueOpen.materials
    (declaredEps obliqueOpen.materials b) (oneVolt 1) (fun v => [1, 1 / 2, 1 / 2, 1].getD v.1 0) (-4 / 50, -3 / 50) where
  slope := by
    have key : ∀ t ∈ oblique.tris, ∀ v w : Fin oblique.nv, IsVertex t v → IsVertex t w →
        ([1, 1 / 2, 1 / 2, 1].getD w.1 0 - [1, 1 / 2, 1 / 2, 1].getD v.1 0 : ℚ) =
          -4 / 50 * ((oblique.coord w).1 - (oblique.coord v).1) + -3 / 50 * ((oblique.coord w).2 - (oblique.coord v).2) := by
      unfold IsVertex
      decide +kernel
    intro t ht v w hv hw
    have he : declaredEps obliqueOpen.materials b t.attr = 1 := by cases b <;> rfl
    rw [he, one_mul]
    exact key t ht v w hv hw
  conductors := by
    have key : ∀ s ∈ oblique.segs, s.attr = 1 →
        ([1, 1 / 2, 1 / 2, 1].getD s.a.1 0 : ℚ) = 1 ∧ ([1, 1 / 2, 1 / 2, 1].getD s.b.1 0 : ℚ) = 1 := by
      decide +kernel
    intro s hs p hp e
    rw [List.mem_singleton.mp hp] at e ⊢
    exact key s hs e
  free := by
    have key : ∀ s ∈ oblique.segs, s.attr ≠ 1 → s.attr ≠ 2 →
        (-4 / 50 : ℚ) * ((oblique.coord s.b).2 - (oblique.coord s.a).2) - -3 / 50 * ((oblique.coord s.b).1 - (oblique.coord s.a).1) = 0 := by
      decide +kernel
    exact fun s hs h1 h2 => key s hs (h1 _ (List.mem_singleton.mpr rfl)) (h2 _ (List.mem_singleton.mpr rfl))
  opens := by
    have key : ∀ s ∈ oblique.segs, s.attr = 2 → s.len = 5 ∧
        (-4 / 50 : ℚ) * ((oblique.coord s.b).2 - (oblique.coord s.a).2) - -3 / 50 * ((oblique.coord s.b).1 - (oblique.coord s.a).1) = -1 / 2 ∧
        ([1, 1 / 2, 1 / 2, 1].getD s.a.1 0 : ℚ) = 1 / 2 ∧ ([1, 1 / 2, 1 / 2, 1].getD s.b.1 0 : ℚ) = 1 / 2 := by
      decide +kernel
    rintro s hs _ ⟨o, ho, e⟩ x y _ _ hxy
    rw [List.mem_singleton.mp ho] at e
    obtain ⟨h1, h2, h3, h4⟩ := key s hs e
    show (-4 / 50 : ℚ) * _ - -3 / 50 * _ = -(s.len * (1 / 5 * (x * [1, 1 / 2, 1 / 2, 1].getD s.a.1 0 + y * [1, 1 / 2, 1 / 2, 1].getD s.b.1 0)))
    rw [h1, h2, h3, h4]
    linarith

/-- The hypotheses of `C93_field` hold for it; the capacitance of the conductor is 1/2. -/
example : ∃ (E : Engine ℚ) (d : _), (Driver.construct E obliqueOpen {}).1 = .ok d ∧
    ((Query.generalizedC false).exec E d).1 = .ok (.matrix (DMat.ofMatrix !![1 / 2])) := by
  obtain ⟨S, hS⟩ := elements_exist oblique_proper (p := 3) (by norm_num)
  have h := obliqueOpen_case hS
  obtain ⟨_, ⟨o, ho⟩, d, hd, _⟩ := C90_orders _ h
  have hne : ¬ ([(⟨"Conductor_0", 1, 0⟩ : PEC ℚ)].length = 1 ∧ o = .closed) := by
    rintro ⟨_, rfl⟩
    have : obliqueOpen.determineOpenness ≠ .ok .closed := by
      show (do let b ← elementsFormOpenLoops (getElementsWithAttribute obliqueOpen.mesh 2)
               if !b then Outcome.ok Openness.open_ else Model.opennessLoop obliqueOpen.mesh []) ≠ _
      cases elementsFormOpenLoops (getElementsWithAttribute obliqueOpen.mesh 2) with
      | ok b => cases b <;> exact fun h => nomatch h
      | throw e => exact fun h => nomatch h
      | ub => exact fun h => nomatch h
      | nonfinite => exact fun h => nomatch h
    exact this ho
  obtain ⟨hex, _, _, M, e, hM⟩ := element_case _ h hd ho hne false (N := 1) rfl
  obtain ⟨t, ht⟩ := hex (oneVolt 1)
  have hq := (C93_field h.elements h.rule cubicRule_exact h.proper oblique_conforming h.sensible h.joined h.apart h.absorb false
    (obliqueOpen_uniform false) ht).2.2.2 1
  have hf : fluxThrough oblique (-4 / 50, -3 / 50) 1 = 1 / 2 := by decide +kernel
  refine ⟨_, d, hd, e.trans ?_⟩
  have : M = (!![1 / 2] : Matrix (Fin 1) (Fin 1) ℚ) := by
    ext i j
    have hi : i = 0 := Subsingleton.elim _ _
    have hj : j = 0 := Subsingleton.elim _ _
    subst hi hj
    have hm := hM 0 0 t t ht ht
    have hq' := hq.trans hf
    refine hm.trans ((congrArg (fun x : ℚ => (x + x) / 2) hq').trans ?_)
    norm_num
  rw [this]

end Tulip.Props
