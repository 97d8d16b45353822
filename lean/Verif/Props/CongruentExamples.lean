import Verif.Props.Congruent
import Verif.Props.ElementRegionExamples

/-!
# C96: a symmetric cross-section at the default order
-/

namespace Tulip.Props
open Tulip Tulip.Spec Matrix MvPolynomial

/-- Nodes and weights of the closed Newton-Cotes rule with seven points. -/
def cotes : List (ℚ × ℚ) := [(41/840, 0), (216/840, 1/6), (27/840, 2/6), (272/840, 3/6), (27/840, 4/6), (216/840, 5/6), (41/840, 1)]

/-- The product of this rule with itself, collapsed to a triangle. -/
def sexticRule : Rule ℚ where
  tri := (cotes.take 6).flatMap (fun u => cotes.map (fun v => (2 * u.1 * v.1 * (1 - u.2), u.2, v.2 * (1 - u.2))))
  seg := cotes

theorem sexticRule_exact : ExactRule sexticRule 6 where
  tri := by
    intro j k hjk
    have hj : j ≤ 6 := by omega
    have hk : k ≤ 6 := by omega
    interval_cases j <;> interval_cases k <;> first | omega | decide +kernel
  seg := by
    intro j hj
    interval_cases j <;> decide +kernel

theorem sexticRule_adequate : Adequate sexticRule 3 where
  tri := by decide +kernel
  seg := by decide +kernel
  determines := by
    intro P hP h
    have pt : ∀ x y : ℚ, (∃ r ∈ sexticRule.tri, r.2 = (x, y)) → eval ![x, y] P = 0 := by
      rintro x y ⟨r, hr, e⟩
      have := h r hr
      rwa [e] at this
    have h0 := pt 0 0 (by decide +kernel)
    have h1 := pt 0 (1/3) (by decide +kernel)
    have h2 := pt 0 (2/3) (by decide +kernel)
    have h3 := pt 0 1 (by decide +kernel)
    have h4 := pt (1/3) 0 (by decide +kernel)
    have h5 := pt (1/3) (1/3) (by decide +kernel)
    have h6 := pt (1/3) (2/3) (by decide +kernel)
    have h7 := pt (2/3) 0 (by decide +kernel)
    have h8 := pt (2/3) (1/3) (by decide +kernel)
    have h9 := pt (5/6) 0 (by decide +kernel)
    clear h pt
    obtain ⟨c, rfl⟩ := sum_of_terms hP
    have he : exponents 3 = {(0,0), (1,0), (2,0), (3,0), (0,1), (1,1), (2,1), (0,2), (1,2), (0,3)} := by decide
    rw [he] at h0 h1 h2 h3 h4 h5 h6 h7 h8 h9 ⊢
    simp only [map_sum, map_mul, map_pow, eval_C, eval_X, Matrix.cons_val_zero, Matrix.cons_val_one] at h0 h1 h2 h3 h4 h5 h6 h7 h8 h9
    simp only [Finset.sum_insert, Finset.mem_insert, Finset.mem_singleton, Prod.mk.injEq, Finset.sum_singleton,
      OfNat.ofNat_ne_zero, OfNat.ofNat_ne_one, one_ne_zero, zero_ne_one, and_false, false_and, or_false, not_false_eq_true, and_true, true_and,
      OfNat.zero_ne_ofNat, OfNat.one_ne_ofNat, Nat.reduceEqDiff, false_or, pow_zero, pow_one, mul_one, one_mul, zero_pow, ne_eq, mul_zero, add_zero, zero_add, one_pow]
      at h0 h1 h2 h3 h4 h5 h6 h7 h8 h9
    have a0 : c (0, 0) = 0 := by linarith
    have a1 : c (1, 0) = 0 := by linarith
    have a2 : c (2, 0) = 0 := by linarith
    have a3 : c (3, 0) = 0 := by linarith
    have b1 : c (0, 1) = 0 := by linarith
    have b2 : c (0, 2) = 0 := by linarith
    have b3 : c (0, 3) = 0 := by linarith
    have d1 : c (1, 1) = 0 := by linarith
    have d2 : c (2, 1) = 0 := by linarith
    have d3 : c (1, 2) = 0 := by linarith
    refine Finset.sum_eq_zero fun e he => ?_
    simp only [Finset.mem_insert, Finset.mem_singleton] at he
    rcases he with rfl | rfl | rfl | rfl | rfl | rfl | rfl | rfl | rfl | rfl <;> simp only [a0, a1, a2, a3, b1, b2, b3, d1, d2, d3, C_0, zero_mul]

/-- a tray with a conductor in the middle of the bottom (label 1) and one on the left (2) and on the right (3); the ends are
filled with dielectrics (3 and 1) -/
def tray : Triangulation ℚ where
  nv := 7
  coord := ![(-2, 0), (-1, 0), (1, 0), (2, 0), (2, 1), (0, 1), (-2, 1)]
  tris := [⟨3, 0, 1, 6⟩, ⟨2, 1, 5, 6⟩, ⟨2, 1, 2, 5⟩, ⟨2, 2, 4, 5⟩, ⟨1, 2, 3, 4⟩]
  segs := [⟨4, 0, 1, 1⟩, ⟨1, 1, 2, 2⟩, ⟨4, 2, 3, 1⟩, ⟨3, 3, 4, 1⟩, ⟨4, 4, 5, 2⟩, ⟨4, 5, 6, 2⟩, ⟨2, 6, 0, 1⟩]

def trayPecs : List (PEC ℚ) := [⟨"Conductor_0", 1, 0⟩, ⟨"Conductor_1", 2, 0⟩, ⟨"Conductor_2", 3, 0⟩]

/-- the dielectrics have the same permittivity -/
def trayModel : Model ℚ where
  materials := { pecs := trayPecs, dielectrics := [⟨"Dielectric_1", 3, 4⟩, ⟨"Dielectric_2", 1, 4⟩] }
  mesh := tray.toMesh

theorem tray_proper : Proper tray where
  area := by decide +kernel
  segs := by unfold IsSide; decide +kernel
  boundary := List.cons_ne_nil _ _
  triAttrs := by decide +kernel
  segAttrs := by decide +kernel

theorem tray_conforming : Conforming tray where
  sides := by decide +kernel
  once := by decide +kernel
  boundary := by unfold IsSide; decide +kernel

theorem tray_sensible : Sensible tray trayModel.materials where
  pecs := by decide +kernel
  opens := by intro o ho; cases ho
  dielectrics := by decide +kernel
  names := by decide +kernel
  tags := by decide +kernel
  openNames := by decide +kernel
  permittivities := by decide +kernel

theorem tray_apart : ConductorsApart tray trayModel.materials := by unfold ConductorsApart OnTag; decide +kernel

theorem tray_joined : JoinedToConductors tray trayModel.materials := by
  have one : ∀ v : Fin tray.nv, ∃ p ∈ trayModel.materials.pecs, ∃ w, OnTag tray p.tag w ∧ (v = w ∨ Adjacent tray v w) := by
    unfold OnTag Adjacent IsVertex
    decide +kernel
  intro v
  obtain ⟨p, hp, w, hw, h⟩ := one v
  refine ⟨p, hp, w, hw, ?_⟩
  rcases h with rfl | h
  · exact .refl
  · exact .single h

theorem tray_case {S : Shapes tray} (hS : Elements S 3) : ElementCase (shapesEngine S sexticRule) S sexticRule 3 trayModel {} trayPecs where
  mesh := rfl
  order := rfl
  disc := rfl
  elements := hS
  rule := sexticRule_adequate
  solver := inverseSolver_exact
  numbering := {
    all := List.Perm.refl _
    ids := by
      intro i h
      match i, h with
      | 0, _ => show getMaterialIdFromName "Conductor_0" = .ok 0; decide +kernel
      | 1, _ => show getMaterialIdFromName "Conductor_1" = .ok 1; decide +kernel
      | 2, _ => show getMaterialIdFromName "Conductor_2" = .ok 2; decide +kernel
    nonempty := by simp [trayPecs] }
  proper := tray_proper
  sensible := tray_sensible
  joined := tray_joined
  apart := tray_apart
  absorb := fun s _ ⟨o, ho, _⟩ => by cases ho

/-- left and right exchanged -/
def trayMirror : PlaneMap ℚ := ⟨-1, 0, (0, 0), true, by norm_num⟩

/-- numbers of the mirror images of the vertices -/
def trayNumber : Fin 7 ≃ Fin 7 where
  toFun := ![3, 2, 1, 0, 6, 5, 4]
  invFun := ![3, 2, 1, 0, 6, 5, 4]
  left_inv := by decide +kernel
  right_inv := by decide +kernel

def trayTwin (t : Tri 7) : Tri 7 :=
  if t = ⟨3, 0, 1, 6⟩ then ⟨1, 2, 3, 4⟩ else if t = ⟨1, 2, 3, 4⟩ then ⟨3, 0, 1, 6⟩ else if t = ⟨2, 1, 5, 6⟩ then ⟨2, 2, 4, 5⟩
  else if t = ⟨2, 2, 4, 5⟩ then ⟨2, 1, 5, 6⟩ else t

def traySide (s : Seg ℚ 7) : Seg ℚ 7 := ⟨Equiv.swap 2 3 s.attr, trayNumber s.b, trayNumber s.a, s.len⟩

theorem tray_carried : Carried trayMirror tray tray trayNumber trayTwin traySide (Equiv.swap 2 3) where
  coord := by decide +kernel
  tris := by decide +kernel
  vertices := by
    show ∀ t ∈ tray.tris, (([(trayTwin t).a, (trayTwin t).b, (trayTwin t).c] : List (Fin 7)) : Cycle (Fin 7)) =
      (([trayNumber t.c, trayNumber t.b, trayNumber t.a] : List (Fin 7)) : Cycle (Fin 7))
    decide +kernel
  segs := by decide +kernel
  ends := by decide +kernel
  labels := by decide +kernel

/-- The hypotheses of `C96_symmetric` hold for the tray at the default order: both side conductors have the same capacitances. -/
example : ∃ (E : Engine ℚ) (d : _) (M : Matrix (Fin 3) (Fin 3) ℚ), (Driver.construct E trayModel {}).1 = .ok d ∧
    ((Query.generalizedC false).exec E d).1 = .ok (.matrix (DMat.ofMatrix M)) ∧ M 1 1 = M 2 2 ∧ M 0 1 = M 0 2 := by
  obtain ⟨S, hS, hC⟩ := complete_exist tray_proper tray_conforming (p := 3) (by norm_num)
  obtain ⟨d, hd, hM, _⟩ := C96_symmetric (p := 3) (by norm_num) (tray_case hS) hC sexticRule_exact tray_conforming rfl tray_carried
    (n := 2) (by norm_num) rfl (σ := Equiv.swap 1 2) (by decide +kernel) (by decide +kernel)
  obtain ⟨M, e, h⟩ := hM false
  refine ⟨_, d, M, hd, e, ?_, ?_⟩
  · exact (h 1 1).symm
  · exact (h 0 1).symm

/-- the tray turned by a right angle, twice as large, at another place, with the vertices, triangles and sides listed in
another order and the labels 1 and 2 exchanged -/
def turned : Triangulation ℚ where
  nv := 7
  coord := ![(3, -3), (5, -3), (5, -1), (5, 3), (5, 5), (3, 5), (3, 1)]
  tris := [⟨1, 4, 5, 3⟩, ⟨2, 5, 6, 3⟩, ⟨2, 3, 6, 2⟩, ⟨2, 6, 0, 2⟩, ⟨3, 2, 0, 1⟩]
  segs := [⟨1, 0, 1, 2⟩, ⟨4, 1, 2, 2⟩, ⟨2, 2, 3, 4⟩, ⟨4, 3, 4, 2⟩, ⟨3, 4, 5, 2⟩, ⟨4, 5, 6, 4⟩, ⟨4, 6, 0, 4⟩]

def turnedPecs : List (PEC ℚ) := [⟨"Conductor_0", 2, 0⟩, ⟨"Conductor_1", 1, 0⟩, ⟨"Conductor_2", 3, 0⟩]

def turnedModel : Model ℚ where
  materials := { pecs := turnedPecs, dielectrics := [⟨"Dielectric_2", 1, 4⟩, ⟨"Dielectric_1", 3, 4⟩] }
  mesh := turned.toMesh

theorem turned_proper : Proper turned where
  area := by decide +kernel
  segs := by unfold IsSide; decide +kernel
  boundary := List.cons_ne_nil _ _
  triAttrs := by decide +kernel
  segAttrs := by decide +kernel

theorem turned_conforming : Conforming turned where
  sides := by decide +kernel
  once := by decide +kernel
  boundary := by unfold IsSide; decide +kernel

theorem turned_sensible : Sensible turned turnedModel.materials where
  pecs := by decide +kernel
  opens := by intro o ho; cases ho
  dielectrics := by decide +kernel
  names := by decide +kernel
  tags := by decide +kernel
  openNames := by decide +kernel
  permittivities := by decide +kernel

theorem turned_joined : JoinedToConductors turned turnedModel.materials := by
  have one : ∀ v : Fin turned.nv, ∃ p ∈ turnedModel.materials.pecs, ∃ w, OnTag turned p.tag w ∧ (v = w ∨ Adjacent turned v w) := by
    unfold OnTag Adjacent IsVertex
    decide +kernel
  intro v
  obtain ⟨p, hp, w, hw, h⟩ := one v
  refine ⟨p, hp, w, hw, ?_⟩
  rcases h with rfl | h
  · exact .refl
  · exact .single h

theorem turned_case {S : Shapes turned} (hS : Elements S 3) : ElementCase (shapesEngine S sexticRule) S sexticRule 3 turnedModel {} turnedPecs where
  mesh := rfl
  order := rfl
  disc := rfl
  elements := hS
  rule := sexticRule_adequate
  solver := inverseSolver_exact
  numbering := {
    all := List.Perm.refl _
    ids := by
      intro i h
      match i, h with
      | 0, _ => show getMaterialIdFromName "Conductor_0" = .ok 0; decide +kernel
      | 1, _ => show getMaterialIdFromName "Conductor_1" = .ok 1; decide +kernel
      | 2, _ => show getMaterialIdFromName "Conductor_2" = .ok 2; decide +kernel
    nonempty := by simp [turnedPecs] }
  proper := turned_proper
  sensible := turned_sensible
  joined := turned_joined
  apart := by unfold ConductorsApart OnTag; decide +kernel
  absorb := fun s _ ⟨o, ho, _⟩ => by cases ho

def trayTurn : PlaneMap ℚ := ⟨0, 2, (5, 1), false, by norm_num⟩

def turnNumber : Fin 7 ≃ Fin 7 := Equiv.addRight 1

def turnTwin (t : Tri 7) : Tri 7 := ⟨t.attr, turnNumber t.b, turnNumber t.c, turnNumber t.a⟩

def turnSide (s : Seg ℚ 7) : Seg ℚ 7 := ⟨Equiv.swap 1 2 s.attr, turnNumber s.a, turnNumber s.b, 2 * s.len⟩

theorem turned_carried : Carried trayTurn tray turned turnNumber turnTwin turnSide (Equiv.swap 1 2) where
  coord := by decide +kernel
  tris := by decide +kernel
  vertices := by
    show ∀ t ∈ tray.tris, (([(turnTwin t).a, (turnTwin t).b, (turnTwin t).c] : List (Fin 7)) : Cycle (Fin 7)) =
      (([turnNumber t.a, turnNumber t.b, turnNumber t.c] : List (Fin 7)) : Cycle (Fin 7))
    decide +kernel
  segs := by decide +kernel
  ends := by decide +kernel
  labels := by decide +kernel

/-- The hypotheses of `C96_congruent` hold for the tray and the turned tray at the default order. -/
example : ∃ (E E' : Engine ℚ) (d d' : _), (Driver.construct E trayModel {}).1 = .ok d ∧ (Driver.construct E' turnedModel {}).1 = .ok d' ∧
    (Query.pulMTL.exec E' d').1 = (Query.pulMTL.exec E d).1 := by
  obtain ⟨S, hS, hC⟩ := complete_exist tray_proper tray_conforming (p := 3) (by norm_num)
  obtain ⟨S', hS', hC'⟩ := complete_exist turned_proper turned_conforming (p := 3) (by norm_num)
  obtain ⟨d, d', hd, hd', k⟩ := C96_congruent (p := 3) (E := shapesEngine S sexticRule) (E' := shapesEngine S' sexticRule) ⟨rfl, rfl, rfl⟩ (by norm_num) (tray_case hS) (turned_case hS') hC hC' sexticRule_exact
    sexticRule_exact tray_conforming turned_conforming rfl rfl turned_carried (by decide +kernel) (by decide +kernel)
  exact ⟨_, _, d, d', hd, hd', k [] [] Query.pulMTL .pulMTL⟩

end Tulip.Props
