import Verif.Props.Triangles
import Verif.Proofs.PlateField

/-!
# C80: parallel plates
-/

set_option linter.unusedSectionVars false

namespace Tulip.Props
open Tulip Tulip.Spec Matrix

section
variable {𝕜 : Type} [Field 𝕜] [DecidableEq 𝕜] [LinearOrder 𝕜] [IsStrictOrderedRing 𝕜]

theorem declaredEps_pos {mats : Materials 𝕜} (h : ∀ d ∈ mats.dielectrics, 0 < d.relativePermittivity) (b : Bool)
    (tag : Int) : 0 < declaredEps mats b tag := by
  unfold declaredEps
  split
  · exact one_pos
  · split
    · next d e => exact h d (List.mem_of_find?_eq_some e)
    · exact one_pos

/-- **C80, fields.** Between parallel plates the field for any potentials is the exact one, at all nodes. -/
theorem C80_field {A : Analytic 𝕜} {T : Triangulation 𝕜} {mats : Materials 𝕜} {p0 p1 : PEC 𝕜} (hperm : [p0, p1].Perm mats.pecs)
    (hT : Proper T) (hc : Conforming T) (hm : Measured T) (hv : ∀ v, ∃ t ∈ T.tris, IsVertex t v)
    (hS : Sensible T mats) (hopen : mats.openBoundaries = []) {x0 x1 : 𝕜}
    (hp : ParallelPlates T p0.tag p1.tag x0 x1) {depth : 𝕜 → 𝕜} (b : Bool)
    (hd : ElectricalDepth T (declaredEps mats b) x0 depth) (V : Int → 𝕜) {t : SolverSolution T.fem}
    (ht : PrescribedField A T.fem mats b V t) :
    0 < depth x1 ∧
    (∀ v, t.phi v = V p0.tag + (V p1.tag - V p0.tag) * (depth (T.coord v).1 / depth x1)) ∧
    chargeOn t p1.tag = (V p1.tag - V p0.tag) * (boundaryLength T p1.tag / depth x1) ∧
    chargeOn t p0.tag = -chargeOn t p1.tag := by
  have h0 : p0 ∈ mats.pecs := hperm.mem_iff.mp (by simp)
  have h1 : p1 ∈ mats.pecs := hperm.mem_iff.mp (by simp)
  have hmem : ∀ p ∈ mats.pecs, p = p0 ∨ p = p1 := fun p h => by simpa using hperm.mem_iff.mpr h
  have he : ∀ t ∈ T.tris, 0 < declaredEps mats b t.attr := fun _ _ => declaredEps_pos hS.permittivities b _
  have hpos := depth_pos hp hm hc hT he hd
  have hx : x0 < x1 := sub_pos.mp (depth_pos hp hm hc hT (eps := fun _ => 1) (fun _ _ => one_pos)
    (distance_depth x0 (fun _ _ => rfl)))
  have hell : Elliptic A T.fem mats := triangles_elliptic hT hS (plates_joined h0 h1 hp hc hT hv)
    (fun s _ ⟨o, ho, _⟩ => by rw [hopen] at ho; cases ho)
  have hu := ht.unique hell.wellPosed (triangles_separate (plates_apart hmem hp hx))
    (plateField_prescribed h0 h1 hmem hopen hp hc hT b he hd hpos V)
  obtain ⟨c1, c0⟩ := plateField_charges hp hm hc hT depth (V p0.tag) (V p1.tag)
  subst hu
  refine ⟨hpos, fun v => ?_, ?_, ?_⟩
  · show V p0.tag + (V p1.tag - V p0.tag) / depth x1 * depth (T.coord v).1 = _
    ring
  · rw [c1]
    ring
  · rw [c1, c0]

/-- Parameters of a closed line of two conductors, from the charges on conductor 1 with this conductor at 1 V. -/
theorem closed_pair (E : Engine 𝕜) {model : Model 𝕜} {opts : DriverOptions} {p0 p1 : PEC 𝕜}
    (hN : Numbering model.materials [p0, p1]) (hB : Buildable (E.fem model opts) model.materials)
    (hW : WellDeclared model.materials) (hP : ExactSolver E.pcg)
    (hw : WellPosed E.analytic (E.fem model opts) model.materials) (hs : Separate (E.fem model opts) model.materials)
    (hopen : model.materials.openBoundaries = []) {d : Driver (E.fem model opts)}
    (hd : (Driver.construct E model opts).1 = .ok d) {t t0 : SolverSolution (E.fem model opts)}
    (ht : PrescribedField E.analytic (E.fem model opts) model.materials false (oneVolt p1.tag) t)
    (ht0 : PrescribedField E.analytic (E.fem model opts) model.materials true (oneVolt p1.tag) t0)
    (hne : chargeOn t0 p1.tag ≠ 0) :
    ∃ p, (Query.pulMTL.exec E d).1 = .ok (.pul p) ∧
      p.C = DMat.ofMatrix !![E.eps0SI * chargeOn t p1.tag] ∧ p.L = DMat.ofMatrix !![E.mu0SI / chargeOn t0 p1.tag] := by
  have hop : model.determineOpenness = .ok .closed := by
    unfold Model.determineOpenness
    rw [hopen]
    rfl
  have gen : ∀ b (t : SolverSolution (E.fem model opts)),
      PrescribedField E.analytic (E.fem model opts) model.materials b (oneVolt p1.tag) t →
      ∃ G : Matrix (Fin 2) (Fin 2) 𝕜,
      ((Query.generalizedC b).exec E d).1 = .ok (.matrix (DMat.ofMatrix G)) ∧ G 1 1 = chargeOn t p1.tag := by
    intro b t ht
    obtain ⟨M, e, _, hM⟩ := generalized_of_fields E hN hB hW hP hw hs hd hop (by simp) b
    refine ⟨M, e, (hM 1 1 t t ht ht).trans ?_⟩
    show (chargeOn t p1.tag + chargeOn t p1.tag) / 2 = _
    have : (2 : 𝕜) ≠ 0 := two_ne_zero
    field_simp
    ring
  obtain ⟨G, hG, g1⟩ := gen false t ht
  obtain ⟨G0, hG0, g0⟩ := gen true t0 ht0
  have hex : ∃ p, (Query.pulMTL.exec E d).1 = .ok (.pul p) := by
    refine (C73_success E hN hd hop (n := 1) hG hG0).mpr ⟨fun h => absurd rfl h, ?_⟩
    intro v hv0 hz i
    simp only [if_true] at hv0
    have : G0 1 0 * v 0 + G0 1 1 * v 1 = 0 := (Fin.sum_univ_two (f := fun k => G0 1 k * v k)).symm.trans (hz 0)
    rw [hv0, mul_zero, zero_add, g0] at this
    have := (mul_eq_zero.mp this).resolve_left hne
    rw [Fin.fin_one_eq_zero i, hv0]
    exact this
  obtain ⟨p, hp'⟩ := hex
  refine ⟨p, hp', ?_⟩
  obtain ⟨n, G', G0', C, C0, hn, k1, k2, k3, k4, eC, _, _, eL, _, _⟩ := C35_inductance E hN hd hop hp'
  have hn : n = 1 := by simpa using hn.symm
  subst hn
  have := ofMatrix_eq (Answer.matrix.inj (Outcome.ok.inj (hG.symm.trans k1)))
  subst this
  have := ofMatrix_eq (Answer.matrix.inj (Outcome.ok.inj (hG0.symm.trans k2)))
  subst this
  obtain ⟨C', e1, e2, _⟩ := C32_closed G
  have := ofMatrix_eq (Outcome.ok.inj (k3.symm.trans e1))
  subst this
  obtain ⟨C0', f1, f2, _⟩ := C32_closed G0
  have := ofMatrix_eq (Outcome.ok.inj (k4.symm.trans f1))
  subst this
  have hC : C = !![chargeOn t p1.tag] := by
    ext i j
    rw [Fin.fin_one_eq_zero i, Fin.fin_one_eq_zero j, e2]
    exact g1
  have hC0 : C0 = !![chargeOn t0 p1.tag] := by
    ext i j
    rw [Fin.fin_one_eq_zero i, Fin.fin_one_eq_zero j, f2]
    exact g0
  have hinv : C0⁻¹ = !![1 / chargeOn t0 p1.tag] := by
    refine Matrix.inv_eq_right_inv ?_
    rw [hC0]
    ext i j
    rw [Fin.fin_one_eq_zero i, Fin.fin_one_eq_zero j]
    simp [Matrix.mul_apply, hne]
  constructor
  · rw [eC, hC]
    congr 1
    ext i j
    rw [Fin.fin_one_eq_zero i, Fin.fin_one_eq_zero j]
    simp
  · rw [eL, hinv]
    congr 1
    ext i j
    rw [Fin.fin_one_eq_zero i, Fin.fin_one_eq_zero j]
    simp [div_eq_mul_inv]

/-- **C80.** Two parallel plates with layers of dielectrics between them, on any conforming mesh of triangles: the
per-unit-length capacitance is `eps0` times the width divided by the electrical distance, the inductance `mu0` times
the distance divided by the width. -/
theorem C80_plates (E : Engine 𝕜) {T : Triangulation 𝕜} {model : Model 𝕜} {opts : DriverOptions} {p0 p1 : PEC 𝕜}
    (hm : model.mesh = T.toMesh) (h1 : opts.solverOptions.order = 1)
    (hE : E.disc T.toMesh 1 = T.fem) (hP : ExactSolver E.pcg) (hN : Numbering model.materials [p0, p1]) (hT : Proper T)
    (hc : Conforming T) (hl : Measured T) (hv : ∀ v, ∃ t ∈ T.tris, IsVertex t v)
    (hS : Sensible T model.materials) (hopen : model.materials.openBoundaries = []) {x0 x1 : 𝕜}
    (hp : ParallelPlates T p0.tag p1.tag x0 x1) {depth : 𝕜 → 𝕜}
    (hd : ElectricalDepth T (declaredEps model.materials false) x0 depth) :
    ∃ d p, (Driver.construct E model opts).1 = .ok d ∧ (Query.pulMTL.exec E d).1 = .ok (.pul p) ∧
      p.C = DMat.ofMatrix !![E.eps0SI * (boundaryLength T p1.tag / depth x1)] ∧
      p.L = DMat.ofMatrix !![E.mu0SI * ((x1 - x0) / boundaryLength T p1.tag)] := by
  have hperm := hN.all
  have m0 : p0 ∈ model.materials.pecs := hperm.mem_iff.mp (by simp)
  have m1 : p1 ∈ model.materials.pecs := hperm.mem_iff.mp (by simp)
  have hmem : ∀ p ∈ model.materials.pecs, p = p0 ∨ p = p1 := fun p h => by simpa using hperm.mem_iff.mpr h
  have hx : x0 < x1 := sub_pos.mp (depth_pos hp hl hc hT (eps := fun _ => 1) (fun _ _ => one_pos)
    (distance_depth x0 (fun _ _ => rfl)))
  have hne := ParallelPlates_ne hp
  have hj := plates_joined m0 m1 hp hc hT hv
  have hF : E.fem model opts = T.fem := by
    unfold Engine.fem
    rw [hm, h1, hE]
  have ho : OpenAbsorb E.analytic T model.materials := fun s _ ⟨o, ho, _⟩ => by rw [hopen] at ho; cases ho
  have hB : Buildable (E.fem model opts) model.materials := by rw [hF]; exact triangles_buildable hT hS
  have he : Elliptic E.analytic (E.fem model opts) model.materials := by rw [hF]; exact triangles_elliptic hT hS hj ho
  have hs : Separate (E.fem model opts) model.materials := by
    rw [hF]
    exact triangles_separate (plates_apart hmem hp hx)
  obtain ⟨huniq, _, d, hdc, _⟩ := C79_triangles E hm h1 hE hP hN hT hS hj (plates_apart hmem hp hx) ho
  have gen : ∀ b (dep : 𝕜 → 𝕜), ElectricalDepth T (declaredEps model.materials b) x0 dep →
      ∃ t : SolverSolution (E.fem model opts),
        PrescribedField E.analytic (E.fem model opts) model.materials b (oneVolt p1.tag) t ∧
        chargeOn t p1.tag = boundaryLength T p1.tag / dep x1 := by
    intro b dep hdep
    obtain ⟨t, ht, _⟩ := huniq b (oneVolt p1.tag)
    refine ⟨t, ht, ?_⟩
    have hch : chargeOn t p1.tag = (oneVolt p1.tag p1.tag - oneVolt p1.tag p0.tag) * (boundaryLength T p1.tag / dep x1) := by
      clear huniq hdc
      revert t
      rw [hF]
      intro t ht _
      exact (C80_field hperm hT hc hl hv hS hopen hp b hdep (oneVolt p1.tag) ht).2.2.1
    rw [hch]
    simp [oneVolt, hne]
  obtain ⟨t, ht, g1⟩ := gen false depth hd
  obtain ⟨t0, ht0, g0⟩ := gen true (fun x => x - x0) (distance_depth x0 (fun _ _ => rfl))
  have hWp := boundaryLength_pos hp hl
  obtain ⟨p, e, eC, eL⟩ := closed_pair E hN hB ⟨hS.names, hS.tags, hS.openNames⟩ hP he.wellPosed hs hopen hdc ht ht0
    (by rw [g0]; exact (div_pos hWp (sub_pos.mpr hx)).ne')
  refine ⟨d, p, hdc, e, by rw [eC, g1], ?_⟩
  rw [eL, g0]
  have : E.mu0SI / (boundaryLength T p1.tag / (x1 - x0)) = E.mu0SI * ((x1 - x0) / boundaryLength T p1.tag) := by
    rw [div_div_eq_mul_div, mul_div_assoc]
  rw [this]

end
end Tulip.Props
