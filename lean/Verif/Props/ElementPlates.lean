import Verif.Props.Elements
import Verif.Props.Plates
import Verif.Proofs.ElementPlates

/-!
# C91: parallel plates, with elements of any order
-/

set_option linter.unusedSectionVars false

namespace Tulip.Props
open Tulip Tulip.Spec Matrix MvPolynomial

section
variable {𝕜 : Type} [Field 𝕜] [DecidableEq 𝕜] [LinearOrder 𝕜] [IsStrictOrderedRing 𝕜] {T : Triangulation 𝕜} {S : Shapes T}
  {Q : Rule 𝕜} {p : Nat}

/-- **C91, fields.** Between parallel plates the field for any potentials is the exact one, everywhere in all
triangles, with elements of any order. -/
theorem C91_field {A : Analytic 𝕜} {mats : Materials 𝕜} {p0 p1 : PEC 𝕜} (hperm : [p0, p1].Perm mats.pecs)
    (h : Elements S p) (hA : Adequate Q p) (hQ : ExactRule Q p) (hT : Proper T) (hc : Conforming T) (hm : Measured T)
    (hv : ∀ v, ∃ t ∈ T.tris, IsVertex t v) (hS : Sensible T mats) (hopen : mats.openBoundaries = []) {x0 x1 : 𝕜}
    (hp : ParallelPlates T p0.tag p1.tag x0 x1) {depth : 𝕜 → 𝕜} (b : Bool)
    (hd : ElectricalDepth T (declaredEps mats b) x0 depth) (V : Int → 𝕜) {sol : SolverSolution (T.femWith S Q)}
    (hsol : PrescribedField A (T.femWith S Q) mats b V sol) :
    0 < depth x1 ∧
    (∀ t ∈ T.tris, ∑ i : Fin S.n, C (sol.phi i) * S.N t i =
      linearOn t (fun v => V p0.tag + (V p1.tag - V p0.tag) * (depth (T.coord v).1 / depth x1))) ∧
    chargeOn sol p1.tag = (V p1.tag - V p0.tag) * (boundaryLength T p1.tag / depth x1) ∧
    chargeOn sol p0.tag = -chargeOn sol p1.tag := by
  have h0 : p0 ∈ mats.pecs := hperm.mem_iff.mp (by simp)
  have h1 : p1 ∈ mats.pecs := hperm.mem_iff.mp (by simp)
  have hmem : ∀ p ∈ mats.pecs, p = p0 ∨ p = p1 := fun p h => by simpa using hperm.mem_iff.mpr h
  have he : ∀ t ∈ T.tris, 0 < declaredEps mats b t.attr := fun _ _ => declaredEps_pos hS.permittivities b _
  have hpos := depth_pos hp hm hc hT he hd
  have hx : x0 < x1 := sub_pos.mp (depth_pos hp hm hc hT (eps := fun _ => 1) (fun _ _ => one_pos)
    (distance_depth x0 (fun _ _ => rfl)))
  have hell : Elliptic A (T.femWith S Q) mats := elements_elliptic h hT hA hS (plates_joined h0 h1 hp hc hT hv)
    (fun s _ ⟨o, ho, _⟩ => by rw [hopen] at ho; cases ho)
  obtain ⟨sol', hsol', hphi, c1, c0⟩ := platesWith (A := A) h hT hc hm hQ rfl rfl h0 h1 hmem hopen hp b he hd hpos V
  have hu := hsol.unique hell.wellPosed (elements_separate h (plates_apart hmem hp hx)) hsol'
  subst hu
  refine ⟨hpos, fun t ht => ?_, ?_, ?_⟩
  · rw [hphi t ht]
    congr 1
    funext v
    ring
  · rw [c1]
    ring
  · rw [c1, c0]

/-- **C91.** Two parallel plates with layers of dielectrics between them, on any conforming mesh of triangles, with
elements of any order: the per-unit-length capacitance is `eps0` times the width divided by the electrical distance, the
inductance `mu0` times the distance divided by the width. -/
theorem C91_plates (E : Engine 𝕜) {model : Model 𝕜} {opts : DriverOptions} {p0 p1 : PEC 𝕜}
    (hm : model.mesh = T.toMesh) (ho : opts.solverOptions.order = p) (hE : E.disc T.toMesh p = T.femWith S Q)
    (h : Elements S p) (hA : Adequate Q p) (hQ : ExactRule Q p) (hP : ExactSolver E.pcg)
    (hN : Numbering model.materials [p0, p1]) (hT : Proper T)
    (hc : Conforming T) (hl : Measured T) (hv : ∀ v, ∃ t ∈ T.tris, IsVertex t v)
    (hS : Sensible T model.materials) (hopen : model.materials.openBoundaries = []) {x0 x1 : 𝕜}
    (hp : ParallelPlates T p0.tag p1.tag x0 x1) {depth : 𝕜 → 𝕜}
    (hd : ElectricalDepth T (declaredEps model.materials false) x0 depth) :
    ∃ d p, (Driver.construct E model opts).1 = .ok d ∧ (Query.pulMTL.exec E d).1 = .ok (.pul p) ∧
      p.C = DMat.ofMatrix !![E.eps0SI * (boundaryLength T p1.tag / depth x1)] ∧
      p.L = DMat.ofMatrix !![E.mu0SI * ((x1 - x0) / boundaryLength T p1.tag)] := by
  have hperm := hN.all
  have m0 : p0 ∈ model.materials.pecs := hperm.mem_iff.mp (by simp)
  have m1 : p1 ∈ model.materials.pecs := hperm.mem_iff.mp (by simp)
  have hmem : ∀ p ∈ model.materials.pecs, p = p0 ∨ p = p1 := fun p h => by simpa using hperm.mem_iff.mpr h
  have hx : x0 < x1 := sub_pos.mp (depth_pos hp hl hc hT (eps := fun _ => 1) (fun _ _ => one_pos)
    (distance_depth x0 (fun _ _ => rfl)))
  have hne := ParallelPlates_ne hp
  have hcase : ElementCase E S Q p model opts [p0, p1] :=
    { mesh := hm, order := ho, disc := hE, elements := h, rule := hA, solver := hP, numbering := hN, proper := hT, sensible := hS
      joined := plates_joined m0 m1 hp hc hT hv
      apart := plates_apart hmem hp hx
      absorb := fun s _ ⟨o, ho, _⟩ => by rw [hopen] at ho; cases ho }
  have hF := hcase.fem
  have hB : Buildable (E.fem model opts) model.materials := by rw [hF]; exact elements_buildable hT hS
  have he : Elliptic E.analytic (E.fem model opts) model.materials := by
    rw [hF]
    exact elements_elliptic h hT hA hS hcase.joined hcase.absorb
  have hs : Separate (E.fem model opts) model.materials := by rw [hF]; exact elements_separate h hcase.apart
  obtain ⟨huniq, _, d, hdc, _⟩ := C90_orders E hcase
  have gen : ∀ b (dep : 𝕜 → 𝕜), ElectricalDepth T (declaredEps model.materials b) x0 dep →
      ∃ t : SolverSolution (E.fem model opts),
        PrescribedField E.analytic (E.fem model opts) model.materials b (oneVolt p1.tag) t ∧
        chargeOn t p1.tag = boundaryLength T p1.tag / dep x1 := by
    intro b dep hdep
    obtain ⟨t, ht, _⟩ := huniq b (oneVolt p1.tag)
    refine ⟨t, ht, ?_⟩
    have hch : chargeOn t p1.tag = (oneVolt p1.tag p1.tag - oneVolt p1.tag p0.tag) * (boundaryLength T p1.tag / dep x1) := by
      clear huniq hdc
      revert t
      rw [hF]
      intro t ht _
      exact (C91_field hperm h hA hQ hT hc hl hv hS hopen hp b hdep (oneVolt p1.tag) ht).2.2.1
    rw [hch]
    simp [oneVolt, hne]
  obtain ⟨t, ht, g1⟩ := gen false depth hd
  obtain ⟨t0, ht0, g0⟩ := gen true (fun x => x - x0) (distance_depth x0 (fun _ _ => rfl))
  have hWp := boundaryLength_pos hp hl
  obtain ⟨p, e, eC, eL⟩ := closed_pair E hN hB ⟨hS.names, hS.tags, hS.openNames⟩ hP he.wellPosed hs hopen hdc ht ht0
    (by rw [g0]; exact (div_pos hWp (sub_pos.mpr hx)).ne')
  refine ⟨d, p, hdc, e, by rw [eC, g1], ?_⟩
  rw [eL, g0]
  have : E.mu0SI / (boundaryLength T p1.tag / (x1 - x0)) = E.mu0SI * ((x1 - x0) / boundaryLength T p1.tag) := by
    rw [div_div_eq_mul_div, mul_div_assoc]
  rw [this]

/-- With exact elements of two orders the results are the same. -/
theorem C91_order_independent (E : Engine 𝕜) {S' : Shapes T} {Q' : Rule 𝕜} {p' : Nat} {model : Model 𝕜} {opts opts' : DriverOptions}
    {p0 p1 : PEC 𝕜} (hm : model.mesh = T.toMesh) (ho : opts.solverOptions.order = p) (ho' : opts'.solverOptions.order = p')
    (hE : E.disc T.toMesh p = T.femWith S Q) (hE' : E.disc T.toMesh p' = T.femWith S' Q')
    (h : Elements S p) (hA : Adequate Q p) (hQ : ExactRule Q p) (h' : Elements S' p') (hA' : Adequate Q' p') (hQ' : ExactRule Q' p')
    (hP : ExactSolver E.pcg) (hN : Numbering model.materials [p0, p1]) (hT : Proper T)
    (hc : Conforming T) (hl : Measured T) (hv : ∀ v, ∃ t ∈ T.tris, IsVertex t v)
    (hS : Sensible T model.materials) (hopen : model.materials.openBoundaries = []) {x0 x1 : 𝕜}
    (hp : ParallelPlates T p0.tag p1.tag x0 x1) {depth : 𝕜 → 𝕜}
    (hd : ElectricalDepth T (declaredEps model.materials false) x0 depth) :
    ∃ d d' r r', (Driver.construct E model opts).1 = .ok d ∧ (Driver.construct E model opts').1 = .ok d' ∧
      (Query.pulMTL.exec E d).1 = .ok (.pul r) ∧ (Query.pulMTL.exec E d').1 = .ok (.pul r') ∧ r.C = r'.C ∧ r.L = r'.L := by
  obtain ⟨d, r, a1, a2, a3, a4⟩ := C91_plates E hm ho hE h hA hQ hP hN hT hc hl hv hS hopen hp hd
  obtain ⟨d', r', b1, b2, b3, b4⟩ := C91_plates E hm ho' hE' h' hA' hQ' hP hN hT hc hl hv hS hopen hp hd
  exact ⟨d, d', r, r', a1, b1, a2, b2, a3.trans b3.symm, a4.trans b4.symm⟩

end
end Tulip.Props
