import Verif.Props.InCellAccuracy
import Verif.Props.DriverCell

/-!
# C113 for the in-cell capacitances of a driver
-/

noncomputable section

namespace Tulip.Props
open Tulip Tulip.Spec Tulip.Multipolar Tulip.Accuracy Tulip.InCellPotentials

/-- A capacitance from an average known up to `E`. -/
theorem capacitance_of_average (e : Expansion ℝ) (eps0 : ℝ) (P : InCellPotentials ℝ) (i j : Int) (f : FieldReconstruction ℝ)
    (hj : P.electric.find? j = some f) (V q y m E : ℝ) (hV : f.conductorPotentials.find? i = some V) (hq : monopole f.ab = .ok q)
    (box : Box ℝ) (hy : getAveragePotential e f P.innerRegionBox box = .ok y) (hb : |y - m| ≤ E) (hE : E < |V - m|) :
    ∃ C, getCapacitanceOnBox e eps0 P i j box = .ok C ∧
      |C - q / (V - m) * eps0| ≤ |q * eps0| * (E / (|V - m| * (|V - m| - E))) := by
  have hδ : |(-y + V) - (V - m)| ≤ E := by
    rw [show -y + V - (V - m) = -(y - m) by ring, abs_neg]
    exact hb
  generalize V - m = d at *
  have hE0 : 0 ≤ E := le_trans (abs_nonneg _) hδ
  have hd0 : 0 < |d| := lt_of_le_of_lt hE0 hE
  have hlow : |d| - E ≤ |-y + V| := by
    have := abs_sub_abs_le_abs_sub d (-y + V)
    rw [abs_sub_comm d (-y + V)] at this
    linarith
  have hw0 : 0 < |-y + V| := by linarith
  refine ⟨q / (-y + V) * eps0, ?_, ?_⟩
  · unfold getCapacitanceOnBox mapAt
    rw [hj]
    simp only [Outcome.ofOption, Outcome.ok_bind, hq, hy, hV]
    unfold divide
    rw [if_neg (abs_pos.mp hw0), Outcome.ok_bind]
  · have e : q / (-y + V) * eps0 - q / d * eps0 = q * eps0 * ((d - (-y + V)) / (d * (-y + V))) := by
      have u1 : d ≠ 0 := abs_pos.mp hd0
      have u2 : -y + V ≠ 0 := abs_pos.mp hw0
      rw [div_mul_eq_mul_div, div_mul_eq_mul_div, div_sub_div _ _ u2 u1, ← mul_div_assoc, mul_comm (-y + V) d]
      congr 1
      ring
    rw [e, abs_mul, abs_div, abs_mul d, abs_sub_comm d]
    have : 0 < |d| - E := by linarith
    gcongr

/-- **C113, capacitances of a driver.** For an open problem as in C100 and a pair of conductors: in the field with one volt on
conductor `j` and no charge on the others, let `m` be the exact mean over the box of the potential of the charges outside the
inner region and of the mean potential inside, and `E` the error bound of averages. If the potential of conductor `i` differs
from `m` by more than `E`, the in-cell capacitance the results of the driver give on this box is the charge of conductor `j`
divided by this difference, times the permittivity, up to the stated error. -/
theorem C113_driver (E : Engine ℝ) (hA : E.analytic = realAnalytic) {model : Model ℝ} {opts : DriverOptions} {ps : List (PEC ℝ)}
    (hN : Numbering model.materials ps) (hB : Buildable (E.fem model opts) model.materials)
    (hW : WellDeclared model.materials) (hP : ExactSolver E.pcg)
    (he : Elliptic E.analytic (E.fem model opts) model.materials) (ht : (ps.map PEC.tag).Nodup)
    (hs : Separate (E.fem model opts) model.materials)
    (hc : Conservative E.analytic (E.fem model opts) model.materials)
    (hG : Balanced E.analytic (E.fem model opts) model.materials)
    (h1 : OnePiece (E.fem model opts) model.materials) (habs : Absorbing E.analytic (E.fem model opts) model.materials)
    (hdn : DistinctNames model.materials) (hset : InCellSetting model (E.fem model opts))
    (hF : FirstMoments E.analytic) {order : Nat} (hord : opts.multipolarExpansionOrder = order)
    {d : Driver (E.fem model opts)} (hd : (Driver.construct E model opts).1 = .ok d) {P : InCellPotentials ℝ}
    (hp : (Query.inCell.exec E d).1 = .ok (.inCell P)) (i j : Fin ps.length) :
    ∃ (V : Int → ℝ) (t : SolverSolution (E.fem model opts)) (c : ℝ × ℝ),
      PrescribedField realAnalytic (E.fem model opts) model.materials false V t ∧ V ps[j].tag = 1 ∧
      (∀ k : Fin ps.length, k ≠ j → chargeOn t ps[k].tag = 0) ∧
      c.1 * chargeOn t ps[j].tag = ((pointCharges (E.fem model opts) t.d (ps.map PEC.tag)).map (fun q => q.1 * q.2.1)).sum ∧
      c.2 * chargeOn t ps[j].tag = ((pointCharges (E.fem model opts) t.d (ps.map PEC.tag)).map (fun q => q.1 * q.2.2)).sum ∧
      ∀ box : Box ℝ, BoxContains box P.innerRegionBox → box.min.1 < box.max.1 → box.min.2 < box.max.2 →
        ∀ R ρ : ℝ, 0 ≤ R → R < ρ →
        (∀ q ∈ (E.fem model opts).bdr, q.attr ∈ ps.map PEC.tag → ‖toC q.pos - toC c‖ ≤ R) →
        (∀ p ∈ outsideRegion box P.innerRegionBox, ρ ≤ ‖toC p - toC c‖) →
        let charges := pointCharges (E.fem model opts) t.d (ps.map PEC.tag)
        let m := exactMean (innerMean model (E.fem model opts) t.phi true) P.innerRegionBox box (linePotential charges)
        let err := (charges.map (fun q => |q.1|)).sum / (2 * Real.pi) *
          ((R / ρ) ^ (order + 1) / ((order + 1) * (1 - R / ρ)) +
            ((box.max.1 - box.min.1) ^ 2 + (box.max.2 - box.min.2) ^ 2) / (240000 * (ρ - R) ^ 2)) *
          (1 - P.innerRegionBox.area / box.area)
        err < |V ps[i].tag - m| →
        ∃ C, getCapacitanceOnBox multipolarExpansion E.eps0SI P i.1 j.1 box = .ok C ∧
          |C - chargeOn t ps[j].tag / (V ps[i].tag - m) * E.eps0SI| ≤
            |chargeOn t ps[j].tag * E.eps0SI| * (err / (|V ps[i].tag - m| * (|V ps[i].tag - m| - err))) := by
  obtain ⟨rs, e, hr⟩ := C100_meaning E hN hB hW hP he ht hs hc hG h1 habs hdn hset hF hord hd hp false
  obtain ⟨⟨V, t, k1, k2, k3, k4, k5, -, k7, k8, k9⟩, -⟩ := hr j
  have hbox : BoxValid P.innerRegionBox := by
    obtain ⟨tag, -, hall, ⟨x, hx, -⟩, -⟩ := C100_box E hdn hd hp
    have := hall x hx
    exact ⟨this.1.trans this.2.1, this.2.2.1.trans this.2.2.2⟩
  rw [hA] at k1 k9
  refine ⟨V, t, (rs j).expansionCenter, k1, k2, k3, k7, k8, ?_⟩
  intro box hcont b1 b2 R ρ hR0 hRρ hR hdist charges m err hlt
  have h9 := k9
  rw [entry_coefficients ht j t (rs j).expansionCenter k3] at h9
  obtain ⟨y, hy, hb⟩ := C113_charges _ order (rs j) h9 box P.innerRegionBox hcont hbox b1 b2 R ρ hR0 hRρ (by
    intro q hq
    unfold pointCharges at hq
    obtain ⟨x, hx, rfl⟩ := List.mem_map.mp hq
    obtain ⟨x1, x2⟩ := List.mem_filter.mp hx
    exact hR x x1 (by simpa using x2)) hdist
  rw [k5] at hb
  refine capacitance_of_average _ _ _ _ _ (rs j) ?_ _ _ y m err ?_ ?_ box hy hb hlt
  · have : cellSide false P = P.electric := rfl
    rw [← this, e]
    exact find_finRange _ _
  · rw [k4]
    exact find_finRange (fun k : Fin ps.length => V ps[k].tag) i
  · rw [k9]
    rfl

/-- An inductance from an average known up to `E`. -/
theorem inductance_of_average (e : Expansion ℝ) (mu0 : ℝ) (P : InCellPotentials ℝ) (i j : Int) (f g : FieldReconstruction ℝ)
    (hj : P.magnetic.find? j = some f) (hg : P.electric.find? j = some g) (V q y m E : ℝ)
    (hV : g.conductorPotentials.find? i = some V) (hq : monopole f.ab = .ok q) (hq0 : q ≠ 0)
    (box : Box ℝ) (hy : getAveragePotential e f P.innerRegionBox box = .ok y) (hb : |y - m| ≤ E) :
    ∃ L, getInductanceOnBox e mu0 P i j box = .ok L ∧ |L - (V - m) / q * mu0| ≤ |mu0 / q| * E := by
  refine ⟨(-y + V) / q * mu0, ?_, ?_⟩
  · unfold getInductanceOnBox mapAt
    rw [hj, hg]
    simp only [Outcome.ofOption, Outcome.ok_bind, hq, hy, hV]
    unfold divide
    rw [if_neg hq0, Outcome.ok_bind]
  · rw [show (-y + V) / q * mu0 - (V - m) / q * mu0 = mu0 / q * -(y - m) by ring, abs_mul, abs_neg]
    gcongr

/-- **C113, inductances of a driver.** As `C113_driver`, for the field `t` without dielectrics: the in-cell inductance the
results of the driver give on a box is the difference between the potential of conductor `i` and the exact mean `m` over the
box, divided by the charge of conductor `j`, times the permeability, up to the error of averages. The potential of conductor
`i` is the one in the field `s` with dielectrics (Results.cpp:274). -/
theorem C113_driver_inductance (E : Engine ℝ) (hA : E.analytic = realAnalytic) {model : Model ℝ} {opts : DriverOptions} {ps : List (PEC ℝ)}
    (hN : Numbering model.materials ps) (hB : Buildable (E.fem model opts) model.materials)
    (hW : WellDeclared model.materials) (hP : ExactSolver E.pcg)
    (he : Elliptic E.analytic (E.fem model opts) model.materials) (ht : (ps.map PEC.tag).Nodup)
    (hs : Separate (E.fem model opts) model.materials)
    (hc : Conservative E.analytic (E.fem model opts) model.materials)
    (hG : Balanced E.analytic (E.fem model opts) model.materials)
    (h1 : OnePiece (E.fem model opts) model.materials) (habs : Absorbing E.analytic (E.fem model opts) model.materials)
    (hdn : DistinctNames model.materials) (hset : InCellSetting model (E.fem model opts))
    (hF : FirstMoments E.analytic) {order : Nat} (hord : opts.multipolarExpansionOrder = order)
    {d : Driver (E.fem model opts)} (hd : (Driver.construct E model opts).1 = .ok d) {P : InCellPotentials ℝ}
    (hp : (Query.inCell.exec E d).1 = .ok (.inCell P)) (i j : Fin ps.length) :
    ∃ (V W : Int → ℝ) (s t : SolverSolution (E.fem model opts)) (c : ℝ × ℝ),
      PrescribedField realAnalytic (E.fem model opts) model.materials false V s ∧ V ps[j].tag = 1 ∧
      (∀ k : Fin ps.length, k ≠ j → chargeOn s ps[k].tag = 0) ∧
      PrescribedField realAnalytic (E.fem model opts) model.materials true W t ∧ W ps[j].tag = 1 ∧
      (∀ k : Fin ps.length, k ≠ j → chargeOn t ps[k].tag = 0) ∧ chargeOn t ps[j].tag ≠ 0 ∧
      c.1 * chargeOn t ps[j].tag = ((pointCharges (E.fem model opts) t.d (ps.map PEC.tag)).map (fun q => q.1 * q.2.1)).sum ∧
      c.2 * chargeOn t ps[j].tag = ((pointCharges (E.fem model opts) t.d (ps.map PEC.tag)).map (fun q => q.1 * q.2.2)).sum ∧
      ∀ box : Box ℝ, BoxContains box P.innerRegionBox → box.min.1 < box.max.1 → box.min.2 < box.max.2 →
        ∀ R ρ : ℝ, 0 ≤ R → R < ρ →
        (∀ q ∈ (E.fem model opts).bdr, q.attr ∈ ps.map PEC.tag → ‖toC q.pos - toC c‖ ≤ R) →
        (∀ p ∈ outsideRegion box P.innerRegionBox, ρ ≤ ‖toC p - toC c‖) →
        let charges := pointCharges (E.fem model opts) t.d (ps.map PEC.tag)
        let m := exactMean (innerMean model (E.fem model opts) t.phi true) P.innerRegionBox box (linePotential charges)
        let err := (charges.map (fun q => |q.1|)).sum / (2 * Real.pi) *
          ((R / ρ) ^ (order + 1) / ((order + 1) * (1 - R / ρ)) +
            ((box.max.1 - box.min.1) ^ 2 + (box.max.2 - box.min.2) ^ 2) / (240000 * (ρ - R) ^ 2)) *
          (1 - P.innerRegionBox.area / box.area)
        ∃ L, getInductanceOnBox multipolarExpansion E.mu0SI P i.1 j.1 box = .ok L ∧
          |L - (V ps[i].tag - m) / chargeOn t ps[j].tag * E.mu0SI| ≤ |E.mu0SI / chargeOn t ps[j].tag| * err := by
  obtain ⟨gs, eg, hgr⟩ := C100_meaning E hN hB hW hP he ht hs hc hG h1 habs hdn hset hF hord hd hp false
  obtain ⟨⟨V, s, l1, l2, l3, l4, -⟩, -⟩ := hgr j
  obtain ⟨rs, e, hr⟩ := C100_meaning E hN hB hW hP he ht hs hc hG h1 habs hdn hset hF hord hd hp true
  obtain ⟨⟨W, t, k1, k2, k3, k4, k5, k6, k7, k8, k9⟩, -⟩ := hr j
  have hbox : BoxValid P.innerRegionBox := by
    obtain ⟨tag, -, hall, ⟨x, hx, -⟩, -⟩ := C100_box E hdn hd hp
    have := hall x hx
    exact ⟨this.1.trans this.2.1, this.2.2.1.trans this.2.2.2⟩
  rw [hA] at k1 k9 l1
  refine ⟨V, W, s, t, (rs j).expansionCenter, l1, l2, l3, k1, k2, k3, k6, k7, k8, ?_⟩
  intro box hcont b1 b2 R ρ hR0 hRρ hR hdist charges m err
  have h9 := k9
  rw [entry_coefficients ht j t (rs j).expansionCenter k3] at h9
  obtain ⟨y, hy, hb⟩ := C113_charges _ order (rs j) h9 box P.innerRegionBox hcont hbox b1 b2 R ρ hR0 hRρ (by
    intro q hq
    unfold pointCharges at hq
    obtain ⟨x, hx, rfl⟩ := List.mem_map.mp hq
    obtain ⟨x1, x2⟩ := List.mem_filter.mp hx
    exact hR x x1 (by simpa using x2)) hdist
  rw [k5] at hb
  refine inductance_of_average _ _ _ _ _ (rs j) (gs j) ?_ ?_ _ _ y m err ?_ ?_ k6 box hy hb
  · have : cellSide true P = P.magnetic := rfl
    rw [← this, e]
    exact find_finRange _ _
  · have : cellSide false P = P.electric := rfl
    rw [← this, eg]
    exact find_finRange _ _
  · rw [l4]
    exact find_finRange (fun k : Fin ps.length => V ps[k].tag) i
  · rw [k9]
    rfl

/-! ## A driver that meets the hypotheses -/

/-- A conductor in vacuum with an open boundary around; the inner region is the triangle (-1,-1), (1,-1), (0,1). -/
def lonely : Model ℝ where
  materials := {
    pecs := [⟨"Conductor_0", 1, 1⟩]
    openBoundaries := [⟨"OpenBoundary_0", 2⟩]
    dielectrics := [⟨"Vacuum_0", 1, 1⟩] }
  mesh := ⟨[⟨1, [0, 1, 2], 2⟩], [⟨2, [0, 1], 1⟩, ⟨2, [1, 2], 1⟩, ⟨2, [2, 0], 1⟩],
    fun i => if i = 0 then (-1, -1) else if i = 1 then (1, -1) else (0, 1)⟩

def lonelyPs : List (PEC ℝ) := [⟨"Conductor_0", 1, 1⟩]

/-- Discretisation by the segment, exact linear solver. -/
def lonelyEngine : Engine ℝ where
  disc := fun _ _ => segmentFEM
  pcg := fun _ A b _ => A⁻¹.mulVec b
  analytic := realAnalytic
  eps0SI := 1
  mu0SI := 1
  raw := fun _ _ => ⟨fun _ => 0, fun _ => 0, fun _ => 0⟩

theorem lonely_solver : ExactSolver lonelyEngine.pcg := by
  intro n A b x0 h
  show A.mulVec (A⁻¹.mulVec b) = b
  rw [Matrix.mulVec_mulVec, Matrix.mul_nonsing_inv _ (isUnit_iff_ne_zero.mpr h), Matrix.one_mulVec]

theorem lonely_numbering : Numbering lonely.materials lonelyPs where
  all := List.Perm.refl _
  ids := by
    intro i h
    match i, h with
    | 0, _ => show getMaterialIdFromName "Conductor_0" = .ok 0; decide +kernel
  nonempty := by simp [lonelyPs]

theorem lonely_declared : WellDeclared lonely.materials where
  names := by simp [lonely]
  tags := by simp [lonely]
  opens := by simp [lonely]

theorem segment_on (a : Int) (i : Fin 2) : OnBoundary segmentFEM a i ↔ (a = 1 ∧ i = 0) ∨ (a = 2 ∧ i = 1) := by
  unfold OnBoundary
  constructor
  · rintro ⟨b, hb, rfl, hi⟩
    rcases List.mem_cons.mp hb with rfl | hb
    · exact Or.inl ⟨rfl, List.mem_singleton.mp hi⟩
    · rw [List.mem_singleton.mp hb] at hi ⊢
      exact Or.inr ⟨rfl, List.mem_singleton.mp hi⟩
  · rintro (⟨rfl, rfl⟩ | ⟨rfl, rfl⟩)
    · exact ⟨((1 : Int), [(0 : Fin 2)]), List.mem_cons_self, rfl, List.mem_singleton.mpr rfl⟩
    · exact ⟨((2 : Int), [(1 : Fin 2)]), List.mem_cons_of_mem _ List.mem_cons_self, rfl, List.mem_singleton.mpr rfl⟩

theorem lonely_buildable (opts : DriverOptions) : Buildable (lonelyEngine.fem lonely opts) lonely.materials where
  bdr := by
    show ValidBoundary segmentFEM
    constructor
    · intro b hb
      rcases List.mem_cons.mp hb with rfl | hb
      · exact List.mem_cons_self
      · rw [List.mem_singleton.mp hb]; exact List.mem_cons_of_mem _ List.mem_cons_self
    · intro a ha
      rcases List.mem_cons.mp ha with rfl | ha
      · exact le_refl _
      · rw [List.mem_singleton.mp ha]; exact one_le_two
  bdrAttrs := List.cons_ne_nil _ _
  points := by
    intro q hq
    rcases List.mem_cons.mp hq with rfl | hq
    · exact le_refl _
    · rw [List.mem_singleton.mp hq]; exact one_le_two
  pecs := by simp [lonely]
  opens := by simp [lonely]
  names := by simp [lonely]
  dielectrics := by
    intro d hd
    rw [List.mem_singleton.mp hd]
    exact ⟨by decide, 1, List.mem_cons_self, by decide⟩

theorem lonely_separate : Separate segmentFEM lonely.materials := by
  intro p _ q _ k hp hq
  rcases (segment_on _ _).mp hp with ⟨e, e'⟩ | ⟨e, e'⟩
  all_goals rcases (segment_on _ _).mp hq with ⟨f, f'⟩ | ⟨f, f'⟩
  all_goals first | exact e.trans f.symm | (have h := e'.symm.trans f'; cases h)

theorem lonely_pecs (p : PEC ℝ) (hp : p ∈ lonely.materials.pecs) : p.tag = 1 := by
  rw [List.mem_singleton.mp hp]

theorem lonely_fixed : ∃ p ∈ lonely.materials.pecs, OnBoundary segmentFEM p.tag (0 : Fin 2) :=
  ⟨⟨"Conductor_0", 1, 1⟩, List.mem_cons_self, (segment_on 1 0).mpr (by decide)⟩

theorem lonely_constant (u : Fin 2 → ℝ) (hg : ∀ q ∈ segmentFEM.dom, vectorAt q.gradN u = (0, 0)) : u 1 = u 0 := by
  have h1 := congrArg Prod.fst (hg _ List.mem_cons_self)
  have sum : ∀ f : Fin segmentFEM.n → ℝ, ∑ k, f k = f (0 : Fin 2) + f (1 : Fin 2) := fun f => Fin.sum_univ_two f
  simp only [vectorAt, sum] at h1
  simp at h1
  linarith

theorem lonely_elliptic : Elliptic realAnalytic segmentFEM lonely.materials where
  weights := by
    intro q hq
    rw [List.mem_singleton.mp hq]
    exact one_pos
  permittivities := by simp [lonely]
  opens := by
    intro q hq ho
    rcases List.mem_cons.mp hq with rfl | hq
    · simp [lonely] at ho
    · rw [List.mem_singleton.mp hq]
      show 0 ≤ (firstOrderABC (1/2, 0))⁻¹ * firstOrderABC (1/2, 0)
      rw [inv_mul_cancel₀ segment_abc]
      exact zero_le_one
  nodes := by
    rintro k ⟨p, hp, hk⟩
    rw [lonely_pecs p hp] at hk
    rcases (segment_on _ _).mp hk with ⟨_, rfl⟩ | ⟨h, _⟩
    · exact ⟨_, List.mem_cons_self, by simp⟩
    · cases h
  potentials := by
    intro u h0 hg k
    have e0 : u (0 : Fin 2) = 0 := h0 (0 : Fin 2) lonely_fixed
    have e1 : u (1 : Fin 2) = 0 := (lonely_constant u hg).trans e0
    have : ∀ k : Fin 2, u k = 0 := by
      intro k
      fin_cases k
      · exact e0
      · exact e1
    exact this k
  fluxes := by
    intro d hd
    have h1 := congrArg Prod.fst (hd _ List.mem_cons_self)
    have sum : ∀ f : Fin segmentFEM.nd → ℝ, ∑ k, f k = f (0 : Fin 1) := fun f => Fin.sum_univ_one f
    simp only [vectorAt, sum] at h1
    simp at h1
    have : ∀ k : Fin 1, d k = 0 := by
      intro k
      fin_cases k
      exact h1
    exact this

theorem lonely_eps (b : Bool) (a : Int) : declaredEps lonely.materials b a = 1 := by
  unfold declaredEps
  cases b
  · by_cases h : (1 : Int) = a <;> simp [lonely, h]
  · simp

theorem lonely_weak (b : Bool) (u : Fin 2 → ℝ) : ∀ k : Fin 2, weakForm realAnalytic segmentFEM (declaredEps lonely.materials b)
    (lonely.materials.openBoundaries.map OpenBoundary.tag) u k = ![u 0 - u 1, 2 * u 1 - u 0] k := by
  intro k
  unfold weakForm
  have h2 := segment_abc
  have hf : segmentFEM.bdr.filter (fun q => decide (q.attr ∈ lonely.materials.openBoundaries.map OpenBoundary.tag)) =
      [{ attr := 2, w := (firstOrderABC (1/2, 0))⁻¹, pos := (1/2, 0), N := ![0, 1], fl := fun _ => 1 }] := by
    simp [segmentFEM, lonely]
  rw [hf]
  simp only [List.map_cons, List.map_nil, List.sum_cons, List.sum_nil, segmentFEM, realAnalytic, lonely_eps]
  rw [inv_mul_cancel₀ h2]
  unfold inner2 vectorAt scalarAt
  fin_cases k <;> simp [Fin.sum_univ_two] <;> ring

theorem lonely_field {b : Bool} {V : Int → ℝ} {t : SolverSolution segmentFEM}
    (h : PrescribedField realAnalytic segmentFEM lonely.materials b V t) :
    t.phi (0 : Fin 2) = V 1 ∧ t.phi (1 : Fin 2) = V 1 / 2 ∧ t.d (0 : Fin 1) = V 1 / 2 := by
  have v0 : t.phi (0 : Fin 2) = V 1 := h.values (0 : Fin 2) _ lonely_fixed (fun p hp _ => by rw [lonely_pecs p hp])
  have v1 : t.phi (1 : Fin 2) = V 1 / 2 := by
    have e := h.equations (1 : Fin 2) (by
      intro p hp ho
      rw [lonely_pecs p hp] at ho
      rcases (segment_on _ _).mp ho with ⟨_, h⟩ | ⟨h, _⟩ <;> cases h)
    have e' := (lonely_weak b t.phi 1).symm.trans e
    simp at e'
    rw [v0] at e'
    linarith
  refine ⟨v0, v1, ?_⟩
  have he : t.e (0 : Fin 1) = V 1 / 2 := by
    have e := h.e (0 : Fin 1)
    have sum : ∀ f : Fin segmentFEM.n → ℝ, ∑ k, f k = f (0 : Fin 2) + f (1 : Fin 2) := fun f => Fin.sum_univ_two f
    rw [sum, v0, v1] at e
    rw [e]
    simp [segmentFEM]
    ring
  have e := h.d (0 : Fin 1)
  simp only [segmentFEM, lonely_eps] at e
  simp [inner2, vectorAt] at e
  have he' := he
  linarith

theorem segment_charges (t : SolverSolution segmentFEM) :
    chargeOn t 1 = t.d (0 : Fin 1) ∧ pointCharges segmentFEM t.d [1] = [(t.d (0 : Fin 1), (0, 0))] := by
  have sum1 : ∀ f : Fin segmentFEM.nd → ℝ, ∑ k, f k = f (0 : Fin 1) := fun f => Fin.sum_univ_one f
  constructor
  · simp [chargeOn, outwardFlux, scalarAt, sum1]
    simp [segmentFEM]
  · simp [pointCharges, scalarAt, sum1]
    simp [segmentFEM]

theorem lonely_conservative : Conservative realAnalytic segmentFEM lonely.materials := by
  classical
  intro b V t h p hp
  obtain ⟨p0, p1, hd⟩ := lonely_field h
  rw [lonely_pecs p hp]
  have sum : ∀ f : Fin segmentFEM.n → ℝ, ∑ k, f k = f (0 : Fin 2) + f (1 : Fin 2) := fun f => Fin.sum_univ_two f
  unfold reaction
  rw [sum, if_pos ((segment_on 1 0).mpr (by decide)), if_neg (by rw [segment_on]; decide)]
  have e := lonely_weak b t.phi 0
  rw [e]
  rw [(segment_charges t).1, hd]
  simp [p0, p1]
  ring

theorem lonely_balanced : Balanced realAnalytic segmentFEM lonely.materials := by
  intro b V t _
  simp [segmentFEM, scalarAt]

theorem lonely_onePiece : OnePiece segmentFEM lonely.materials where
  constant := by
    intro u hg
    have e1 := lonely_constant u hg
    have k : ∀ k : Fin 2, u k = u (0 : Fin 2) := by
      intro k
      fin_cases k
      · rfl
      · exact e1
    exact fun i j => (k i).trans (k j).symm
  nodes := by
    intro p hp
    rw [lonely_pecs p hp]
    exact ⟨(0 : Fin 2), (segment_on 1 0).mpr (by decide)⟩

theorem lonely_absorbing : Absorbing realAnalytic segmentFEM lonely.materials := by
  refine ⟨_, List.mem_cons_of_mem _ List.mem_cons_self, ⟨_, List.mem_cons_self, rfl⟩, ?_, ?_⟩
  · show 0 < (firstOrderABC (1/2, 0))⁻¹ * firstOrderABC (1/2, 0)
    rw [inv_mul_cancel₀ segment_abc]
    exact one_pos
  · have sum : ∀ f : Fin segmentFEM.n → ℝ, ∑ k, f k = f (0 : Fin 2) + f (1 : Fin 2) := fun f => Fin.sum_univ_two f
    unfold scalarAt
    rw [sum]
    simp

theorem lonely_distinct : DistinctNames lonely.materials := by
  unfold DistinctNames
  simp [declared, lonely]

theorem segment_means (u : Fin 2 → ℝ) : domainIntegral segmentFEM u 1 = (u 0 + u 1) / 2 ∧ boundaryIntegral segmentFEM u 1 = u 0 := by
  have sum : ∀ f : Fin segmentFEM.n → ℝ, ∑ k, f k = f (0 : Fin 2) + f (1 : Fin 2) := fun f => Fin.sum_univ_two f
  constructor
  · simp [domainIntegral, scalarAt, sum]
    simp [segmentFEM]
    ring
  · simp [boundaryIntegral, scalarAt, sum]
    simp [segmentFEM]

theorem lonely_setting : InCellSetting lonely segmentFEM where
  outer := by
    refine ⟨⟨"OpenBoundary_0", 2⟩, rfl, ?_, ?_⟩
    · intro p hp
      rw [lonely_pecs p hp]
      decide
    · intro q hq
      rcases List.mem_cons.mp hq with rfl | hq
      · exact Or.inl ⟨⟨"Conductor_0", 1, 1⟩, List.mem_cons_self, rfl⟩
      · rw [List.mem_singleton.mp hq]
        exact Or.inr rfl
  vacuum := ⟨⟨"Vacuum_0", 1, 1⟩, List.mem_cons_self, rfl, ⟨1, [0, 1, 2], 2⟩, List.mem_cons_self, rfl, by simp⟩
  mean := by
    have hp : innerParts lonely.materials true = [.region ⟨"Vacuum_0", 1, 1⟩, .conductor ⟨"Conductor_0", 1, 1⟩] := by
      simp [innerParts, lonely]
    constructor
    · rw [hp]
      intro x hx
      rcases List.mem_cons.mp hx with rfl | hx
      · intro h
        have := (segment_means fun _ => 1).1.symm.trans h
        norm_num at this
      · rw [List.mem_singleton.mp hx]
        intro h
        have := (segment_means fun _ => 1).2.symm.trans h
        norm_num at this
    · unfold innerArea
      rw [hp]
      simp [InnerPart.area, lonely]
      norm_num

theorem lonely_open : lonely.determineOpenness = .ok .open_ := by
  have hb : closedLoopsBuild (𝕜 := ℝ) [⟨2, [0, 1], 1⟩, ⟨2, [1, 2], 1⟩, ⟨2, [2, 0], 1⟩] DGraph.empty [] =
      .ok (DGraph.run [.addEdge 0 1, .addEdge 1 2, .addEdge 2 0],
        [(0, ⟨2, [0, 1], 1⟩), (1, ⟨2, [1, 2], 1⟩), (2, ⟨2, [2, 0], 1⟩)]) := rfl
  have hc : (DGraph.run [.addEdge 0 1, .addEdge 1 2, .addEdge 2 0]).findCycles = some [[0, 1, 2]] :=
    findCyclesFuel_sound (k := 20) (by decide)
  have he : getElementsWithAttribute lonely.mesh 2 = [⟨2, [0, 1], 1⟩, ⟨2, [1, 2], 1⟩, ⟨2, [2, 0], 1⟩] := rfl
  show (do let b ← elementsFormOpenLoops (getElementsWithAttribute lonely.mesh 2)
           if !b then Outcome.ok Openness.open_ else Model.opennessLoop lonely.mesh []) = _
  rw [he]
  unfold elementsFormOpenLoops determineClosedLoops
  rw [hb]
  simp only [Outcome.ok_bind, hc]
  rfl

/-- `lonely` meets the hypotheses of `C113_driver` (and of `C113_driver_inductance`, which are the same), for every order of the expansion: on the inner region itself the
capacitance is the charge 1/2 divided by the difference between 1 V and the mean of the potential, 5/6. -/
example (m : Nat) : ∃ (d : Driver (lonelyEngine.fem lonely { multipolarExpansionOrder := m })) (P : InCellPotentials ℝ),
    (Driver.construct lonelyEngine lonely { multipolarExpansionOrder := m }).1 = .ok d ∧
    (Query.inCell.exec lonelyEngine d).1 = .ok (.inCell P) ∧
    getCapacitanceOnBox multipolarExpansion 1 P 0 0 P.innerRegionBox = .ok 3 := by
  obtain ⟨d, _, _, _, _, ed, _, _, _⟩ := construct_spec lonelyEngine lonely_numbering
    (lonely_buildable { multipolarExpansionOrder := (m : Int) })
  have hd : (Driver.construct lonelyEngine lonely { multipolarExpansionOrder := (m : Int) }).1 = .ok d := by rw [ed]
  obtain ⟨P, hp⟩ := C100_exists lonelyEngine lonely_numbering (lonely_buildable _) lonely_declared lonely_solver
    lonely_elliptic (by decide) lonely_separate lonely_conservative lonely_balanced lonely_onePiece lonely_absorbing
    lonely_distinct lonely_setting lonely_open (Int.natCast_nonneg m) hd
  refine ⟨d, P, hd, hp, ?_⟩
  obtain ⟨V, t, c, k1, k2, -, k4, k5, h⟩ := C113_driver lonelyEngine rfl lonely_numbering (lonely_buildable _) lonely_declared
    lonely_solver lonely_elliptic (by decide) lonely_separate lonely_conservative lonely_balanced lonely_onePiece
    lonely_absorbing lonely_distinct lonely_setting realAnalytic_firstMoments (order := m) rfl hd hp ⟨0, by decide⟩ ⟨0, by decide⟩
  obtain ⟨f0, f1, f2⟩ := lonely_field k1
  have k2 : V 1 = 1 := k2
  rw [k2] at f0 f1 f2
  obtain ⟨tag, ht, hb⟩ := C100_box lonelyEngine lonely_distinct hd hp
  have ht : tag = 1 := by
    simp [declared, lonely] at ht
    exact ht
  subst ht
  obtain ⟨h1, -⟩ := hb
  have q0 := h1 (-1, -1) ⟨⟨1, [0, 1, 2], 2⟩, List.mem_cons_self, rfl, 0, by simp, by simp [lonely]⟩
  have q1 := h1 (1, -1) ⟨⟨1, [0, 1, 2], 2⟩, List.mem_cons_self, rfl, 1, by simp, by simp [lonely]⟩
  have q2 := h1 (0, 1) ⟨⟨1, [0, 1, 2], 2⟩, List.mem_cons_self, rfl, 2, by simp, by simp [lonely]⟩
  have b1 : P.innerRegionBox.min.1 < P.innerRegionBox.max.1 := by linarith [q0.1, q1.2.1]
  have b2 : P.innerRegionBox.min.2 < P.innerRegionBox.max.2 := by linarith [q0.2.2.1, q2.2.2.2]
  have hch : chargeOn t 1 = 1 / 2 := (segment_charges t).1.trans f2
  have hpc : pointCharges segmentFEM t.d [1] = [(1 / 2, (0, 0))] := by
    rw [← f2]
    exact (segment_charges t).2
  have k4 : c.1 * chargeOn t 1 = ((pointCharges segmentFEM t.d [1]).map (fun q => q.1 * q.2.1)).sum := k4
  have k5 : c.2 * chargeOn t 1 = ((pointCharges segmentFEM t.d [1]).map (fun q => q.1 * q.2.2)).sum := k5
  rw [hch, hpc] at k4 k5
  have c1 : c.1 = 0 := by simp at k4; exact k4
  have c2 : c.2 = 0 := by simp at k5; exact k5
  have hout : outsideRegion P.innerRegionBox P.innerRegionBox = ∅ := Set.sdiff_self
  have hmean : innerMean lonely segmentFEM t.phi true = 5 / 6 := by
    have hp : innerParts lonely.materials true = [.region ⟨"Vacuum_0", 1, 1⟩, .conductor ⟨"Conductor_0", 1, 1⟩] := by
      simp [innerParts, lonely]
    have s1 := (segment_means fun _ => 1)
    have s2 := segment_means t.phi
    rw [f0, f1] at s2
    unfold innerMean innerArea
    rw [hp]
    simp only [List.map_cons, List.map_nil, List.sum_cons, List.sum_nil, InnerPart.area, InnerPart.mean, InnerPart.integral]
    have e1 : domainIntegral segmentFEM (fun _ => 1) 1 = 1 := s1.1.trans (by norm_num)
    have e2 : boundaryIntegral segmentFEM (fun _ => 1) 1 = 1 := s1.2
    rw [e1, e2, s2.1, s2.2]
    simp [lonely]
    norm_num
  have harea : P.innerRegionBox.area ≠ 0 := by
    unfold Box.area
    exact (mul_pos (by linarith) (by linarith)).ne'
  have hm : exactMean (innerMean lonely segmentFEM t.phi true) P.innerRegionBox P.innerRegionBox
      (linePotential (pointCharges segmentFEM t.d [1])) = 5 / 6 := by
    unfold exactMean
    rw [hout, MeasureTheory.setIntegral_empty, add_zero, hmean]
    unfold Box.area at harea
    rw [mul_div_assoc, div_self harea, mul_one]
  have herr : ∀ x : ℝ, x * (1 - P.innerRegionBox.area / P.innerRegionBox.area) = 0 := by
    intro x
    rw [div_self harea, sub_self, mul_zero]
  obtain ⟨C, hC, hb⟩ := h P.innerRegionBox ⟨le_refl _, le_refl _, le_refl _, le_refl _⟩ b1 b2 0 1 (le_refl _) one_pos
    (by
      intro q hq hqa
      rcases List.mem_cons.mp hq with rfl | hq
      · have : c = (0, 0) := Prod.ext c1 c2
        rw [this]
        simp
      · obtain rfl := List.mem_singleton.mp hq
        simp [lonelyPs] at hqa)
    (by rw [hout]; intro p hp; cases hp)
    (by
      rw [herr]
      show 0 < |V 1 - exactMean _ _ _ (linePotential (pointCharges segmentFEM t.d [1]))|
      refine abs_pos.mpr ?_
      have := hm
      rw [k2]
      intro h0
      have h0 : 1 - exactMean (innerMean lonely segmentFEM t.phi true) P.innerRegionBox P.innerRegionBox
        (linePotential (pointCharges segmentFEM t.d [1])) = 0 := h0
      rw [hm] at h0
      norm_num at h0)
  rw [herr] at hb
  have hb : |C - chargeOn t 1 / (V 1 - exactMean (innerMean lonely segmentFEM t.phi true) P.innerRegionBox P.innerRegionBox
        (linePotential (pointCharges segmentFEM t.d [1]))) * 1| ≤ _ * (0 / _) := hb
  rw [zero_div, mul_zero, hch, k2, hm] at hb
  have hz := abs_nonpos_iff.mp hb
  have : C = 3 := by
    norm_num at hz
    linarith
  rw [← this]
  exact hC

end Tulip.Props
