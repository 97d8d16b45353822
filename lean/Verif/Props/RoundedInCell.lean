import Verif.Props.InCellCapacitance
import Verif.Props.RoundedCapacitance

/-!
# C116 for the in-cell results of a driver
-/

noncomputable section

namespace Tulip.Props
open Tulip Tulip.Spec Tulip.Multipolar Tulip.Accuracy Tulip.InCellPotentials

/-- **C116, driver.** As `C113_driver`, with every operation of the capacitance on a box rounded: the results of the driver are
those of exact arithmetic, what is computed from them is rounded. -/
theorem C116_driver {rnd : ℝ → ℝ} {u M : ℝ} (Rd : Rounding rnd u) {lib : RoundedExpansion.Library}
    (A : AccurateLibrary lib u) (E : Engine ℝ) (hA : E.analytic = realAnalytic) {model : Model ℝ} {opts : DriverOptions} {ps : List (PEC ℝ)}
    (hN : Numbering model.materials ps) (hB : Buildable (E.fem model opts) model.materials)
    (hW : WellDeclared model.materials) (hP : ExactSolver E.pcg)
    (he : Elliptic E.analytic (E.fem model opts) model.materials) (ht : (ps.map PEC.tag).Nodup)
    (hs : Separate (E.fem model opts) model.materials)
    (hc : Conservative E.analytic (E.fem model opts) model.materials)
    (hG : Balanced E.analytic (E.fem model opts) model.materials)
    (h1 : OnePiece (E.fem model opts) model.materials) (habs : Absorbing E.analytic (E.fem model opts) model.materials)
    (hdn : DistinctNames model.materials) (hset : InCellSetting model (E.fem model opts))
    (hF : FirstMoments E.analytic) {order : Nat} (hord : opts.multipolarExpansionOrder = order)
    {d : Driver (E.fem model opts)} (hd : (Driver.construct E model opts).1 = .ok d) {P : InCellPotentials ℝ}
    (hp : (Query.inCell.exec E d).1 = .ok (.inCell P)) (i j : Fin ps.length) :
    ∃ (V : Int → ℝ) (t : SolverSolution (E.fem model opts)) (c : ℝ × ℝ),
      PrescribedField realAnalytic (E.fem model opts) model.materials false V t ∧ V ps[j].tag = 1 ∧
      (∀ k : Fin ps.length, k ≠ j → chargeOn t ps[k].tag = 0) ∧
      c.1 * chargeOn t ps[j].tag = ((pointCharges (E.fem model opts) t.d (ps.map PEC.tag)).map (fun q => q.1 * q.2.1)).sum ∧
      c.2 * chargeOn t ps[j].tag = ((pointCharges (E.fem model opts) t.d (ps.map PEC.tag)).map (fun q => q.1 * q.2.2)).sum ∧
      let charges := pointCharges (E.fem model opts) t.d (ps.map PEC.tag)
      ∀ box : Box ℝ, BoxContains box P.innerRegionBox → box.min.1 < box.max.1 → box.min.2 < box.max.2 →
        RepresentableBox rnd box → RepresentableBox rnd P.innerRegionBox → BoundedBox M box →
        SidesApart (1000 * (u * M)) box P.innerRegionBox →
        ∀ R ρ S K : ℝ, 0 ≤ R → R < ρ → 0 ≤ S →
        (∀ q ∈ (E.fem model opts).bdr, q.attr ∈ ps.map PEC.tag → ‖toC q.pos - toC c‖ ≤ R) →
        (∀ p ∈ outsideRegion box P.innerRegionBox, ρ ≤ ‖toC p - toC c‖) →
        (∀ p ∈ outsideRegion box P.innerRegionBox, expansionSize (lineCoefficients charges c order) ‖toC p - toC c‖ ≤ S) →
        |innerMean model (E.fem model opts) t.phi true| ≤ K → ((1 - u)⁻¹) ^ (11 * order + 9) * S ≤ K →
        let m := exactMean (innerMean model (E.fem model opts) t.phi true) P.innerRegionBox box (linePotential charges)
        let err := (((1 - u)⁻¹) ^ (11 * order + 9) - 1) * S + (charges.map (fun q => |q.1|)).sum / (2 * Real.pi) *
            ((R / ρ) ^ (order + 1) / ((order + 1) * (1 - R / ρ)) + 2 * (u * M) / (ρ - R) +
              ((box.max.1 - box.min.1 + 1600 * (u * M)) ^ 2 + (box.max.2 - box.min.2 + 1600 * (u * M)) ^ 2) /
                (240000 * (ρ - R) ^ 2)) +
            (((1 - u)⁻¹) ^ 100000 - 1) * K
        err < |V ps[i].tag - m| →
        ∃ C, RoundedGrid.getCapacitanceOnBox rnd (RoundedExpansion.multipolarExpansion rnd lib) E.eps0SI P i.1 j.1 box = .ok C ∧
          |C - chargeOn t ps[j].tag / (V ps[i].tag - m) * E.eps0SI| ≤
            (|V ps[i].tag - m| / (|V ps[i].tag - m| - err) * ((1 - u)⁻¹) ^ 3 - 1) *
              |chargeOn t ps[j].tag / (V ps[i].tag - m) * E.eps0SI| := by
  obtain ⟨rs, e, hr⟩ := C100_meaning E hN hB hW hP he ht hs hc hG h1 habs hdn hset hF hord hd hp false
  obtain ⟨⟨V, t, k1, k2, k3, k4, k5, -, k7, k8, k9⟩, -⟩ := hr j
  have hbox : BoxValid P.innerRegionBox := by
    obtain ⟨tag, -, hall, ⟨x, hx, -⟩, -⟩ := C100_box E hdn hd hp
    have := hall x hx
    exact ⟨this.1.trans this.2.1, this.2.2.1.trans this.2.2.2⟩
  rw [hA] at k1 k9
  refine ⟨V, t, (rs j).expansionCenter, k1, k2, k3, k7, k8, ?_⟩
  intro charges box hcont b1 b2 hrb hri hM hsep R ρ S K hR0 hRρ hS0 hR hdist hS hK hSK m err hlt
  have h9 := k9
  rw [entry_coefficients ht j t (rs j).expansionCenter k3] at h9
  have hq : chargeOn t ps[j].tag = (charges.map (fun q => q.1)).sum := by
    have := h9.symm.trans k9
    unfold lineCoefficients at this
    rw [List.range_succ_eq_map, List.map_cons] at this
    have h0 := congrArg Prod.fst (List.cons.inj this).1
    simp only at h0
    rw [← h0]
    congr 1
    refine List.map_congr_left fun q _ => ?_
    show q.1 * momentComponent q.2 0 0 _ = q.1
    rw [show momentComponent q.2 0 0 (rs j).expansionCenter = 1 from rfl, mul_one]
  have h := C116_charges Rd A E.eps0SI P i.1 j.1 (rs j) (by
      have : cellSide false P = P.electric := rfl
      rw [← this, e]
      exact find_finRange _ _) (V ps[i].tag) (by
      rw [k4]
      exact find_finRange (fun k : Fin ps.length => V ps[k].tag) i)
    _ order h9 box hcont hbox b1 b2 hrb hri hM hsep R ρ hR0 hRρ (by
      intro q hq
      unfold pointCharges at hq
      obtain ⟨x, hx, rfl⟩ := List.mem_map.mp hq
      obtain ⟨x1, x2⟩ := List.mem_filter.mp hx
      exact hR x x1 (by simpa using x2)) hdist S K hS0 (by rw [h9]; exact hS) (by rw [k5]; exact hK) hSK
  rw [hq]
  rw [k5] at h
  exact h hlt

/-- **C116, inductances of a driver.** As `C113_driver_inductance`, with every operation of the inductance on a box rounded. -/
theorem C116_driver_inductance {rnd : ℝ → ℝ} {u M : ℝ} (Rd : Rounding rnd u) {lib : RoundedExpansion.Library}
    (A : AccurateLibrary lib u) (E : Engine ℝ) (hA : E.analytic = realAnalytic) {model : Model ℝ} {opts : DriverOptions} {ps : List (PEC ℝ)}
    (hN : Numbering model.materials ps) (hB : Buildable (E.fem model opts) model.materials)
    (hW : WellDeclared model.materials) (hP : ExactSolver E.pcg)
    (he : Elliptic E.analytic (E.fem model opts) model.materials) (ht : (ps.map PEC.tag).Nodup)
    (hs : Separate (E.fem model opts) model.materials)
    (hc : Conservative E.analytic (E.fem model opts) model.materials)
    (hG : Balanced E.analytic (E.fem model opts) model.materials)
    (h1 : OnePiece (E.fem model opts) model.materials) (habs : Absorbing E.analytic (E.fem model opts) model.materials)
    (hdn : DistinctNames model.materials) (hset : InCellSetting model (E.fem model opts))
    (hF : FirstMoments E.analytic) {order : Nat} (hord : opts.multipolarExpansionOrder = order)
    {d : Driver (E.fem model opts)} (hd : (Driver.construct E model opts).1 = .ok d) {P : InCellPotentials ℝ}
    (hp : (Query.inCell.exec E d).1 = .ok (.inCell P)) (i j : Fin ps.length) :
    ∃ (V W : Int → ℝ) (s t : SolverSolution (E.fem model opts)) (c : ℝ × ℝ),
      PrescribedField realAnalytic (E.fem model opts) model.materials false V s ∧ V ps[j].tag = 1 ∧
      (∀ k : Fin ps.length, k ≠ j → chargeOn s ps[k].tag = 0) ∧
      PrescribedField realAnalytic (E.fem model opts) model.materials true W t ∧ W ps[j].tag = 1 ∧
      (∀ k : Fin ps.length, k ≠ j → chargeOn t ps[k].tag = 0) ∧ chargeOn t ps[j].tag ≠ 0 ∧
      c.1 * chargeOn t ps[j].tag = ((pointCharges (E.fem model opts) t.d (ps.map PEC.tag)).map (fun q => q.1 * q.2.1)).sum ∧
      c.2 * chargeOn t ps[j].tag = ((pointCharges (E.fem model opts) t.d (ps.map PEC.tag)).map (fun q => q.1 * q.2.2)).sum ∧
      let charges := pointCharges (E.fem model opts) t.d (ps.map PEC.tag)
      ∀ box : Box ℝ, BoxContains box P.innerRegionBox → box.min.1 < box.max.1 → box.min.2 < box.max.2 →
        RepresentableBox rnd box → RepresentableBox rnd P.innerRegionBox → BoundedBox M box →
        SidesApart (1000 * (u * M)) box P.innerRegionBox →
        ∀ R ρ S K : ℝ, 0 ≤ R → R < ρ → 0 ≤ S →
        (∀ q ∈ (E.fem model opts).bdr, q.attr ∈ ps.map PEC.tag → ‖toC q.pos - toC c‖ ≤ R) →
        (∀ p ∈ outsideRegion box P.innerRegionBox, ρ ≤ ‖toC p - toC c‖) →
        (∀ p ∈ outsideRegion box P.innerRegionBox, expansionSize (lineCoefficients charges c order) ‖toC p - toC c‖ ≤ S) →
        |innerMean model (E.fem model opts) t.phi true| ≤ K → ((1 - u)⁻¹) ^ (11 * order + 9) * S ≤ K →
        let m := exactMean (innerMean model (E.fem model opts) t.phi true) P.innerRegionBox box (linePotential charges)
        let err := (((1 - u)⁻¹) ^ (11 * order + 9) - 1) * S + (charges.map (fun q => |q.1|)).sum / (2 * Real.pi) *
            ((R / ρ) ^ (order + 1) / ((order + 1) * (1 - R / ρ)) + 2 * (u * M) / (ρ - R) +
              ((box.max.1 - box.min.1 + 1600 * (u * M)) ^ 2 + (box.max.2 - box.min.2 + 1600 * (u * M)) ^ 2) /
                (240000 * (ρ - R) ^ 2)) +
            (((1 - u)⁻¹) ^ 100000 - 1) * K
        ∃ L, RoundedGrid.getInductanceOnBox rnd (RoundedExpansion.multipolarExpansion rnd lib) E.mu0SI P i.1 j.1 box = .ok L ∧
          |L - (V ps[i].tag - m) / chargeOn t ps[j].tag * E.mu0SI| ≤
            (((1 - u)⁻¹) ^ 3 * (|V ps[i].tag - m| + err) - |V ps[i].tag - m|) * |E.mu0SI / chargeOn t ps[j].tag| := by
  obtain ⟨gs, eg, hgr⟩ := C100_meaning E hN hB hW hP he ht hs hc hG h1 habs hdn hset hF hord hd hp false
  obtain ⟨⟨V, s, l1, l2, l3, l4, -⟩, -⟩ := hgr j
  obtain ⟨rs, e, hr⟩ := C100_meaning E hN hB hW hP he ht hs hc hG h1 habs hdn hset hF hord hd hp true
  obtain ⟨⟨W, t, k1, k2, k3, k4, k5, k6, k7, k8, k9⟩, -⟩ := hr j
  have hbox : BoxValid P.innerRegionBox := by
    obtain ⟨tag, -, hall, ⟨x, hx, -⟩, -⟩ := C100_box E hdn hd hp
    have := hall x hx
    exact ⟨this.1.trans this.2.1, this.2.2.1.trans this.2.2.2⟩
  rw [hA] at k1 k9 l1
  refine ⟨V, W, s, t, (rs j).expansionCenter, l1, l2, l3, k1, k2, k3, k6, k7, k8, ?_⟩
  intro charges box hcont b1 b2 hrb hri hM hsep R ρ S K hR0 hRρ hS0 hR hdist hS hK hSK m err
  have h9 := k9
  rw [entry_coefficients ht j t (rs j).expansionCenter k3] at h9
  have hab : (rs j).ab ≠ [] := by
    rw [h9]
    simp [lineCoefficients]
  have hq : ((rs j).ab.getD 0 (0, 0)).1 = chargeOn t ps[j].tag := by
    rw [k9]
    rfl
  have hav := C115_average Rd A charges order (rs j) h9 box P.innerRegionBox hcont hbox b1 b2 hrb hri hM hsep R ρ hR0 hRρ (by
      intro q hq
      have hq : q ∈ pointCharges (E.fem model opts) t.d (ps.map PEC.tag) := hq
      unfold pointCharges at hq
      obtain ⟨x, hx, rfl⟩ := List.mem_map.mp hq
      obtain ⟨x1, x2⟩ := List.mem_filter.mp hx
      exact hR x x1 (by simpa using x2)) hdist S K hS0 (by rw [h9]; exact hS) (by rw [k5]; exact hK) hSK
  have h := C116_inductance Rd (RoundedExpansion.multipolarExpansion rnd lib) E.mu0SI P i.1 j.1 (rs j) (gs j) (by
      have : cellSide true P = P.magnetic := rfl
      rw [← this, e]
      exact find_finRange _ _) (by
      have : cellSide false P = P.electric := rfl
      rw [← this, eg]
      exact find_finRange _ _) (V ps[i].tag) (by
      rw [l4]
      exact find_finRange (fun k : Fin ps.length => V ps[k].tag) i) hab (by rw [hq]; exact k6) box _ _ hav
  rw [hq] at h
  rw [k5] at h
  exact h

/-! ## A driver that meets the hypotheses -/

theorem lonely_results (m : Nat) : ∃ (d : Driver (lonelyEngine.fem lonely { multipolarExpansionOrder := m })) (P : InCellPotentials ℝ),
    (Driver.construct lonelyEngine lonely { multipolarExpansionOrder := m }).1 = .ok d ∧
    (Query.inCell.exec lonelyEngine d).1 = .ok (.inCell P) ∧ P.innerRegionBox = ⟨(-1, -1), (1, 1)⟩ := by
  obtain ⟨d, _, _, _, _, ed, _, _, _⟩ := construct_spec lonelyEngine lonely_numbering
    (lonely_buildable { multipolarExpansionOrder := (m : Int) })
  have hd : (Driver.construct lonelyEngine lonely { multipolarExpansionOrder := (m : Int) }).1 = .ok d := by rw [ed]
  obtain ⟨P, hp⟩ := C100_exists lonelyEngine lonely_numbering (lonely_buildable _) lonely_declared lonely_solver
    lonely_elliptic (by decide) lonely_separate lonely_conservative lonely_balanced lonely_onePiece lonely_absorbing
    lonely_distinct lonely_setting lonely_open (Int.natCast_nonneg m) hd
  refine ⟨d, P, hd, hp, ?_⟩
  obtain ⟨tag, ht, hb⟩ := C100_box lonelyEngine lonely_distinct hd hp
  have ht : tag = 1 := by
    simp [declared, lonely] at ht
    exact ht
  subst ht
  obtain ⟨h1, ⟨x1, k1, e1⟩, ⟨x2, k2, e2⟩, ⟨x3, k3, e3⟩, ⟨x4, k4, e4⟩⟩ := hb
  have q0 := h1 (-1, -1) ⟨⟨1, [0, 1, 2], 2⟩, List.mem_cons_self, rfl, 0, by simp, by simp [lonely]⟩
  have q1 := h1 (1, -1) ⟨⟨1, [0, 1, 2], 2⟩, List.mem_cons_self, rfl, 1, by simp, by simp [lonely]⟩
  have q2 := h1 (0, 1) ⟨⟨1, [0, 1, 2], 2⟩, List.mem_cons_self, rfl, 2, by simp, by simp [lonely]⟩
  have corner : ∀ x : ℝ × ℝ, (∃ e ∈ lonely.mesh.elems, e.attr = 1 ∧ ∃ v ∈ e.verts, x = lonely.mesh.coord v) →
      x = (-1, -1) ∨ x = (1, -1) ∨ x = (0, 1) := by
    rintro x ⟨e, he, -, v, hv, rfl⟩
    rw [List.mem_singleton.mp he] at hv
    simp only [List.mem_cons, List.not_mem_nil, or_false] at hv
    rcases hv with rfl | rfl | rfl
    · left; simp [lonely]
    · right; left; simp [lonely]
    · right; right; simp [lonely]
  have a1 : P.innerRegionBox.min.1 = -1 := by
    refine le_antisymm q0.1 ?_
    rw [← e1]
    rcases corner _ k1 with rfl | rfl | rfl <;> norm_num
  have a2 : P.innerRegionBox.max.1 = 1 := by
    refine le_antisymm ?_ q1.2.1
    rw [← e2]
    rcases corner _ k2 with rfl | rfl | rfl <;> norm_num
  have a3 : P.innerRegionBox.min.2 = -1 := by
    refine le_antisymm q0.2.2.1 ?_
    rw [← e3]
    rcases corner _ k3 with rfl | rfl | rfl <;> norm_num
  have a4 : P.innerRegionBox.max.2 = 1 := by
    refine le_antisymm ?_ q2.2.2.2
    rw [← e4]
    rcases corner _ k4 with rfl | rfl | rfl <;> norm_num
  calc P.innerRegionBox = ⟨(P.innerRegionBox.min.1, P.innerRegionBox.min.2), (P.innerRegionBox.max.1, P.innerRegionBox.max.2)⟩ := rfl
    _ = _ := by rw [a1, a2, a3, a4]

/-- `lonely` in `double`, with correctly rounded functions: the hypotheses of `C116_driver` hold (those of
`C116_driver_inductance` are the same), and the computed capacitance
on the inner region is 3 up to 10⁻³. -/
example : ∃ (d : Driver (lonelyEngine.fem lonely { multipolarExpansionOrder := (0 : Nat) })) (P : InCellPotentials ℝ) (C : ℝ),
    (Driver.construct lonelyEngine lonely { multipolarExpansionOrder := (0 : Nat) }).1 = .ok d ∧
    (Query.inCell.exec lonelyEngine d).1 = .ok (.inCell P) ∧
    RoundedGrid.getCapacitanceOnBox (Nearest.nearest 52)
      (RoundedExpansion.multipolarExpansion (Nearest.nearest 52) (roundedLibrary (Nearest.nearest 52))) 1 P 0 0 P.innerRegionBox = .ok C ∧
    |C - 3| ≤ 1 / 1000 := by
  have Rd := Nearest.rounding (𝕜 := ℝ) (p := 52) (by norm_num)
  have hu : (2 : ℝ) ^ (-((52 : ℕ) + 1 : ℤ)) = 1 / 2 ^ 53 := by norm_num
  rw [hu] at Rd
  have r1 : Nearest.nearest 52 (1 : ℝ) = 1 := by simpa using nearest_small (𝕜 := ℝ) 1 (by norm_num)
  have r2 : Nearest.nearest 52 (-1 : ℝ) = -1 := by rw [Nearest.nearest_neg, r1]
  obtain ⟨d, P, hd, hp, hbox⟩ := lonely_results 0
  obtain ⟨V, t, c, k1, k2, -, k4, k5, h⟩ := C116_driver (M := 1) Rd (roundedLibrary_accurate Rd) lonelyEngine rfl lonely_numbering
    (lonely_buildable _) lonely_declared
    lonely_solver lonely_elliptic (by decide) lonely_separate lonely_conservative lonely_balanced lonely_onePiece
    lonely_absorbing lonely_distinct lonely_setting realAnalytic_firstMoments (order := 0) rfl hd hp ⟨0, by decide⟩ ⟨0, by decide⟩
  obtain ⟨f0, f1, f2⟩ := lonely_field k1
  have k2 : V 1 = 1 := k2
  rw [k2] at f0 f1 f2
  have hch : chargeOn t 1 = 1 / 2 := (segment_charges t).1.trans f2
  have hpc : pointCharges segmentFEM t.d [1] = [(1 / 2, (0, 0))] := by
    rw [← f2]
    exact (segment_charges t).2
  have k4 : c.1 * chargeOn t 1 = ((pointCharges segmentFEM t.d [1]).map (fun q => q.1 * q.2.1)).sum := k4
  have k5 : c.2 * chargeOn t 1 = ((pointCharges segmentFEM t.d [1]).map (fun q => q.1 * q.2.2)).sum := k5
  rw [hch, hpc] at k4 k5
  have c1 : c.1 = 0 := by simp at k4; exact k4
  have c2 : c.2 = 0 := by simp at k5; exact k5
  rw [hbox] at h
  have hout : outsideRegion (⟨(-1, -1), (1, 1)⟩ : Box ℝ) ⟨(-1, -1), (1, 1)⟩ = ∅ := Set.sdiff_self
  have hmean : innerMean lonely segmentFEM t.phi true = 5 / 6 := by
    have hp : innerParts lonely.materials true = [.region ⟨"Vacuum_0", 1, 1⟩, .conductor ⟨"Conductor_0", 1, 1⟩] := by
      simp [innerParts, lonely]
    have s1 := (segment_means fun _ => 1)
    have s2 := segment_means t.phi
    rw [f0, f1] at s2
    unfold innerMean innerArea
    rw [hp]
    simp only [List.map_cons, List.map_nil, List.sum_cons, List.sum_nil, InnerPart.area, InnerPart.mean, InnerPart.integral]
    have e1 : domainIntegral segmentFEM (fun _ => 1) 1 = 1 := s1.1.trans (by norm_num)
    have e2 : boundaryIntegral segmentFEM (fun _ => 1) 1 = 1 := s1.2
    rw [e1, e2, s2.1, s2.2]
    simp [lonely]
    norm_num
  have hm : exactMean (innerMean lonely segmentFEM t.phi true) ⟨(-1, -1), (1, 1)⟩ ⟨(-1, -1), (1, 1)⟩
      (linePotential (pointCharges segmentFEM t.d [1])) = 5 / 6 := by
    unfold exactMean
    rw [hout, MeasureTheory.setIntegral_empty, add_zero, hmean]
    norm_num
  have hrep : RepresentableBox (Nearest.nearest 52) (⟨(-1, -1), (1, 1)⟩ : Box ℝ) := ⟨r2, r1, r2, r1⟩
  have hsides : ∀ a ∈ [(-1 : ℝ), 1, -1, 1], ∀ b ∈ [(-1 : ℝ), 1, -1, 1], a < b → 1000 * (1 / 2 ^ 53 * 1) ≤ b - a := by
    intro a ha b hb hab
    simp only [List.mem_cons, List.not_mem_nil, or_false] at ha hb
    rcases ha with rfl | rfl | rfl | rfl <;> rcases hb with rfl | rfl | rfl | rfl <;> first | (exfalso; norm_num at hab; done) | norm_num
  have g := growth_le Rd 100000 (by norm_num)
  have g1 : (1 - 1 / 2 ^ 53 : ℝ)⁻¹ ^ 100000 - 1 ≤ 1 / 10 ^ 9 := le_trans g (by norm_num)
  have p3 := growth_le Rd 3 (by norm_num)
  have p3' : (1 - 1 / 2 ^ 53 : ℝ)⁻¹ ^ 3 ≤ 1 + 1 / 10 ^ 9 := by
    have : (2 : ℝ) * ((3 : ℕ) * (1 / 2 ^ 53)) ≤ 1 / 10 ^ 9 := by norm_num
    linarith
  have hpi : (1 : ℝ) / 2 / (2 * Real.pi) ≤ 1 / 12 := by
    have := Real.pi_gt_three
    rw [div_le_div_iff₀ (by positivity) (by norm_num)]
    linarith
  have hpi0 : (0 : ℝ) ≤ 1 / 2 / (2 * Real.pi) := by positivity
  -- the bound of the error of the mean
  have hsmall : ∀ (G : ℝ) (charges : List (ℝ × ℝ × ℝ)), charges = [((1 : ℝ) / 2, ((0, 0) : ℝ × ℝ))] →
    G * 0 + ((charges.map fun q => |q.1|).sum) / (2 * Real.pi) *
      ((0 / 1 : ℝ) ^ (0 + 1) / (((0 : ℕ) + 1) * (1 - 0 / 1)) + 2 * (1 / 2 ^ 53 * 1) / (1 - 0) +
        ((1 - -1 + 1600 * (1 / 2 ^ 53 * 1)) ^ 2 + (1 - -1 + 1600 * (1 / 2 ^ 53 * 1)) ^ 2) / (240000 * (1 - 0) ^ 2)) +
      ((1 - 1 / 2 ^ 53 : ℝ)⁻¹ ^ 100000 - 1) * 1 ≤ 1 / 100000 := by
    rintro G _ rfl
    have e1 : (([((1 : ℝ) / 2, ((0, 0) : ℝ × ℝ))].map fun q => |q.1|).sum) = 1 / 2 := by
      simp
    rw [e1]
    have e2 : ((0 / 1 : ℝ) ^ (0 + 1) / (((0 : ℕ) + 1) * (1 - 0 / 1)) + 2 * (1 / 2 ^ 53 * 1) / (1 - 0) +
        ((1 - -1 + 1600 * (1 / 2 ^ 53 * 1)) ^ 2 + (1 - -1 + 1600 * (1 / 2 ^ 53 * 1)) ^ 2) / (240000 * (1 - 0) ^ 2)) ≤ 1 / 20000 := by
      norm_num
    have := mul_le_mul hpi e2 (by norm_num) (by norm_num)
    have g2 : ((1 - 1 / 2 ^ 53 : ℝ)⁻¹ ^ 100000 - 1) * 1 ≤ 1 / 10 ^ 9 := by rw [mul_one]; exact g1
    rw [mul_zero, zero_add]
    exact le_trans (add_le_add this g2) (by norm_num)
  have key : ∀ e ≤ (1 : ℝ) / 100000, ∀ C : ℝ,
      |C - 1 / 2 / (1 - 5 / 6) * 1| ≤ (|(1 : ℝ) - 5 / 6| / (|(1 : ℝ) - 5 / 6| - e) * (1 - 1 / 2 ^ 53 : ℝ)⁻¹ ^ 3 - 1) *
        |(1 : ℝ) / 2 / (1 - 5 / 6) * 1| → |C - 3| ≤ 1 / 1000 := by
    intro e he C hC
    have h6 : |(1 : ℝ) - 5 / 6| = 1 / 6 := by norm_num [abs_of_pos]
    have h3 : (1 : ℝ) / 2 / (1 - 5 / 6) * 1 = 3 := by norm_num
    rw [h6, h3] at hC
    have q1 : (1 : ℝ) / 6 / (1 / 6 - e) ≤ 1 + 1 / 10000 := by
      rw [div_le_iff₀ (by linarith)]
      linarith
    have q2 := mul_le_mul q1 p3' (by positivity) (by norm_num)
    rw [abs_of_pos (by norm_num : (0 : ℝ) < 3)] at hC
    have q3 : ((1 : ℝ) + 1 / 10000) * (1 + 1 / 10 ^ 9) ≤ 1 + 2 / 10000 := by norm_num
    linarith
  obtain ⟨C, hC, hb⟩ := h ⟨(-1, -1), (1, 1)⟩ ⟨le_refl _, le_refl _, le_refl _, le_refl _⟩ (by norm_num) (by norm_num) hrep hrep
    (by simp [BoundedBox]) ⟨hsides, hsides⟩ 0 1 0 1 (le_refl _) one_pos (le_refl _)
    (by
      intro q hq hqa
      rcases List.mem_cons.mp hq with rfl | hq
      · have : c = (0, 0) := Prod.ext c1 c2
        rw [this]
        simp
      · obtain rfl := List.mem_singleton.mp hq
        simp [lonelyPs] at hqa)
    (by rw [hout]; intro p hp; cases hp)
    (by rw [hout]; intro p hp; cases hp)
    (by
      have : |innerMean lonely segmentFEM t.phi true| ≤ 1 := by rw [hmean]; norm_num
      exact this)
    (by norm_num)
    (by
      refine lt_of_le_of_lt (hsmall _ _ hpc) ?_
      show 1 / 100000 < |V 1 - exactMean (innerMean lonely segmentFEM t.phi true) ⟨(-1, -1), (1, 1)⟩ ⟨(-1, -1), (1, 1)⟩
        (linePotential (pointCharges segmentFEM t.d [1]))|
      rw [k2, hm]
      norm_num [abs_of_pos])
  refine ⟨d, P, C, hd, hp, by rw [hbox]; exact hC, ?_⟩
  have hb : |C - chargeOn t 1 / (V 1 - exactMean (innerMean lonely segmentFEM t.phi true) ⟨(-1, -1), (1, 1)⟩ ⟨(-1, -1), (1, 1)⟩
      (linePotential (pointCharges segmentFEM t.d [1]))) * 1| ≤
      (|V 1 - exactMean (innerMean lonely segmentFEM t.phi true) ⟨(-1, -1), (1, 1)⟩ ⟨(-1, -1), (1, 1)⟩
        (linePotential (pointCharges segmentFEM t.d [1]))| /
      (|V 1 - exactMean (innerMean lonely segmentFEM t.phi true) ⟨(-1, -1), (1, 1)⟩ ⟨(-1, -1), (1, 1)⟩
        (linePotential (pointCharges segmentFEM t.d [1]))| - _) * _ - 1) *
      |chargeOn t 1 / (V 1 - exactMean (innerMean lonely segmentFEM t.phi true) ⟨(-1, -1), (1, 1)⟩ ⟨(-1, -1), (1, 1)⟩
      (linePotential (pointCharges segmentFEM t.d [1]))) * 1| := hb
  rw [hch, k2, hm] at hb
  exact key _ (hsmall _ _ hpc) C hb

end Tulip.Props
