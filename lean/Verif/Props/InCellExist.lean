import Verif.Spec.InCell
import Verif.Props.DriverWires
import Verif.Props.Moments
import Verif.Props.Passive
import Verif.Props.Model
import Verif.Props.Floating

/-!
# C100: in-cell results of open problems, existence and meaning
-/

set_option linter.unusedSectionVars false

namespace Tulip.Props
open Tulip Tulip.Spec Matrix

section
variable {𝕜 : Type} [Field 𝕜] [DecidableEq 𝕜] [LinearOrder 𝕜] [IsStrictOrderedRing 𝕜]

/-- Charges are the matrix of the charges of the one-volt fields times the potentials. -/
theorem charge_matrix {A : Analytic 𝕜} {F : FEM 𝕜} {mats : Materials 𝕜} {b : Bool} (hw : WellPosed A F mats)
    (hs : Separate F mats) {ps : List (PEC 𝕜)} (hN : Numbering mats ps) (ht : (ps.map PEC.tag).Nodup)
    (hr : Reciprocity A F mats b) {sols : List (SolverSolution F)} (hl : sols.length = ps.length)
    (hu : ∀ i (hi : i < ps.length) (hi' : i < sols.length), PrescribedField A F mats b (oneVolt ps[i].tag) sols[i])
    {V : Int → 𝕜} {t : SolverSolution F} (h : PrescribedField A F mats b V t) (i : Fin ps.length) :
    chargeOn t ps[i].tag = charges (symPart (rawCharges ps sols hl)) (fun j => V ps[j].tag) i := by
  have hu' : ∀ j : Fin ps.length, PrescribedField A F mats b (oneVolt ps[j].tag) (sols[j.1]'(by omega)) :=
    fun j => hu j.1 j.2 (by omega)
  have hval : ∀ j k : Fin ps.length, symPart (rawCharges ps sols hl) j k = chargeOn (sols[k.1]'(by omega)) ps[j].tag := by
    intro j k
    unfold symPart rawCharges
    rw [Matrix.of_apply, Matrix.of_apply, Matrix.of_apply,
      hr ps[j] (hN.all.mem_iff.mp (List.getElem_mem _)) ps[k] (hN.all.mem_iff.mp (List.getElem_mem _)) _ _ (hu' j) (hu' k)]
    have h2 : (2 : 𝕜) ≠ 0 := two_ne_zero
    field_simp
    ring
  rw [h.eq_superposed hw hs hN ht hu']
  unfold chargeOn
  rw [← flux_neg_one, flux_superposed]
  simp only [flux_neg_one]
  unfold charges Matrix.mulVec dotProduct
  refine Finset.sum_congr rfl fun k _ => ?_
  show _ = symPart (rawCharges ps sols hl) i k * V ps[k].tag
  rw [hval, mul_comm]
  rfl

/-- The matrix of the charges of an open problem is positive definite. -/
theorem charge_matrix_PD {A : Analytic 𝕜} {F : FEM 𝕜} {mats : Materials 𝕜} {b : Bool} (he : Elliptic A F mats)
    (hs : Separate F mats) (hc : Conservative A F mats) {ps : List (PEC 𝕜)} (hN : Numbering mats ps)
    (ht : (ps.map PEC.tag).Nodup) (h1 : OnePiece F mats) (habs : Absorbing A F mats)
    {sols : List (SolverSolution F)} (hl : sols.length = ps.length)
    (hu : ∀ i (hi : i < ps.length) (hi' : i < sols.length), PrescribedField A F mats b (oneVolt ps[i].tag) sols[i]) :
    PD (symPart (rawCharges ps sols hl)) := by
  have hw := he.wellPosed
  have htm : (mats.pecs.map PEC.tag).Nodup := (hN.all.map _).nodup_iff.mp ht
  have hr := reciprocity_of_conservative hs hc htm b
  refine ⟨?_, ?_⟩
  · ext i j
    unfold symPart
    rw [Matrix.transpose_apply, Matrix.of_apply, Matrix.of_apply, add_comm]
  · intro v hv
    obtain ⟨V, hV⟩ := potentials_by_tag ht v
    obtain ⟨t, hf⟩ := hw.exists_field hs b V
    have hvV : (fun j : Fin ps.length => V ps[j].tag) = v := funext hV
    have e : v ⬝ᵥ (symPart (rawCharges ps sols hl)).mulVec v = doubleEnergy A F mats b t := by
      rw [← (C77_energy hs hc hN.all ht hf hf).1, ← Fin.sum_univ_fun_getElem ps (fun q => V q.tag * chargeOn t q.tag)]
      unfold dotProduct
      refine Finset.sum_congr rfl fun k _ => ?_
      have hq := charge_matrix hw hs hN ht hr hl hu hf k
      rw [hvV] at hq
      show v k * charges _ v k = V ps[k].tag * chargeOn t ps[k].tag
      rw [hq, hV]
    rw [e]
    refine lt_of_le_of_ne (he.energy_nonneg b t) fun h0 => hv ?_
    obtain ⟨_, hz⟩ := he.energy_zero h1 h0.symm
    funext i
    have hm : ps[i] ∈ mats.pecs := hN.all.mem_iff.mp (List.getElem_mem _)
    obtain ⟨k, hk⟩ := h1.nodes _ hm
    rw [← hV i, ← hf.at_conductor hs hm hk, hz habs k]
    rfl

/-- With floating potentials the charge of conductor `i` is positive and all of the charge. -/
theorem floating_charge {A : Analytic 𝕜} {F : FEM 𝕜} {mats : Materials 𝕜} {b : Bool} (he : Elliptic A F mats)
    (hs : Separate F mats) (hc : Conservative A F mats) {ps : List (PEC 𝕜)} (hN : Numbering mats ps)
    (ht : (ps.map PEC.tag).Nodup) (h1 : OnePiece F mats) (habs : Absorbing A F mats)
    {sols : List (SolverSolution F)} (hl : sols.length = ps.length)
    (hu : ∀ i (hi : i < ps.length) (hi' : i < sols.length), PrescribedField A F mats b (oneVolt ps[i].tag) sols[i])
    {i : Fin ps.length} {v : Fin ps.length → 𝕜}
    (hv : Spec.FloatingPotentials (symPart (rawCharges ps sols hl)) i v) {V : Int → 𝕜}
    (hV : ∀ j : Fin ps.length, V ps[j].tag = v j) {t : SolverSolution F} (hf : PrescribedField A F mats b V t) :
    V ps[i].tag = 1 ∧ (∀ j : Fin ps.length, j ≠ i → chargeOn t ps[j].tag = 0) ∧ 0 < chargeOn t ps[i].tag ∧
      (ps.map (fun p => chargeOn t p.tag)).sum = chargeOn t ps[i].tag := by
  have hw := he.wellPosed
  have htm : (mats.pecs.map PEC.tag).Nodup := (hN.all.map _).nodup_iff.mp ht
  have hr := reciprocity_of_conservative hs hc htm b
  have hp := charge_matrix_PD he hs hc hN ht h1 habs hl hu
  have hvV : (fun j : Fin ps.length => V ps[j].tag) = v := funext hV
  have hq : ∀ k : Fin ps.length, chargeOn t ps[k].tag = charges (symPart (rawCharges ps sols hl)) v k := by
    intro k
    rw [charge_matrix hw hs hN ht hr hl hu hf k, hvV]
  have hz : ∀ j : Fin ps.length, j ≠ i → chargeOn t ps[j].tag = 0 := fun j hj => by rw [hq, hv.2 j hj]
  refine ⟨by rw [hV, hv.1], hz, ?_, ?_⟩
  · have hne : v ≠ 0 := by
      intro h
      have := hv.1
      rw [h] at this
      exact zero_ne_one this
    have := hp.2 v hne
    unfold dotProduct at this
    rw [Finset.sum_eq_single i] at this
    · rw [hv.1, one_mul] at this
      rw [hq]
      exact this
    · intro j _ hj
      show v j * charges _ v j = 0
      rw [← hq, hz j hj, mul_zero]
    · intro h
      exact absurd (Finset.mem_univ _) h
  · rw [← Fin.sum_univ_fun_getElem ps (fun q => chargeOn t q.tag)]
    exact Finset.sum_eq_single i (fun j _ hj => hz j hj) (fun h => absurd (Finset.mem_univ i) h)

/-- What `getCenterOfCharge` divides by. -/
theorem center_charge {A : Analytic 𝕜} {F : FEM 𝕜} {model : Model 𝕜} {b : Bool} {ps : List (PEC 𝕜)}
    (hN : Numbering model.materials ps) (ht : (ps.map PEC.tag).Nodup) (hG : Balanced A F model.materials)
    {o : OpenBoundary} (hop : ∀ p ∈ model.materials.pecs, p.tag ≠ o.tag)
    (hcov : ∀ q ∈ F.bdr, (∃ p ∈ model.materials.pecs, p.tag = q.attr) ∨ q.attr = o.tag) {V : Int → 𝕜} {s : Solver F}
    (hf : PrescribedField A F model.materials b V s.sol) :
    s.getTotalCharge - s.getChargeInBoundary o.tag = (ps.map (fun p => chargeOn s.sol p.tag)).sum := by
  have h0 : s.getTotalCharge = 0 := (total_eq s).trans (hG b V _ hf)
  have h1 := C56_total_partial s (o.tag :: ps.map PEC.tag) (by
    refine List.nodup_cons.mpr ⟨fun h => ?_, ht⟩
    obtain ⟨p, hp, e⟩ := List.mem_map.mp h
    exact hop p (hN.all.mem_iff.mp hp) e) (by
    intro q hq
    rcases hcov q hq with ⟨p, hp, e⟩ | e
    · exact List.mem_cons_of_mem _ (List.mem_map.mpr ⟨p, hN.all.mem_iff.mpr hp, e⟩)
    · rw [e]; exact List.mem_cons_self)
  rw [h0, List.map_cons, List.sum_cons, List.map_map] at h1
  have h2 : ps.map (fun p => chargeOn s.sol p.tag) = ps.map (s.getChargeInBoundary ∘ PEC.tag) := by
    refine List.map_congr_left fun p _ => ?_
    unfold chargeOn Function.comp Solver.getChargeInBoundary
    rw [flux_neg_one]
  rw [h0, h2]
  linear_combination -h1

/-- Everything but the charges of the reconstruction. -/
theorem reconstruct_ok (E : Engine 𝕜) {F : FEM 𝕜} {model : Model 𝕜} {opts : DriverOptions} {o : OpenBoundary}
    (hdn : DistinctNames model.materials) (hv : ∃ d ∈ model.materials.dielectrics, d.name = "Vacuum_0")
    (hm : HasInnerMean model F true) (hord : 0 ≤ opts.multipolarExpansionOrder) {s : Solver F}
    (hob : s.params.openBoundaries = [o.tag]) (hQ : s.getTotalCharge - s.getChargeInBoundary o.tag ≠ 0) (r : SMap Int 𝕜) :
    ∃ x, reconstruct E model opts s r = .ok x := by
  have hx := (C62_inner model hdn hv true s).1 hm
  have hc : ∃ c, s.getCenterOfCharge E.analytic = .ok c := by
    unfold Solver.getCenterOfCharge
    rw [hob]
    simp only
    unfold divide
    rw [if_neg hQ, if_neg hQ]
    exact ⟨_, rfl⟩
  obtain ⟨c, hc⟩ := hc
  unfold reconstruct Solver.getMultipolarCoefficients
  rw [hx, hc]
  simp only [Outcome.ok_bind]
  rw [if_neg (by omega)]
  exact ⟨_, rfl⟩

theorem open_attrs {mats : Materials 𝕜} {o : OpenBoundary} (h : mats.openBoundaries = [o]) :
    getAttributesInMap mats.buildNameToAttrMapForOpenBoundary = [o.tag] := by
  unfold Materials.buildNameToAttrMapForOpenBoundary
  rw [h]
  rfl

/-- The box of a meshed material has finite sides. -/
theorem box_ok {model : Model 𝕜} (hdn : DistinctNames model.materials) {name : String} {tag : Int}
    (hd : (name, tag) ∈ declared model.materials) (he : ∃ e ∈ model.mesh.elems, e.attr = tag ∧ e.verts ≠ []) :
    ∃ box, (model.getBoundingBoxOfMaterial name >>= Driver.finiteBox) = .ok box := by
  obtain ⟨b, hb, _, h, _⟩ := (C18_bounding_box model hdn name).2 tag hd
  obtain ⟨⟨_, _, _, _, _, h1⟩, ⟨_, _, _, _, _, h2⟩, ⟨_, _, _, _, _, h3⟩, ⟨_, _, _, _, _, h4⟩⟩ := h he
  rw [hb, Outcome.ok_bind]
  unfold Driver.finiteBox
  rw [h1, h2, h3, h4]
  exact ⟨_, rfl⟩

/-- **C100, existence.** In an open problem as the in-cell computation expects it, with positive weights and permittivities,
an exact linear solver, fluxes of D that agree with the discrete equations and with Gauss' law, a mesh in one piece and an
open boundary that absorbs, the in-cell results exist, for every expansion order from 0. -/
theorem C100_exists (E : Engine 𝕜) {model : Model 𝕜} {opts : DriverOptions} {ps : List (PEC 𝕜)}
    (hN : Numbering model.materials ps) (hB : Buildable (E.fem model opts) model.materials)
    (hW : WellDeclared model.materials) (hP : ExactSolver E.pcg)
    (he : Elliptic E.analytic (E.fem model opts) model.materials) (ht : (ps.map PEC.tag).Nodup)
    (hs : Separate (E.fem model opts) model.materials)
    (hc : Conservative E.analytic (E.fem model opts) model.materials)
    (hG : Balanced E.analytic (E.fem model opts) model.materials)
    (h1 : OnePiece (E.fem model opts) model.materials) (habs : Absorbing E.analytic (E.fem model opts) model.materials)
    (hdn : DistinctNames model.materials) (hset : InCellSetting model (E.fem model opts))
    (ho : model.determineOpenness = .ok .open_) (hord : 0 ≤ opts.multipolarExpansionOrder)
    {d : Driver (E.fem model opts)} (hd : (Driver.construct E model opts).1 = .ok d) :
    ∃ p, (Query.inCell.exec E d).1 = .ok (.inCell p) := by
  obtain ⟨o, eo, hop, hcov⟩ := hset.outer
  obtain ⟨v, hv, hvn, hve⟩ := hset.vacuum
  obtain ⟨box, hbox⟩ := box_ok hdn (name := INNER_REGION_DEFAULT_NAME) (tag := v.tag) (by
    unfold declared
    refine List.mem_append_right _ ?_
    exact List.mem_map.mpr ⟨v, hv, by rw [hvn]; rfl⟩) hve
  obtain ⟨d', p, hd', hp⟩ := inCell_succeeds E hN hB hW hP he.wellPosed ht ho hbox (by
    intro b sols hl hu i
    have hpd := charge_matrix_PD he hs hc hN ht h1 habs hl hu
    refine ⟨(C37_bounds _ hpd).1 i, ?_⟩
    intro w s V r hw hob hV hf
    obtain ⟨_, _, q3, q4⟩ := floating_charge he hs hc hN ht h1 habs hl hu hw hV hf
    refine reconstruct_ok E hdn ⟨v, hv, hvn⟩ hset.mean hord (o := o) (by rw [hob, open_attrs eo]) ?_ r
    rw [center_charge hN ht hG hop hcov hf, q4]
    exact q3.ne')
  rw [hd] at hd'
  cases hd'
  exact ⟨p, hp⟩

/-- **C100, meaning.** In such problems the in-cell results hold exactly one entry per conductor and kind of problem,
which describes the field with 1 V on this conductor and no charge on the others; the charge of this conductor is
positive. -/
theorem C100_meaning (E : Engine 𝕜) {model : Model 𝕜} {opts : DriverOptions} {ps : List (PEC 𝕜)}
    (hN : Numbering model.materials ps) (hB : Buildable (E.fem model opts) model.materials)
    (hW : WellDeclared model.materials) (hP : ExactSolver E.pcg)
    (he : Elliptic E.analytic (E.fem model opts) model.materials) (ht : (ps.map PEC.tag).Nodup)
    (hs : Separate (E.fem model opts) model.materials)
    (hc : Conservative E.analytic (E.fem model opts) model.materials)
    (hG : Balanced E.analytic (E.fem model opts) model.materials)
    (h1 : OnePiece (E.fem model opts) model.materials) (habs : Absorbing E.analytic (E.fem model opts) model.materials)
    (hdn : DistinctNames model.materials) (hset : InCellSetting model (E.fem model opts))
    (hA : FirstMoments E.analytic) {m : Nat} (hord : opts.multipolarExpansionOrder = m)
    {d : Driver (E.fem model opts)} (hd : (Driver.construct E model opts).1 = .ok d) {p : InCellPotentials 𝕜}
    (hp : (Query.inCell.exec E d).1 = .ok (.inCell p)) (b : Bool) :
    ∃ rs : Fin ps.length → FieldReconstruction 𝕜,
      cellSide b p = (List.finRange ps.length).map (fun i => ((i.1 : Int), rs i)) ∧
      ∀ i, InCellEntry E.analytic (E.fem model opts) model b m ps i (rs i) ∧ ∃ q : 𝕜, 0 < q ∧ (rs i).ab[0]? = some (q, 0) := by
  obtain ⟨o, eo, hop, hcov⟩ := hset.outer
  obtain ⟨v, hv, hvn, hve⟩ := hset.vacuum
  obtain ⟨s0, sols, hS, R, rs, f1, f2, f3, f4, f5⟩ := inCell_data E hN hB hd hp b
  refine ⟨rs, f4, fun i => ?_⟩
  have hw := he.wellPosed
  have hreg := Spec.WellPosed.regular hw hN hB hW hS.make
  have hu : ∀ i (hi : i < ps.length) (hi' : i < sols.length),
      PrescribedField E.analytic (E.fem model opts) model.materials b (oneVolt ps[i].tag) sols[i] :=
    fun i hi hi' => (hS.field hN hB hP hreg hw.det hi hi').prescribed hN hB hW hS.make
  obtain ⟨V, hV⟩ := potentials_by_tag ht (R i)
  have hf : PrescribedField E.analytic (E.fem model opts) model.materials b V (rowField R sols hS.len i) := by
    obtain ⟨t, hf⟩ := hw.exists_field hs b V
    have e := hf.eq_superposed hw hs hN ht (u := fun j : Fin ps.length => sols[j.1]'(by rw [hS.len]; exact j.2))
      (fun j => hu j.1 j.2 (by rw [hS.len]; exact j.2))
    have hVR : (fun j : Fin ps.length => V ps[j].tag) = R i := funext hV
    rw [hVR] at e
    rw [e] at hf
    exact hf
  obtain ⟨q1, q2, q3, q4⟩ := floating_charge he hs hc hN ht h1 habs hS.len hu (f2 i) hV hf
  obtain ⟨r1, r2, r3, r4⟩ := reconstruct_inv (f3 i)
  obtain ⟨⟨hist, _, hrun⟩, _⟩ := hS.reached
  have hsp := runOps_setup hist hrun
  obtain ⟨_, _, m3, _⟩ := make_fields hS.make
  obtain ⟨s, es⟩ : ∃ s, s = (Driver.problem b d).solver.setSolution (rowField R sols hS.len i) := ⟨_, rfl⟩
  rw [← es] at r1 r2 r3
  have hsol : s.sol = rowField R sols hS.len i := by rw [es]; rfl
  have hk : s.chargedBoundaries = SMap.keys (inputsOf model.materials b).dirichletBoundaries := by
    rw [es]
    unfold Solver.chargedBoundaries
    show SMap.keys (Driver.problem b d).solver.params.dirichletBoundaries ++
      SMap.keys (Driver.problem b d).solver.params.neumannBoundaries = _
    rw [hsp.neumann, m3, hS.keys]
    exact List.append_nil _
  have hob : s.params.openBoundaries = [o.tag] := by
    rw [es]
    show (Driver.problem b d).solver.params.openBoundaries = _
    rw [hsp.openB, m3]
    exact open_attrs eo
  have hperm : (chargedAttrs s.params).Perm (ps.map PEC.tag) := by
    rw [← charged_eq, hk]
    exact keys_perm hN ht b
  have hnd : (chargedAttrs s.params).Nodup := hperm.nodup_iff.mpr ht
  have hpc : pointCharges (E.fem model opts) s.getSolution.d (chargedAttrs s.params) =
      pointCharges (E.fem model opts) (rowField R sols hS.len i).d (ps.map PEC.tag) := by
    unfold pointCharges
    rw [show s.getSolution.d = (rowField R sols hS.len i).d from congrArg (fun t => t.d) hsol]
    congr 1
    refine List.filter_congr fun q _ => ?_
    simp only [hperm.mem_iff]
  have hf' : PrescribedField E.analytic (E.fem model opts) model.materials b V s.sol := by rw [hsol]; exact hf
  have hQ : s.getTotalCharge - s.getChargeInBoundary o.tag = chargeOn (rowField R sols hS.len i) ps[i].tag := by
    rw [center_charge hN ht hG hop hcov hf', hsol, q4]
  have hav := (C62_inner model hdn ⟨v, hv, hvn⟩ true s).1 hset.mean
  have hcc : s.getCenterOfCharge E.analytic = .ok
      (s.getChargeMomentComponent E.analytic 1 0 (0, 0) / chargeOn (rowField R sols hS.len i) ps[i].tag,
       s.getChargeMomentComponent E.analytic 1 1 (0, 0) / chargeOn (rowField R sols hS.len i) ps[i].tag) := by
    unfold Solver.getCenterOfCharge
    rw [hob]
    simp only [hQ]
    unfold divide
    rw [if_neg q3.ne', if_neg q3.ne']
    rfl
  have hcen := Outcome.ok.inj (r2.symm.trans hcc)
  have mom : ∀ (n : Nat) (dir : Nat) (c : 𝕜 × 𝕜), n ≠ 0 → s.getChargeMomentComponent E.analytic n dir c =
      ((pointCharges (E.fem model opts) (rowField R sols hS.len i).d (ps.map PEC.tag)).map
        (fun q => q.1 * E.analytic.moment q.2 n dir c)).sum := by
    intro n dir c hn
    rw [← hpc]
    exact moment_eq E.analytic s hn dir c
  have hab : (rs i).ab = (chargeOn (rowField R sols hS.len i) ps[i].tag, 0) :: (List.range m).map (fun n =>
      (((pointCharges (E.fem model opts) (rowField R sols hS.len i).d (ps.map PEC.tag)).map
        (fun q => q.1 * E.analytic.moment q.2 (n + 1) 0 (rs i).expansionCenter)).sum,
       ((pointCharges (E.fem model opts) (rowField R sols hS.len i).d (ps.map PEC.tag)).map
        (fun q => q.1 * E.analytic.moment q.2 (n + 1) 1 (rs i).expansionCenter)).sum)) := by
    unfold Solver.getMultipolarCoefficients at r3
    rw [r2, Outcome.ok_bind, hord, if_neg (by omega)] at r3
    rw [← Outcome.ok.inj r3, show ((m : Int) + 1).toNat = m + 1 by omega, List.range_succ_eq_map, List.map_cons,
      List.map_map]
    congr 1
    · refine Prod.ext ?_ ?_
      · show s.getChargeMomentComponent E.analytic 0 0 (rs i).expansionCenter = chargeOn (rowField R sols hS.len i) ps[i].tag
        rw [(C69_moments E.analytic s (rs i).expansionCenter).2.1, (hperm.map _).sum_eq, List.map_map, ← q4]
        congr 1
        refine List.map_congr_left fun p _ => ?_
        unfold chargeOn Function.comp Solver.getChargeInBoundary
        rw [flux_neg_one, hsol]
      · exact (C69_moments E.analytic s (rs i).expansionCenter).2.2.2
    · refine List.map_congr_left fun n _ => ?_
      simp only [Function.comp]
      rw [mom _ _ _ (Nat.succ_ne_zero n), mom _ _ _ (Nat.succ_ne_zero n)]
  refine ⟨⟨V, _, hf, q1, q2, ?_, ?_, q3.ne', ?_, ?_, hab⟩, _, q3, by rw [hab]; rfl⟩
  · rw [r4]
    unfold rowMap
    refine List.map_congr_left fun j _ => ?_
    rw [hV]
  · have := Outcome.ok.inj (r1.symm.trans hav)
    rw [this, hsol]
  · rw [hcen, mom 1 0 _ one_ne_zero]
    simp only
    rw [div_mul_cancel₀ _ q3.ne']
    simp only [(hA _ _).1, sub_zero]
  · rw [hcen, mom 1 1 _ one_ne_zero]
    simp only
    rw [div_mul_cancel₀ _ q3.ne']
    simp only [(hA _ _).2, sub_zero]

/-- **C100, box.** The box in the results is the smallest one around the meshed region `Vacuum_0`: it contains all
vertices of its elements, and each side has one. -/
theorem C100_box (E : Engine 𝕜) {model : Model 𝕜} {opts : DriverOptions} (hdn : DistinctNames model.materials)
    {d : Driver (E.fem model opts)} (hd : (Driver.construct E model opts).1 = .ok d) {p : InCellPotentials 𝕜}
    (hp : (Query.inCell.exec E d).1 = .ok (.inCell p)) :
    ∃ tag, ("Vacuum_0", tag) ∈ declared model.materials ∧
      let corner := fun x : 𝕜 × 𝕜 => ∃ e ∈ model.mesh.elems, e.attr = tag ∧ ∃ v ∈ e.verts, x = model.mesh.coord v
      (∀ x, corner x → p.innerRegionBox.min.1 ≤ x.1 ∧ x.1 ≤ p.innerRegionBox.max.1 ∧
        p.innerRegionBox.min.2 ≤ x.2 ∧ x.2 ≤ p.innerRegionBox.max.2) ∧
      (∃ x, corner x ∧ x.1 = p.innerRegionBox.min.1) ∧ (∃ x, corner x ∧ x.1 = p.innerRegionBox.max.1) ∧
      (∃ x, corner x ∧ x.2 = p.innerRegionBox.min.2) ∧ (∃ x, corner x ∧ x.2 = p.innerRegionBox.max.2) := by
  obtain ⟨_, hb, _⟩ := getInCellPotentials_inv E (exec_inCell E hp)
  rw [(construct_opts hd).2] at hb
  obtain ⟨eb, h1, h2⟩ := Outcome.bind_eq_ok.mp hb
  have hc := C18_bounding_box model hdn "Vacuum_0"
  have h1 : model.getBoundingBoxOfMaterial "Vacuum_0" = .ok eb := h1
  by_cases ht : ∃ tag, ("Vacuum_0", tag) ∈ declared model.materials
  · obtain ⟨tag, ht⟩ := ht
    refine ⟨tag, ht, ?_⟩
    obtain ⟨b, e, k1, k2, k3⟩ := hc.2 tag ht
    have e := Outcome.ok.inj (e.symm.trans h1)
    subst e
    unfold Driver.finiteBox at h2
    split at h2
    case h_2 => cases h2
    next x0 y0 x1 y1 e1 e2 e3 e4 =>
      have h2 := (Outcome.ok.inj h2).symm
      rw [h2]
      have hmesh : ∃ e ∈ model.mesh.elems, e.attr = tag ∧ e.verts ≠ [] := by
        by_contra h
        have := (k3 h).2.2.1
        rw [e3] at this
        cases this
      obtain ⟨a1, a2, a3, a4⟩ := k2 hmesh
      have inj : ∀ {x y : 𝕜}, (some (some x) : WithBot (WithTop 𝕜)) = fin y → y = x := by
        intro x y h
        exact (Option.some.inj (Option.some.inj h)).symm
      have le1 : ∀ {x y : 𝕜}, fin x ≤ fin y → x ≤ y := fun h =>
        WithTop.coe_le_coe.mp (WithBot.coe_le_coe.mp h)
      rw [e1, e2, e3, e4] at k1
      rw [e1] at a1
      rw [e3] at a2
      rw [e2] at a3
      rw [e4] at a4
      refine ⟨?_, ?_, ?_, ?_, ?_⟩
      · rintro x ⟨e, he, hea, v, hv, rfl⟩
        obtain ⟨b1, b2, b3, b4⟩ := k1 e he hea v hv
        exact ⟨le1 b1, le1 b2, le1 b3, le1 b4⟩
      · obtain ⟨e, he, hea, v, hv, h⟩ := a1
        exact ⟨_, ⟨e, he, hea, v, hv, rfl⟩, inj h⟩
      · obtain ⟨e, he, hea, v, hv, h⟩ := a2
        exact ⟨_, ⟨e, he, hea, v, hv, rfl⟩, inj h⟩
      · obtain ⟨e, he, hea, v, hv, h⟩ := a3
        exact ⟨_, ⟨e, he, hea, v, hv, rfl⟩, inj h⟩
      · obtain ⟨e, he, hea, v, hv, h⟩ := a4
        exact ⟨_, ⟨e, he, hea, v, hv, rfl⟩, inj h⟩
  · rw [hc.1 ht] at h1
    cases h1

end

/-! ### Example -/

theorem wires_balanced : Balanced lineAnalytic line wires.materials := by
  intro b V t h
  have hd := (wires_field h).2
  have sum : ∀ f : Fin line.nd → ℚ, ∑ k, f k = f (0 : Fin 3) + f (1 : Fin 3) + f (2 : Fin 3) :=
    fun f => Fin.sum_univ_three f
  unfold scalarAt
  rw [hd]
  simp only [sum]
  cases b <;> simp [line]

theorem wires_setting : InCellSetting wires line where
  outer := by
    refine ⟨⟨"OpenBoundary_0", 3⟩, rfl, by decide +kernel, ?_⟩
    intro q hq
    rcases List.mem_cons.mp hq with rfl | hq
    · exact Or.inl ⟨⟨"Shield_0", 1, 1⟩, by decide +kernel, rfl⟩
    rcases List.mem_cons.mp hq with rfl | hq
    · exact Or.inl ⟨⟨"Conductor_1", 2, 1⟩, by decide +kernel, rfl⟩
    · rw [List.mem_singleton.mp hq]
      exact Or.inr rfl
  vacuum := ⟨⟨"Vacuum_0", 1, 1⟩, by decide +kernel, rfl, ⟨1, [0, 1, 2], 2⟩, by decide +kernel, rfl, by simp⟩
  mean := wires_hasMean

theorem lineAnalytic_first : FirstMoments lineAnalytic := fun _ _ => ⟨rfl, rfl⟩

/-- `wires` meets the hypotheses of C100, for every order of the expansion. -/
example (m : Nat) : ∃ (d : Driver (lineEngine.fem wires { multipolarExpansionOrder := m })) (p : InCellPotentials ℚ),
    (Driver.construct lineEngine wires { multipolarExpansionOrder := m }).1 = .ok d ∧
    (Query.inCell.exec lineEngine d).1 = .ok (.inCell p) ∧
    ∀ b, ∃ rs : Fin 2 → FieldReconstruction ℚ, cellSide b p = [(0, rs 0), (1, rs 1)] ∧
      (∀ i, InCellEntry lineAnalytic line wires b m wiresPs i (rs i)) ∧ p.innerRegionBox.max.2 = 4 := by
  obtain ⟨d, _, _, _, _, ed, _, _, _⟩ := construct_spec lineEngine wires_numbering
    (wires_buildable { multipolarExpansionOrder := (m : Int) })
  have hd : (Driver.construct lineEngine wires { multipolarExpansionOrder := (m : Int) }).1 = .ok d := by rw [ed]
  obtain ⟨p, hp⟩ := C100_exists lineEngine wires_numbering (wires_buildable _) wires_declared inverseSolver_exact
    wires_elliptic (by decide) wires_separate wires_conservative wires_balanced line_onePiece line_absorbing
    wires_distinct wires_setting wires_open (Int.natCast_nonneg m) hd
  refine ⟨d, p, hd, hp, fun b => ?_⟩
  obtain ⟨rs, e, h⟩ := C100_meaning lineEngine wires_numbering (wires_buildable _) wires_declared inverseSolver_exact
    wires_elliptic (by decide) wires_separate wires_conservative wires_balanced line_onePiece line_absorbing
    wires_distinct wires_setting lineAnalytic_first rfl hd hp b
  refine ⟨rs, e, fun i => (h i).1, ?_⟩
  obtain ⟨tag, ht, hb⟩ := C100_box lineEngine wires_distinct hd hp
  have ht : tag = 1 := by
    simp [declared, wires] at ht
    exact ht
  subst ht
  obtain ⟨h1, _, _, _, x, ⟨el, he, hea, v, hv, rfl⟩, hx⟩ := hb
  have h2 := (h1 (2, 4) ⟨⟨1, [0, 1, 2], 2⟩, by decide +kernel, rfl, 2, by decide, by decide +kernel⟩).2.2.2
  refine le_antisymm ?_ h2
  rw [← hx]
  simp [wires] at he
  rcases he with rfl | rfl
  · simp at hv
    rcases hv with rfl | rfl | rfl <;> norm_num [wires]
  · simp at hea

end Tulip.Props
