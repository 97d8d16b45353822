import Verif.Proofs.DriverReady

/-!
# Floating potentials and in-cell potentials of open problems in closed form
-/

set_option linter.unusedSectionVars false

namespace Tulip
open Spec Matrix

section
variable {𝕜 : Type} [Field 𝕜] [DecidableEq 𝕜] {F : FEM 𝕜} {b : Bool} {ps : List (PEC 𝕜)}
  {sols : List (SolverSolution F)} {d : Driver F}

/-- What writing the one-volt fields of all conductors writes. -/
def conductorEvents (opts : DriverOptions) (b : Bool) (ps : List (PEC 𝕜)) (sols : List (SolverSolution F)) :
    List (Event 𝕜) := (ps.zip sols).flatMap (fun q => exportFieldSolutions opts q.2 q.1.name b)

theorem ones_cast : ∀ {N : Nat}, N = 1 → (DMat.ofMatrix (n := 1) (m := 1) (fun _ _ => 1) : DMat 𝕜) =
    DMat.ofMatrix (fun _ _ : Fin N => 1) := by
  rintro _ rfl; rfl

theorem floating_ones : ∀ {N : Nat}, N = 1 → ∀ (G : Matrix (Fin N) (Fin N) 𝕜) (i : Fin N),
    Spec.FloatingPotentials G i (fun _ => 1) := by
  rintro _ rfl G i
  refine ⟨rfl, fun j hj => absurd (Subsingleton.elim j i) hj⟩

theorem getFloatingPotentialsMatrix_open (h : Ready b ps sols d) (ho : d.model.determineOpenness = .ok .open_) :
    (∃ (R : Matrix (Fin ps.length) (Fin ps.length) 𝕜) (d' : Driver F), Driver.getFloatingPotentialsMatrix b d =
      (.ok (DMat.ofMatrix R), d', if ps.length = 1 then [] else conductorEvents d.opts b ps sols) ∧
      d'.forget = d.forget ∧ ∀ i, Spec.FloatingPotentials (symPart (rawCharges ps sols h.len)) i (R i)) ∨
    (Driver.getFloatingPotentialsMatrix b d).1 = .nonfinite := by
  have hlen : d.model.materials.buildNameToAttrMapForPEC.length = ps.length := by
    rw [(pecMap_perm h.numbering.names_nodup).length_eq, List.length_map, h.numbering.all.length_eq]
  by_cases h1 : ps.length = 1
  · left
    refine ⟨fun _ _ => 1, d, ?_, rfl, floating_ones h1 _⟩
    unfold Driver.getFloatingPotentialsMatrix
    rw [Act.read_bind, if_pos (hlen.trans h1), if_pos h1, ones_cast h1]
    rfl
  · have e0 : Driver.getFloatingPotentialsMatrix b d = ((do
        let C ← Driver.getGeneralizedCMatrix b
        Act.lift (floatingFromC C)) : Act F (DMat 𝕜)) d := by
      unfold Driver.getFloatingPotentialsMatrix
      rw [Act.read_bind, if_neg (by rw [hlen]; exact h1), ho, Act.lift_ok_bind]
    obtain ⟨d', e1, hf⟩ := getGeneralizedCMatrix_spec h ho (by rintro ⟨_, h⟩; cases h)
    rw [e0, Act.bind_ok e1]
    rcases floatingFromC_cases (symPart (rawCharges ps sols h.len)) with ⟨R, e, hR⟩ | e
    · left
      refine ⟨R, d', ?_, hf, hR⟩
      rw [e, if_neg h1]
      simp only [Act.lift, List.append_nil]
      rfl
    · right
      rw [e]
      rfl

/-- A successful `getFieldParameters`. -/
theorem getFieldParameters_inv (E : Engine 𝕜) (h : Ready b ps sols d) (ho : d.model.determineOpenness = .ok .open_)
    {res : SMap Int (FieldReconstruction 𝕜)} (hr : (Driver.getFieldParameters E b d).1 = .ok res) :
    ∃ (R : Matrix (Fin ps.length) (Fin ps.length) 𝕜) (rs : Fin ps.length → FieldReconstruction 𝕜),
      (Driver.getFloatingPotentialsMatrix b d).1 = .ok (DMat.ofMatrix R) ∧
      (∀ i, Spec.FloatingPotentials (symPart (rawCharges ps sols h.len)) i (R i)) ∧
      (∀ i, reconstruct E d.model d.opts ((Driver.problem b d).solver.setSolution (rowField R sols h.len i))
        (rowMap R i) = .ok (rs i)) ∧
      res = (List.finRange ps.length).map (fun i => ((i.1 : Int), rs i)) ∧
      (Driver.getFieldParameters E b d).2.2 = (if ps.length = 1 then [] else conductorEvents d.opts b ps sols) ++
        (List.finRange ps.length).flatMap (rowEvents d.opts b R sols h.len (fun i => ps[i].name)) := by
  unfold Driver.getFieldParameters at hr ⊢
  rcases getFloatingPotentialsMatrix_open h ho with ⟨R, d1, e1, hf, hR⟩ | e1
  swap
  · rw [bind_def] at hr
    rcases e : Driver.getFloatingPotentialsMatrix b d with ⟨o, d2, w⟩
    rw [e] at e1 hr
    simp only at e1
    subst e1
    cases hr
  have h1 := h.congr hf
  rw [Act.bind_ok e1, Act.read_bind, h1.numbering.idMap, Act.lift_ok_bind] at hr ⊢
  simp only at hr
  rcases fieldLoop_outcome E h1.len R ps.length 0 d1 [] h1 (by omega) with h2 | ⟨i, _, _, h4, _⟩
  · choose rs hrs using fun i => h2 i (Nat.zero_le _)
    obtain ⟨res', d', e, hd', hs, hfind⟩ := fieldLoop_ok E h1.len R rs ps.length 0 d1 [] h1 (by omega)
      (fun i _ => hrs i) SMap.Sorted.nil
    rw [List.drop_zero] at e
    rw [e] at hr ⊢
    cases hr
    have hres : res = (List.finRange ps.length).map (fun i => ((i.1 : Int), rs i)) := by
      have hs2 : SMap.Sorted ((List.finRange ps.length).map (fun i => ((i.1 : Int), rs i))) := by
        unfold SMap.Sorted
        rw [List.pairwise_map]
        exact (List.pairwise_lt_finRange _).imp (fun h => by simpa using h)
      refine SMap.ext hs hs2 ?_
      intro j
      rw [hfind]
      split
      · next hj =>
        symm
        apply SMap.find?_of_mem hs2
        rw [List.mem_map]
        exact ⟨⟨j.toNat, hj.2⟩, List.mem_finRange _, by
          simp only; rw [Int.toNat_of_nonneg (by simpa using hj.1)]⟩
      · next hj =>
        show none = _
        symm
        rw [SMap.find?_eq_none_iff]
        unfold SMap.keys
        simp only [List.map_map, List.mem_map, List.mem_finRange, Function.comp, true_and, not_exists]
        intro k hk
        apply hj
        subst hk
        exact ⟨by omega, by simp⟩
    refine ⟨R, rs, by rw [e1], hR, ?_, hres, ?_⟩
    · intro i
      rw [← hrs i, forget_model hf, forget_opts hf, setSolution_congr (forget_solver hf b)]
    · rw [List.drop_zero, forget_opts hf]
  · rw [List.drop_zero] at h4
    exact absurd hr (h4 res)

/-- `getFieldParameters` succeeds when the floating problems and all reconstructions do. -/
theorem getFieldParameters_ok (E : Engine 𝕜) (h : Ready b ps sols d) (ho : d.model.determineOpenness = .ok .open_)
    (hG : ps.length ≠ 1 → ∀ i, ∃! v, Spec.FloatingPotentials (symPart (rawCharges ps sols h.len)) i v)
    (hrec : ∀ (R : Matrix (Fin ps.length) (Fin ps.length) 𝕜) (i : Fin ps.length),
      Spec.FloatingPotentials (symPart (rawCharges ps sols h.len)) i (R i) →
      ∃ r, reconstruct E d.model d.opts ((Driver.problem b d).solver.setSolution (rowField R sols h.len i))
        (rowMap R i) = .ok r) : ∃ res, (Driver.getFieldParameters E b d).1 = .ok res := by
  unfold Driver.getFieldParameters
  rcases getFloatingPotentialsMatrix_open h ho with ⟨R, d1, e1, hf, hR⟩ | e1
  · have h1 := h.congr hf
    rw [Act.bind_ok e1, Act.read_bind, h1.numbering.idMap, Act.lift_ok_bind]
    choose rs hrs using fun i => hrec R i (hR i)
    obtain ⟨res', d', e, _⟩ := fieldLoop_ok E h1.len R rs ps.length 0 d1 [] h1 (by omega)
      (fun i _ => by
        rw [forget_model hf, forget_opts hf, setSolution_congr (forget_solver hf b)]
        exact hrs i) SMap.Sorted.nil
    rw [List.drop_zero] at e
    rw [e]
    exact ⟨res', rfl⟩
  · exfalso
    have hlen : d.model.materials.buildNameToAttrMapForPEC.length = ps.length := by
      rw [(pecMap_perm h.numbering.names_nodup).length_eq, List.length_map, h.numbering.all.length_eq]
    unfold Driver.getFloatingPotentialsMatrix at e1
    by_cases h1 : ps.length = 1
    · rw [Act.read_bind, if_pos (hlen.trans h1)] at e1
      cases e1
    · obtain ⟨d', e2, _⟩ := getGeneralizedCMatrix_spec h ho (by rintro ⟨_, h⟩; cases h)
      obtain ⟨R, e3, _⟩ := (floatingFromC_eq _).1 (hG h1)
      rw [Act.read_bind, if_neg (by rw [hlen]; exact h1), ho, Act.lift_ok_bind] at e1
      simp only at e1
      rw [Act.bind_ok e2, e3] at e1
      cases e1

/-! ## The superposed field -/

omit [DecidableEq 𝕜] in
theorem make_raw {A : Analytic 𝕜} {p : SolverInputs 𝕜} {raw : SolverSolution F} {s : Solver F}
    (h : Solver.make A F p raw = .ok s) (raw' : SolverSolution F) :
    Solver.make A F p raw' = .ok { s with sol := raw' } := by
  unfold Solver.make at h ⊢
  obtain ⟨ess, e1, h⟩ := Outcome.bind_eq_ok.mp h
  obtain ⟨eps, e2, h⟩ := Outcome.bind_eq_ok.mp h
  obtain ⟨K, e3, h⟩ := Outcome.bind_eq_ok.mp h
  obtain ⟨sg, e4, h⟩ := Outcome.bind_eq_ok.mp h
  cases h
  rw [e1, Outcome.ok_bind, e2, Outcome.ok_bind]
  dsimp only
  rw [e3, Outcome.ok_bind, e4]
  rfl

omit [DecidableEq 𝕜] in
theorem keys_sorted {m : AttrToValueMap 𝕜} (h : m.Sorted) : (SMap.keys m).Pairwise (· < ·) := by
  unfold SMap.keys
  rw [List.pairwise_map]
  exact h

omit [DecidableEq 𝕜] in
/-- Boundary values as a function. -/
theorem conductorsAt_prescribe {mats : Materials 𝕜} (hN : Numbering mats ps) {v : Fin ps.length → 𝕜}
    {m : AttrToValueMap 𝕜} (h : ConductorsAt ps v m) (b : Bool) :
    ∃ V : Int → 𝕜, m = prescribe (SMap.keys (inputsOf mats b).dirichletBoundaries) V ∧
      ∀ j : Fin ps.length, V ps[j].tag = v j := by
  refine ⟨fun a => (SMap.find? m a).getD 0, ?_, ?_⟩
  · have hks : (SMap.keys (inputsOf mats b).dirichletBoundaries).Pairwise (· < ·) :=
      keys_sorted (buildAttrToValueMap_sorted _ _)
    refine SMap.ext h.1 (prescribe_sorted _ hks) ?_
    intro a
    rw [prescribe_find]
    split
    · next ha =>
      obtain ⟨p, hp, rfl⟩ := (dirichlet_keys hN b a).mp ha
      obtain ⟨j, hj, e⟩ := List.getElem_of_mem (hN.all.mem_iff.mpr hp)
      have := (h.2 p.tag (v ⟨j, hj⟩)).mpr ⟨⟨j, hj⟩, by show ps[j].tag = p.tag; rw [e], rfl⟩
      rw [this]; rfl
    · next ha =>
      rcases hf : SMap.find? m a with _ | x
      · rfl
      · obtain ⟨j, hj, _⟩ := (h.2 a x).mp hf
        exact absurd ((dirichlet_keys hN b a).mpr ⟨ps[j], hN.all.mem_iff.mp (List.getElem_mem _), hj⟩) ha
  · intro j
    have := (h.2 ps[j].tag (v j)).mpr ⟨j, rfl, rfl⟩
    simp only [this]
    rfl

omit [DecidableEq 𝕜] in
/-- One volt on each conductor times its potential. -/
theorem sum_unitVolt (ht : (ps.map PEC.tag).Nodup) (v : Fin ps.length → 𝕜) (k : Fin ps.length) :
    ∑ j : Fin ps.length, v j * unitVolt ps[j].tag ps[k].tag = v k := by
  have hinj : ∀ j : Fin ps.length, ps[k].tag = ps[j].tag → j = k := by
    intro j hj
    have := List.Nodup.getElem_inj_iff ht (i := k.1) (j := j.1) (hi := by simp) (hj := by simp)
    simp only [List.getElem_map] at this
    exact Fin.ext (this.mp hj).symm
  rw [Finset.sum_eq_single k]
  · unfold unitVolt
    rw [if_pos rfl, mul_one]
  · intro j _ hj
    unfold unitVolt
    rw [if_neg (fun h => hj (hinj j h)), mul_zero]
  · intro h; exact absurd (Finset.mem_univ k) h

/-- The field a new solver finds with the potentials of a row is the one superposed from the stored fields. -/
theorem rowField_solved {E : Engine 𝕜} {mats : Materials 𝕜} {sp : SolvedProblem F} {s0 : Solver F}
    (hN : Numbering mats ps) (hB : Buildable F mats) (hW : WellDeclared mats) (hP : ExactSolver E.pcg)
    (hw : WellPosed E.analytic F mats) (ht : (ps.map PEC.tag).Nodup) (hS : Solved E mats b ps sp s0 sols)
    (R : Matrix (Fin ps.length) (Fin ps.length) 𝕜) (i : Fin ps.length) {m : AttrToValueMap 𝕜}
    (hm : ConductorsAt ps (R i) m) (raw : SolverSolution F) :
    ∃ s1 s2, Solver.make E.analytic F (inputsOf mats b) raw = .ok s1 ∧
      (s1.setDirichletConditions m).solve E.pcg = .ok s2 ∧ s2.sol = rowField R sols hS.len i ∧
      s2.params = { inputsOf mats b with dirichletBoundaries := m } ∧
      SMap.keys m = SMap.keys (inputsOf mats b).dirichletBoundaries ∧
      FieldFor s0 (SMap.keys (inputsOf mats b).dirichletBoundaries) (fun a => (SMap.find? m a).getD 0)
        (rowField R sols hS.len i) := by
  obtain ⟨V, hV, hVj⟩ := conductorsAt_prescribe hN hm b
  have h1 := make_raw hS.make raw
  have hne := inputs_dirichlet_ne hN b
  have hpos := inputs_dirichlet_pos hN hB b
  obtain ⟨s2, e2⟩ := solve_total (P := E.pcg) hB.bdr hB.bdrAttrs h1 hne hpos (Reached.refl _) V
  have hreg0 := Spec.WellPosed.regular hw hN hB hW hS.make
  have hreg1 := Spec.WellPosed.regular hw hN hB hW h1
  have hf2 := solve_field hP hB.bdr hB.bdrAttrs h1 rfl hne hpos hreg1 hw.det (Reached.refl _) e2
  have hf0 : FieldFor s0 (SMap.keys (inputsOf mats b).dirichletBoundaries) V s2.sol := ⟨hf2.phi, hf2.e, hf2.d⟩
  have hrow : FieldFor s0 (SMap.keys (inputsOf mats b).dirichletBoundaries) V (rowField R sols hS.len i) := by
    refine (superposed_field (R i) (List.length_pos_of_ne_nil hN.nonempty) (fun j =>
      hS.field hN hB hP hreg0 hw.det j.2 (by rw [hS.len]; exact j.2))).congr ?_
    intro a ha
    obtain ⟨p, hp, rfl⟩ := (dirichlet_keys hN b a).mp ha
    obtain ⟨j, hj, e⟩ := List.getElem_of_mem (hN.all.mem_iff.mpr hp)
    have h3 := sum_unitVolt ht (R i) ⟨j, hj⟩
    have h4 := hVj ⟨j, hj⟩
    simp only [Fin.getElem_fin, e] at h3 h4
    rw [h4]
    exact h3
  refine ⟨_, s2, h1, by rw [hV]; exact e2, hf0.unique hreg0 hw.det hrow, ?_, ?_, ?_⟩
  · rw [(solve_setup e2).2.1]
    obtain ⟨_, _, m3, _⟩ := make_fields h1
    simp only [Solver.setDirichletConditions]
    rw [show s0.params = inputsOf mats b from m3, hV]
  · rw [hV]; exact prescribe_keys _ _
  · refine hrow.congr ?_
    intro a ha
    rw [hV, prescribe_find, if_pos ha]
    rfl

/-- What is stored depends on the field, the open boundaries and the charged boundaries. -/
theorem reconstruct_congr (E : Engine 𝕜) (model : Model 𝕜) (opts : DriverOptions) {s s' : Solver F} (r : SMap Int 𝕜)
    (h1 : s.sol = s'.sol) (h2 : s.params.openBoundaries = s'.params.openBoundaries)
    (h3 : s.chargedBoundaries = s'.chargedBoundaries) :
    reconstruct E model opts s r = reconstruct E model opts s' r := by
  have hinner : ∀ (mats : NameToAttrMap) (l : List String) (x y : 𝕜),
      Driver.innerLoop model s mats l x y = Driver.innerLoop model s' mats l x y := by
    intro mats l
    induction l with
    | nil => intro x y; rfl
    | cons n l ih =>
      intro x y
      rw [Driver.innerLoop, Driver.innerLoop]
      simp only [Solver.getAveragePotentialInDomain, Solver.getAveragePotentialInBoundary, h1, ih]
  have hav : Driver.getInnerRegionAveragePotential model s true = Driver.getInnerRegionAveragePotential model s' true := by
    unfold Driver.getInnerRegionAveragePotential
    rw [hinner]
  have hmom : ∀ n k c, s.getChargeMomentComponent E.analytic n k c = s'.getChargeMomentComponent E.analytic n k c := by
    intro n k c
    unfold Solver.getChargeMomentComponent Solver.getChargeInBoundary
    rw [h1, h3]
  have hcen : s.getCenterOfCharge E.analytic = s'.getCenterOfCharge E.analytic := by
    unfold Solver.getCenterOfCharge Solver.getTotalCharge Solver.getChargeInBoundary
    simp only [hmom, h1, h2]
  unfold reconstruct Solver.getMultipolarCoefficients
  simp only [hav, hcen, hmom]

variable [LinearOrder 𝕜]

theorem getInCellPotentials_inv (E : Engine 𝕜) {p : InCellPotentials 𝕜}
    (hp : (Driver.getInCellPotentials E d).1 = .ok p) :
    d.model.determineOpenness = .ok .open_ ∧
    (d.model.getBoundingBoxOfMaterial INNER_REGION_DEFAULT_NAME >>= Driver.finiteBox) = .ok p.innerRegionBox ∧
    (Driver.getFieldParameters E false d).1 = .ok p.electric ∧
    (Driver.getFieldParameters E true d).1 = .ok p.magnetic ∧
    (Driver.getInCellPotentials E d).2.2 = (Driver.getFieldParameters E false d).2.2 ++
      (Driver.getFieldParameters E true d).2.2 := by
  unfold Driver.getInCellPotentials at hp ⊢
  rw [Act.read_bind] at hp ⊢
  rcases ho : d.model.determineOpenness with o | _ | _ | _
  · rw [ho, Act.lift_ok_bind] at hp
    rw [Act.lift_ok_bind]
    by_cases h1 : o ≠ .open_
    · rw [if_pos h1] at hp
      cases hp
    · rw [if_neg h1] at hp ⊢
      have h1' : o = .open_ := by simpa using h1
      subst h1'
      rcases h2 : d.model.getBoundingBoxOfMaterial INNER_REGION_DEFAULT_NAME with eb | _ | _ | _
      · rw [h2, Act.lift_ok_bind] at hp
        rw [Act.lift_ok_bind, Outcome.ok_bind]
        rcases h3 : Driver.finiteBox eb with box | _ | _ | _
        · rw [h3, Act.lift_ok_bind] at hp
          rw [Act.lift_ok_bind]
          rw [bind_def] at hp ⊢
          have hk := (getFieldParameters_clean E false).keeps d
          rcases e : Driver.getFieldParameters E false d with ⟨oe, d', w⟩
          rw [e] at hp hk
          cases oe with
          | ok el =>
            simp only at hp ⊢
            rw [bind_def] at hp ⊢
            have hi := (getFieldParameters_clean E true).indep d' d hk
            rcases e' : Driver.getFieldParameters E true d' with ⟨om, d'', w'⟩
            rw [e'] at hp hi
            cases om with
            | ok m =>
              cases hp
              refine ⟨trivial, rfl, rfl, hi.1.symm, ?_⟩
              rw [← hi.2]
              simp [Pure.pure]
            | throw _ => cases hp
            | ub => cases hp
            | nonfinite => cases hp
          | throw _ => cases hp
          | ub => cases hp
          | nonfinite => cases hp
        all_goals (rw [h3] at hp; cases hp)
      all_goals (rw [h2] at hp; cases hp)
  all_goals (rw [ho] at hp; cases hp)

theorem getInCellPotentials_ok (E : Engine 𝕜) (ho : d.model.determineOpenness = .ok .open_) {box : Box 𝕜}
    (hb : (d.model.getBoundingBoxOfMaterial INNER_REGION_DEFAULT_NAME >>= Driver.finiteBox) = .ok box)
    (h : ∀ b, ∃ res, (Driver.getFieldParameters E b d).1 = .ok res) :
    ∃ p, (Driver.getInCellPotentials E d).1 = .ok p := by
  unfold Driver.getInCellPotentials
  rw [Act.read_bind, ho, Act.lift_ok_bind, if_neg (by simp)]
  obtain ⟨eb, h1, h2⟩ := Outcome.bind_eq_ok.mp hb
  rw [h1, Act.lift_ok_bind, h2, Act.lift_ok_bind]
  obtain ⟨el, hel⟩ := h false
  obtain ⟨mg, hmg⟩ := h true
  rw [bind_def]
  have hk := (getFieldParameters_clean E false).keeps d
  rcases e : Driver.getFieldParameters E false d with ⟨oe, d', w⟩
  rw [e] at hel hk
  cases hel
  simp only
  rw [bind_def]
  have hi := ((getFieldParameters_clean E true).indep d' d hk).1
  rcases e' : Driver.getFieldParameters E true d' with ⟨om, d'', w'⟩
  rw [e', hmg] at hi
  cases hi
  exact ⟨_, rfl⟩

end
end Tulip
