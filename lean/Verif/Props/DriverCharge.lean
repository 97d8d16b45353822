import Verif.Props.DriverWires
import Verif.Proofs.Flux

/-!
# C41: the order-0 coefficient of in-cell potentials
-/

set_option linter.unusedSectionVars false

namespace Tulip.Props
open Tulip Tulip.Spec Matrix

variable {𝕜 : Type} [Field 𝕜] [DecidableEq 𝕜] [LinearOrder 𝕜] {F : FEM 𝕜}

theorem flux_superposed {n : Nat} (c : Fin n → 𝕜) (t : Fin n → SolverSolution F) (sel : Int → Bool)
    (w : 𝕜 × 𝕜 → 𝕜) : F.flux sel w (superposed c t).d = ∑ j, c j * F.flux sel w (t j).d := by
  unfold FEM.flux superposed
  simp only [Finset.mul_sum]
  rw [Finset.sum_comm]
  refine Finset.sum_congr rfl (fun j _ => Finset.sum_congr rfl (fun k _ => ?_))
  ring

theorem foldl_sum {α : Type} (f : α → 𝕜) : ∀ (l : List α) (x : 𝕜), l.foldl (fun q a => q + f a) x = x + (l.map f).sum
  | [], x => by simp
  | a :: l, x => by rw [List.foldl_cons, foldl_sum f l, List.map_cons, List.sum_cons, add_assoc]

/-- The charged boundaries are the conductors, each once. -/
theorem keys_perm {mats : Materials 𝕜} {ps : List (PEC 𝕜)} (hN : Numbering mats ps) (ht : (ps.map PEC.tag).Nodup)
    (b : Bool) : (SMap.keys (inputsOf mats b).dirichletBoundaries).Perm (ps.map PEC.tag) := by
  refine (List.perm_ext_iff_of_nodup ?_ ht).mpr ?_
  · exact (keys_sorted (buildAttrToValueMap_sorted _ _)).imp (fun h e => by rw [e] at h; exact lt_irrefl _ h)
  · intro a
    rw [dirichlet_keys hN b a, List.mem_map]
    exact ⟨fun ⟨p, hp, e⟩ => ⟨p, hN.all.mem_iff.mpr hp, e⟩, fun ⟨p, hp, e⟩ => ⟨p, hN.all.mem_iff.mp hp, e⟩⟩

/-- **C41.** The order-0 coefficient stored for conductor `i` is the total charge of the conductors in the field a new
solver finds with the potentials stored beside it; if the charges of the one-volt fields are reciprocal, conductor `i`
carries all of it and the others none. -/
theorem C41_monopole [IsStrictOrderedRing 𝕜] (E : Engine 𝕜) {model : Model 𝕜} {opts : DriverOptions} {ps : List (PEC 𝕜)}
    (hN : Numbering model.materials ps) (hB : Buildable (E.fem model opts) model.materials)
    (hW : WellDeclared model.materials) (hP : ExactSolver E.pcg)
    (hw : WellPosed E.analytic (E.fem model opts) model.materials) (ht : (ps.map PEC.tag).Nodup)
    (hord : 0 ≤ opts.multipolarExpansionOrder)
    {d : Driver (E.fem model opts)} (hd : (Driver.construct E model opts).1 = .ok d) {p : InCellPotentials 𝕜}
    (hp : (Query.inCell.exec E d).1 = .ok (.inCell p)) (b : Bool) (i : Fin ps.length) :
    ∃ r, SMap.find? (cellSide b p) (i.1 : Int) = some r ∧
      ∀ (v : Fin ps.length → 𝕜) (m : AttrToValueMap 𝕜) (raw : SolverSolution (E.fem model opts)),
        (∀ j : Fin ps.length, SMap.find? r.conductorPotentials (j.1 : Int) = some (v j)) → ConductorsAt ps v m →
        ∃ inputs s0 s, buildSolverInputsFromModel model b = .ok inputs ∧
          Solver.make E.analytic (E.fem model opts) inputs raw = .ok s0 ∧
          (s0.setDirichletConditions m).solve E.pcg = .ok s ∧
          r.ab[0]? = some (∑ j : Fin ps.length, s.getChargeInBoundary ps[j].tag, 0) ∧
          (ReciprocalCharges ps (Driver.problem b d).solutions →
            (∀ j : Fin ps.length, j ≠ i → s.getChargeInBoundary ps[j].tag = 0) ∧
            r.ab[0]? = some (s.getChargeInBoundary ps[i].tag, 0)) := by
  obtain ⟨s0, sols, hS, R, rs, h1, h2, h3, h4, h5⟩ := inCell_data E hN hB hd hp b
  refine ⟨rs i, by rw [h4]; exact find_finRange rs i, ?_⟩
  intro v m raw hv hm
  obtain ⟨_, _, r3, r4⟩ := reconstruct_inv (h3 i)
  have hvR : v = R i := by
    funext j
    have := hv j
    rw [r4] at this
    exact (Option.some.inj ((find_finRange (R i) j).symm.trans this)).symm
  subst hvR
  obtain ⟨s1, s2, e1, e2, e3, e4, e5, e6⟩ := rowField_solved hN hB hW hP hw ht hS R i hm raw
  obtain ⟨⟨hist, _, hrun⟩, _⟩ := hS.reached
  have hset := runOps_setup hist hrun
  obtain ⟨_, _, m3, _⟩ := make_fields hS.make
  have hq : ∀ j : Fin ps.length, s2.getChargeInBoundary ps[j].tag = ∑ k, R i k * rawCharges ps sols hS.len k j := by
    intro j
    unfold Solver.getChargeInBoundary
    rw [e3]
    refine (flux_superposed _ _ _ _).trans (Finset.sum_congr rfl (fun k _ => ?_))
    unfold rawCharges chargeOn
    rw [Matrix.of_apply, flux_neg_one]
  have hab : (rs i).ab[0]? = some (∑ j : Fin ps.length, s2.getChargeInBoundary ps[j].tag, 0) := by
    unfold Solver.getMultipolarCoefficients at r3
    obtain ⟨c, _, r3⟩ := Outcome.bind_eq_ok.mp r3
    rw [if_neg (by omega)] at r3
    have r3 := (Outcome.ok.inj r3).symm
    rw [r3]
    have hpos : 0 < (opts.multipolarExpansionOrder + 1).toNat := by omega
    rw [List.getElem?_map, List.getElem?_range hpos]
    simp only [Option.map_some]
    congr 1
    have hk : ((Driver.problem b d).solver.setSolution (rowField R sols hS.len i)).chargedBoundaries =
        SMap.keys (inputsOf model.materials b).dirichletBoundaries := by
      unfold Solver.chargedBoundaries
      show SMap.keys (Driver.problem b d).solver.params.dirichletBoundaries ++
        SMap.keys (Driver.problem b d).solver.params.neumannBoundaries = _
      rw [hset.neumann, m3, hS.keys]
      exact List.append_nil _
    refine Prod.ext ?_ ?_
    · unfold Solver.getChargeMomentComponent
      rw [if_pos rfl, if_pos rfl, hk, foldl_sum, zero_add,
        ((keys_perm hN ht b).map _).sum_eq, List.map_map]
      refine Eq.trans ?_ (Fin.sum_univ_fun_getElem ps (fun q => s2.getChargeInBoundary q.tag)).symm
      unfold Solver.getChargeInBoundary
      rw [e3]
      rfl
    · unfold Solver.getChargeMomentComponent
      simp
  refine ⟨_, s1, s2, buildInputs_ok model hW.names b, e1, e2, hab, ?_⟩
  intro hrec
  have hsym : ∀ k j, rawCharges ps sols hS.len k j = rawCharges ps sols hS.len j k := by
    intro k j
    have hi : ∀ k : Fin ps.length, (Driver.problem b d).solutions[k.1]? = some (some (sols[k.1]'(by rw [hS.len]; exact k.2))) := by
      intro k
      rw [hS.stored, List.getElem?_map, List.getElem?_eq_getElem (by rw [hS.len]; exact k.2)]
      rfl
    exact hrec k j _ _ (hi k) (hi j)
  have hsp : symPart (rawCharges ps sols hS.len) = rawCharges ps sols hS.len := by
    ext k j
    rw [symPart, Matrix.of_apply, hsym j k, ← two_mul, mul_div_cancel_left₀ _ two_ne_zero]
  have hz : ∀ j : Fin ps.length, j ≠ i → s2.getChargeInBoundary ps[j].tag = 0 := by
    intro j hj
    have := (h2 i).2 j hj
    rw [hsp] at this
    rw [hq, ← this]
    unfold charges mulVec dotProduct
    exact Finset.sum_congr rfl (fun k _ => by rw [hsym k j, mul_comm])
  refine ⟨hz, ?_⟩
  rw [hab, Finset.sum_eq_single i (fun j _ hj => hz j hj) (fun h => absurd (Finset.mem_univ i) h)]

/-- `wires` meets all hypotheses, with reciprocal charges. -/
example : ∃ (d : Driver (lineEngine.fem wires {})) (p : InCellPotentials ℚ),
    (Driver.construct lineEngine wires {}).1 = .ok d ∧ (Query.inCell.exec lineEngine d).1 = .ok (.inCell p) ∧
    ∀ b, ReciprocalCharges wiresPs (Driver.problem b d).solutions := by
  obtain ⟨d, p, hd, hp⟩ := wires_inCell {} (by decide)
  refine ⟨d, p, hd, hp, fun b => ?_⟩
  obtain ⟨sols, hl, hs, h⟩ := C29_excitation lineEngine wires_numbering (wires_buildable {}) d hd b
  have hraw : rawCharges wiresPs sols hl = (!![1/2, -1/2; -1/2, if b then 1 else 7/6] : Matrix (Fin 2) (Fin 2) ℚ) :=
    (wires_raw (b := b) hl (fun i hi hi' => (h i hi hi').2 wires_declared inverseSolver_exact wires_posed)).2
  intro i j t u ht hu
  have hi : ∀ (k : Fin wiresPs.length) t, (Driver.problem b d).solutions[k.1]? = some (some t) →
      t = sols[k.1]'(by rw [hl]; exact k.2) := by
    intro k t ht
    rw [hs, List.getElem?_map, List.getElem?_eq_getElem (by rw [hl]; exact k.2)] at ht
    exact (Option.some.inj (Option.some.inj ht)).symm
  rw [hi i t ht, hi j u hu]
  show rawCharges wiresPs sols hl i j = rawCharges wiresPs sols hl j i
  have : ∀ i j : Fin 2, (!![1/2, -1/2; -1/2, if b then 1 else 7/6] : Matrix (Fin 2) (Fin 2) ℚ) i j =
      (!![1/2, -1/2; -1/2, if b then 1 else 7/6] : Matrix (Fin 2) (Fin 2) ℚ) j i := by
    intro i j
    fin_cases i <;> fin_cases j <;> rfl
  rw [hraw]
  exact this i j

end Tulip.Props
