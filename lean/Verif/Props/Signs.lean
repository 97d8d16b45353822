import Verif.Proofs.Signs
import Verif.Props.Maximum

/-!
# C83 with open boundaries; C87: signs of the parameters
-/

set_option linter.unusedSectionVars false

namespace Tulip.Props
open Tulip Tulip.Spec Matrix

section
variable {𝕜 : Type} [Field 𝕜] [DecidableEq 𝕜] [LinearOrder 𝕜] [IsStrictOrderedRing 𝕜]

/-- **C83, any mesh and order, open or closed.** If no two degrees of freedom are coupled with the wrong sign (and basis
functions add up to 1 and are not negative on the open boundaries): the potentials lie between the lowest and the highest
conductor potential (or 0, the potential at infinity, if there are open boundaries), at the nodes and in every average
over points where the basis functions are not negative; the stored solutions have potentials between 0 and 1. (Missing:
meshes with couplings of the wrong sign, see `C83_refuted`.) -/
theorem C83_couplings_partial (E : Engine 𝕜) {model : Model 𝕜} {opts : DriverOptions}
    {ps : List (PEC 𝕜)} (hN : Numbering model.materials ps) (hB : Buildable (E.fem model opts) model.materials)
    (hW : WellDeclared model.materials) (hP : ExactSolver E.pcg)
    (he : Elliptic E.analytic (E.fem model opts) model.materials)
    (hs : Separate (E.fem model opts) model.materials) (hC : RepresentsConstants (E.fem model opts))
    (hO : PositiveOnOpen (E.fem model opts) model.materials) {b : Bool}
    (hK : NoPositiveCoupling E.analytic (E.fem model opts) model.materials b) :
    (∀ (V : Int → 𝕜) (t : SolverSolution (E.fem model opts)) (lo hi : 𝕜),
      PrescribedField E.analytic (E.fem model opts) model.materials b V t →
      (∀ p ∈ model.materials.pecs, lo ≤ V p.tag ∧ V p.tag ≤ hi) →
      (model.materials.openBoundaries ≠ [] → lo ≤ 0 ∧ 0 ≤ hi) →
      (∀ k, lo ≤ t.phi k ∧ t.phi k ≤ hi) ∧
      ∀ (s : Solver (E.fem model opts)) (tag : Int) (x : 𝕜), s.getSolution = t →
        ((∀ q ∈ (E.fem model opts).dom, q.attr = tag → 0 ≤ q.w ∧ ∀ k, 0 ≤ q.N k) →
          s.getAveragePotentialInDomain tag = .ok x → lo ≤ x ∧ x ≤ hi) ∧
        ((∀ q ∈ (E.fem model opts).bdr, q.attr = tag → 0 ≤ q.w ∧ ∀ k, 0 ≤ q.N k) →
          s.getAveragePotentialInBoundary tag = .ok x → lo ≤ x ∧ x ≤ hi)) ∧
    ∀ d, (Driver.construct E model opts).1 = .ok d → ∀ t, some t ∈ (Driver.problem b d).solutions →
      ∀ k, 0 ≤ t.phi k ∧ t.phi k ≤ 1 := by
  have mean : ∀ {n : Nat} {N u : Fin n → 𝕜} {lo hi : 𝕜}, (∀ k, 0 ≤ N k) → ∑ k, N k = 1 → (∀ k, lo ≤ u k ∧ u k ≤ hi) →
      lo ≤ scalarAt N u ∧ scalarAt N u ≤ hi := by
    intro n N u lo hi h0 h1 hu
    unfold scalarAt
    constructor
    · calc lo = lo * ∑ k, N k := by rw [h1, mul_one]
        _ = ∑ k, lo * N k := Finset.mul_sum _ _ _
        _ ≤ _ := Finset.sum_le_sum fun k _ => mul_le_mul_of_nonneg_right (hu k).1 (h0 k)
    · calc _ ≤ ∑ k, hi * N k := Finset.sum_le_sum fun k _ => mul_le_mul_of_nonneg_right (hu k).2 (h0 k)
        _ = hi * ∑ k, N k := (Finset.mul_sum _ _ _).symm
        _ = hi := by rw [h1, mul_one]
  refine ⟨fun V t lo hi ht hV h0 => ?_, fun d hd t ht => ?_⟩
  · have hb := coupling_bounds hC he hs hO hK ht h0 hV
    refine ⟨hb, fun s tag x hst => ?_⟩
    obtain ⟨_, _, _, hav⟩ := C62_averages hC tag
    obtain ⟨a1, a2⟩ := hav s lo hi x
    have hphi : ∀ k, lo ≤ s.getSolution.phi k ∧ s.getSolution.phi k ≤ hi := by rw [hst]; exact hb
    exact ⟨fun h => a1 fun q hq ha => ⟨(h q hq ha).1, mean (h q hq ha).2 (hC.dom q hq) hphi⟩,
      fun h => a2 fun q hq ha => ⟨(h q hq ha).1, mean (h q hq ha).2 (hC.bdr q hq) hphi⟩⟩
  · obtain ⟨sols, hlen, hst, hf⟩ := C29_excitation E hN hB d hd b
    rw [hst] at ht
    obtain ⟨u, hu, e⟩ := List.mem_map.mp ht
    cases e
    obtain ⟨i, hi, rfl⟩ := List.getElem_of_mem hu
    refine coupling_bounds hC he hs hO hK ((hf i (by omega) hi).2 hW hP he.wellPosed) (fun _ => ⟨le_refl _, zero_le_one⟩)
      fun p _ => ?_
    unfold oneVolt
    split
    · exact ⟨zero_le_one, le_refl _⟩
    · exact ⟨le_refl _, zero_le_one⟩

/-- Signs of the generalized capacitance matrix. -/
theorem generalized_signs (E : Engine 𝕜) {model : Model 𝕜} {opts : DriverOptions}
    {ps : List (PEC 𝕜)} (hN : Numbering model.materials ps) (hB : Buildable (E.fem model opts) model.materials)
    (hW : WellDeclared model.materials) (hP : ExactSolver E.pcg)
    (he : Elliptic E.analytic (E.fem model opts) model.materials) (ht : (ps.map PEC.tag).Nodup)
    (hs : Separate (E.fem model opts) model.materials)
    (hc : Conservative E.analytic (E.fem model opts) model.materials) (hC : RepresentsConstants (E.fem model opts))
    (hO : PositiveOnOpen (E.fem model opts) model.materials) {b : Bool}
    (hK : NoPositiveCoupling E.analytic (E.fem model opts) model.materials b)
    {d : Driver (E.fem model opts)} (hd : (Driver.construct E model opts).1 = .ok d) {o : Openness}
    (ho : model.determineOpenness = .ok o) {n : Nat} (hn : ps.length = n + 1) {G : Matrix (Fin (n + 1)) (Fin (n + 1)) 𝕜}
    (hG : ((Query.generalizedC b).exec E d).1 = .ok (.matrix (DMat.ofMatrix G))) :
    (∀ i j, i ≠ j → G i j ≤ 0) ∧ ∀ i, 0 ≤ ∑ j, G i j := by
  have hw := he.wellPosed
  have hr := reciprocity_of_conservative hs hc ((hN.all.map _).nodup_iff.mp ht) b
  have mem : ∀ i : Fin (n + 1), ps[i.1]'(by omega) ∈ model.materials.pecs := fun i =>
    hN.all.mem_iff.mp (List.getElem_mem _)
  refine ⟨fun i j hij => ?_, fun i => ?_⟩
  · obtain ⟨t, hf⟩ := hw.exists_field hs b (oneVolt (ps[j.1]'(by omega)).tag)
    have hq := charges_of_field E hN hB hW hP hw ht hs hr hd ho hn hG hf i
    have one : ∀ k : Fin (n + 1), (oneVolt (ps[j.1]'(by omega)).tag (ps[k.1]'(by omega)).tag : 𝕜) = if k = j then 1 else 0 := by
      intro k
      unfold oneVolt
      by_cases e : k = j
      · subst e
        rw [if_pos rfl, if_pos rfl]
      · rw [if_neg e, if_neg]
        intro h
        have h1 : (ps.map PEC.tag)[k.1]'(by rw [List.length_map]; omega) = (ps.map PEC.tag)[j.1]'(by rw [List.length_map]; omega) := by
          rw [List.getElem_map, List.getElem_map]; exact h
        exact e (Fin.ext ((List.Nodup.getElem_inj_iff ht).mp h1))
    have : charges G (fun k => oneVolt (ps[j.1]'(by omega)).tag (ps[k.1]'(by omega)).tag) i = G i j := by
      unfold charges Matrix.mulVec dotProduct
      simp only [one, mul_ite, mul_one, mul_zero, Finset.sum_ite_eq', Finset.mem_univ, if_true]
    rw [← this, ← hq, hc b _ t hf _ (mem i)]
    refine reaction_other hC he hs hO hK hf (fun p _ => ?_) (mem i) ((one i).trans (if_neg hij))
    unfold oneVolt
    split
    · exact zero_le_one
    · exact le_refl _
  · obtain ⟨t, hf⟩ := hw.exists_field hs b (fun _ => 1)
    have hq := charges_of_field E hN hB hW hP hw ht hs hr hd ho hn hG hf i
    have : charges G (fun _ => 1) i = ∑ j, G i j := by
      unfold charges Matrix.mulVec dotProduct
      simp only [mul_one]
    rw [← this, ← hq, hc b _ t hf _ (mem i)]
    exact reaction_all hC he hs hO hK hf (mem i)

/-- The floating potentials of the driver in terms of its generalized capacitance matrix. -/
theorem floating_driver (E : Engine 𝕜) {model : Model 𝕜} {opts : DriverOptions} {ps : List (PEC 𝕜)}
    (hN : Numbering model.materials ps) {d : Driver (E.fem model opts)} (hd : (Driver.construct E model opts).1 = .ok d)
    {o : Openness} (ho : model.determineOpenness = .ok o) {b : Bool} {n : Nat} (hn : ps.length = n + 1) {M : DMat 𝕜}
    (hM : ((Query.floatingMatrix b).exec E d).1 = .ok (.matrix M)) :
    (n = 0 ∧ M = DMat.ofMatrix (n := 1) (m := 1) (fun _ _ => 1)) ∨
    (0 < n ∧ o ≠ .semiopen ∧ ∃ G : Matrix (Fin (n + 1)) (Fin (n + 1)) 𝕜,
      ((Query.generalizedC b).exec E d).1 = .ok (.matrix (DMat.ofMatrix G)) ∧
      (o = .open_ → floatingFromC (DMat.ofMatrix G) = .ok M) ∧
      (o = .closed → ∃ C : Matrix (Fin n) (Fin n) 𝕜, getCFromGeneralizedC (DMat.ofMatrix G) o = .ok (DMat.ofMatrix C) ∧
        floatingFromC (DMat.ofMatrix C) = .ok M)) := by
  obtain ⟨sols, hr⟩ := construct_ready_of E hN hd b
  have ho' : d.model.determineOpenness = .ok o := by rw [(construct_opts hd).2]; exact ho
  have hM' : (Driver.getFloatingPotentialsMatrix b d).1 = .ok M := by
    have hq : ((Query.floatingMatrix b).exec E d).1 =
        ((Driver.getFloatingPotentialsMatrix b d).1 >>= fun p => .ok (.matrix p)) := map_fst _ _ d
    rw [hq] at hM
    rcases h : (Driver.getFloatingPotentialsMatrix b d).1 with q | _ | _ | _ <;> rw [h] at hM <;> cases hM
    rfl
  clear hM
  have hlen : d.model.materials.buildNameToAttrMapForPEC.length = ps.length := by
    rw [(pecMap_perm hr.numbering.names_nodup).length_eq, List.length_map, hr.numbering.all.length_eq]
  rcases Nat.eq_zero_or_pos n with h0 | h0
  · left
    refine ⟨h0, ?_⟩
    unfold Driver.getFloatingPotentialsMatrix at hM'
    rw [Act.read_bind, if_pos (by omega)] at hM'
    exact (Outcome.ok.inj hM').symm
  · right
    have hc : ¬ (ps.length = 1 ∧ o = .closed) := by rintro ⟨h, _⟩; omega
    obtain ⟨d', e1, hf⟩ := getGeneralizedCMatrix_spec hr ho' hc
    have hG : ((Query.generalizedC b).exec E d).1 = .ok (.matrix (DMat.ofMatrix (symPart (rawCharges ps sols hr.len)))) := by
      rw [exec_generalizedC, e1]
      rfl
    unfold Driver.getFloatingPotentialsMatrix at hM'
    rw [Act.read_bind, if_neg (by omega), ho', Act.lift_ok_bind] at hM'
    generalize symPart (rawCharges ps sols hr.len) = G at e1 hG
    rw [ofMatrix_cast hn.symm] at e1 hG
    refine ⟨h0, ?_, _, hG, ?_, ?_⟩
    · rintro rfl
      cases hM'
    · rintro rfl
      dsimp only at hM'
      rw [Act.bind_ok e1] at hM'
      exact hM'
    · rintro rfl
      dsimp only at hM'
      rw [Act.bind_ok e1] at hM'
      obtain ⟨C, e, _⟩ := C32_closed (G.submatrix (Fin.cast hn.symm) (Fin.cast hn.symm))
      rw [e, Act.lift_ok_bind] at hM'
      exact ⟨C, e, hM'⟩

/-- **C36, the driver.** One conductor: the matrix [1]. Several conductors of an open model: row `i` has the only potentials
with 1 on conductor `i` and no charges on the others, charges being those of the generalized capacitance matrix; of a
closed model: the same for conductors 1..n, charges being those of the matrix reduced to conductor 0 as ground. If they
are not unique nothing useful is returned; models neither open nor closed are refused. -/
theorem C36_driver (E : Engine 𝕜) {model : Model 𝕜} {opts : DriverOptions} {ps : List (PEC 𝕜)}
    (hN : Numbering model.materials ps) {d : Driver (E.fem model opts)} (hd : (Driver.construct E model opts).1 = .ok d)
    {o : Openness} (ho : model.determineOpenness = .ok o) (b : Bool) {n : Nat} (hn : ps.length = n + 1) :
    (n = 0 → ((Query.floatingMatrix b).exec E d).1 = .ok (.matrix (DMat.ofMatrix (n := 1) (m := 1) (fun _ _ => 1)))) ∧
    (0 < n → ∃ G : Matrix (Fin (n + 1)) (Fin (n + 1)) 𝕜,
      ((Query.generalizedC b).exec E d).1 = .ok (.matrix (DMat.ofMatrix G)) ∧
      (o = .open_ →
        ((∀ i, ∃! v, Spec.FloatingPotentials G i v) → ∃ R : Matrix (Fin (n + 1)) (Fin (n + 1)) 𝕜,
          ((Query.floatingMatrix b).exec E d).1 = .ok (.matrix (DMat.ofMatrix R)) ∧ ∀ i, Spec.FloatingPotentials G i (R i)) ∧
        ((∃ i, ¬ ∃! v, Spec.FloatingPotentials G i v) → ((Query.floatingMatrix b).exec E d).1 = .nonfinite)) ∧
      (o = .closed → ∃ C : Matrix (Fin n) (Fin n) 𝕜,
        (∀ (v : Fin n → 𝕜) (i : Fin n), charges C v i = charges G (Fin.cons 0 v) i.succ) ∧
        ((∀ i, ∃! v, Spec.FloatingPotentials C i v) → ∃ R : Matrix (Fin n) (Fin n) 𝕜,
          ((Query.floatingMatrix b).exec E d).1 = .ok (.matrix (DMat.ofMatrix R)) ∧ ∀ i, Spec.FloatingPotentials C i (R i)) ∧
        ((∃ i, ¬ ∃! v, Spec.FloatingPotentials C i v) → ((Query.floatingMatrix b).exec E d).1 = .nonfinite)) ∧
      (o = .semiopen → ((Query.floatingMatrix b).exec E d).1 =
        .throw (.runtimeError "Floating potentials not implemented for this kind of openness."))) := by
  obtain ⟨sols, hr⟩ := construct_ready_of E hN hd b
  have ho' : d.model.determineOpenness = .ok o := by rw [(construct_opts hd).2]; exact ho
  have hq : ((Query.floatingMatrix b).exec E d).1 =
      ((Driver.getFloatingPotentialsMatrix b d).1 >>= fun p => .ok (.matrix p)) := map_fst _ _ d
  have hlen : d.model.materials.buildNameToAttrMapForPEC.length = ps.length := by
    rw [(pecMap_perm hr.numbering.names_nodup).length_eq, List.length_map, hr.numbering.all.length_eq]
  rw [hq]
  refine ⟨fun h0 => ?_, fun h0 => ?_⟩
  · unfold Driver.getFloatingPotentialsMatrix
    rw [Act.read_bind, if_pos (by omega)]
    rfl
  · have hc : ¬ (ps.length = 1 ∧ o = .closed) := by rintro ⟨h, _⟩; omega
    obtain ⟨d', e1, hf⟩ := getGeneralizedCMatrix_spec hr ho' hc
    have hG : ((Query.generalizedC b).exec E d).1 = .ok (.matrix (DMat.ofMatrix (symPart (rawCharges ps sols hr.len)))) := by
      rw [exec_generalizedC, e1]
      rfl
    unfold Driver.getFloatingPotentialsMatrix
    rw [Act.read_bind, if_neg (by omega), ho', Act.lift_ok_bind]
    generalize symPart (rawCharges ps sols hr.len) = G at e1 hG
    rw [ofMatrix_cast hn.symm] at e1 hG
    have float : ∀ {m : Nat} (C : Matrix (Fin m) (Fin m) 𝕜) (x : Outcome (DMat 𝕜)), x = floatingFromC (DMat.ofMatrix C) →
        ((∀ i, ∃! v, Spec.FloatingPotentials C i v) → ∃ R : Matrix (Fin m) (Fin m) 𝕜,
          (x >>= fun p => Outcome.ok (Answer.matrix p)) = .ok (.matrix (DMat.ofMatrix R)) ∧ ∀ i, Spec.FloatingPotentials C i (R i)) ∧
        ((∃ i, ¬ ∃! v, Spec.FloatingPotentials C i v) → (x >>= fun p => Outcome.ok (Answer.matrix p)) = .nonfinite) := by
      rintro m C _ rfl
      obtain ⟨c1, c2⟩ := C36_floating C
      constructor
      · intro h
        obtain ⟨R, e, hR⟩ := c1 h
        exact ⟨R, by rw [e]; rfl, fun i => ⟨(hR i).1, (hR i).2.1⟩⟩
      · intro h
        rw [c2 h]
        rfl
    refine ⟨_, hG, ?_, ?_, ?_⟩
    · rintro rfl
      refine float _ _ ?_
      dsimp only
      rw [Act.bind_ok e1]
      rfl
    · rintro rfl
      obtain ⟨C, e, _, hch⟩ := C32_closed (G.submatrix (Fin.cast hn.symm) (Fin.cast hn.symm))
      refine ⟨C, fun v i => (hch v i).symm, float C _ ?_⟩
      dsimp only
      rw [Act.bind_ok e1, e, Act.lift_ok_bind]
      rfl
    · rintro rfl
      exact rfl

/-- **C37, the driver.** In a model that is open or closed, with positive permittivities and quadrature weights, fluxes of D
that agree with the discrete equations, a mesh in one piece and, if open, an open boundary that absorbs, floating
potentials are returned. -/
theorem C37_driver (E : Engine 𝕜) {model : Model 𝕜} {opts : DriverOptions}
    {ps : List (PEC 𝕜)} (hN : Numbering model.materials ps) (hB : Buildable (E.fem model opts) model.materials)
    (hW : WellDeclared model.materials) (hP : ExactSolver E.pcg)
    (he : Elliptic E.analytic (E.fem model opts) model.materials) (ht : (ps.map PEC.tag).Nodup)
    (hs : Separate (E.fem model opts) model.materials)
    (hc : Conservative E.analytic (E.fem model opts) model.materials)
    {d : Driver (E.fem model opts)} (hd : (Driver.construct E model opts).1 = .ok d) {o : Openness}
    (ho : model.determineOpenness = .ok o) (hso : o ≠ .semiopen) (h1 : OnePiece (E.fem model opts) model.materials)
    (habs : o ≠ .closed → Absorbing E.analytic (E.fem model opts) model.materials) (b : Bool) :
    ∃ M, ((Query.floatingMatrix b).exec E d).1 = .ok (.matrix M) := by
  have hw := he.wellPosed
  obtain ⟨n, hn⟩ : ∃ n, ps.length = n + 1 := by
    have := List.length_pos_of_ne_nil hN.nonempty
    exact ⟨ps.length - 1, by omega⟩
  obtain ⟨c0, c1⟩ := C36_driver E hN hd ho b hn
  rcases Nat.eq_zero_or_pos n with h0 | h0
  · exact ⟨_, c0 h0⟩
  obtain ⟨G, hG, co, cc, _⟩ := c1 h0
  have hsym : G.IsSymm := by
    obtain ⟨M, e, hp⟩ := (C77_passive E hN hB hW hP he ht hs hc hd ho (by rintro ⟨h, _⟩; omega)).1 b
    revert M
    rw [hn]
    intro M e hp
    have hsym := hp.1
    rwa [ofMatrix_eq (Answer.matrix.inj (Outcome.ok.inj (hG.symm.trans e)))]
  have zero : ∀ v, 0 ≤ v ⬝ᵥ G.mulVec v ∧ (v ⬝ᵥ G.mulVec v = 0 →
      (∀ i j, v i = v j) ∧ (o ≠ .closed → ∀ i, v i = 0)) := by
    intro v
    obtain ⟨V, t, hf, hV, hq⟩ := generalized_energy E hN hB hW hP hw ht hs hc hd ho hn hG v
    refine ⟨by rw [hq]; exact he.energy_nonneg b t, fun hv => ?_⟩
    rw [hv] at hq
    obtain ⟨hcst, hz⟩ := he.energy_zero h1 hq.symm
    have node : ∀ i : Fin (n + 1), ∃ k, t.phi k = v i := by
      intro i
      have hm : ps[i.1]'(by omega) ∈ model.materials.pecs := hN.all.mem_iff.mp (List.getElem_mem _)
      obtain ⟨k, hk⟩ := h1.nodes _ hm
      exact ⟨k, by rw [hf.at_conductor hs hm hk, hV]⟩
    constructor
    · intro i j
      obtain ⟨k, hk⟩ := node i
      obtain ⟨l, hl⟩ := node j
      rw [← hk, ← hl, hcst k l]
    · intro hoc i
      obtain ⟨k, hk⟩ := node i
      rw [← hk, hz (habs hoc) k]
  cases o with
  | semiopen => exact absurd rfl hso
  | open_ =>
    have pd : PD G := ⟨hsym, fun v hv => lt_of_le_of_ne (zero v).1 fun h => hv (funext fun i => ((zero v).2 h.symm).2 (by simp) i)⟩
    obtain ⟨R, e, _⟩ := (co rfl).1 (C37_bounds G pd).1
    exact ⟨_, e⟩
  | closed =>
    obtain ⟨C, hC, h, _⟩ := cc rfl
    have pd : PD C := by
      have hv : ∀ v : Fin n → 𝕜, v ⬝ᵥ C.mulVec v = Fin.cons (0 : 𝕜) v ⬝ᵥ G.mulVec (Fin.cons (0 : 𝕜) v) := by
        intro v
        unfold dotProduct
        rw [Fin.sum_univ_succ, Fin.cons_zero, zero_mul, zero_add]
        exact Finset.sum_congr rfl fun i _ => by
          rw [Fin.cons_succ]
          exact congrArg (v i * ·) (hC v i)
      refine ⟨?_, fun v hv0 => ?_⟩
      · have e1 : ∀ i j, C i j = G i.succ j.succ := by
          intro i j
          have := hC (fun k => if k = j then 1 else 0) i
          unfold charges Matrix.mulVec dotProduct at this
          rw [Fin.sum_univ_succ] at this
          simpa using this
        exact Matrix.IsSymm.ext fun i j => by rw [e1, e1, hsym.apply]
      · rw [hv]
        refine lt_of_le_of_ne (zero _).1 fun h => hv0 (funext fun i => ?_)
        have := ((zero _).2 h.symm).1 i.succ 0
        simpa using this
    obtain ⟨R, e, _⟩ := h (C37_bounds C pd).1
    exact ⟨_, e⟩

/-- **C87.** If permittivities and quadrature weights are positive, the fluxes of D agree with the discrete equations and no
two degrees of freedom are coupled with the wrong sign (basis functions adding up to 1, not negative on open boundaries):
no generalized capacitance matrix has a positive entry off the diagonal or a negative sum of a row; neither has the
per-unit-length capacitance matrix; no entry of the inductance matrix is negative; floating potentials are between 0
and 1. -/
theorem C87_signs (E : Engine 𝕜) {model : Model 𝕜} {opts : DriverOptions}
    {ps : List (PEC 𝕜)} (hN : Numbering model.materials ps) (hB : Buildable (E.fem model opts) model.materials)
    (hW : WellDeclared model.materials) (hP : ExactSolver E.pcg)
    (he : Elliptic E.analytic (E.fem model opts) model.materials) (ht : (ps.map PEC.tag).Nodup)
    (hs : Separate (E.fem model opts) model.materials)
    (hc : Conservative E.analytic (E.fem model opts) model.materials) (hC : RepresentsConstants (E.fem model opts))
    (hO : PositiveOnOpen (E.fem model opts) model.materials)
    (hK : ∀ b, NoPositiveCoupling E.analytic (E.fem model opts) model.materials b)
    {d : Driver (E.fem model opts)} (hd : (Driver.construct E model opts).1 = .ok d) {o : Openness}
    (ho : model.determineOpenness = .ok o) :
    (∀ (b : Bool) (G : Matrix (Fin ps.length) (Fin ps.length) 𝕜),
      ((Query.generalizedC b).exec E d).1 = .ok (.matrix (DMat.ofMatrix G)) →
      (∀ i j, i ≠ j → G i j ≤ 0) ∧ ∀ i, 0 ≤ ∑ j, G i j) ∧
    (∀ p : PULParameters 𝕜, (Query.pulMTL.exec E d).1 = .ok (.pul p) → 0 ≤ E.eps0SI → 0 ≤ E.mu0SI →
      ∃ (n : Nat) (C L : Matrix (Fin n) (Fin n) 𝕜), ps.length = n + 1 ∧ p.C = DMat.ofMatrix C ∧ p.L = DMat.ofMatrix L ∧
        (∀ i j, i ≠ j → C i j ≤ 0) ∧ (∀ i, 0 ≤ ∑ j, C i j) ∧ ∀ i j, 0 ≤ L i j) ∧
    ∀ (b : Bool) (M : DMat 𝕜), ((Query.floatingMatrix b).exec E d).1 = .ok (.matrix M) →
      ∃ (m : Nat) (R : Matrix (Fin m) (Fin m) 𝕜), M = DMat.ofMatrix R ∧
        (m = ps.length ∨ o = .closed ∧ m + 1 = ps.length) ∧ ∀ i j, 0 ≤ R i j ∧ R i j ≤ 1 ∧ R i i = 1 := by
  have gen : ∀ {n : Nat}, ps.length = n + 1 → ∀ (b : Bool) (G : Matrix (Fin (n + 1)) (Fin (n + 1)) 𝕜),
      ((Query.generalizedC b).exec E d).1 = .ok (.matrix (DMat.ofMatrix G)) →
      PSD G ∧ (∀ i j, i ≠ j → G i j ≤ 0) ∧ ∀ i, 0 ≤ ∑ j, G i j := by
    intro n hn b G hG
    refine ⟨?_, generalized_signs E hN hB hW hP he ht hs hc hC hO (hK b) hd ho hn hG⟩
    have h2 : ¬ (ps.length = 1 ∧ o = .closed) := by
      intro h
      have e := (C31_generalized E hN hd ho b).1 h
      rw [hG] at e
      cases e
    obtain ⟨M, e, hM⟩ := (C77_passive E hN hB hW hP he ht hs hc hd ho h2).1 b
    revert M
    rw [hn]
    intro M e hM
    rw [ofMatrix_eq (Answer.matrix.inj (Outcome.ok.inj (hG.symm.trans e)))]
    exact hM
  obtain ⟨n, hn⟩ : ∃ n, ps.length = n + 1 := by
    have := List.length_pos_of_ne_nil hN.nonempty
    exact ⟨ps.length - 1, by omega⟩
  refine ⟨fun b G hG => ?_, fun p hp heps hmu => ?_, fun b M hM => ?_⟩
  · have := (gen hn b)
    revert G
    rw [hn]
    intro G hG
    exact (this G hG).2
  · obtain ⟨n, G, G0, C, C0, hn, hG, hG0, hC, hC0, eC, _, hdet, eL, _, _⟩ := C35_inductance E hN hd ho hp
    obtain ⟨p1, o1, r1⟩ := gen hn false G hG
    obtain ⟨p0, o0, r0⟩ := gen hn true G0 hG0
    obtain ⟨s1, s2⟩ := reduced_signs p1.1 o1 r1 hC
    refine ⟨n, _, _, hn, eC, eL, fun i j hij => ?_, fun i => ?_, fun i j => ?_⟩
    · rw [Matrix.smul_apply, smul_eq_mul]
      exact mul_nonpos_of_nonneg_of_nonpos heps (s1 i j hij)
    · simp only [Matrix.smul_apply, smul_eq_mul]
      rw [← Finset.mul_sum]
      exact mul_nonneg heps (s2 i)
    · rw [Matrix.smul_apply, smul_eq_mul]
      exact mul_nonneg hmu (inverse_nonneg (reduced_psd p0 hC0) (reduced_signs p0.1 o0 r0 hC0).1 hdet i j)
  · rcases floating_driver E hN hd ho hn hM with ⟨h0, e⟩ | ⟨_, hso, G, hG, h1, h2⟩
    · exact ⟨1, _, e, Or.inl (by omega), fun i j => ⟨zero_le_one, le_refl _, rfl⟩⟩
    · obtain ⟨p1, o1, r1⟩ := gen hn b G hG
      cases o with
      | semiopen => exact absurd rfl hso
      | open_ =>
        obtain ⟨R, e, hR⟩ := floating_bounds p1 o1 r1 (h1 rfl)
        exact ⟨n + 1, R, e, Or.inl hn.symm, hR⟩
      | closed =>
        obtain ⟨C, hC, hf⟩ := h2 rfl
        obtain ⟨s1, s2⟩ := reduced_signs p1.1 o1 r1 hC
        obtain ⟨R, e, hR⟩ := floating_bounds (reduced_psd p1 hC) s1 s2 hf
        exact ⟨n, R, e, Or.inr ⟨rfl, hn.symm⟩, hR⟩

end
end Tulip.Props

namespace Tulip.Props
open Tulip Tulip.Spec Matrix

/-! ## The open model `wires` -/

theorem line_constants : RepresentsConstants line where
  dom := by decide +kernel
  bdr := by decide +kernel
  gradN := by decide +kernel
  grad := by
    refine funext fun k => (line_grad (fun _ => 1) k).trans ?_
    have : ∀ k : Fin 3, (![1 - 1, 1 - 1, 1 - 1] : Fin 3 → ℚ) k = 0 := by decide +kernel
    exact this k

theorem line_positive : PositiveOnOpen line wires.materials := by unfold PositiveOnOpen; decide +kernel

theorem wires_couplings (b : Bool) : NoPositiveCoupling lineAnalytic line wires.materials b := by
  intro i j hij
  have w : ∀ (u : Fin 4 → ℚ) (k : Fin 4), weakForm lineAnalytic line (declaredEps wires.materials b)
      (wires.materials.openBoundaries.map OpenBoundary.tag) u k =
      (if b then !![1, -1, 0, 0; -1, 2, -1, 0; 0, -1, 2, -1; 0, 0, -1, 2]
        else !![1, -1, 0, 0; -1, 2, -1, 0; 0, -1, 3, -2; 0, 0, -2, 3] : Matrix (Fin 4) (Fin 4) ℚ).mulVec u k :=
    fun u k => (systemMatrix_mulVec (F := line) _ b u k).symm.trans (congrFun (congrArg (fun M => Matrix.mulVec M u) (wires_system b)) k)
  refine (w _ i).trans_le ?_
  have : ∀ i j : Fin 4, i ≠ j → (if b then !![1, -1, 0, 0; -1, 2, -1, 0; 0, -1, 2, -1; 0, 0, -1, 2]
        else !![1, -1, 0, 0; -1, 2, -1, 0; 0, -1, 3, -2; 0, 0, -2, 3] : Matrix (Fin 4) (Fin 4) ℚ).mulVec
        (fun k => if k = j then 1 else 0) i ≤ 0 := by
    cases b <;> decide +kernel
  exact this i j hij

/-- `C83_couplings_partial` and `C87_signs` hold of the open model `wires`: stored potentials are between 0 and 1, the
self inductance is not negative. -/
example (opts : DriverOptions) : ∃ d, (Driver.construct lineEngine wires opts).1 = .ok d ∧
    (∀ b t, some t ∈ (Driver.problem b d).solutions → ∀ k, 0 ≤ t.phi k ∧ t.phi k ≤ 1) ∧
    ∃ (p : PULParameters ℚ) (n : Nat) (C L : Matrix (Fin n) (Fin n) ℚ), (Query.pulMTL.exec lineEngine d).1 = .ok (.pul p) ∧
      wiresPs.length = n + 1 ∧ p.C = DMat.ofMatrix C ∧ p.L = DMat.ofMatrix L ∧
      (∀ i j, i ≠ j → C i j ≤ 0) ∧ (∀ i, 0 ≤ ∑ j, C i j) ∧ ∀ i j, 0 ≤ L i j := by
  obtain ⟨d, p, hd, hp⟩ := wires_parameters opts
  refine ⟨d, hd, fun b t ht => ?_, p, ?_⟩
  · exact (C83_couplings_partial lineEngine wires_numbering (wires_buildable opts) wires_declared inverseSolver_exact
      wires_elliptic wires_separate line_constants line_positive (wires_couplings b)).2 d hd t ht
  · obtain ⟨n, C, L, h⟩ := (C87_signs lineEngine wires_numbering (wires_buildable opts) wires_declared inverseSolver_exact
      wires_elliptic (by decide +kernel) wires_separate wires_conservative line_constants line_positive wires_couplings hd
      wires_open).2.1 p hp (by decide +kernel) (by decide +kernel)
    exact ⟨n, C, L, hp, h⟩

/-- `C37_driver` and `C87_signs`: the floating potentials of `wires` are returned and lie between 0 and 1. -/
example (opts : DriverOptions) (b : Bool) : ∃ d, (Driver.construct lineEngine wires opts).1 = .ok d ∧
    ∃ R : Matrix (Fin 2) (Fin 2) ℚ, ((Query.floatingMatrix b).exec lineEngine d).1 = .ok (.matrix (DMat.ofMatrix R)) ∧
      ∀ i j, 0 ≤ R i j ∧ R i j ≤ 1 ∧ R i i = 1 := by
  obtain ⟨d, p, hd, hp⟩ := wires_parameters opts
  obtain ⟨M, hM⟩ := C37_driver lineEngine wires_numbering (wires_buildable opts) wires_declared inverseSolver_exact
    wires_elliptic (by decide +kernel) wires_separate wires_conservative hd wires_open (by simp) line_onePiece
    (fun _ => line_absorbing) b
  obtain ⟨m, R, rfl, hm, hR⟩ := (C87_signs lineEngine wires_numbering (wires_buildable opts) wires_declared inverseSolver_exact
      wires_elliptic (by decide +kernel) wires_separate wires_conservative line_constants line_positive wires_couplings hd
      wires_open).2.2 b M hM
  have : m = 2 := hm.resolve_right (fun h => by cases h.1)
  subst this
  exact ⟨d, hd, R, hM, hR⟩

end Tulip.Props
