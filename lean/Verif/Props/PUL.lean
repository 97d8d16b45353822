import Verif.Props.DriverQuery
import Verif.Props.DriverCharge
import Verif.Props.Capacitance
import Verif.Proofs.Prescribed

/-!
# C72: what the per-unit-length parameters mean
-/

set_option linter.unusedSectionVars false

namespace Tulip.Props
open Tulip Tulip.Spec Matrix

variable {𝕜 : Type} [Field 𝕜] [DecidableEq 𝕜] [LinearOrder 𝕜]

theorem ofMatrix_cast {a b : Nat} (h : b = a) (M : Matrix (Fin a) (Fin a) 𝕜) :
    DMat.ofMatrix M = DMat.ofMatrix (M.submatrix (Fin.cast h) (Fin.cast h)) := by
  subst h
  rfl

theorem ofMatrix_eq {a b : Nat} {A B : Matrix (Fin a) (Fin b) 𝕜} (h : DMat.ofMatrix A = DMat.ofMatrix B) : A = B := by
  have := (DMat.mk.inj h).2.2
  exact eq_of_heq this

/-- The reduced matrix relates charges and potentials of an operated line. -/
theorem reduced_charges {n : Nat} {G : Matrix (Fin (n + 1)) (Fin (n + 1)) 𝕜} {C : Matrix (Fin n) (Fin n) 𝕜} {o : Openness}
    (hC : getCFromGeneralizedC (DMat.ofMatrix G) o = .ok (DMat.ofMatrix C)) {v : Fin (n + 1) → 𝕜}
    (hop : if o = .closed then v 0 = 0 else ∑ i, charges G v i = 0) (i : Fin n) :
    charges G v i.succ = C.mulVec (fun j => v j.succ - v 0) i := by
  split at hop
  · next ho =>
    subst ho
    obtain ⟨C', h1, _, h3⟩ := C32_closed G
    rw [hC] at h1
    have := ofMatrix_eq (Outcome.ok.inj h1)
    subst this
    have hv : Fin.cons (0 : 𝕜) (fun j : Fin n => v j.succ) = v := by
      funext k
      refine Fin.cases ?_ (fun j => ?_) k
      · rw [Fin.cons_zero, hop]
      · rw [Fin.cons_succ]
    have := h3 (fun j => v j.succ) i
    rw [hv] at this
    rw [this]
    congr 1
    funext j
    rw [hop, sub_zero]
  · next ho =>
    by_cases hden : ∑ i, ∑ j, G i j = 0
    · have hn : 0 < n := i.pos
      rw [(C33_open G o ho).2 hden hn] at hC
      cases hC
    · obtain ⟨C', h1, h2, _⟩ := (C33_open G o ho).1 hden
      rw [hC] at h1
      have := ofMatrix_eq (Outcome.ok.inj h1)
      subst this
      exact h2 v hop i

/-- Charges are the generalized capacitance matrix times the potentials. -/
theorem charges_of_field [IsStrictOrderedRing 𝕜] (E : Engine 𝕜) {model : Model 𝕜} {opts : DriverOptions}
    {ps : List (PEC 𝕜)} (hN : Numbering model.materials ps) (hB : Buildable (E.fem model opts) model.materials)
    (hW : WellDeclared model.materials) (hP : ExactSolver E.pcg)
    (hw : WellPosed E.analytic (E.fem model opts) model.materials) (ht : (ps.map PEC.tag).Nodup)
    (hs : Separate (E.fem model opts) model.materials) {b : Bool}
    (hr : Reciprocity E.analytic (E.fem model opts) model.materials b)
    {d : Driver (E.fem model opts)} (hd : (Driver.construct E model opts).1 = .ok d) {o : Openness}
    (ho : model.determineOpenness = .ok o) {n : Nat} (hn : ps.length = n + 1)
    {G : Matrix (Fin (n + 1)) (Fin (n + 1)) 𝕜}
    (hG : ((Query.generalizedC b).exec E d).1 = .ok (.matrix (DMat.ofMatrix G))) {V : Int → 𝕜}
    {t : SolverSolution (E.fem model opts)}
    (h : PrescribedField E.analytic (E.fem model opts) model.materials b V t) (i : Fin (n + 1)) :
    chargeOn t (ps[i.1]'(by omega)).tag = charges G (fun j => V (ps[j.1]'(by omega)).tag) i := by
  obtain ⟨sols, hlen, hst, hf⟩ := C29_excitation E hN hB d hd b
  have hu : ∀ j : Fin ps.length, PrescribedField E.analytic (E.fem model opts) model.materials b (oneVolt ps[j].tag)
      (sols[j.1]'(by omega)) := fun j => (hf j.1 j.2 (by omega)).2 hW hP hw
  obtain ⟨c1, c2⟩ := C31_generalized E hN hd ho b
  have hc : ¬ (ps.length = 1 ∧ o = .closed) := by
    intro hc
    have e := c1 hc
    rw [hG] at e
    cases e
  obtain ⟨M, e, _, hM⟩ := c2 hc
  rw [hG, ofMatrix_cast hn.symm M] at e
  have hGM := ofMatrix_eq (Answer.matrix.inj (Outcome.ok.inj e))
  have hstored : ∀ j : Fin ps.length, (Driver.problem b d).solutions[j.1]? = some (some (sols[j.1]'(by omega))) := by
    intro j
    rw [hst, List.getElem?_map, List.getElem?_eq_getElem (by omega)]
    rfl
  have hval : ∀ j k : Fin ps.length, M j k = chargeOn (sols[k.1]'(by omega)) ps[j].tag := by
    intro j k
    rw [hM j k _ _ (hstored j) (hstored k),
      hr ps[j] (hN.all.mem_iff.mp (List.getElem_mem _)) ps[k] (hN.all.mem_iff.mp (List.getElem_mem _)) _ _ (hu j) (hu k)]
    have h2 : (2 : 𝕜) ≠ 0 := two_ne_zero
    field_simp
    ring
  rw [h.eq_superposed hw hs hN ht hu]
  unfold chargeOn
  rw [← flux_neg_one, flux_superposed]
  simp only [flux_neg_one]
  subst hGM
  unfold charges Matrix.mulVec dotProduct
  refine (Fintype.sum_equiv (finCongr hn) _ _ (fun k => ?_))
  show _ = M (i.cast hn.symm) k * V ps[k].tag
  rw [hval, mul_comm]
  rfl

/-- **C72.** If the per-unit-length parameters are computed, `C` gives the charges on conductors 1..n of the operated
line from their voltages to conductor 0, in the field with dielectrics; `L` gives these voltages times mu0 from the
charges, in the field without. -/
theorem C72_parameters [IsStrictOrderedRing 𝕜] (E : Engine 𝕜) {model : Model 𝕜} {opts : DriverOptions}
    {ps : List (PEC 𝕜)} (hN : Numbering model.materials ps) (hB : Buildable (E.fem model opts) model.materials)
    (hW : WellDeclared model.materials) (hP : ExactSolver E.pcg)
    (hw : WellPosed E.analytic (E.fem model opts) model.materials) (ht : (ps.map PEC.tag).Nodup)
    (hs : Separate (E.fem model opts) model.materials)
    (hr : ∀ b, Reciprocity E.analytic (E.fem model opts) model.materials b)
    {d : Driver (E.fem model opts)} (hd : (Driver.construct E model opts).1 = .ok d) {o : Openness}
    (ho : model.determineOpenness = .ok o) {p : PULParameters 𝕜}
    (hp : (Query.pulMTL.exec E d).1 = .ok (.pul p)) :
    ∃ (n : Nat) (hn : ps.length = n + 1) (C L : Matrix (Fin n) (Fin n) 𝕜),
      p.C = DMat.ofMatrix C ∧ p.L = DMat.ofMatrix L ∧
      (∀ (V : Int → 𝕜) (t : SolverSolution (E.fem model opts)),
        PrescribedField E.analytic (E.fem model opts) model.materials false V t → Operated o ps V t →
        ∀ i : Fin n, E.eps0SI * chargeOn t (ps[i.1 + 1]'(by omega)).tag =
          ∑ j : Fin n, C i j * (V (ps[j.1 + 1]'(by omega)).tag - V (ps[0]'(by omega)).tag)) ∧
      (∀ (V : Int → 𝕜) (t : SolverSolution (E.fem model opts)),
        PrescribedField E.analytic (E.fem model opts) model.materials true V t → Operated o ps V t →
        ∀ i : Fin n, E.mu0SI * (V (ps[i.1 + 1]'(by omega)).tag - V (ps[0]'(by omega)).tag) =
          ∑ j : Fin n, L i j * chargeOn t (ps[j.1 + 1]'(by omega)).tag) := by
  obtain ⟨n, G, G0, C, C0, hn, hG, hG0, hC, hC0, eC, _, hdet, eL, _, _⟩ := C35_inductance E hN hd ho hp
  have key : ∀ (b : Bool) (G : Matrix (Fin (n + 1)) (Fin (n + 1)) 𝕜) (C : Matrix (Fin n) (Fin n) 𝕜),
      ((Query.generalizedC b).exec E d).1 = .ok (.matrix (DMat.ofMatrix G)) →
      getCFromGeneralizedC (DMat.ofMatrix G) o = .ok (DMat.ofMatrix C) →
      ∀ (V : Int → 𝕜) (t : SolverSolution (E.fem model opts)),
        PrescribedField E.analytic (E.fem model opts) model.materials b V t → Operated o ps V t →
        ∀ i : Fin n, chargeOn t (ps[i.1 + 1]'(by omega)).tag =
          C.mulVec (fun j => V (ps[j.1 + 1]'(by omega)).tag - V (ps[0]'(by omega)).tag) i := by
    intro b G C hG hC V t hf hop i
    have hch := charges_of_field E hN hB hW hP hw ht hs (hr b) hd ho hn hG hf
    refine (hch i.succ).trans (reduced_charges hC ?_ i)
    unfold Operated at hop
    split
    · next h =>
      rw [if_pos h] at hop
      exact hop _ (List.getElem?_eq_getElem (by omega))
    · next h =>
      rw [if_neg h] at hop
      rw [← hop, ← Fin.sum_univ_fun_getElem ps (fun q => chargeOn t q.tag)]
      refine (Fintype.sum_equiv (finCongr hn) _ _ (fun k => ?_)).symm
      exact hch (Fin.cast hn k)
  refine ⟨n, hn, E.eps0SI • C, E.mu0SI • C0⁻¹, eC, eL, ?_, ?_⟩
  · intro V t hf hop i
    rw [key false G C hG hC V t hf hop i]
    unfold Matrix.mulVec dotProduct
    rw [Finset.mul_sum]
    refine Finset.sum_congr rfl (fun j _ => ?_)
    rw [Matrix.smul_apply, smul_eq_mul, mul_assoc]
  · intro V t hf hop i
    have h := funext (key true G0 C0 hG0 hC0 V t hf hop)
    have hinv : C0⁻¹.mulVec (fun j : Fin n => chargeOn t (ps[j.1 + 1]'(by omega)).tag) =
        fun j => V (ps[j.1 + 1]'(by omega)).tag - V (ps[0]'(by omega)).tag := by
      rw [h, Matrix.mulVec_mulVec, Matrix.nonsing_inv_mul _ (isUnit_iff_ne_zero.mpr hdet), Matrix.one_mulVec]
    rw [← congrFun hinv i]
    unfold Matrix.mulVec dotProduct
    rw [Finset.mul_sum]
    refine Finset.sum_congr rfl (fun j _ => ?_)
    rw [Matrix.smul_apply, smul_eq_mul, mul_assoc]

/-! ## C73 -/

/-- When the reduction of a generalized capacitance matrix has a finite result. -/
theorem reduce_iff {n : Nat} (G : Matrix (Fin (n + 1)) (Fin (n + 1)) 𝕜) (o : Openness) :
    (∃ C : Matrix (Fin n) (Fin n) 𝕜, getCFromGeneralizedC (DMat.ofMatrix G) o = .ok (DMat.ofMatrix C)) ↔
      (o ≠ .closed → 0 < n → ∑ i, ∑ j, G i j ≠ 0) := by
  constructor
  · rintro ⟨C, h⟩ ho hn e
    rw [(C33_open G o ho).2 e hn] at h
    cases h
  · intro h
    by_cases ho : o = .closed
    · subst ho
      obtain ⟨C, e, _⟩ := C32_closed G
      exact ⟨C, e⟩
    · cases n with
      | zero => exact ⟨_, getC_single G⟩
      | succ n =>
        obtain ⟨C, e, _⟩ := (C33_open G o ho).1 (h ho (Nat.succ_pos _))
        exact ⟨C, e⟩

/-- The reduced matrix is nonsingular iff zero charges imply zero voltages. -/
theorem reduced_det {n : Nat} {G : Matrix (Fin (n + 1)) (Fin (n + 1)) 𝕜} {C : Matrix (Fin n) (Fin n) 𝕜} {o : Openness}
    (hC : getCFromGeneralizedC (DMat.ofMatrix G) o = .ok (DMat.ofMatrix C)) :
    C.det ≠ 0 ↔ ∀ v : Fin (n + 1) → 𝕜, (if o = .closed then v 0 = 0 else ∑ i, charges G v i = 0) →
      (∀ i : Fin n, charges G v i.succ = 0) → ∀ i : Fin n, v i.succ = v 0 := by
  constructor
  · intro hdet v hop hz i
    have h : C.mulVec (fun j => v j.succ - v 0) = 0 := by
      funext k
      rw [← reduced_charges hC hop k]
      exact hz k
    have := congrFun (Matrix.eq_zero_of_mulVec_eq_zero hdet h) i
    exact sub_eq_zero.mp this
  · intro h hdet
    obtain ⟨w, hw, hz⟩ := Matrix.exists_mulVec_eq_zero_iff.mpr hdet
    have hn : 0 < n := by
      by_contra hn
      have : n = 0 := by omega
      subst this
      exact hw (funext (fun i => i.elim0))
    obtain ⟨x, hx⟩ : ∃ x : 𝕜, if o = .closed then x = 0 else
        ∑ i, charges G (Fin.cons x (fun j : Fin n => w j + x)) i = 0 := by
      split
      · exact ⟨0, rfl⟩
      · next ho =>
        have ht : ∑ i, ∑ j, G i j ≠ 0 := (reduce_iff G o).mp ⟨C, hC⟩ ho hn
        refine ⟨-(∑ i, charges G (Fin.cons 0 w) i) / ∑ i, ∑ j, G i j, ?_⟩
        generalize hx : -(∑ i, charges G (Fin.cons 0 w) i) / ∑ i, ∑ j, G i j = x
        have e : ∀ i, charges G (Fin.cons x (fun j : Fin n => w j + x)) i =
            charges G (Fin.cons 0 w) i + x * ∑ j, G i j := by
          intro i
          simp only [charges, Matrix.mulVec, dotProduct, Fin.sum_univ_succ, Fin.cons_zero, Fin.cons_succ, mul_add,
            Finset.sum_add_distrib, Finset.mul_sum]
          have : ∀ j : Fin n, G i j.succ * x = x * G i j.succ := fun j => mul_comm _ _
          simp only [this]
          ring
        simp only [e, Finset.sum_add_distrib, ← Finset.mul_sum]
        rw [← hx]
        field_simp
        ring
    have hop : if o = .closed then (Fin.cons x (fun j : Fin n => w j + x) : Fin (n + 1) → 𝕜) 0 = 0 else
        ∑ i, charges G (Fin.cons x (fun j : Fin n => w j + x)) i = 0 := by
      rw [Fin.cons_zero]
      exact hx
    have hv : (fun j : Fin n => (Fin.cons x (fun j : Fin n => w j + x) : Fin (n + 1) → 𝕜) j.succ -
        (Fin.cons x (fun j : Fin n => w j + x) : Fin (n + 1) → 𝕜) 0) = w := by
      funext j
      rw [Fin.cons_succ, Fin.cons_zero, add_sub_cancel_right]
    apply hw
    funext i
    have := h _ hop (fun i => by rw [reduced_charges hC hop i, hv, hz]; rfl) i
    rw [Fin.cons_succ, Fin.cons_zero] at this
    exact add_eq_right.mp this

/-- **C73.** The per-unit-length parameters are computed exactly when the reductions do not divide by zero (for open and
semiopen models of more than one conductor the entries of both generalized matrices must not add up to zero) and,
without dielectrics, an operated line without charge on conductors 1..n has no voltages. -/
theorem C73_success (E : Engine 𝕜) {model : Model 𝕜} {opts : DriverOptions} {ps : List (PEC 𝕜)}
    (hN : Numbering model.materials ps) {d : Driver (E.fem model opts)}
    (hd : (Driver.construct E model opts).1 = .ok d) {o : Openness} (ho : model.determineOpenness = .ok o) {n : Nat}
    {G G0 : Matrix (Fin (n + 1)) (Fin (n + 1)) 𝕜}
    (hG : ((Query.generalizedC false).exec E d).1 = .ok (.matrix (DMat.ofMatrix G)))
    (hG0 : ((Query.generalizedC true).exec E d).1 = .ok (.matrix (DMat.ofMatrix G0))) :
    (∃ p, (Query.pulMTL.exec E d).1 = .ok (.pul p)) ↔
      (o ≠ .closed → 0 < n → ∑ i, ∑ j, G i j ≠ 0 ∧ ∑ i, ∑ j, G0 i j ≠ 0) ∧
      ∀ v : Fin (n + 1) → 𝕜, (if o = .closed then v 0 = 0 else ∑ i, charges G0 v i = 0) →
        (∀ i : Fin n, charges G0 v i.succ = 0) → ∀ i : Fin n, v i.succ = v 0 := by
  have inj : ∀ {a b : Nat} {A : Matrix (Fin a) (Fin a) 𝕜} {B : Matrix (Fin b) (Fin b) 𝕜},
      DMat.ofMatrix A = DMat.ofMatrix B → a = b := fun h => (DMat.mk.inj h).1
  constructor
  · rintro ⟨p, hp⟩
    obtain ⟨m, G', G0', C, C0, hn, g1, g2, hC, hC0, _, _, hdet, _⟩ := C35_inductance E hN hd ho hp
    have e1 := Answer.matrix.inj (Outcome.ok.inj (hG.symm.trans g1))
    have e2 := Answer.matrix.inj (Outcome.ok.inj (hG0.symm.trans g2))
    have hm : n = m := by have := inj e1; omega
    subst hm
    have := ofMatrix_eq e1
    subst this
    have := ofMatrix_eq e2
    subst this
    exact ⟨fun h1 h2 => ⟨(reduce_iff _ o).mp ⟨C, hC⟩ h1 h2, (reduce_iff _ o).mp ⟨C0, hC0⟩ h1 h2⟩,
      (reduced_det hC0).mp hdet⟩
  · rintro ⟨h1, h2⟩
    obtain ⟨C, hC⟩ := (reduce_iff G o).mpr (fun a b => (h1 a b).1)
    obtain ⟨C0, hC0⟩ := (reduce_iff G0 o).mpr (fun a b => (h1 a b).2)
    have hdet := (reduced_det hC0).mpr h2
    have ho' : d.model.determineOpenness = .ok o := by rw [(construct_opts hd).2]; exact ho
    obtain ⟨se, hre⟩ := construct_ready_of E hN hd false
    obtain ⟨sm, hrm⟩ := construct_ready_of E hN hd true
    by_cases hc : ps.length = 1 ∧ o = .closed
    · exfalso
      have e := (C31_generalized E hN hd ho false).1 hc
      rw [hG] at e
      cases e
    obtain ⟨d1, e1, _⟩ := getGeneralizedCMatrix_spec hre ho' hc
    obtain ⟨d2, e2, _⟩ := getGeneralizedCMatrix_spec hrm ho' hc
    have hM := getCMatrix_eq hre ho' hc
    have hL := getLMatrix_eq hrm ho' hc
    rw [exec_generalizedC, e1] at hG
    rw [exec_generalizedC, e2] at hG0
    have k1 : DMat.ofMatrix (symPart (rawCharges ps se hre.len)) = DMat.ofMatrix G :=
      Answer.matrix.inj (Outcome.ok.inj hG)
    have k2 : DMat.ofMatrix (symPart (rawCharges ps sm hrm.len)) = DMat.ofMatrix G0 :=
      Answer.matrix.inj (Outcome.ok.inj hG0)
    rw [k1, hC] at hM
    rw [k2, hC0, Outcome.ok_bind, invert_ofMatrix, if_neg hdet] at hL
    exact ⟨_, by rw [exec_pulMTL, getPULMTL_make hM hL]; rfl⟩

/-- The per-unit-length parameters from the generalized matrices. -/
theorem pul_of_matrices (E : Engine 𝕜) {model : Model 𝕜} {opts : DriverOptions} {ps : List (PEC 𝕜)}
    (hN : Numbering model.materials ps) {d : Driver (E.fem model opts)}
    (hd : (Driver.construct E model opts).1 = .ok d) {o : Openness} (ho : model.determineOpenness = .ok o) {n : Nat}
    {G G0 : Matrix (Fin (n + 1)) (Fin (n + 1)) 𝕜}
    (hG : ((Query.generalizedC false).exec E d).1 = .ok (.matrix (DMat.ofMatrix G)))
    (hG0 : ((Query.generalizedC true).exec E d).1 = .ok (.matrix (DMat.ofMatrix G0)))
    {C C0 : Matrix (Fin n) (Fin n) 𝕜} (hC : getCFromGeneralizedC (DMat.ofMatrix G) o = .ok (DMat.ofMatrix C))
    (hC0 : getCFromGeneralizedC (DMat.ofMatrix G0) o = .ok (DMat.ofMatrix C0)) (hdet : C0.det ≠ 0) :
    ∃ p, (Query.pulMTL.exec E d).1 = .ok (.pul p) ∧ p.C = DMat.ofMatrix (E.eps0SI • C) ∧
      p.L = DMat.ofMatrix (E.mu0SI • C0⁻¹) := by
  have inj : ∀ {a b : Nat} {A : Matrix (Fin a) (Fin a) 𝕜} {B : Matrix (Fin b) (Fin b) 𝕜},
      DMat.ofMatrix A = DMat.ofMatrix B → a = b := fun h => (DMat.mk.inj h).1
  obtain ⟨p, hp⟩ := (C73_success E hN hd ho hG hG0).mpr ⟨fun h1 h2 => ⟨(reduce_iff _ o).mp ⟨C, hC⟩ h1 h2,
    (reduce_iff _ o).mp ⟨C0, hC0⟩ h1 h2⟩, (reduced_det hC0).mp hdet⟩
  refine ⟨p, hp, ?_⟩
  obtain ⟨m, G', G0', D, D0, hn, g1, g2, hD, hD0, h1, _, _, h2, _⟩ := C35_inductance E hN hd ho hp
  have e1 := Answer.matrix.inj (Outcome.ok.inj (hG.symm.trans g1))
  have e2 := Answer.matrix.inj (Outcome.ok.inj (hG0.symm.trans g2))
  have hm : n = m := by have := inj e1; omega
  subst hm
  have := ofMatrix_eq e1
  subst this
  have := ofMatrix_eq e2
  subst this
  have k1 := ofMatrix_eq (Outcome.ok.inj (hC.symm.trans hD))
  have k2 := ofMatrix_eq (Outcome.ok.inj (hC0.symm.trans hD0))
  rw [k1, k2]
  exact ⟨h1, h2⟩

/-! ## Examples -/

theorem wires_separate : Separate line wires.materials := by
  intro p _ q _ k hp hq
  rcases (line_on _ _).mp hp with ⟨e, e'⟩ | ⟨e, e'⟩ | ⟨e, e'⟩
  all_goals rcases (line_on _ _).mp hq with ⟨f, f'⟩ | ⟨f, f'⟩ | ⟨f, f'⟩
  all_goals first | exact e.trans f.symm | (have h := e'.symm.trans f'; cases h)

theorem pair_separate : Separate chain pair.materials := by
  intro p _ q _ k hp hq
  rcases (chain_on _ _).mp hp with ⟨e, e'⟩ | ⟨e, e'⟩
  all_goals rcases (chain_on _ _).mp hq with ⟨f, f'⟩ | ⟨f, f'⟩
  all_goals first | exact e.trans f.symm | (have h := e'.symm.trans f'; cases h)

theorem wires_reciprocity (b : Bool) : Reciprocity lineAnalytic line wires.materials b := by
  intro p hp q hq t u ht hu
  have h1 := wires_charges ht
  have h2 := wires_charges hu
  have hp' : p.tag = 2 ∨ p.tag = 1 := by
    rcases List.mem_cons.mp hp with rfl | hp
    · exact Or.inl rfl
    · exact Or.inr (by rw [List.mem_singleton.mp hp])
  have hq' : q.tag = 2 ∨ q.tag = 1 := by
    rcases List.mem_cons.mp hq with rfl | hq
    · exact Or.inl rfl
    · exact Or.inr (by rw [List.mem_singleton.mp hq])
  rcases hp' with e | e <;> rcases hq' with f | f <;> rw [e] at h1 ⊢ <;> rw [f] at h2 ⊢
  · rw [h1.2, h2.2]
  · rw [h1.1, h2.2]; simp [oneVolt]; norm_num
  · rw [h1.2, h2.1]; simp [oneVolt]; norm_num
  · rw [h1.1, h2.1]

theorem pair_reciprocity (b : Bool) : Reciprocity noAnalytic chain pair.materials b := by
  intro p hp q hq t u ht hu
  have h1 := pair_charges ht
  have h2 := pair_charges hu
  have hp' : p.tag = 1 ∨ p.tag = 2 := by
    have : p.tag ∈ pair.materials.pecs.map PEC.tag := List.mem_map_of_mem hp
    have e : pair.materials.pecs.map PEC.tag ⊆ [1, 2] := by decide +kernel
    simpa using e this
  have hq' : q.tag = 1 ∨ q.tag = 2 := by
    have : q.tag ∈ pair.materials.pecs.map PEC.tag := List.mem_map_of_mem hq
    have e : pair.materials.pecs.map PEC.tag ⊆ [1, 2] := by decide +kernel
    simpa using e this
  rcases hp' with e | e <;> rcases hq' with f | f <;> rw [e] at h1 ⊢ <;> rw [f] at h2 ⊢
  · rw [h1.1, h2.1]
  · rw [h1.2, h2.1]; simp [oneVolt]
  · rw [h1.1, h2.2]; simp [oneVolt]
  · rw [h1.2, h2.2]

/-- The generalized capacitances of `wires`. -/
theorem wires_generalized {opts : DriverOptions} {d : Driver (lineEngine.fem wires opts)}
    (hd : (Driver.construct lineEngine wires opts).1 = .ok d) (b : Bool) :
    ((Query.generalizedC b).exec lineEngine d).1 =
      .ok (.matrix (DMat.ofMatrix !![1 / 2, -1 / 2; -1 / 2, if b then 1 else 7 / 6])) := by
  obtain ⟨M, e, _, hM⟩ := (C31_generalized lineEngine wires_numbering hd wires_open b).2 (by rintro ⟨_, h⟩; cases h)
  obtain ⟨sols, hl, hst, hf⟩ := C29_excitation lineEngine wires_numbering (wires_buildable opts) d hd b
  have hs : ∀ j : Fin 2, (Driver.problem b d).solutions[j.1]? = some (some (sols[j.1]'(by rw [hl]; exact j.2))) := by
    intro j
    rw [hst, List.getElem?_map, List.getElem?_eq_getElem (by rw [hl]; exact j.2)]
    rfl
  have h0 := wires_charges ((hf 0 (by decide) (by rw [hl]; decide)).2 wires_declared inverseSolver_exact wires_posed)
  have h1 := wires_charges ((hf 1 (by decide) (by rw [hl]; decide)).2 wires_declared inverseSolver_exact wires_posed)
  rw [e]
  congr 3
  have e : ∀ i j : Fin 2, M i j = (!![1 / 2, -1 / 2; -1 / 2, if b then 1 else 7 / 6] : Matrix (Fin 2) (Fin 2) ℚ) i j := by
    intro i j
    rw [hM i j _ _ (hs i) (hs j)]
    fin_cases i <;> fin_cases j
    · refine (congrArg₂ (fun x y => (x + y) / 2) h0.1 h0.1).trans ?_
      simp [oneVolt, wiresPs]
    · refine (congrArg₂ (fun x y => (x + y) / 2) h0.2 h1.1).trans ?_
      simp [oneVolt, wiresPs]
      norm_num
    · refine (congrArg₂ (fun x y => (x + y) / 2) h1.1 h0.2).trans ?_
      simp [oneVolt, wiresPs]
      norm_num
    · refine (congrArg₂ (fun x y => (x + y) / 2) h1.2 h1.2).trans ?_
      simp [oneVolt, wiresPs]
  exact funext (fun i => funext (fun j => e i j))

/-- Per-unit-length parameters of `wires`, an open model, are computed (C73)... -/
theorem wires_parameters (opts : DriverOptions) : ∃ d p, (Driver.construct lineEngine wires opts).1 = .ok d ∧
    (Query.pulMTL.exec lineEngine d).1 = .ok (.pul p) := by
  obtain ⟨d, hd, _⟩ := (C27_accepts lineEngine wires opts (by decide +kernel)
    wires_numbering.readable).2 ⟨_, wires_numbering⟩ (wires_buildable opts)
  obtain ⟨p, hp⟩ := (C73_success lineEngine wires_numbering hd wires_open (n := 1) (wires_generalized hd false)
    (wires_generalized hd true)).mpr (by
      refine ⟨fun _ _ => ?_, ?_⟩
      · simp [Fin.sum_univ_two]
        norm_num
      · intro v hv h i
        have h := h i
        fin_cases i
        rw [if_neg (by decide)] at hv
        simp [charges, Fin.sum_univ_two, Matrix.mulVec, dotProduct] at hv h ⊢
        linarith)
  exact ⟨d, p, hd, hp⟩

/-- ... and C72 determines them: with conductor 0 at 2 V and conductor 1 at 0 V the total charge is zero. -/
example (opts : DriverOptions) : ∃ d p, (Driver.construct lineEngine wires opts).1 = .ok d ∧
    (Query.pulMTL.exec lineEngine d).1 = .ok (.pul p) ∧ p.C = DMat.ofMatrix !![1 / 14] ∧ p.L = DMat.ofMatrix !![10] := by
  obtain ⟨d, p, hd, hp⟩ := wires_parameters opts
  refine ⟨d, p, hd, hp, ?_⟩
  obtain ⟨n, hn, C, L, eC, eL, h1, h2⟩ := C72_parameters lineEngine wires_numbering (wires_buildable opts) wires_declared
    inverseSolver_exact wires_posed (by decide +kernel) wires_separate wires_reciprocity hd wires_open hp
  have hn' : n = 1 := by
    have : wiresPs.length = 2 := rfl
    omega
  subst hn'
  have field : ∀ b, ∃ t, PrescribedField lineAnalytic line wires.materials b (fun a => 2 * oneVolt 1 a) t := by
    intro b
    obtain ⟨sols, hl, _, hf⟩ := C29_excitation lineEngine wires_numbering (wires_buildable opts) d hd b
    have h0 := (hf 0 (by decide) (by rw [hl]; decide)).2 wires_declared inverseSolver_exact wires_posed
    have := Spec.PrescribedField.superposed wires_separate (fun _ : Fin 1 => (2 : ℚ)) (fun _ => h0)
    refine ⟨_, this.congr ?_⟩
    intro p _
    rw [Fin.sum_univ_one]
    rfl
  have op : ∀ b t, PrescribedField lineAnalytic line wires.materials b (fun a => 2 * oneVolt 1 a) t →
      Operated .open_ wiresPs (fun a => 2 * oneVolt 1 a) t := by
    intro b t ht
    have hq := wires_charges ht
    unfold Operated
    rw [if_neg (by decide)]
    show chargeOn t 1 + (chargeOn t 2 + 0) = 0
    rw [hq.1, hq.2]
    simp [oneVolt]
  obtain ⟨t, ht⟩ := field false
  obtain ⟨u, hu⟩ := field true
  have k1 := h1 _ t ht (op _ t ht) 0
  have k2 := h2 _ u hu (op _ u hu) 0
  rw [Fin.sum_univ_one] at k1 k2
  have q1 := (wires_charges ht).2
  have q2 := (wires_charges hu).2
  have k1' : (1 / 7 : ℚ) * chargeOn t 2 = C 0 0 * (2 * oneVolt 1 2 - 2 * oneVolt 1 1) := k1
  have k2' : (5 : ℚ) * (2 * oneVolt 1 2 - 2 * oneVolt 1 1) = L 0 0 * chargeOn u 2 := k2
  rw [q1] at k1'
  rw [q2] at k2'
  simp [oneVolt] at k1' k2'
  constructor
  · rw [eC]
    congr 1
    ext i j
    fin_cases i; fin_cases j
    show C 0 0 = 1 / 14
    linarith
  · rw [eL]
    congr 1
    ext i j
    fin_cases i; fin_cases j
    show L 0 0 = 10
    linarith

/-- The closed model `pair` meets the hypotheses of C72, too. -/
example (opts : DriverOptions) : ∃ d p, (Driver.construct chainEngine pair opts).1 = .ok d ∧
    (Query.pulMTL.exec chainEngine d).1 = .ok (.pul p) ∧ Separate (chainEngine.fem pair opts) pair.materials ∧
    (pairPs.map PEC.tag).Nodup ∧
    ∀ b, Reciprocity chainEngine.analytic (chainEngine.fem pair opts) pair.materials b := by
  obtain ⟨d, p, hd, _, _, hp⟩ := pair_parameters opts
  exact ⟨d, p, hd, hp, pair_separate, by decide +kernel, pair_reciprocity⟩

end Tulip.Props
