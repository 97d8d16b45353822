import Verif.Props.Passive

/-!
# C82: capacitance with and without dielectrics, and the speed of waves on the line
-/

set_option linter.unusedSectionVars false

namespace Tulip.Props
open Tulip Tulip.Spec Matrix

section
variable {𝕜 : Type} [Field 𝕜] [DecidableEq 𝕜] [LinearOrder 𝕜] [IsStrictOrderedRing 𝕜] {F : FEM 𝕜} {mats : Materials 𝕜}
  {A : Analytic 𝕜}

/-- Of all potentials with the same values on the conductors the field has the least energy (Dirichlet's principle). -/
theorem dirichlet_principle (he : Elliptic A F mats) (hs : Separate F mats) (b : Bool) {V : Int → 𝕜}
    {t u : SolverSolution F} (ht : PrescribedField A F mats b V t)
    (hu : ∀ p ∈ mats.pecs, ∀ k, OnBoundary F p.tag k → u.phi k = V p.tag) :
    doubleEnergy A F mats b t ≤ doubleEnergy A F mats b u := by
  have hz : ∑ k, (u.phi k - t.phi k) *
      weakForm A F (declaredEps mats b) (mats.openBoundaries.map OpenBoundary.tag) t.phi k = 0 := by
    refine Finset.sum_eq_zero fun k _ => ?_
    by_cases hk : ∃ p ∈ mats.pecs, OnBoundary F p.tag k
    · obtain ⟨p, hp, ho⟩ := hk
      rw [hu p hp k ho, ht.at_conductor hs hp ho, sub_self, zero_mul]
    · rw [ht.equations k (fun p hp ho => hk ⟨p, hp, ho⟩), mul_zero]
  have hnn : 0 ≤ doubleEnergy A F mats b ⟨fun k => u.phi k - t.phi k, t.e, t.d⟩ := he.energy_nonneg b _
  rw [doubleEnergy_eq] at hnn ⊢
  rw [doubleEnergy_eq]
  have hlin : ∀ k, weakForm A F (declaredEps mats b) (mats.openBoundaries.map OpenBoundary.tag)
      (fun k => u.phi k - t.phi k) k =
      weakForm A F (declaredEps mats b) (mats.openBoundaries.map OpenBoundary.tag) u.phi k -
      weakForm A F (declaredEps mats b) (mats.openBoundaries.map OpenBoundary.tag) t.phi k := by
    intro k
    rw [← systemMatrix_mulVec, ← systemMatrix_mulVec, ← systemMatrix_mulVec]
    exact congrFun (Matrix.mulVec_sub (systemMatrix A F mats b) u.phi t.phi) k
  have hsym := weakForm_symm (A := A) (F := F) (declaredEps mats b) (mats.openBoundaries.map OpenBoundary.tag) t.phi u.phi
  have e : ∑ k, (u.phi k - t.phi k) * weakForm A F (declaredEps mats b) (mats.openBoundaries.map OpenBoundary.tag)
      (fun k => u.phi k - t.phi k) k = ∑ k, u.phi k * weakForm A F (declaredEps mats b) (mats.openBoundaries.map OpenBoundary.tag) u.phi k
      - ∑ k, t.phi k * weakForm A F (declaredEps mats b) (mats.openBoundaries.map OpenBoundary.tag) u.phi k -
      ∑ k, (u.phi k - t.phi k) *
      weakForm A F (declaredEps mats b) (mats.openBoundaries.map OpenBoundary.tag) t.phi k := by
    rw [← Finset.sum_sub_distrib, ← Finset.sum_sub_distrib]
    refine Finset.sum_congr rfl fun k _ => ?_
    rw [hlin]
    ring
  have hnn' := e.symm.trans_ge hnn
  rw [hz, sub_zero, hsym] at hnn'
  have hz' : ∑ k, u.phi k * weakForm A F (declaredEps mats b) (mats.openBoundaries.map OpenBoundary.tag) t.phi k =
      ∑ k, t.phi k * weakForm A F (declaredEps mats b) (mats.openBoundaries.map OpenBoundary.tag) t.phi k := by
    rw [← sub_eq_zero, ← Finset.sum_sub_distrib, ← hz]
    exact Finset.sum_congr rfl fun k _ => (sub_mul _ _ _).symm
  linarith

theorem sum_map_le {α : Type _} {f g : α → 𝕜} : ∀ {L : List α}, (∀ q ∈ L, f q ≤ g q) → (L.map f).sum ≤ (L.map g).sum
  | [], _ => le_refl _
  | a :: l, h => by
    rw [List.map_cons, List.map_cons, List.sum_cons, List.sum_cons]
    exact add_le_add (h a List.mem_cons_self) (sum_map_le fun q hq => h q (List.mem_cons_of_mem _ hq))

theorem declaredEps_true (tag : Int) : declaredEps mats true tag = 1 := by
  unfold declaredEps
  rfl

/-- Energies of one potential with and without dielectrics. -/
theorem energy_bounds (he : Elliptic A F mats) {lo hi : 𝕜} (hb : ∀ q ∈ F.dom, lo ≤ declaredEps mats false q.attr ∧
      declaredEps mats false q.attr ≤ hi) (ho : mats.openBoundaries ≠ [] → lo ≤ 1 ∧ 1 ≤ hi) (t : SolverSolution F) :
    lo * doubleEnergy A F mats true t ≤ doubleEnergy A F mats false t ∧
    doubleEnergy A F mats false t ≤ hi * doubleEnergy A F mats true t := by
  have opens : ∀ q ∈ F.bdr.filter (fun q => q.attr ∈ mats.openBoundaries.map OpenBoundary.tag),
      (lo ≤ 1 ∧ 1 ≤ hi) ∧ 0 ≤ q.w * A.abc q.pos * (scalarAt q.N t.phi * scalarAt q.N t.phi) := by
    intro q hq
    refine ⟨ho ?_, he.opens_nonneg t.phi q hq⟩
    intro e
    have := of_decide_eq_true (List.mem_filter.mp hq).2
    rw [e] at this
    cases this
  have inside : ∀ q ∈ F.dom, 0 ≤ q.w * inner2 (vectorAt q.gradN t.phi) (vectorAt q.gradN t.phi) :=
    fun q hq => mul_nonneg (he.weights q hq).le (inner2_self_nonneg _)
  unfold doubleEnergy
  simp only [declaredEps_true, mul_add]
  rw [← List.sum_map_mul_left, ← List.sum_map_mul_left, ← List.sum_map_mul_left, ← List.sum_map_mul_left]
  constructor
  · refine add_le_add (sum_map_le fun q hq => ?_) (sum_map_le fun q hq => ?_)
    · have := mul_le_mul_of_nonneg_right (hb q hq).1 (inside q hq)
      linarith
    · obtain ⟨⟨h1, _⟩, h2⟩ := opens q hq
      have := mul_le_mul_of_nonneg_right h1 h2
      linarith
  · refine add_le_add (sum_map_le fun q hq => ?_) (sum_map_le fun q hq => ?_)
    · have := mul_le_mul_of_nonneg_right (hb q hq).2 (inside q hq)
      linarith
    · obtain ⟨⟨_, h1⟩, h2⟩ := opens q hq
      have := mul_le_mul_of_nonneg_right h1 h2
      linarith

/-- The reduced matrix spends the least, over all potentials with given voltages (conductor 0 grounded if closed). -/
theorem reduced_least {n : Nat} {G : Matrix (Fin (n + 1)) (Fin (n + 1)) 𝕜} {C : Matrix (Fin n) (Fin n) 𝕜} {o : Openness}
    (hp : PSD G) (hC : getCFromGeneralizedC (DMat.ofMatrix G) o = .ok (DMat.ofMatrix C)) (hn : 0 < n) {w : Fin n → 𝕜}
    {v : Fin (n + 1) → 𝕜} (hv : ∀ j : Fin n, v j.succ - v 0 = w j) (h0 : o = .closed → v 0 = 0) :
    w ⬝ᵥ C.mulVec w ≤ v ⬝ᵥ G.mulVec v := by
  obtain ⟨x, hop, hx, e⟩ := reduced_operated hC hn w
  rw [e]
  have hvx : v = x + fun _ => (v 0 - x 0) := by
    funext i
    refine Fin.cases ?_ (fun j => ?_) i
    · simp
    · have a := hv j
      have b := hx j
      simp only [Pi.add_apply]
      linarith
  split at hop
  · next h =>
    have : v = x := by rw [hvx, h0 h, hop]; funext i; simp
    rw [this]
  · have hone : (fun _ : Fin (n + 1) => v 0 - x 0) ⬝ᵥ G.mulVec x = 0 := by
      unfold dotProduct
      rw [← Finset.mul_sum]
      rw [show ∑ i, G.mulVec x i = 0 from hop, mul_zero]
    have hsym : x ⬝ᵥ G.mulVec (fun _ => v 0 - x 0) = 0 := by
      rw [dotProduct_mulVec, ← mulVec_transpose, hp.1.eq, dotProduct_comm, hone]
    rw [hvx, mulVec_add, add_dotProduct, dotProduct_add, dotProduct_add, hone, hsym]
    have := hp.2 (fun _ => v 0 - x 0)
    linarith

/-- A vector without energy is in the kernel. -/
theorem PSD.kernel {n : Nat} {G : Matrix (Fin n) (Fin n) 𝕜} (hp : PSD G) {x : Fin n → 𝕜} (h : x ⬝ᵥ G.mulVec x = 0) :
    G.mulVec x = 0 := by
  generalize hy : G.mulVec x = y
  have hs : ∀ s : 𝕜, 0 ≤ 2 * s * (y ⬝ᵥ y) + s * s * (y ⬝ᵥ G.mulVec y) := by
    intro s
    have := hp.2 (x + s • y)
    have hxy : x ⬝ᵥ G.mulVec y = y ⬝ᵥ y := by
      rw [dotProduct_mulVec, ← mulVec_transpose, hp.1.eq, hy]
    rw [mulVec_add, mulVec_smul, add_dotProduct, dotProduct_add, dotProduct_add, smul_dotProduct, smul_dotProduct,
      dotProduct_smul, dotProduct_smul, h, hxy, hy] at this
    simp only [smul_eq_mul] at this
    linarith
  have hb := hp.2 y
  have ha : 0 ≤ y ⬝ᵥ y := by
    unfold dotProduct
    exact Finset.sum_nonneg fun i _ => mul_self_nonneg _
  have hz : y ⬝ᵥ y = 0 := by
    generalize y ⬝ᵥ y = a at *
    generalize y ⬝ᵥ G.mulVec y = c at *
    by_contra hne
    have hpos : 0 < a := lt_of_le_of_ne ha (Ne.symm hne)
    have := hs (-a / (c + 1))
    have hc : 0 < c + 1 := by linarith
    have e : 2 * (-a / (c + 1)) * a + -a / (c + 1) * (-a / (c + 1)) * c = -(a * a * (c + 2)) / ((c + 1) * (c + 1)) := by
      field_simp
      ring
    rw [e] at this
    have h1 : -(a * a * (c + 2)) / ((c + 1) * (c + 1)) < 0 :=
      div_neg_of_neg_of_pos (neg_lt_zero.mpr (mul_pos (mul_pos hpos hpos) (by linarith))) (mul_pos hc hc)
    exact absurd this (not_le.mpr h1)
  funext i
  unfold dotProduct at hz
  have := (Finset.sum_eq_zero_iff_of_nonneg (fun i _ => mul_self_nonneg (y i))).mp hz i (Finset.mem_univ _)
  exact mul_self_eq_zero.mp this

theorem reduced_psd {n : Nat} {G : Matrix (Fin (n + 1)) (Fin (n + 1)) 𝕜} {C : Matrix (Fin n) (Fin n) 𝕜} {o : Openness}
    (hp : PSD G) (hC : getCFromGeneralizedC (DMat.ofMatrix G) o = .ok (DMat.ofMatrix C)) : PSD C := by
  refine ⟨getC_symm hp.1 hC, fun w => ?_⟩
  rcases Nat.eq_zero_or_pos n with h | h
  · subst h
    exact (Finset.sum_empty).ge
  · obtain ⟨v, _, e⟩ := reduced_quadratic hC h w
    rw [e]
    exact hp.2 v

end

section
variable {𝕜 : Type} [Field 𝕜] [DecidableEq 𝕜] [LinearOrder 𝕜] [IsStrictOrderedRing 𝕜]

/-- **C82.** Let all relative permittivities in the mesh lie between `lo` and `hi` (with 1 between them if there are open
boundaries), with positive quadrature weights and permittivities and fluxes of D that agree with the discrete equations.
Then the per-unit-length capacitance lies between `lo` and `hi` times the one without dielectrics (which is the `C0` with
`L C0 = mu0 eps0`), and every wave of the line (every eigenvalue `s` of `L C`, the square of its slowness) has
`mu0 eps0 lo <= s <= mu0 eps0 hi`. -/
theorem C82_modes (E : Engine 𝕜) {model : Model 𝕜} {opts : DriverOptions}
    {ps : List (PEC 𝕜)} (hN : Numbering model.materials ps) (hB : Buildable (E.fem model opts) model.materials)
    (hW : WellDeclared model.materials) (hP : ExactSolver E.pcg)
    (he : Elliptic E.analytic (E.fem model opts) model.materials) (ht : (ps.map PEC.tag).Nodup)
    (hs : Separate (E.fem model opts) model.materials)
    (hc : Conservative E.analytic (E.fem model opts) model.materials)
    {d : Driver (E.fem model opts)} (hd : (Driver.construct E model opts).1 = .ok d) {o : Openness}
    (ho : model.determineOpenness = .ok o) (heps : 0 < E.eps0SI) (hmu : 0 < E.mu0SI) {lo hi : 𝕜}
    (hb : ∀ q ∈ (E.fem model opts).dom, lo ≤ declaredEps model.materials false q.attr ∧
      declaredEps model.materials false q.attr ≤ hi)
    (hopen : model.materials.openBoundaries ≠ [] → lo ≤ 1 ∧ 1 ≤ hi) {p : PULParameters 𝕜}
    (hp : (Query.pulMTL.exec E d).1 = .ok (.pul p)) :
    ∃ (n : Nat) (C L C0 : Matrix (Fin n) (Fin n) 𝕜), ps.length = n + 1 ∧ p.C = DMat.ofMatrix C ∧ p.L = DMat.ofMatrix L ∧
      L * C0 = (E.mu0SI * E.eps0SI) • (1 : Matrix (Fin n) (Fin n) 𝕜) ∧
      (∀ w : Fin n → 𝕜, lo * (w ⬝ᵥ C0.mulVec w) ≤ w ⬝ᵥ C.mulVec w ∧ w ⬝ᵥ C.mulVec w ≤ hi * (w ⬝ᵥ C0.mulVec w)) ∧
      (∀ (w : Fin n → 𝕜) (s : 𝕜), w ≠ 0 → (L * C).mulVec w = s • w →
        E.mu0SI * E.eps0SI * lo ≤ s ∧ s ≤ E.mu0SI * E.eps0SI * hi) := by
  have hw := he.wellPosed
  obtain ⟨n, G, G0, C, C0, hn, hG, hG0, hC, hC0, eC, _, hdet, eL, _, _⟩ := C35_inductance E hN hd ho hp
  have h2 : ¬ (ps.length = 1 ∧ o = .closed) := by
    intro h
    have e := (C31_generalized E hN hd ho false).1 h
    rw [hG] at e
    cases e
  have psd : ∀ (b : Bool) (G : Matrix (Fin (n + 1)) (Fin (n + 1)) 𝕜),
      ((Query.generalizedC b).exec E d).1 = .ok (.matrix (DMat.ofMatrix G)) → PSD G := by
    intro b G hG
    obtain ⟨M, e, hM⟩ := (C77_passive E hN hB hW hP he ht hs hc hd ho h2).1 b
    revert M
    rw [hn]
    intro M e hM
    rw [ofMatrix_eq (Answer.matrix.inj (Outcome.ok.inj (hG.symm.trans e)))]
    exact hM
  have pG := psd false G hG
  have pG0 := psd true G0 hG0
  have full : ∀ v : Fin (n + 1) → 𝕜, lo * (v ⬝ᵥ G0.mulVec v) ≤ v ⬝ᵥ G.mulVec v ∧
      v ⬝ᵥ G.mulVec v ≤ hi * (v ⬝ᵥ G0.mulVec v) := by
    intro v
    obtain ⟨V, t, hf, hV, e⟩ := generalized_energy E hN hB hW hP hw ht hs hc hd ho hn hG v
    obtain ⟨U, u, hg, hU, e0⟩ := generalized_energy E hN hB hW hP hw ht hs hc hd ho hn hG0 v
    have same : ∀ q ∈ model.materials.pecs, V q.tag = U q.tag := by
      intro q hq
      obtain ⟨i, hi, rfl⟩ := List.getElem_of_mem (hN.all.mem_iff.mpr hq)
      exact (hV ⟨i, by omega⟩).trans (hU ⟨i, by omega⟩).symm
    have l1 := dirichlet_principle he hs false hf (u := u)
      (fun q hq k hk => (hg.at_conductor hs hq hk).trans (same q hq).symm)
    have l2 := dirichlet_principle he hs true hg (u := t) (fun q hq k hk => (hf.at_conductor hs hq hk).trans (same q hq))
    have b1 := energy_bounds he hb hopen t
    have b2 := energy_bounds he hb hopen u
    rw [e, e0]
    refine ⟨?_, l1.trans b2.2⟩
    rcases le_total 0 lo with h | h
    · exact (mul_le_mul_of_nonneg_left l2 h).trans b1.1
    · exact (mul_nonpos_of_nonpos_of_nonneg h (he.energy_nonneg true u)).trans (he.energy_nonneg false t)
  have pC0 := reduced_psd pG0 hC0
  have pC := reduced_psd pG hC
  have red : ∀ w : Fin n → 𝕜, lo * (w ⬝ᵥ C0.mulVec w) ≤ w ⬝ᵥ C.mulVec w ∧
      w ⬝ᵥ C.mulVec w ≤ hi * (w ⬝ᵥ C0.mulVec w) := by
    intro w
    rcases Nat.eq_zero_or_pos n with h | h
    · subst h
      simp [dotProduct]
    obtain ⟨v, hop, hv, e⟩ := reduced_operated hC h w
    obtain ⟨v0, hop0, hv0, e0⟩ := reduced_operated hC0 h w
    have l1 := reduced_least pG hC h hv0 (fun hcl => by rw [if_pos hcl] at hop0; exact hop0)
    have l2 := reduced_least pG0 hC0 h hv (fun hcl => by rw [if_pos hcl] at hop; exact hop)
    constructor
    · rcases le_total 0 lo with h | h
      · calc lo * (w ⬝ᵥ C0.mulVec w) ≤ lo * (v ⬝ᵥ G0.mulVec v) := mul_le_mul_of_nonneg_left l2 h
          _ ≤ v ⬝ᵥ G.mulVec v := (full v).1
          _ = _ := e.symm
      · exact (mul_nonpos_of_nonpos_of_nonneg h (pC0.2 w)).trans (pC.2 w)
    · calc w ⬝ᵥ C.mulVec w ≤ v0 ⬝ᵥ G.mulVec v0 := l1
        _ ≤ hi * (v0 ⬝ᵥ G0.mulVec v0) := (full v0).2
        _ = _ := by rw [e0]
  refine ⟨n, E.eps0SI • C, E.mu0SI • C0⁻¹, E.eps0SI • C0, hn, eC, eL, ?_, ?_, ?_⟩
  · rw [smul_mul_smul_comm, Matrix.nonsing_inv_mul _ (isUnit_iff_ne_zero.mpr hdet)]
  · intro w
    obtain ⟨a, b⟩ := red w
    rw [smul_mulVec, smul_mulVec, dotProduct_smul, dotProduct_smul, smul_eq_mul, smul_eq_mul]
    have a' := mul_le_mul_of_nonneg_left a heps.le
    have b' := mul_le_mul_of_nonneg_left b heps.le
    constructor <;> linarith
  · intro w s hw0 hs
    have hC0w : (E.mu0SI * E.eps0SI) • C.mulVec w = s • C0.mulVec w := by
      rw [smul_mul_smul_comm, smul_mulVec, ← mulVec_mulVec] at hs
      have := congrArg (fun x => C0.mulVec x) hs
      simpa only [mulVec_smul, mulVec_mulVec, ← Matrix.mul_assoc, Matrix.mul_nonsing_inv _ (isUnit_iff_ne_zero.mpr hdet),
        Matrix.one_mul] using this
    have hq := congrArg (fun x => w ⬝ᵥ x) hC0w
    simp only [dotProduct_smul, smul_eq_mul] at hq
    have hpos : 0 < w ⬝ᵥ C0.mulVec w := by
      refine lt_of_le_of_ne (pC0.2 w) fun h0 => hw0 ?_
      exact Matrix.eq_zero_of_mulVec_eq_zero hdet (PSD.kernel pC0 h0.symm)
    obtain ⟨a, b⟩ := red w
    have hme := mul_pos hmu heps
    have a' := mul_le_mul_of_nonneg_left a hme.le
    have b' := mul_le_mul_of_nonneg_left b hme.le
    rw [hq] at a' b'
    constructor
    · refine le_of_mul_le_mul_right ?_ hpos
      linarith
    · refine le_of_mul_le_mul_right ?_ hpos
      linarith

end
/-- In `wires`, an open model with permittivities 1 and 2, waves are at most as fast as light, and at least 1/sqrt 2 as fast. -/
example (opts : DriverOptions) : ∃ (d : Driver (lineEngine.fem wires opts)) (p : PULParameters ℚ) (n : Nat)
    (C L : Matrix (Fin n) (Fin n) ℚ), (Driver.construct lineEngine wires opts).1 = .ok d ∧
    (Query.pulMTL.exec lineEngine d).1 = .ok (.pul p) ∧ p.C = DMat.ofMatrix C ∧ p.L = DMat.ofMatrix L ∧
    ∀ (w : Fin n → ℚ) (s : ℚ), w ≠ 0 → (L * C).mulVec w = s • w →
      lineEngine.mu0SI * lineEngine.eps0SI ≤ s ∧ s ≤ 2 * (lineEngine.mu0SI * lineEngine.eps0SI) := by
  obtain ⟨d, p, hd, hp⟩ := wires_parameters opts
  have hb : ∀ q ∈ line.dom, 1 ≤ declaredEps wires.materials false q.attr ∧ declaredEps wires.materials false q.attr ≤ 2 := by
    decide +kernel
  obtain ⟨n, C, L, C0, _, eC, eL, _, _, h⟩ := C82_modes lineEngine wires_numbering (wires_buildable opts) wires_declared
    inverseSolver_exact wires_elliptic (by decide +kernel) wires_separate wires_conservative hd wires_open
    (by decide +kernel) (by decide +kernel) (lo := 1) (hi := 2) hb (fun _ => ⟨le_refl _, by norm_num⟩) hp
  refine ⟨d, p, n, C, L, hd, hp, eC, eL, fun w s hw hs => ?_⟩
  obtain ⟨a, b⟩ := h w s hw hs
  exact ⟨by linarith, by linarith⟩

/-- In `pair`, a closed model filled with permittivity 3, the slowness of all waves is sqrt 3 times that of light. -/
example (opts : DriverOptions) : ∃ (d : Driver (chainEngine.fem pair opts)) (p : PULParameters ℚ) (n : Nat)
    (C L : Matrix (Fin n) (Fin n) ℚ), (Driver.construct chainEngine pair opts).1 = .ok d ∧
    (Query.pulMTL.exec chainEngine d).1 = .ok (.pul p) ∧ p.C = DMat.ofMatrix C ∧ p.L = DMat.ofMatrix L ∧
    ∀ (w : Fin n → ℚ) (s : ℚ), w ≠ 0 → (L * C).mulVec w = s • w →
      s = 3 * (chainEngine.mu0SI * chainEngine.eps0SI) := by
  obtain ⟨d, p, hd, _, _, hp⟩ := pair_parameters opts
  have hb : ∀ q ∈ chain.dom, 3 ≤ declaredEps pair.materials false q.attr ∧ declaredEps pair.materials false q.attr ≤ 3 := by
    decide +kernel
  obtain ⟨n, C, L, C0, _, eC, eL, _, _, h⟩ := C82_modes chainEngine pair_numbering (pair_buildable opts) pair_declared
    inverseSolver_exact pair_elliptic (by decide +kernel) pair_separate pair_conservative hd pair_closed
    (by decide +kernel) (by decide +kernel) (lo := 3) (hi := 3) hb (fun h => absurd rfl h) hp
  refine ⟨d, p, n, C, L, hd, hp, eC, eL, fun w s hw hs => ?_⟩
  obtain ⟨a, b⟩ := h w s hw hs
  linarith

end Tulip.Props
