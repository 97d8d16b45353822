import Verif.Props.PUL
import Verif.Props.Uniqueness
import Verif.Proofs.Passive

/-!
# C77: energy, reciprocity and passivity
-/

set_option linter.unusedSectionVars false

namespace Tulip.Props
open Tulip Tulip.Spec Matrix

section
variable {𝕜 : Type} [Field 𝕜] {F : FEM 𝕜} {mats : Materials 𝕜} {A : Analytic 𝕜} {b : Bool}

/-- **C77** (fields). Charges times potentials add up to twice the energy, and Green's reciprocity holds between any two
fields: if the fluxes of D agree with the discrete equations. -/
theorem C77_energy (hs : Separate F mats) (hc : Conservative A F mats) {ps : List (PEC 𝕜)} (hp : ps.Perm mats.pecs)
    (hn : (ps.map PEC.tag).Nodup) {V W : Int → 𝕜} {t u : SolverSolution F} (ht : PrescribedField A F mats b V t)
    (hu : PrescribedField A F mats b W u) :
    (ps.map (fun p => V p.tag * chargeOn t p.tag)).sum = doubleEnergy A F mats b t ∧
    (ps.map (fun p => W p.tag * chargeOn t p.tag)).sum = (ps.map (fun p => V p.tag * chargeOn u p.tag)).sum := by
  have key : ∀ {V W : Int → 𝕜} {t u : SolverSolution F}, PrescribedField A F mats b V t → PrescribedField A F mats b W u →
      (ps.map (fun p => W p.tag * chargeOn t p.tag)).sum =
        ∑ k, u.phi k * weakForm A F (declaredEps mats b) (mats.openBoundaries.map OpenBoundary.tag) t.phi k := by
    intro V W t u ht hu
    rw [← sum_reaction hs hp hn ht hu]
    congr 1
    exact List.map_congr_left fun p h => by rw [hc b V t ht p (hp.mem_iff.mp h)]
  refine ⟨(key ht ht).trans (doubleEnergy_eq t).symm, ?_⟩
  rw [key ht hu, key hu ht, weakForm_symm]

theorem sum_oneVolt : ∀ {ps : List (PEC 𝕜)}, (ps.map PEC.tag).Nodup → ∀ {p : PEC 𝕜}, p ∈ ps → ∀ f : Int → 𝕜,
    (ps.map (fun q => oneVolt p.tag q.tag * f q.tag)).sum = f p.tag
  | [], _, p, h, _ => by cases h
  | a :: l, hn, p, h, f => by
    rw [List.map_cons, List.nodup_cons] at hn
    rw [List.map_cons, List.sum_cons]
    by_cases e : a.tag = p.tag
    · have hz : (l.map (fun q => oneVolt p.tag q.tag * f q.tag)).sum = 0 := by
        refine List.sum_eq_zero ?_
        intro x hx
        obtain ⟨q, hq, rfl⟩ := List.mem_map.mp hx
        have : q.tag ≠ p.tag := by
          intro h'
          exact hn.1 (by rw [e, ← h']; exact List.mem_map_of_mem hq)
        unfold oneVolt
        rw [if_neg this, zero_mul]
      rw [hz, add_zero, e]
      unfold oneVolt
      rw [if_pos rfl, one_mul]
    · have hp : p ∈ l := by
        rcases List.mem_cons.mp h with rfl | h
        · exact absurd rfl e
        · exact h
      rw [sum_oneVolt hn.2 hp f]
      unfold oneVolt
      rw [if_neg e, zero_mul, zero_add]

/-- In particular the discretisation is reciprocal. -/
theorem reciprocity_of_conservative (hs : Separate F mats) (hc : Conservative A F mats) (hn : (mats.pecs.map PEC.tag).Nodup) (b : Bool) :
    Reciprocity A F mats b := by
  intro p hp q hq t u ht hu
  have h := (C77_energy hs hc (List.Perm.refl _) hn ht hu).2
  rwa [sum_oneVolt hn hq (fun a => chargeOn t a), sum_oneVolt hn hp (fun a => chargeOn u a)] at h

/-- An operated line with given voltages, and what is spent to charge it. -/
theorem reduced_operated [DecidableEq 𝕜] [LinearOrder 𝕜] {n : Nat} {G : Matrix (Fin (n + 1)) (Fin (n + 1)) 𝕜} {C : Matrix (Fin n) (Fin n) 𝕜} {o : Openness}
    (hC : getCFromGeneralizedC (DMat.ofMatrix G) o = .ok (DMat.ofMatrix C)) (hn : 0 < n) (w : Fin n → 𝕜) :
    ∃ v : Fin (n + 1) → 𝕜, (if o = .closed then v 0 = 0 else ∑ i, charges G v i = 0) ∧
      (∀ j : Fin n, v j.succ - v 0 = w j) ∧ w ⬝ᵥ C.mulVec w = v ⬝ᵥ G.mulVec v := by
  obtain ⟨x, hx⟩ : ∃ x : 𝕜, if o = .closed then x = 0 else
      ∑ i, charges G (Fin.cons x (fun j : Fin n => w j + x)) i = 0 := by
    split
    · exact ⟨0, rfl⟩
    · next ho =>
      have ht : ∑ i, ∑ j, G i j ≠ 0 := (reduce_iff G o).mp ⟨C, hC⟩ ho hn
      refine ⟨-(∑ i, charges G (Fin.cons 0 w) i) / ∑ i, ∑ j, G i j, ?_⟩
      generalize hx : -(∑ i, charges G (Fin.cons 0 w) i) / ∑ i, ∑ j, G i j = x
      have e : ∀ i, charges G (Fin.cons x (fun j : Fin n => w j + x)) i =
          charges G (Fin.cons 0 w) i + x * ∑ j, G i j := by
        intro i
        simp only [charges, Matrix.mulVec, dotProduct, Fin.sum_univ_succ, Fin.cons_zero, Fin.cons_succ, mul_add,
          Finset.sum_add_distrib, Finset.mul_sum]
        have : ∀ j : Fin n, G i j.succ * x = x * G i j.succ := fun j => mul_comm _ _
        simp only [this]
        ring
      simp only [e, Finset.sum_add_distrib, ← Finset.mul_sum]
      rw [← hx]
      field_simp
      ring
  obtain ⟨v, hv⟩ : ∃ v : Fin (n + 1) → 𝕜, v = Fin.cons x (fun j : Fin n => w j + x) := ⟨_, rfl⟩
  have hv0 : v 0 = x := by rw [hv]; rfl
  have hvs : ∀ j : Fin n, v j.succ = w j + x := by intro j; rw [hv]; rfl
  have hop : if o = .closed then v 0 = 0 else ∑ i, charges G v i = 0 := by rw [hv0, hv]; exact hx
  refine ⟨v, hop, fun j => by rw [hvs, hv0, add_sub_cancel_right], ?_⟩
  have hw : w = fun j : Fin n => v j.succ - v 0 := by funext j; rw [hvs, hv0, add_sub_cancel_right]
  have hQ : C.mulVec w = fun i : Fin n => charges G v i.succ := by
    rw [hw]; funext i; exact (reduced_charges hC hop i).symm
  rw [hQ]
  unfold dotProduct
  rw [Fin.sum_univ_succ]
  show ∑ i : Fin n, w i * charges G v i.succ = v 0 * charges G v 0 + ∑ i : Fin n, v i.succ * charges G v i.succ
  split at hop
  · rw [hop, zero_mul, zero_add]
    refine Finset.sum_congr rfl fun i _ => ?_
    rw [hvs, ← hv0, hop, add_zero]
  · rw [Fin.sum_univ_succ] at hop
    have : charges G v 0 = -∑ i : Fin n, charges G v i.succ := eq_neg_of_add_eq_zero_left hop
    rw [this, mul_neg, Finset.mul_sum, ← sub_eq_neg_add, ← Finset.sum_sub_distrib]
    refine Finset.sum_congr rfl fun i _ => ?_
    rw [hvs, hv0]
    ring

theorem reduced_quadratic [DecidableEq 𝕜] [LinearOrder 𝕜] {n : Nat} {G : Matrix (Fin (n + 1)) (Fin (n + 1)) 𝕜} {C : Matrix (Fin n) (Fin n) 𝕜} {o : Openness}
    (hC : getCFromGeneralizedC (DMat.ofMatrix G) o = .ok (DMat.ofMatrix C)) (hn : 0 < n) (w : Fin n → 𝕜) :
    ∃ v : Fin (n + 1) → 𝕜, (∀ j : Fin n, v j.succ - v 0 = w j) ∧ w ⬝ᵥ C.mulVec w = v ⬝ᵥ G.mulVec v := by
  obtain ⟨v, _, h⟩ := reduced_operated hC hn w
  exact ⟨v, h⟩

end

section
variable {𝕜 : Type} [Field 𝕜] [DecidableEq 𝕜] [LinearOrder 𝕜] [IsStrictOrderedRing 𝕜]

/-- Potentials by tag. -/
theorem potentials_by_tag {ps : List (PEC 𝕜)} (hn : (ps.map PEC.tag).Nodup) (v : Fin ps.length → 𝕜) :
    ∃ V : Int → 𝕜, ∀ j : Fin ps.length, V ps[j].tag = v j := by
  refine ⟨fun a => ∑ j : Fin ps.length, if ps[j].tag = a then v j else 0, fun j => ?_⟩
  show ∑ k : Fin ps.length, (if ps[k].tag = ps[j].tag then v k else 0) = v j
  rw [Finset.sum_eq_single j]
  · rw [if_pos rfl]
  · intro k _ hk
    refine if_neg fun e => hk ?_
    have h1 : (ps.map PEC.tag)[k.1]'(by rw [List.length_map]; exact k.2) =
        (ps.map PEC.tag)[j.1]'(by rw [List.length_map]; exact j.2) := by
      rw [List.getElem_map, List.getElem_map]; exact e
    exact Fin.ext ((List.Nodup.getElem_inj_iff hn).mp h1)
  · intro h
    exact absurd (Finset.mem_univ _) h

/-- The generalized capacitance matrix gives the energy of the field with given conductor potentials. -/
theorem generalized_energy (E : Engine 𝕜) {model : Model 𝕜} {opts : DriverOptions}
    {ps : List (PEC 𝕜)} (hN : Numbering model.materials ps) (hB : Buildable (E.fem model opts) model.materials)
    (hW : WellDeclared model.materials) (hP : ExactSolver E.pcg)
    (hw : WellPosed E.analytic (E.fem model opts) model.materials) (ht : (ps.map PEC.tag).Nodup)
    (hs : Separate (E.fem model opts) model.materials)
    (hc : Conservative E.analytic (E.fem model opts) model.materials) {b : Bool}
    {d : Driver (E.fem model opts)} (hd : (Driver.construct E model opts).1 = .ok d) {o : Openness}
    (ho : model.determineOpenness = .ok o) {n : Nat} (hn : ps.length = n + 1)
    {G : Matrix (Fin (n + 1)) (Fin (n + 1)) 𝕜}
    (hG : ((Query.generalizedC b).exec E d).1 = .ok (.matrix (DMat.ofMatrix G))) (v : Fin (n + 1) → 𝕜) :
    ∃ (V : Int → 𝕜) (t : SolverSolution (E.fem model opts)),
      PrescribedField E.analytic (E.fem model opts) model.materials b V t ∧
      (∀ j : Fin (n + 1), V (ps[j.1]'(by omega)).tag = v j) ∧
      v ⬝ᵥ G.mulVec v = doubleEnergy E.analytic (E.fem model opts) model.materials b t := by
  obtain ⟨V, hV⟩ := potentials_by_tag ht (fun j => v (j.cast hn))
  obtain ⟨t, hf⟩ := hw.exists_field hs b V
  have htm : (model.materials.pecs.map PEC.tag).Nodup := (hN.all.map _).nodup_iff.mp ht
  have hr := reciprocity_of_conservative hs hc htm b
  have hV' : ∀ j : Fin (n + 1), V (ps[j.1]'(by omega)).tag = v j := fun j => hV (j.cast hn.symm)
  refine ⟨V, t, hf, hV', ?_⟩
  rw [← (C77_energy hs hc hN.all ht hf hf).1]
  have hq := charges_of_field E hN hB hW hP hw ht hs hr hd ho hn hG hf
  rw [← Fin.sum_univ_fun_getElem ps (fun q => V q.tag * chargeOn t q.tag)]
  unfold dotProduct
  refine Fintype.sum_equiv (finCongr hn.symm) _ _ fun k => ?_
  show v k * G.mulVec v k = V (ps[k.1]'(by omega)).tag * chargeOn t (ps[k.1]'(by omega)).tag
  rw [hq k, hV' k]
  congr 2
  funext j
  exact (hV' j).symm

/-- **C77.** If permittivities and quadrature weights are positive and the fluxes of D agree with the discrete equations,
the generalized capacitance matrices are symmetric and positive semidefinite. If moreover the mesh is in one piece and,
for models that are not closed, some open boundary absorbs, the per-unit-length parameters exist and `C` and `L` are
symmetric and positive definite. -/
theorem C77_passive (E : Engine 𝕜) {model : Model 𝕜} {opts : DriverOptions}
    {ps : List (PEC 𝕜)} (hN : Numbering model.materials ps) (hB : Buildable (E.fem model opts) model.materials)
    (hW : WellDeclared model.materials) (hP : ExactSolver E.pcg)
    (he : Elliptic E.analytic (E.fem model opts) model.materials) (ht : (ps.map PEC.tag).Nodup)
    (hs : Separate (E.fem model opts) model.materials)
    (hc : Conservative E.analytic (E.fem model opts) model.materials)
    {d : Driver (E.fem model opts)} (hd : (Driver.construct E model opts).1 = .ok d) {o : Openness}
    (ho : model.determineOpenness = .ok o) (h2 : ¬ (ps.length = 1 ∧ o = .closed)) :
    (∀ b, ∃ G : Matrix (Fin ps.length) (Fin ps.length) 𝕜,
      ((Query.generalizedC b).exec E d).1 = .ok (.matrix (DMat.ofMatrix G)) ∧ PSD G) ∧
    (OnePiece (E.fem model opts) model.materials →
      (o ≠ .closed → Absorbing E.analytic (E.fem model opts) model.materials) → 0 < E.eps0SI → 0 < E.mu0SI →
      ∃ (n : Nat) (p : PULParameters 𝕜) (C L : Matrix (Fin n) (Fin n) 𝕜), ps.length = n + 1 ∧
        (Query.pulMTL.exec E d).1 = .ok (.pul p) ∧ p.C = DMat.ofMatrix C ∧ p.L = DMat.ofMatrix L ∧ PD C ∧ PD L) := by
  have hw := he.wellPosed
  obtain ⟨n, hn⟩ : ∃ n, ps.length = n + 1 := by
    have := List.length_pos_of_ne_nil hN.nonempty
    exact ⟨ps.length - 1, by omega⟩
  have gen : ∀ b, ∃ G : Matrix (Fin (n + 1)) (Fin (n + 1)) 𝕜,
      ((Query.generalizedC b).exec E d).1 = .ok (.matrix (DMat.ofMatrix G)) ∧ PSD G := by
    intro b
    obtain ⟨M, e, hsym⟩ : ∃ M : Matrix (Fin ps.length) (Fin ps.length) 𝕜,
        ((Query.generalizedC b).exec E d).1 = .ok (.matrix (DMat.ofMatrix M)) ∧ M.IsSymm := by
      obtain ⟨M, e, hsym, _⟩ := (C31_generalized E hN hd ho b).2 h2
      exact ⟨M, e, hsym⟩
    revert M
    rw [hn]
    intro M e hsym
    refine ⟨M, e, hsym, fun v => ?_⟩
    obtain ⟨V, t, _, _, hq⟩ := generalized_energy E hN hB hW hP hw ht hs hc hd ho hn e v
    rw [hq]
    exact he.energy_nonneg b t
  constructor
  · intro b
    obtain ⟨G, e, hp⟩ := gen b
    revert G
    rw [← hn]
    intro G e hp
    exact ⟨G, e, hp⟩
  · intro h1 habs heps hmu
    obtain ⟨G, hG, hGp⟩ := gen false
    obtain ⟨G0, hG0, hG0p⟩ := gen true
    have zero : ∀ (b : Bool) (G : Matrix (Fin (n + 1)) (Fin (n + 1)) 𝕜),
        ((Query.generalizedC b).exec E d).1 = .ok (.matrix (DMat.ofMatrix G)) → ∀ v, v ⬝ᵥ G.mulVec v = 0 →
        (∀ i j, v i = v j) ∧ (o ≠ .closed → ∀ i, v i = 0) := by
      intro b G hG v hv
      obtain ⟨V, t, hf, hV, hq⟩ := generalized_energy E hN hB hW hP hw ht hs hc hd ho hn hG v
      rw [hv] at hq
      obtain ⟨hcst, hz⟩ := he.energy_zero h1 hq.symm
      have node : ∀ i : Fin (n + 1), ∃ k, t.phi k = v i := by
        intro i
        have hm : ps[i.1]'(by omega) ∈ model.materials.pecs := hN.all.mem_iff.mp (List.getElem_mem _)
        obtain ⟨k, hk⟩ := h1.nodes _ hm
        exact ⟨k, by rw [hf.at_conductor hs hm hk, hV]⟩
      constructor
      · intro i j
        obtain ⟨k, hk⟩ := node i
        obtain ⟨l, hl⟩ := node j
        rw [← hk, ← hl, hcst k l]
      · intro hoc i
        obtain ⟨k, hk⟩ := node i
        rw [← hk, hz (habs hoc) k]
    have total : ∀ (b : Bool) (G : Matrix (Fin (n + 1)) (Fin (n + 1)) 𝕜),
        ((Query.generalizedC b).exec E d).1 = .ok (.matrix (DMat.ofMatrix G)) →
        ∃ C : Matrix (Fin n) (Fin n) 𝕜, getCFromGeneralizedC (DMat.ofMatrix G) o = .ok (DMat.ofMatrix C) := by
      intro b G hG
      refine (reduce_iff G o).mpr fun hoc _ hsum => ?_
      have hv : (fun _ : Fin (n + 1) => (1 : 𝕜)) ⬝ᵥ G.mulVec (fun _ => 1) = 0 := by
        unfold dotProduct Matrix.mulVec dotProduct
        simp only [one_mul, mul_one]
        exact hsum
      exact one_ne_zero ((zero b G hG _ hv).2 hoc 0)
    have red : ∀ (b : Bool) (G : Matrix (Fin (n + 1)) (Fin (n + 1)) 𝕜) (C : Matrix (Fin n) (Fin n) 𝕜),
        ((Query.generalizedC b).exec E d).1 = .ok (.matrix (DMat.ofMatrix G)) → PSD G →
        getCFromGeneralizedC (DMat.ofMatrix G) o = .ok (DMat.ofMatrix C) → PD C := by
      intro b G C hG hp hC
      refine ⟨getC_symm hp.1 hC, fun w hw0 => ?_⟩
      have hpos : 0 < n := by
        by_contra h
        have : n = 0 := by omega
        subst this
        exact hw0 (funext fun i => i.elim0)
      obtain ⟨v, hv, e⟩ := reduced_quadratic hC hpos w
      rw [e]
      refine lt_of_le_of_ne (hp.2 v) fun h0 => hw0 ?_
      funext j
      rw [← hv j, (zero b G hG v h0.symm).1 j.succ 0, sub_self]
      rfl
    obtain ⟨C, hC⟩ := total false G hG
    obtain ⟨C0, hC0⟩ := total true G0 hG0
    have pC := red false G C hG hGp hC
    have pC0 := red true G0 C0 hG0 hG0p hC0
    have hdet : C0.det ≠ 0 := by
      intro h0
      obtain ⟨x, hx, e⟩ := Matrix.exists_mulVec_eq_zero_iff.mpr h0
      have := pC0.2 x hx
      rw [e, dotProduct_zero] at this
      exact lt_irrefl _ this
    obtain ⟨p, hp, e1, e2⟩ := pul_of_matrices E hN hd ho hG hG0 hC hC0 hdet
    exact ⟨n, p, _, _, hn, hp, e1, e2, PD_smul pC heps, PD_smul (PD_inv pC0 hdet) hmu⟩

end

/-! ## Examples -/

theorem wires_conservative : Conservative lineAnalytic line wires.materials := by
  classical
  intro b V t h p hp
  have hphi := (wires_field h).1
  have hq := wires_charges h
  have sum : ∀ f : Fin line.n → ℚ, ∑ k, f k = f (0 : Fin 4) + f (1 : Fin 4) + f (2 : Fin 4) + f (3 : Fin 4) :=
    fun f => Fin.sum_univ_four f
  have on : ∀ (a : Int) (k : Fin 4), OnBoundary line a k ↔ (a = 1 ∧ k = 0) ∨ (a = 2 ∧ k = 2) ∨ (a = 3 ∧ k = 3) := line_on
  have w : ∀ k : Fin 4, weakForm lineAnalytic line (declaredEps wires.materials b)
      (wires.materials.openBoundaries.map OpenBoundary.tag) t.phi k =
      (if b then !![1, -1, 0, 0; -1, 2, -1, 0; 0, -1, 2, -1; 0, 0, -1, 2]
        else !![1, -1, 0, 0; -1, 2, -1, 0; 0, -1, 3, -2; 0, 0, -2, 3] : Matrix (Fin 4) (Fin 4) ℚ).mulVec t.phi k :=
    fun k => (systemMatrix_mulVec (F := line) _ b t.phi k).symm.trans (congrFun (congrArg (fun M => Matrix.mulVec M t.phi) (wires_system b)) k)
  have hp' : p.tag = 2 ∨ p.tag = 1 := by
    rcases List.mem_cons.mp hp with rfl | hp
    · exact Or.inl rfl
    · exact Or.inr (by rw [List.mem_singleton.mp hp])
  unfold reaction
  rw [sum]
  rcases hp' with e | e <;> rw [e]
  · rw [if_neg (by rw [on]; decide), if_neg (by rw [on]; decide), if_pos ((on 2 2).mpr (by decide)),
      if_neg (by rw [on]; decide), w 2, hphi, hq.2]
    cases b <;> simp [mulVec, dotProduct, Fin.sum_univ_four] <;> ring
  · rw [hq.1, if_pos ((on 1 0).mpr (by decide)), if_neg (by rw [on]; decide), if_neg (by rw [on]; decide),
      if_neg (by rw [on]; decide), w 0, hphi]
    cases b <;> simp [mulVec, dotProduct, Fin.sum_univ_four] <;> ring

theorem line_onePiece : OnePiece line wires.materials where
  constant := by
    intro u hg
    have sum : ∀ f : Fin line.n → ℚ, ∑ k, f k = f (0 : Fin 4) + f (1 : Fin 4) + f (2 : Fin 4) + f (3 : Fin 4) :=
      fun f => Fin.sum_univ_four f
    have h1 := congrArg Prod.fst (hg _ List.mem_cons_self)
    have h2 := congrArg Prod.fst (hg _ (List.mem_cons_of_mem _ List.mem_cons_self))
    have h3 := congrArg Prod.fst (hg _ (List.mem_cons_of_mem _ (List.mem_cons_of_mem _ List.mem_cons_self)))
    simp only [vectorAt, sum] at h1 h2 h3
    simp at h1 h2 h3
    have k : ∀ k : Fin 4, u k = u (0 : Fin 4) := by
      intro k
      fin_cases k
      · rfl
      · show u (1 : Fin 4) = u (0 : Fin 4)
        linarith
      · show u (2 : Fin 4) = u (0 : Fin 4)
        linarith
      · show u (3 : Fin 4) = u (0 : Fin 4)
        linarith
    exact fun i j => (k i).trans (k j).symm
  nodes := by
    intro p hp
    rcases List.mem_cons.mp hp with rfl | hp
    · exact ⟨(2 : Fin 4), (line_on 2 2).mpr (by decide)⟩
    · rw [List.mem_singleton.mp hp]
      exact ⟨(0 : Fin 4), (line_on 1 0).mpr (by decide)⟩

theorem line_absorbing : Absorbing lineAnalytic line wires.materials := by
  refine ⟨_, List.mem_cons_of_mem _ (List.mem_cons_of_mem _ List.mem_cons_self), ⟨_, List.mem_cons_self, rfl⟩, ?_, ?_⟩
  · decide +kernel
  · decide +kernel

/-- The open model `wires` meets all hypotheses of C77. -/
example (opts : DriverOptions) : ∃ d, (Driver.construct lineEngine wires opts).1 = .ok d ∧
    ∃ (n : Nat) (p : PULParameters ℚ) (C L : Matrix (Fin n) (Fin n) ℚ), wiresPs.length = n + 1 ∧
      (Query.pulMTL.exec lineEngine d).1 = .ok (.pul p) ∧ p.C = DMat.ofMatrix C ∧ p.L = DMat.ofMatrix L ∧ PD C ∧ PD L := by
  obtain ⟨d, _, hd, _⟩ := wires_parameters opts
  exact ⟨d, hd, (C77_passive lineEngine wires_numbering (wires_buildable opts) wires_declared inverseSolver_exact
    wires_elliptic (by decide +kernel) wires_separate wires_conservative hd wires_open (by rintro ⟨_, h⟩; cases h)).2
    line_onePiece (fun _ => line_absorbing) (by decide +kernel) (by decide +kernel)⟩

theorem pair_conservative : Conservative noAnalytic chain pair.materials := by
  classical
  intro b V t h p hp
  have hq := pair_charges h
  have sum : ∀ f : Fin chain.n → ℚ, ∑ k, f k = f (0 : Fin 3) + f (1 : Fin 3) + f (2 : Fin 3) :=
    fun f => Fin.sum_univ_three f
  have on : ∀ (a : Int) (k : Fin 3), OnBoundary chain a k ↔ (a = 1 ∧ k = 0) ∨ (a = 2 ∧ k = 2) := chain_on
  have w : ∀ k : Fin 3, weakForm noAnalytic chain (declaredEps pair.materials b)
      (pair.materials.openBoundaries.map OpenBoundary.tag) t.phi k =
      ((if b then (1 : ℚ) else 3) • !![1, -1, 0; -1, 2, -1; 0, -1, 1] : Matrix (Fin 3) (Fin 3) ℚ).mulVec t.phi k :=
    fun k => (systemMatrix_mulVec (F := chain) _ b t.phi k).symm.trans (congrFun (congrArg (fun M => Matrix.mulVec M t.phi) (pair_system b)) k)
  have v0 : t.phi (0 : Fin 3) = V 1 := h.at_conductor pair_separate (p := ⟨"Shield_0", 1, 0⟩) (by decide +kernel) ((on 1 0).mpr (by decide))
  have v2 : t.phi (2 : Fin 3) = V 2 := h.at_conductor pair_separate (p := ⟨"Conductor_1", 2, 0⟩) (by decide +kernel) ((on 2 2).mpr (by decide))
  have e1 := (w 1).symm.trans (h.equations (1 : Fin 3) (by
    intro p _ ho
    rcases (on _ _).mp ho with ⟨_, e⟩ | ⟨_, e⟩ <;> cases e))
  have hp' : p.tag = 2 ∨ p.tag = 1 := by
    rcases List.mem_cons.mp hp with rfl | hp
    · exact Or.inl rfl
    · exact Or.inr (by rw [List.mem_singleton.mp hp])
  unfold reaction
  rw [sum]
  rcases hp' with e | e <;> rw [e]
  · rw [if_neg (by rw [on]; decide), if_neg (by rw [on]; decide), if_pos ((on 2 2).mpr (by decide)), w 2, hq.2]
    cases b <;> simp [mulVec, dotProduct, Fin.sum_univ_three, v0, v2] at e1 ⊢ <;> linarith
  · rw [if_pos ((on 1 0).mpr (by decide)), if_neg (by rw [on]; decide), if_neg (by rw [on]; decide), w 0, hq.1]
    cases b <;> simp [mulVec, dotProduct, Fin.sum_univ_three, v0, v2] at e1 ⊢ <;> linarith

end Tulip.Props
