import Verif.Props.PUL
import Verif.Props.Multipolar
import Verif.Proofs.Elliptic

/-!
# C74: existence and uniqueness of the field
-/

set_option linter.unusedSectionVars false

namespace Tulip.Props
open Tulip Tulip.Spec Matrix

/-- **C74** (partial: the coefficient of the absorbing boundary condition must not be negative on the open boundaries,
which it is beyond distance 1, see C68). Positive permittivities make the discrete problem well posed: for any
potentials of the conductors there is exactly one field, with and without dielectrics. -/
theorem C74_unique_partial {𝕜 : Type} [Field 𝕜] [LinearOrder 𝕜] [IsStrictOrderedRing 𝕜] {A : Analytic 𝕜} {F : FEM 𝕜}
    {mats : Materials 𝕜} (h : Elliptic A F mats) (hs : Separate F mats) :
    WellPosed A F mats ∧ ∀ (b : Bool) (V : Int → 𝕜), ∃! t, PrescribedField A F mats b V t := by
  refine ⟨h.wellPosed, fun b V => ?_⟩
  obtain ⟨t, ht⟩ := h.wellPosed.exists_field hs b V
  exact ⟨t, ht, fun u hu => hu.unique h.wellPosed hs ht⟩

/-- The closed model `pair` meets the hypotheses... -/
theorem pair_elliptic : Elliptic noAnalytic chain pair.materials where
  weights := by decide +kernel
  permittivities := by decide +kernel
  opens := by rintro q - ⟨o, ho, -⟩; cases ho
  nodes := by
    rintro k ⟨p, _, hk⟩
    rcases (chain_on _ _).mp hk with ⟨_, rfl⟩ | ⟨_, rfl⟩
    · exact ⟨_, List.mem_cons_self, by decide +kernel⟩
    · exact ⟨_, List.mem_cons_of_mem _ List.mem_cons_self, by decide +kernel⟩
  potentials := by
    intro u h0 hg
    have sum : ∀ f : Fin chain.n → ℚ, ∑ k, f k = f (0 : Fin 3) + f (1 : Fin 3) + f (2 : Fin 3) :=
      fun f => Fin.sum_univ_three f
    have e0 : u (0 : Fin 3) = 0 := h0 (0 : Fin 3) ⟨⟨"Shield_0", 1, 0⟩, by decide +kernel, (chain_on 1 0).mpr (by decide)⟩
    have h1 := congrArg Prod.fst (hg _ List.mem_cons_self)
    have h2 := congrArg Prod.fst (hg _ (List.mem_cons_of_mem _ List.mem_cons_self))
    simp only [vectorAt, sum] at h1 h2
    simp at h1 h2
    have k : ∀ k : Fin 3, u k = 0 := by
      intro k
      fin_cases k
      · exact e0
      · show u (1 : Fin 3) = 0
        linarith
      · show u (2 : Fin 3) = 0
        linarith
    exact k
  fluxes := by
    intro d hg
    have sum : ∀ f : Fin chain.nd → ℚ, ∑ k, f k = f (0 : Fin 2) + f (1 : Fin 2) := fun f => Fin.sum_univ_two f
    have h1 := congrArg Prod.fst (hg _ List.mem_cons_self)
    have h2 := congrArg Prod.fst (hg _ (List.mem_cons_of_mem _ List.mem_cons_self))
    simp only [vectorAt, sum] at h1 h2
    simp at h1 h2
    have k : ∀ k : Fin 2, d k = 0 := by
      intro k
      fin_cases k
      · exact h1
      · exact h2
    exact k

/-- ... and so does the open model `wires`. -/
theorem wires_elliptic : Elliptic lineAnalytic line wires.materials where
  weights := by decide +kernel
  permittivities := by decide +kernel
  opens := by
    intro q hq _
    have : ∀ q ∈ line.bdr, 0 ≤ q.w := by decide +kernel
    show 0 ≤ q.w * 1
    rw [mul_one]
    exact this q hq
  nodes := by
    rintro k ⟨p, _, hk⟩
    rcases (line_on _ _).mp hk with ⟨_, rfl⟩ | ⟨_, rfl⟩ | ⟨_, rfl⟩
    · exact ⟨_, List.mem_cons_self, by decide +kernel⟩
    · exact ⟨_, List.mem_cons_of_mem _ List.mem_cons_self, by decide +kernel⟩
    · exact ⟨_, List.mem_cons_of_mem _ (List.mem_cons_of_mem _ List.mem_cons_self), by decide +kernel⟩
  potentials := by
    intro u h0 hg
    have sum : ∀ f : Fin line.n → ℚ, ∑ k, f k = f (0 : Fin 4) + f (1 : Fin 4) + f (2 : Fin 4) + f (3 : Fin 4) :=
      fun f => Fin.sum_univ_four f
    have e0 : u (0 : Fin 4) = 0 := h0 (0 : Fin 4) ⟨⟨"Shield_0", 1, 1⟩, by decide +kernel, (line_on 1 0).mpr (by decide)⟩
    have h1 := congrArg Prod.fst (hg _ List.mem_cons_self)
    have h2 := congrArg Prod.fst (hg _ (List.mem_cons_of_mem _ List.mem_cons_self))
    have h3 := congrArg Prod.fst (hg _ (List.mem_cons_of_mem _ (List.mem_cons_of_mem _ List.mem_cons_self)))
    simp only [vectorAt, sum] at h1 h2 h3
    simp at h1 h2 h3
    have k : ∀ k : Fin 4, u k = 0 := by
      intro k
      fin_cases k
      · exact e0
      · show u (1 : Fin 4) = 0
        linarith
      · show u (2 : Fin 4) = 0
        linarith
      · show u (3 : Fin 4) = 0
        linarith
    exact k
  fluxes := by
    intro d hg
    have sum : ∀ f : Fin line.nd → ℚ, ∑ k, f k = f (0 : Fin 3) + f (1 : Fin 3) + f (2 : Fin 3) :=
      fun f => Fin.sum_univ_three f
    have h1 := congrArg Prod.fst (hg _ List.mem_cons_self)
    have h2 := congrArg Prod.fst (hg _ (List.mem_cons_of_mem _ List.mem_cons_self))
    have h3 := congrArg Prod.fst (hg _ (List.mem_cons_of_mem _ (List.mem_cons_of_mem _ List.mem_cons_self)))
    simp only [vectorAt, sum] at h1 h2 h3
    simp at h1 h2 h3
    have k : ∀ k : Fin 3, d k = 0 := by
      intro k
      fin_cases k
      · exact h1
      · exact h2
      · exact h3
    exact k

/-! ## Beyond distance 1 -/

open Multipolar in
/-- a conductor at the origin and an open boundary at distance `r`, two nodes -/
noncomputable def rod (r : ℝ) : FEM ℝ where
  n := 2
  ne := 1
  nd := 1
  bdrAttrs := [1, 2]
  domAttrs := [1]
  bdrElems := [(1, [0]), (2, [1])]
  node := ![(0, 0), (r, 0)]
  dom := [{ attr := 1, w := 1, N := ![1/2, 1/2], gradN := ![(-1, 0), (1, 0)], W := ![(1, 0)], R := ![(1, 0)] }]
  bdr := [{ attr := 1, w := 1, pos := (0, 0), N := ![1, 0], fl := ![-1] },
          { attr := 2, w := r, pos := (r, 0), N := ![0, 1], fl := ![1] }]
  grad := !![-1, 1]

/-- the conductor and the open boundary of `rod` -/
def rodMaterials : Materials ℝ := { pecs := [⟨"Conductor_0", 1, 0⟩], openBoundaries := [⟨"OpenBoundary_0", 2⟩] }

theorem rod_on (r : ℝ) (a : Int) (i : Fin 2) : OnBoundary (rod r) a i ↔ (a = 1 ∧ i = 0) ∨ (a = 2 ∧ i = 1) := by
  unfold OnBoundary
  constructor
  · rintro ⟨b, hb, rfl, hi⟩
    rcases List.mem_cons.mp hb with rfl | hb
    · exact Or.inl ⟨rfl, List.mem_singleton.mp hi⟩
    · rcases List.mem_cons.mp hb with rfl | hb
      · exact Or.inr ⟨rfl, List.mem_singleton.mp hi⟩
      · cases hb
  · rintro (⟨rfl, rfl⟩ | ⟨rfl, rfl⟩)
    · exact ⟨((1 : Int), [(0 : Fin 2)]), List.mem_cons_self, rfl, List.mem_singleton.mpr rfl⟩
    · exact ⟨((2 : Int), [(1 : Fin 2)]), List.mem_cons_of_mem _ List.mem_cons_self, rfl, List.mem_singleton.mpr rfl⟩

theorem rod_fixed {r : ℝ} {p : PEC ℝ} (hp : p ∈ rodMaterials.pecs) {k : Fin 2} : OnBoundary (rod r) p.tag k ↔ k = 0 := by
  rw [List.mem_singleton.mp hp, rod_on]
  simp

/-- With a vanishing coefficient at the open boundary `rod` is elliptic. -/
theorem rod_elliptic (r : ℝ) (m : ℝ × ℝ → Nat → Nat → ℝ × ℝ → ℝ) : Elliptic ⟨fun _ => 0, m⟩ (rod r) rodMaterials where
  weights := by
    intro q hq
    rw [List.mem_singleton.mp hq]
    exact one_pos
  permittivities := by intro d hd; cases hd
  opens := by
    intro q _ _
    show 0 ≤ q.w * 0
    rw [mul_zero]
  nodes := by
    rintro k ⟨p, hp, hk⟩
    have : k = (0 : Fin 2) := (rod_fixed hp).mp hk
    subst this
    refine ⟨_, List.mem_cons_self, ?_⟩
    show ((-1 : ℝ), (0 : ℝ)) ≠ (0, 0)
    simp
  potentials := by
    intro u h0 hg
    have e0 : u (0 : Fin 2) = 0 := h0 (0 : Fin 2) ⟨_, List.mem_cons_self, (rod_fixed (r := r) List.mem_cons_self).mpr rfl⟩
    have h1 := congrArg Prod.fst (hg _ List.mem_cons_self)
    have sum : ∀ f : Fin (rod r).n → ℝ, ∑ k, f k = f (0 : Fin 2) + f (1 : Fin 2) := fun f => Fin.sum_univ_two f
    simp only [vectorAt, sum] at h1
    simp at h1
    have k : ∀ k : Fin 2, u k = 0 := by
      intro k
      fin_cases k
      · exact e0
      · show u (1 : Fin 2) = 0
        linarith
    exact k
  fluxes := by
    intro d hg
    have h1 := congrArg Prod.fst (hg _ List.mem_cons_self)
    have sum : ∀ f : Fin (rod r).nd → ℝ, ∑ k, f k = f (0 : Fin 1) := fun f => Fin.sum_univ_one f
    simp only [vectorAt, sum] at h1
    simp at h1
    have k : ∀ k : Fin 1, d k = 0 := by
      intro k
      fin_cases k
      exact h1
    exact k

theorem rod_separate (r : ℝ) : Separate (rod r) rodMaterials := by
  intro p hp q hq k _ _
  rw [List.mem_singleton.mp hp, List.mem_singleton.mp hq]

/-- Fields of `rod` with the conductor at 0 V, in terms of the coefficient `c` of the open boundary. -/
theorem rod_field {r : ℝ} {A : Analytic ℝ} (hA : r * A.abc (r, 0) = -1) (x : ℝ) :
    PrescribedField A (rod r) rodMaterials false (fun _ => 0) ⟨![0, x], fun _ => -x, fun _ => -x⟩ where
  values := by
    rintro k c ⟨p, hp, hk⟩ hc
    have hk' : k = (0 : Fin 2) := (rod_fixed hp).mp hk
    subst hk'
    rw [← hc p hp hk]
    rfl
  equations := by
    intro k hk
    have h1 : k = (1 : Fin 2) := by
      have : k ≠ (0 : Fin 2) := fun e => hk _ List.mem_cons_self ((rod_fixed List.mem_cons_self).mpr e)
      revert this
      revert k
      show ∀ k : Fin 2, _ → k ≠ 0 → k = 1
      intro k _
      fin_cases k <;> simp
    subst h1
    have sum : ∀ f : Fin (rod r).n → ℝ, ∑ k, f k = f (0 : Fin 2) + f (1 : Fin 2) := fun f => Fin.sum_univ_two f
    simp only [weakForm, inner2, vectorAt, scalarAt, sum]
    simp [rod, rodMaterials, List.filter, declaredEps]
    rw [hA]
    ring
  e := by
    intro k
    have sum : ∀ f : Fin (rod r).n → ℝ, ∑ k, f k = f (0 : Fin 2) + f (1 : Fin 2) := fun f => Fin.sum_univ_two f
    rw [sum]
    have : k = (0 : Fin 1) := Subsingleton.elim (α := Fin 1) _ _
    subst this
    simp [rod]
  d := by
    intro k
    have : k = (0 : Fin 1) := Subsingleton.elim (α := Fin 1) _ _
    subst this
    have sum : ∀ f : Fin (rod r).nd → ℝ, ∑ k, f k = f (0 : Fin 1) := fun f => Fin.sum_univ_one f
    have sum' : ∀ f : Fin (rod r).ne → ℝ, ∑ k, f k = f (0 : Fin 1) := fun f => Fin.sum_univ_one f
    simp only [inner2, vectorAt, sum, sum']
    simp [rod, rodMaterials, declaredEps]

/-- The full C74 is false of the code: with the solver's absorbing boundary condition, an open boundary at distance `e`
makes a problem, well posed otherwise, have different fields for the same potential of the conductor. -/
theorem C74_refuted : ∃ (F : FEM ℝ) (mats : Materials ℝ), Separate F mats ∧ (∀ q ∈ F.bdr, 0 < q.w) ∧
    Elliptic ⟨fun _ => 0, realAnalytic.moment⟩ F mats ∧
    ∃ t u, PrescribedField realAnalytic F mats false (fun _ => 0) t ∧
      PrescribedField realAnalytic F mats false (fun _ => 0) u ∧ t.phi ≠ u.phi := by
  have hA : Real.exp 1 * realAnalytic.abc (Real.exp 1, 0) = -1 := by
    show Real.exp 1 * Multipolar.firstOrderABC (Real.exp 1, 0) = -1
    have hn : Multipolar.norml2 (Real.exp 1, 0) = Real.exp 1 := by
      unfold Multipolar.norml2
      simp [Real.sqrt_mul_self (Real.exp_pos 1).le]
    unfold Multipolar.firstOrderABC Multipolar.EPSILON0_NATURAL
    rw [hn, Real.log_exp, mul_one]
    field_simp [(Real.exp_pos 1).ne']
  refine ⟨rod (Real.exp 1), rodMaterials, rod_separate _, ?_, rod_elliptic _ _, _, _, rod_field hA 0, rod_field hA 1, ?_⟩
  · intro q hq
    rcases List.mem_cons.mp hq with rfl | hq
    · exact one_pos
    · rw [List.mem_singleton.mp hq]
      exact Real.exp_pos 1
  · intro h
    have := congrFun h (1 : Fin 2)
    simp at this

end Tulip.Props
