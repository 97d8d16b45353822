import Verif.Props.LimitSquare

/-!
# C103: energies tell the errors of fields
-/

namespace Tulip.Props
open Tulip Tulip.Spec MeasureTheory Set

section
variable {T : Triangulation ℝ} {mats : Materials ℝ} {b : Bool} {V : Int → ℝ} {v w : ℝ × ℝ → ℝ}

/-- **C103, part 1.** Let `a` and `e` be how much the energies of two potentials exceed the least one. The energy of their
difference is at most `a / (1 - τ) + e / τ` and at least `a / (1 + τ) - e / τ`: nearly `a`, when `e` is small. -/
theorem C103_difference (hm : ∀ d ∈ mats.dielectrics, 0 < d.relativePermittivity) (hv : Potential T mats V v) (hw : Potential T mats V w) {a e : ℝ}
    (ha : potentialEnergy T (declaredEps mats b) v = sInf (potentialEnergies T mats b V) + a)
    (he : potentialEnergy T (declaredEps mats b) w = sInf (potentialEnergies T mats b V) + e) {τ : ℝ} (h0 : 0 < τ) (h1 : τ < 1) :
    potentialEnergy T (declaredEps mats b) (fun x => v x - w x) ≤ a / (1 - τ) + e / τ ∧
      a / (1 + τ) - e / τ ≤ potentialEnergy T (declaredEps mats b) (fun x => v x - w x) := by
  obtain ⟨L, hL, h2⟩ := potential_slopes hv
  obtain ⟨M, hM, h3⟩ := potential_slopes hw
  have key : ∀ s : ℝ, s * (1 - s) * potentialEnergy T (declaredEps mats b) (fun x => v x - w x) ≤ (1 - s) * a + s * e := fun s => by
    have := csInf_le (energies_below hm T b V) ⟨_, potential_blend hv hw s, rfl⟩
    rw [energy_blend h2 h3 hL hM, ha, he] at this
    linarith
  set d := potentialEnergy T (declaredEps mats b) (fun x => v x - w x)
  constructor
  · have h := key (1 - τ)
    have hp : 0 < (1 - τ) * τ := mul_pos (by linarith) h0
    rw [div_add_div _ _ (by linarith) h0.ne', le_div_iff₀ hp]
    linarith
  · have h := key (1 + τ)
    have hp : 0 < (1 + τ) * τ := mul_pos (by linarith) h0
    rw [div_sub_div _ _ (by linarith) h0.ne', div_le_iff₀ hp]
    linarith

end

section
variable {mats : Materials ℝ} {ps : List (PEC ℝ)}

/-- **C103.** Let `u` be the potential found, and `W` the energy reported, by any run, on a coarse mesh say. How much `W` exceeds
the least energy of all potentials is the energy of the error of the field: that of the difference between `u` and the potential
found on any mesh that is fine enough, up to what one wants. -/
theorem C103_error (hN : Numbering mats ps) (hc : mats.openBoundaries = [])
    (hm : ∀ d ∈ mats.dielectrics, 0 < d.relativePermittivity) {T0 : Triangulation ℝ} (h0 : Embedded T0) (b : Bool) (V : Int → ℝ)
    {T : Triangulation ℝ} {A : Analytic ℝ} {P : LinSolver ℝ} {S : Shapes T} {Q : Rule ℝ} {p : Nat} {s : Solver (T.femWith S Q)}
    (hP : ExactSolver P) (hr : ClosedRun T A P mats b S Q p s) (hs : SameCrossSection T0 T) (flatness : ℝ) {ε : ℝ} (hε : 0 < ε) :
    ∃ u W, Finds P mats s V u ∧ Reports P mats s V W ∧
      ∃ size > 0, ∀ (T' : Triangulation ℝ) (A' : Analytic ℝ) (P' : LinSolver ℝ) (S' : Shapes T') (Q' : Rule ℝ) (p' : Nat) (s' : Solver (T'.femWith S' Q')),
        ExactSolver P' → ClosedRun T' A' P' mats b S' Q' p' s' → SameCrossSection T0 T' → Fine T' flatness size →
        ∃ u', Finds P' mats s' V u' ∧
          |potentialEnergy T0 (declaredEps mats b) (fun x => u x - u' x) - (W - sInf (potentialEnergies T0 mats b V))| ≤ ε := by
  obtain ⟨u, W, k1, k2, k3, k4⟩ := C101_energy hP hN hc hr V
  obtain ⟨L, hL, hsl⟩ := potential_slopes k3
  have hu := potential_same (sameCrossSection_symm hs) k3
  have hW : potentialEnergy T0 (declaredEps mats b) u = W := by
    rw [← energy_same hr.embedded.apart h0.apart (sameCrossSection_symm hs) _ hsl hL, k4]
  set W0 := sInf (potentialEnergies T0 mats b V) with hW0
  have ha : 0 ≤ W - W0 := by
    have := csInf_le (energies_below hm T0 b V) ⟨u, hu, rfl⟩
    rw [hW] at this
    linarith
  set a := W - W0 with haW
  obtain ⟨τ, hτ0, hτ1, hτa⟩ : ∃ τ : ℝ, 0 < τ ∧ τ < 1 ∧ a / (1 - τ) ≤ a + ε / 2 ∧ a - ε / 2 ≤ a / (1 + τ) := by
    have hden : 0 < 2 * a + ε := by linarith
    refine ⟨ε / (2 * (2 * a + ε)), by positivity, ?_, ?_, ?_⟩
    · rw [div_lt_one (by positivity)]
      linarith
    · have e1 : 1 - ε / (2 * (2 * a + ε)) = (4 * a + ε) / (2 * (2 * a + ε)) := by
        field_simp
        ring
      rw [e1, div_div_eq_mul_div, div_le_iff₀ (by linarith)]
      nlinarith
    · have e1 : 1 + ε / (2 * (2 * a + ε)) = (4 * a + 3 * ε) / (2 * (2 * a + ε)) := by
        field_simp
        ring
      rw [e1, div_div_eq_mul_div, le_div_iff₀ (by linarith)]
      nlinarith
  refine ⟨u, W, k1, k2, ?_⟩
  obtain ⟨δ, hδ, key⟩ := fine_finds hN hc hm h0 b V flatness (show 0 < ε / 2 * τ by positivity)
  refine ⟨δ, hδ, fun T' A' P' S' Q' p' s' hP' hr' hs' hF => ?_⟩
  obtain ⟨u', e1, e2, e3⟩ := key T' A' P' S' Q' p' s' hP' hr' hs' hF
  refine ⟨u', e1, ?_⟩
  have he : (potentialEnergy T0 (declaredEps mats b) u' - W0) / τ ≤ ε / 2 := by
    rw [div_le_iff₀ hτ0]
    linarith
  obtain ⟨d1, d2⟩ := C103_difference hm hu e2 (a := a) (e := potentialEnergy T0 (declaredEps mats b) u' - W0)
    (by rw [hW, haW]; ring) (by ring) hτ0 hτ1
  rw [abs_le]
  constructor <;> linarith [hτa.1, hτa.2]

/-- **C103, exact solutions.** If the cross-section has a potential of least energy, the energy of the error of the field found is
how much the energy reported exceeds its energy. -/
theorem C103_solution (hN : Numbering mats ps) (hc : mats.openBoundaries = []) {T0 : Triangulation ℝ} (h0 : Embedded T0) (b : Bool) (V : Int → ℝ)
    {v : ℝ × ℝ → ℝ} (hv : Potential T0 mats V v) (hleast : ∀ W ∈ potentialEnergies T0 mats b V, potentialEnergy T0 (declaredEps mats b) v ≤ W)
    {T : Triangulation ℝ} {A : Analytic ℝ} {P : LinSolver ℝ} {S : Shapes T} {Q : Rule ℝ} {p : Nat} {s : Solver (T.femWith S Q)}
    (hP : ExactSolver P) (hr : ClosedRun T A P mats b S Q p s) (hs : SameCrossSection T0 T) :
    ∃ u W, Finds P mats s V u ∧ Reports P mats s V W ∧
      potentialEnergy T0 (declaredEps mats b) (fun x => v x - u x) = W - potentialEnergy T0 (declaredEps mats b) v := by
  obtain ⟨u, W, k1, k2, k3, k4⟩ := C101_energy hP hN hc hr V
  obtain ⟨L, hL, hsl⟩ := potential_slopes k3
  have hu := potential_same (sameCrossSection_symm hs) k3
  refine ⟨u, W, k1, k2, ?_⟩
  rw [k4, energy_same hr.embedded.apart h0.apart (sameCrossSection_symm hs) _ hsl hL, energy_least hv (fun w hw => hleast _ ⟨w, hw, rfl⟩) hu]
  ring

end
/-- A run for the capacitor, of any order, and what its energy tells about its field. -/
example (V : Int → ℝ) {p : Nat} (hp : 1 ≤ p) : ∃ (S : Shapes square) (Q : Rule ℝ) (s : Solver (square.femWith S Q)) (u : ℝ × ℝ → ℝ) (W : ℝ),
    ClosedRun square realNothing inverseReal squareMats true S Q p s ∧ Finds inverseReal squareMats s V u ∧ Reports inverseReal squareMats s V W ∧
      potentialEnergy square (declaredEps squareMats true) (fun x => capacitorPotential V x - u x) = W - (V 2 - V 1) ^ 2 / 2 := by
  obtain ⟨S, Q, s, h4⟩ := closedRun_exists square_numbering square_proper square_embedded square_sensible square_joined square_apart realNothing inverseReal true hp
  obtain ⟨u, W, e1, e2, e3⟩ := C103_solution square_numbering rfl square_embedded true V (capacitor_potential V) (capacitor_least V).2 inverseReal_exact h4
    (sameCrossSection_refl square_embedded.apart)
  exact ⟨S, Q, s, u, W, h4, e1, e2, by rw [e3, (capacitor_least V).1]⟩

/-- The same with the dielectric, compared with what runs on fine meshes find. -/
example (V : Int → ℝ) {p : Nat} (hp : 1 ≤ p) {ε : ℝ} (hε : 0 < ε) : ∃ (S : Shapes square) (Q : Rule ℝ) (s : Solver (square.femWith S Q)) (u : ℝ × ℝ → ℝ) (W : ℝ)
    (T : Triangulation ℝ) (S' : Shapes T) (Q' : Rule ℝ) (s' : Solver (T.femWith S' Q')) (u' : ℝ × ℝ → ℝ),
    ClosedRun square realNothing inverseReal squareMats false S Q p s ∧ Finds inverseReal squareMats s V u ∧ Reports inverseReal squareMats s V W ∧
      ClosedRun T realNothing inverseReal squareMats false S' Q' p s' ∧ Finds inverseReal squareMats s' V u' ∧
      |potentialEnergy square (declaredEps squareMats false) (fun x => u x - u' x) - (W - sInf (potentialEnergies square squareMats false V))| ≤ ε := by
  obtain ⟨S, Q, s, h4⟩ := closedRun_exists square_numbering square_proper square_embedded square_sensible square_joined square_apart realNothing inverseReal false hp
  obtain ⟨κ, hκ⟩ := fine_meshes ⟨square_proper, square_embedded, square_sensible, square_joined, square_apart⟩
  obtain ⟨u, W, e1, e2, δ, hδ, key⟩ := C103_error square_numbering rfl square_sensible.permittivities square_embedded false V inverseReal_exact h4
    (sameCrossSection_refl square_embedded.apart) κ hε
  obtain ⟨T', h1, h2, h3⟩ := hκ δ hδ
  obtain ⟨S', Q', s', h5⟩ := closedRun_exists square_numbering h1.proper h1.embedded h1.sensible h1.joined h1.apart realNothing inverseReal false hp
  obtain ⟨u', e3, e4⟩ := key T' _ _ S' Q' p s' inverseReal_exact h5 h2 h3
  exact ⟨S, Q, s, u, W, T', S', Q', s', u', h4, e1, e2, h5, e3, e4⟩

end Tulip.Props
