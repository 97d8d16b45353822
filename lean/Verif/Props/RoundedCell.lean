import Verif.Model.RoundedCell
import Verif.Props.RoundedOpen
import Verif.Props.RoundedCapacitance

/-!
# C120: averages over the inner region, superposed fields and inner-region parameters, as computed
-/

noncomputable section

namespace Tulip.Props
open Tulip Tulip.Spec Tulip.InCellPotentials Tulip.Accuracy Tulip.RoundedGrid

section
variable {𝕜 : Type _} [Field 𝕜] [LinearOrder 𝕜] [IsStrictOrderedRing 𝕜] {rnd : 𝕜 → 𝕜} {u : 𝕜}

/-- A product, rounded. -/
theorem near_product (hu : 0 ≤ u) (herr : ∀ x, |rnd x - x| ≤ u * |x|) (c t : 𝕜) :
    Near u 1 (rnd (c * t)) (c * t) (|c| * |t|) := by
  have h := Near.round hu herr (m := 0) (Near.self hu 0 (c * t))
  rwa [abs_mul] at h

theorem near_innerLoop (hu : 0 ≤ u) (herr : ∀ x, |rnd x - x| ≤ u * |x|) {materials : NameToAttrMap}
    {area : String → Outcome 𝕜} {isDomain : String → Bool} {inDomain inBoundary : Int → Outcome 𝕜} {a v : String → 𝕜} {K : 𝕜} :
    ∀ {names : List String},
    (∀ name ∈ names, ∃ tag, SMap.find? materials name = some tag ∧ area name = .ok (a name) ∧
      (if isDomain name then inDomain tag else inBoundary tag) = .ok (v name)) →
    (∀ name ∈ names, 0 ≤ a name ∧ |v name| ≤ K) →
    ∀ {m : ℕ} {x p P y q Q : 𝕜}, Near u (m + 1) x p P → Near u m y q Q →
    ∃ X Y, RoundedCell.innerLoop rnd materials area isDomain inDomain inBoundary names x y = .ok (X, Y) ∧
      Near u (m + 1 + names.length) X (p + (names.map fun name => v name * a name).sum)
        (P + K * (names.map a).sum) ∧
      Near u (m + names.length) Y (q + (names.map a).sum) (Q + (names.map a).sum)
  | [], _, _, m, x, p, P, y, q, Q, hx, hy => ⟨x, y, rfl, by simpa using hx, by simpa using hy⟩
  | name :: t, hr, hb, m, x, p, P, y, q, Q, hx, hy => by
    obtain ⟨tag, h1, h2, h3⟩ := hr name (by simp)
    obtain ⟨ha, hv⟩ := hb name (by simp)
    have hp : Near u (m + 1) (rnd (v name * a name)) (v name * a name) (K * a name) := by
      have h := (near_product (rnd := rnd) hu herr (v name) (a name)).mono hu (show 1 ≤ m + 1 by omega)
      have hle : |v name| * |a name| ≤ K * a name := by
        rw [abs_of_nonneg ha]; exact mul_le_mul_of_nonneg_right hv ha
      exact ⟨h.1.trans (mul_le_mul_of_nonneg_left hle (by linarith [one_le_power hu (m + 1)])), h.2.trans hle⟩
    have hs : Near u m (a name) (a name) (a name) := by
      have := Near.self hu m (a name)
      rwa [abs_of_nonneg ha] at this
    obtain ⟨X, Y, e, hX, hY⟩ := near_innerLoop hu herr (names := t) (fun n hn => hr n (List.mem_cons_of_mem _ hn))
      (fun n hn => hb n (List.mem_cons_of_mem _ hn))
      (hx.plus hu herr hp) (hy.plus hu herr hs)
    refine ⟨X, Y, ?_, ?_, ?_⟩
    · rw [RoundedCell.innerLoop, h1, h2]
      simp only [Outcome.ofOption, Outcome.ok_bind]
      split_ifs at h3 ⊢ <;> (rw [h3, Outcome.ok_bind]; exact e)
    · simp only [List.map_cons, List.sum_cons, List.length_cons]
      convert hX using 1 <;> first | omega | ring
    · simp only [List.map_cons, List.sum_cons, List.length_cons]
      convert hY using 1 <;> first | omega | ring

/-- **C120, averages.** Every operation is rounded with relative error at most `u`. If every listed material is in the map, has an
area `a ≥ 0` and an average potential `v` of size at most `K`, and not all areas are zero, the computed average over the inner region
is `Σ v a / Σ a` up to the stated multiple of `K`. -/
theorem C120_average (hu : 0 ≤ u) (herr : ∀ x, |rnd x - x| ≤ u * |x|) {materials : NameToAttrMap}
    {area : String → Outcome 𝕜} {isDomain : String → Bool} {inDomain inBoundary : Int → Outcome 𝕜} {a v : String → 𝕜} {K : 𝕜}
    {names : List String}
    (hr : ∀ name ∈ names, ∃ tag, SMap.find? materials name = some tag ∧ area name = .ok (a name) ∧
      (if isDomain name then inDomain tag else inBoundary tag) = .ok (v name))
    (hb : ∀ name ∈ names, 0 ≤ a name ∧ |v name| ≤ K) (hA : (names.map a).sum ≠ 0)
    (hn : (1 + u) ^ names.length - 1 < 1) :
    ∃ r, RoundedCell.getInnerRegionAveragePotential rnd materials area isDomain inDomain inBoundary names = .ok r ∧
      |r - (names.map fun name => v name * a name).sum / (names.map a).sum| ≤
        K * (((1 + u) ^ (names.length + 2) - 1) + ((1 + u) ^ names.length - 1)) / (1 - ((1 + u) ^ names.length - 1)) := by
  have h0 : ∀ m, Near u m (0 : 𝕜) 0 0 := fun m => by simpa using Near.self hu m (0 : 𝕜)
  obtain ⟨X, Y, e, hX, hY⟩ := near_innerLoop hu herr hr hb (h0 1) (h0 0)
  simp only [zero_add] at hX hY
  set A := (names.map a).sum
  set p := (names.map fun name => v name * a name).sum
  have hA0 : 0 < A := lt_of_le_of_ne (hY.nonneg) (Ne.symm hA)
  set γ := (1 + u) ^ names.length - 1 with hγ
  have hγ0 : 0 ≤ γ := by linarith [one_le_power hu names.length]
  have hYd : |Y - A| ≤ γ * A := hY.1
  have hYpos : 0 < Y := by
    have := (abs_le.mp hYd).1
    nlinarith
  refine ⟨rnd (X / Y), ?_, ?_⟩
  · unfold RoundedCell.getInnerRegionAveragePotential divide
    rw [e, Outcome.ok_bind, if_neg hYpos.ne', Outcome.ok_bind]
  have hnum : Near u (names.length + 2) (rnd (X / Y) * Y) p (K * A) := by
    have h := Near.round (rnd := fun x => rnd (x / Y) * Y) hu (fun x => by
      have h1 := herr (x / Y)
      rw [show rnd (x / Y) * Y - x = (rnd (x / Y) - x / Y) * Y by field_simp, abs_mul]
      calc |rnd (x / Y) - x / Y| * |Y| ≤ u * |x / Y| * |Y| := mul_le_mul_of_nonneg_right h1 (abs_nonneg _)
        _ = u * |x| := by rw [mul_assoc, ← abs_mul, div_mul_cancel₀ _ hYpos.ne']) hX
    exact h.mono hu (by omega)
  have hq := near_quotient hnum.1 hnum.2 hYd (by rw [abs_of_pos hA0]; nlinarith)
  rw [mul_div_assoc, div_self hYpos.ne', mul_one, abs_of_pos hA0] at hq
  refine hq.trans (le_of_eq ?_)
  have : 1 - γ ≠ 0 := by linarith
  have : A - γ * A ≠ 0 := by
    rw [show A - γ * A = (1 - γ) * A by ring]; exact mul_ne_zero this hA0.ne'
  field_simp

/-- **C120, superposition.** An entry of a field made by `getPhi() *= 0` and `getPhi().Add(c, t)` for a list of pairs `(c, t)` is
`Σ c t` up to `((1 + u)^(n+1) - 1) Σ |c| |t|`, whatever the entry was before. -/
theorem C120_superposition (hu : 0 ≤ u) (herr : ∀ x, |rnd x - x| ≤ u * |x|) (old : 𝕜) (terms : List (𝕜 × 𝕜)) :
    |RoundedCell.superpose rnd old terms - (terms.map fun t => t.1 * t.2).sum| ≤
      ((1 + u) ^ (terms.length + 1) - 1) * (terms.map fun t => |t.1| * |t.2|).sum := by
  have key : ∀ (l : List (𝕜 × 𝕜)) {m : ℕ} {x a A : 𝕜}, Near u (m + 1) x a A →
      Near u (m + 1 + l.length) (l.foldl (fun acc t => rnd (acc + rnd (t.1 * t.2))) x)
        (a + (l.map fun t => t.1 * t.2).sum) (A + (l.map fun t => |t.1| * |t.2|).sum) := by
    intro l
    induction l with
    | nil => intro m x a A h; simpa using h
    | cons t l ih =>
      intro m x a A h
      have := ih (h.plus hu herr ((near_product (rnd := rnd) hu herr t.1 t.2).mono hu (by omega)))
      simp only [List.map_cons, List.sum_cons, List.length_cons]
      convert this using 1 <;> first | rfl | omega | ring
  have r0 : rnd (old * 0) = 0 := by
    have := herr (old * 0)
    rw [mul_zero, sub_zero, abs_zero, mul_zero] at this
    rw [mul_zero]
    exact abs_nonpos_iff.mp this
  have h0 : Near u (0 + 1) (0 : 𝕜) 0 0 := by simpa using Near.self hu 1 (0 : 𝕜)
  have := (key terms h0).1
  rw [show 0 + 1 + terms.length = terms.length + 1 by omega] at this
  simp only [zero_add] at this
  unfold RoundedCell.superpose
  rw [r0]
  exact this

end

/-- **C120, averages, for doubles.** With at most 1000 materials the computed average is exact up to `K / 10¹²`. -/
theorem C120_double {materials : NameToAttrMap} {area : String → Outcome ℚ} {isDomain : String → Bool}
    {inDomain inBoundary : Int → Outcome ℚ} {a v : String → ℚ} {K : ℚ} {names : List String} (hlen : names.length ≤ 1000)
    (hr : ∀ name ∈ names, ∃ tag, SMap.find? materials name = some tag ∧ area name = .ok (a name) ∧
      (if isDomain name then inDomain tag else inBoundary tag) = .ok (v name))
    (hb : ∀ name ∈ names, 0 ≤ a name ∧ |v name| ≤ K) (hA : (names.map a).sum ≠ 0) :
    ∃ r, RoundedCell.getInnerRegionAveragePotential (Nearest.nearest 52) materials area isDomain inDomain inBoundary names = .ok r ∧
      |r - (names.map fun name => v name * a name).sum / (names.map a).sum| ≤ K / 10 ^ 12 := by
  have R := Nearest.rounding (𝕜 := ℚ) (p := 52) (by norm_num)
  have hu := R.pos
  generalize hU : ((2 : ℚ) ^ (-(52 + 1 : ℤ))) = u at *
  have hu1 : u ≤ 12 / 10 ^ 17 := by rw [← hU]; norm_num
  have pw : ∀ k : ℕ, k ≤ 1002 → (1 + u) ^ k - 1 ≤ 2 / 10 ^ 13 := by
    intro k hk
    have hk' : (k : ℚ) ≤ 1002 := by exact_mod_cast hk
    have hku : (k : ℚ) * u ≤ 1002 * (12 / 10 ^ 17) := mul_le_mul hk' hu1 hu (by norm_num)
    refine (power_bound hu (lt_of_le_of_lt hku (by norm_num))).trans ?_
    rw [div_le_iff₀ (by linarith)]
    nlinarith
  have g1 := pw names.length (by omega)
  have g2 := pw (names.length + 2) (by omega)
  have g0 := one_le_power hu names.length
  obtain ⟨r, h1, h2⟩ := C120_average hu R.err hr hb hA (by linarith)
  refine ⟨r, h1, h2.trans ?_⟩
  have hK : 0 ≤ K := by
    rcases names with _ | ⟨n, t⟩
    · simp at hA
    · exact (abs_nonneg _).trans (hb n (by simp)).2
  rw [div_le_iff₀ (by linarith)]
  have : K * (((1 + u) ^ (names.length + 2) - 1) + ((1 + u) ^ names.length - 1)) ≤ K * (4 / 10 ^ 13) :=
    mul_le_mul_of_nonneg_left (by linarith) hK
  have h3 : K / 10 ^ 12 * (1 / 2) ≤ K / 10 ^ 12 * (1 - ((1 + u) ^ names.length - 1)) :=
    mul_le_mul_of_nonneg_left (by linarith) (by positivity)
  linarith

/-- **C120, capacitances over the inner region.** If the stored average is `m` up to `E`, and the potential `V` of conductor `i`
differs from `m` by more than `E`, the computed capacitance exists and differs from the exact quotient
`Q / (V - m) · ε₀` by at most the fraction `|V - m| / (|V - m| - E) · (1 - u)⁻³ - 1` of it. -/
theorem C120_capacitance {rnd : ℝ → ℝ} {u : ℝ} (R : Rounding rnd u) (eps0 : ℝ) (P : InCellPotentials ℝ)
    (i j : Int) (f : FieldReconstruction ℝ) (hj : P.electric.find? j = some f) (V : ℝ)
    (hV : f.conductorPotentials.find? i = some V) (hab : f.ab ≠ []) (m E : ℝ)
    (hr : |f.innerRegionAveragePotential - m| ≤ E) (hE : E < |V - m|) :
    ∃ C, RoundedCell.getCapacitanceUsingInnerRegion rnd eps0 P i j = .ok C ∧
      |C - (f.ab.getD 0 (0, 0)).1 / (V - m) * eps0| ≤
        (|V - m| / (|V - m| - E) * ((1 - u)⁻¹) ^ 3 - 1) * |(f.ab.getD 0 (0, 0)).1 / (V - m) * eps0| := by
  set r := f.innerRegionAveragePotential with hrdef
  have g1 := one_le_inv R
  have hu : 1 - u = ((1 - u)⁻¹)⁻¹ := (inv_inv _).symm
  set Q := (f.ab.getD 0 (0, 0)).1 with hQ
  have hmono : monopole f.ab = .ok Q := by
    cases h : f.ab with
    | nil => exact absurd h hab
    | cons x l => simp [hQ, h, monopole]
  obtain ⟨t0, e0, l0, u0, f0⟩ := factor_near hE (w := -r + V) (by
    rw [show -r + V - (V - m) = -(r - m) by ring, abs_neg]
    exact hr)
  obtain ⟨t1, e1, l1, u1⟩ := round_factor R (-r + V)
  set F := |V - m| / (|V - m| - E) with hF
  set g := (1 - u)⁻¹ with hg
  have hd : V - m ≠ 0 := by
    intro h
    rw [h, abs_zero] at hE
    linarith [abs_nonneg (r - m)]
  have k1 := factor_mul g1 f0 ⟨by rw [← hu]; exact l1, u1⟩ ⟨l0, u0⟩
  have hgF : 1 ≤ g * F := one_le_mul_of_one_le_of_one_le g1 f0
  have k2 := factor_inv hgF k1
  have hw : rnd (-r + V) = t1 * t0 * (V - m) := by rw [e1, e0]; ring
  have ht : t1 * t0 ≠ 0 := by
    have : 0 < (g * F)⁻¹ := inv_pos.mpr (by linarith)
    linarith [k1.1]
  have hw0 : rnd (-r + V) ≠ 0 := by rw [hw]; exact mul_ne_zero ht hd
  obtain ⟨t2, e2, l2, u2⟩ := round_factor R (Q / rnd (-r + V))
  obtain ⟨t3, e3, l3, u3⟩ := round_factor R (rnd (Q / rnd (-r + V)) * eps0)
  refine ⟨rnd (rnd (Q / rnd (-r + V)) * eps0), ?_, ?_⟩
  · unfold RoundedCell.getCapacitanceUsingInnerRegion mapAt
    rw [hj]
    simp only [Outcome.ofOption, Outcome.ok_bind, hmono, hV]
    unfold divide
    rw [if_neg hw0, Outcome.ok_bind]
  · have k3 := factor_mul hgF g1 k2 ⟨by rw [← hu]; exact l2, u2⟩
    have hgF2 : 1 ≤ g * F * g := one_le_mul_of_one_le_of_one_le hgF g1
    have k4 := factor_mul hgF2 g1 k3 ⟨by rw [← hu]; exact l3, u3⟩
    have k5 := factor_error (x := Q / (V - m) * eps0) (one_le_mul_of_one_le_of_one_le hgF2 g1) k4.1 k4.2 rfl
    rw [show F * g ^ 3 - 1 = g * F * g * g - 1 by ring]
    refine le_trans (le_of_eq ?_) k5
    congr 2
    rw [e3, e2, hw]
    field_simp

/-- **C120, inductances over the inner region.** With the current `I ≠ 0` of the magnetic field of conductor `j`, the potential `A`
of conductor `i` in that field and the stored average `m` (up to `E`): `(A - m) / I · μ₀` up to
`((1 - u)⁻³ (|A - m| + E) - |A - m|) |μ₀ / I|`. -/
theorem C120_inductance {rnd : ℝ → ℝ} {u : ℝ} (R : Rounding rnd u) (mu0 : ℝ) (P : InCellPotentials ℝ)
    (i j : Int) (f : FieldReconstruction ℝ) (hj : P.magnetic.find? j = some f) (V : ℝ)
    (hV : f.conductorPotentials.find? i = some V) (hab : f.ab ≠ []) (hI : (f.ab.getD 0 (0, 0)).1 ≠ 0) (m E : ℝ)
    (hr : |f.innerRegionAveragePotential - m| ≤ E) :
    ∃ L, RoundedCell.getInductanceUsingInnerRegion rnd mu0 P i j = .ok L ∧
      |L - (V - m) / (f.ab.getD 0 (0, 0)).1 * mu0| ≤
        (((1 - u)⁻¹) ^ 3 * (|V - m| + E) - |V - m|) * |mu0 / (f.ab.getD 0 (0, 0)).1| := by
  set r := f.innerRegionAveragePotential with hrdef
  have g1 := one_le_inv R
  have hu : 1 - u = ((1 - u)⁻¹)⁻¹ := (inv_inv _).symm
  set I := (f.ab.getD 0 (0, 0)).1 with hIdef
  have hmono : monopole f.ab = .ok I := by
    cases h : f.ab with
    | nil => exact absurd h hab
    | cons x l => simp [hIdef, h, monopole]
  obtain ⟨t1, e1, l1, u1⟩ := round_factor R (-r + V)
  obtain ⟨t2, e2, l2, u2⟩ := round_factor R (rnd (-r + V) / I)
  obtain ⟨t3, e3, l3, u3⟩ := round_factor R (rnd (rnd (-r + V) / I) * mu0)
  set g := (1 - u)⁻¹ with hg
  refine ⟨rnd (rnd (rnd (-r + V) / I) * mu0), ?_, ?_⟩
  · unfold RoundedCell.getInductanceUsingInnerRegion mapAt
    rw [hj]
    simp only [Outcome.ofOption, Outcome.ok_bind, hmono, hV]
    unfold divide
    rw [if_neg hI, Outcome.ok_bind]
  · have gg : 1 ≤ g * g := one_le_mul_of_one_le_of_one_le g1 g1
    have k1 := factor_mul g1 g1 ⟨by rw [← hu]; exact l1, u1⟩ ⟨by rw [← hu]; exact l2, u2⟩
    have k2 := factor_mul gg g1 k1 ⟨by rw [← hu]; exact l3, u3⟩
    have k3 := factor_error (x := -r + V) (one_le_mul_of_one_le_of_one_le gg g1) k2.1 k2.2 rfl
    have ew : rnd (rnd (rnd (-r + V) / I) * mu0) - (V - m) / I * mu0 =
        (t1 * t2 * t3 * (-r + V) - (V - m)) * (mu0 / I) := by
      rw [e3, e2, e1]
      field_simp
    rw [ew, abs_mul]
    refine mul_le_mul_of_nonneg_right ?_ (abs_nonneg _)
    have hd : |-r + V - (V - m)| ≤ E := by
      rw [show -r + V - (V - m) = -(r - m) by ring, abs_neg]
      exact hr
    have tri := abs_sub_le (t1 * t2 * t3 * (-r + V)) (-r + V) (V - m)
    have tri2 : |-r + V| ≤ |V - m| + E := by
      have := abs_sub_abs_le_abs_sub (-r + V) (V - m)
      linarith
    have ge : g ^ 3 = g * g * g := by ring
    rw [ge]
    have := mul_le_mul_of_nonneg_left tri2 (by linarith [one_le_mul_of_one_le_of_one_le gg g1] : 0 ≤ g * g * g - 1)
    nlinarith

/-- **C120, without rounding: averages.** With exact arithmetic, the areas of the model and the averages of the solver, this is the
function of the other properties. -/
theorem C120_exact_average {𝕜 : Type _} [Field 𝕜] [DecidableEq 𝕜] [LinearOrder 𝕜] {F : FEM 𝕜} (model : Model 𝕜) (s : Solver F)
    (includeConductors : Bool) :
    RoundedCell.getInnerRegionAveragePotential (fun x => x) model.materials.buildNameToAttrMap model.getAreaOfMaterial
      (fun name => model.materials.isDomainMaterial name) s.getAveragePotentialInDomain s.getAveragePotentialInBoundary
      (Driver.listMaterialsInInnerRegion model includeConductors) =
    Driver.getInnerRegionAveragePotential model s includeConductors := by
  have loop : ∀ (l : List String) (mats : NameToAttrMap) (x y : 𝕜),
      RoundedCell.innerLoop (fun x => x) mats model.getAreaOfMaterial (fun name => model.materials.isDomainMaterial name)
        s.getAveragePotentialInDomain s.getAveragePotentialInBoundary l x y = Driver.innerLoop model s mats l x y := by
    intro l mats
    induction l with
    | nil => intro x y; rfl
    | cons n t ih => intro x y; simp only [RoundedCell.innerLoop, Driver.innerLoop, ih]
  unfold RoundedCell.getInnerRegionAveragePotential Driver.getInnerRegionAveragePotential
  simp only [loop]
  cases h : Driver.innerLoop model s model.materials.buildNameToAttrMap (Driver.listMaterialsInInnerRegion model includeConductors) 0 0 with
  | ok t => simp only [Outcome.ok_bind]; cases divide t.1 t.2 <;> rfl
  | _ => rfl

/-- **C120, without rounding: fields.** The entries of the potential and of both fields after `scaleZero` and the calls of
`addScaled`. -/
theorem C120_exact_superposition {𝕜 : Type _} [Field 𝕜] {F : FEM 𝕜} (s : Solver F) (l : List (𝕜 × SolverSolution F)) :
    let r := (l.foldl (fun s t => Driver.addScaled t.1 t.2 s) (Driver.scaleZero s)).sol
    (∀ i, RoundedCell.superpose (fun x => x) (s.sol.phi i) (l.map fun t => (t.1, t.2.phi i)) = r.phi i) ∧
    (∀ i, RoundedCell.superpose (fun x => x) (s.sol.e i) (l.map fun t => (t.1, t.2.e i)) = r.e i) ∧
    ∀ i, RoundedCell.superpose (fun x => x) (s.sol.d i) (l.map fun t => (t.1, t.2.d i)) = r.d i := by
  have key : ∀ (g : SolverSolution F → 𝕜) (_ : ∀ c t s, g (Driver.addScaled c t s).sol = g s.sol + c * g t)
      (l : List (𝕜 × SolverSolution F)) (s : Solver F),
      (l.map fun t => (t.1, g t.2)).foldl (fun acc t => acc + t.1 * t.2) (g s.sol) =
        g (l.foldl (fun s t => Driver.addScaled t.1 t.2 s) s).sol := by
    intro g hg l
    induction l with
    | nil => intro s; rfl
    | cons t l ih => intro s; rw [List.map_cons, List.foldl_cons, List.foldl_cons, ← ih, hg]
  exact ⟨fun i => key (fun t => t.phi i) (fun _ _ _ => rfl) l (Driver.scaleZero s),
    fun i => key (fun t => t.e i) (fun _ _ _ => rfl) l (Driver.scaleZero s),
    fun i => key (fun t => t.d i) (fun _ _ _ => rfl) l (Driver.scaleZero s)⟩

/-- **C120, without rounding: parameters.** -/
theorem C120_exact_parameters {𝕜 : Type _} [Field 𝕜] [DecidableEq 𝕜] (k : 𝕜) (P : InCellPotentials 𝕜) (i j : Int) :
    RoundedCell.getCapacitanceUsingInnerRegion (fun x => x) k P i j = getCapacitanceUsingInnerRegion k P i j ∧
    RoundedCell.getInductanceUsingInnerRegion (fun x => x) k P i j = getInductanceUsingInnerRegion k P i j :=
  ⟨rfl, rfl⟩

/-- A vacuum of area 12 at average potential 2, a dielectric of area 3 at 5 and a conductor of area 1 at 7, in doubles. -/
example : ∃ r, RoundedCell.getInnerRegionAveragePotential (Nearest.nearest 52) [("D", 2), ("I", 1), ("W", 3)]
    (fun n => .ok (if n = "I" then 12 else if n = "D" then 3 else 1)) (fun n => n ≠ "W")
    (fun t => .ok (if t = 1 then 2 else 5)) (fun _ => .ok 7) ["I", "D", "W"] = .ok r ∧
    |r - (46 / 16 : ℚ)| ≤ 7 / 10 ^ 12 := by
  have key := C120_double (materials := [("D", 2), ("I", 1), ("W", 3)])
    (area := fun n => .ok (if n = "I" then 12 else if n = "D" then 3 else 1)) (isDomain := fun n => n ≠ "W")
    (inDomain := fun t => .ok (if t = 1 then 2 else 5)) (inBoundary := fun _ => .ok 7)
    (a := fun n => if n = "I" then 12 else if n = "D" then 3 else 1)
    (v := fun n => if n = "I" then 2 else if n = "D" then 5 else 7) (K := 7) (names := ["I", "D", "W"]) (by decide)
    (by
      intro n hn
      simp only [List.mem_cons, List.not_mem_nil, or_false] at hn
      rcases hn with rfl | rfl | rfl
      · exact ⟨1, by decide, by simp, by simp⟩
      · exact ⟨2, by decide, by simp, by simp⟩
      · exact ⟨3, by decide, by simp, by simp⟩)
    (by
      intro n hn
      simp only [List.mem_cons, List.not_mem_nil, or_false] at hn
      rcases hn with rfl | rfl | rfl <;> simp (decide := true))
    (by simp (decide := true); norm_num)
  obtain ⟨r, h1, h2⟩ := key
  refine ⟨r, h1, ?_⟩
  simp (decide := true) at h2
  norm_num at h2 ⊢
  exact h2

end Tulip.Props
