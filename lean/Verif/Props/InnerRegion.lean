import Verif.Spec.InnerRegion
import Verif.Props.Model
import Verif.Props.SolverHistory
import Verif.Proofs.DriverBuild

/-!
# C62: average potential of the inner region
-/

set_option linter.unusedSectionVars false

namespace Tulip.Props
open Tulip Tulip.Spec Matrix

variable {𝕜 : Type} [Field 𝕜] [DecidableEq 𝕜] {F : FEM 𝕜}

theorem hasInfix_iff (p : List Char) : ∀ s : List Char, Driver.hasInfix p s = true ↔ p <:+: s
  | [] => by simp [Driver.hasInfix]
  | c :: s => by
    rw [Driver.hasInfix, Bool.or_eq_true, hasInfix_iff p s, List.isPrefixOf_iff_prefix, List.infix_cons_iff]

/-- What the loop does with one name. -/
def innerStep (model : Model 𝕜) (s : Solver F) (name : String) : Outcome (𝕜 × 𝕜) := do
  let tag ← Outcome.ofOption .outOfRange (SMap.find? model.materials.buildNameToAttrMap name)
  let area ← model.getAreaOfMaterial name
  let av ← if model.materials.isDomainMaterial name then s.getAveragePotentialInDomain tag
    else s.getAveragePotentialInBoundary tag
  .ok (area, av)

theorem innerLoop_cons (model : Model 𝕜) (s : Solver F) (name : String) (l : List String) (tp ta : 𝕜) :
    Driver.innerLoop model s model.materials.buildNameToAttrMap (name :: l) tp ta =
      (innerStep model s name >>= fun r =>
        Driver.innerLoop model s model.materials.buildNameToAttrMap l (tp + r.2 * r.1) (ta + r.1)) := by
  rw [Driver.innerLoop, innerStep]
  rcases SMap.find? model.materials.buildNameToAttrMap name with _ | tag
  · rfl
  rcases model.getAreaOfMaterial name with area | _ | _ | _ <;> try rfl
  simp only [Outcome.ofOption, Outcome.ok_bind]
  by_cases hd : model.materials.isDomainMaterial name = true
  · rw [if_pos hd, if_pos hd]
    rcases s.getAveragePotentialInDomain tag with _ | _ | _ | _ <;> rfl
  · rw [if_neg hd, if_neg hd]
    rcases s.getAveragePotentialInBoundary tag with _ | _ | _ | _ <;> rfl

theorem innerLoop_parts (model : Model 𝕜) (s : Solver F) (ar av : InnerPart 𝕜 → 𝕜) (good : InnerPart 𝕜 → Prop)
    (name : InnerPart 𝕜 → String) : ∀ (l : List (InnerPart 𝕜)) (tp ta : 𝕜),
    (∀ x ∈ l, innerStep model s (name x) = .ok (ar x, av x) ∧ good x ∨
      innerStep model s (name x) = .nonfinite ∧ ¬ good x) →
    (∀ r, Driver.innerLoop model s model.materials.buildNameToAttrMap (l.map name) tp ta = .ok r ↔
      (∀ x ∈ l, good x) ∧ r = (tp + (l.map (fun x => ar x * av x)).sum, ta + (l.map ar).sum)) ∧
    (¬ (∀ x ∈ l, good x) → Driver.innerLoop model s model.materials.buildNameToAttrMap (l.map name) tp ta = .nonfinite)
  | [], tp, ta, _ => by
    refine ⟨fun r => ?_, fun h => absurd (fun x hx => nomatch hx) h⟩
    simp only [List.map_nil, Driver.innerLoop, List.sum_nil, add_zero]
    constructor
    · intro h; cases h; exact ⟨fun x hx => (List.not_mem_nil hx).elim, rfl⟩
    · rintro ⟨_, rfl⟩; rfl
  | x :: l, tp, ta, h => by
    rw [List.map_cons, innerLoop_cons]
    have ih := innerLoop_parts model s ar av good name l (tp + av x * ar x) (ta + ar x)
      (fun y hy => h y (List.mem_cons_of_mem _ hy))
    rcases h x List.mem_cons_self with ⟨e, g⟩ | ⟨e, g⟩
    · rw [e, Outcome.ok_bind]
      simp only [List.forall_mem_cons, g, true_and, List.map_cons, List.sum_cons]
      refine ⟨fun r => ?_, ih.2⟩
      rw [ih.1 r]
      simp only [add_assoc, mul_comm (av x)]
    · rw [e]
      refine ⟨fun r => ⟨fun h => (by cases h), fun h => absurd (h.1 x List.mem_cons_self) g⟩, fun _ => rfl⟩

/-- Name of a part. -/
def InnerPart.name : InnerPart 𝕜 → String
  | .region d => d.name
  | .conductor p => p.name

theorem innerStep_part (model : Model 𝕜) (hn : DistinctNames model.materials) (s : Solver F) {x : InnerPart 𝕜}
    (hx : x ∈ innerParts model.materials true) :
    innerStep model s (InnerPart.name x) = .ok (x.area model.mesh, x.mean F s.sol.phi) ∧ x.integral F (fun _ => 1) ≠ 0 ∨
    innerStep model s (InnerPart.name x) = .nonfinite ∧ ¬ x.integral F (fun _ => 1) ≠ 0 := by
  obtain ⟨a1, a2, _⟩ := C19_area model hn
  have hdom : ∀ name, model.materials.isDomainMaterial name = true ↔ ∃ d ∈ model.materials.dielectrics, d.name = name := by
    intro name
    unfold Materials.isDomainMaterial Materials.buildNameToAttrMapForDielectric
    rw [SMap.contains_iff, SMap.keys_setAll_mem SMap.Sorted.nil]
    simp [SMap.keys]
  unfold innerParts at hx
  rcases List.mem_append.mp hx with hx | hx
  · obtain ⟨d, hd, rfl⟩ := List.mem_map.mp hx
    have hd := (List.mem_filter.mp hd).1
    have hf : model.materials.buildNameToAttrMap.find? d.name = some d.tag := by
      rw [Materials.mem_declared_of_distinct hn]
      unfold declared
      exact List.mem_append.mpr (Or.inr (List.mem_map.mpr ⟨d, hd, rfl⟩))
    show innerStep model s d.name = _ ∧ _ ∨ innerStep model s d.name = _ ∧ _
    unfold innerStep
    rw [hf, a1 d hd]
    simp only [Outcome.ofOption, Outcome.ok_bind]
    rw [if_pos ((hdom _).mpr ⟨d, hd, rfl⟩)]
    unfold Solver.getAveragePotentialInDomain divide
    rw [domInt_spec, domInt_spec]
    by_cases h : domainIntegral F (fun _ => 1) d.tag = 0
    · right
      rw [if_pos h]
      exact ⟨rfl, fun h' => h' h⟩
    · left
      rw [if_neg h]
      exact ⟨rfl, h⟩
  · rw [if_pos rfl] at hx
    obtain ⟨p, hp, rfl⟩ := List.mem_map.mp hx
    have hf : model.materials.buildNameToAttrMap.find? p.name = some p.tag := by
      rw [Materials.mem_declared_of_distinct hn]
      unfold declared
      exact List.mem_append.mpr (Or.inl (List.mem_append.mpr (Or.inl (List.mem_map.mpr ⟨p, hp, rfl⟩))))
    have hnotdom : ¬ model.materials.isDomainMaterial p.name = true := by
      rw [hdom]
      rintro ⟨d, hdm, e⟩
      unfold DistinctNames declared at hn
      simp only [List.map_append, List.map_map] at hn
      exact (List.nodup_append.mp hn).2.2 p.name (List.mem_append.mpr (Or.inl (List.mem_map.mpr ⟨p, hp, rfl⟩))) d.name
        (List.mem_map.mpr ⟨d, hdm, rfl⟩) e.symm
    show innerStep model s p.name = _ ∧ _ ∨ innerStep model s p.name = _ ∧ _
    unfold innerStep
    rw [hf, a2 p hp]
    simp only [Outcome.ofOption, Outcome.ok_bind]
    rw [if_neg hnotdom]
    unfold Solver.getAveragePotentialInBoundary divide
    rw [bdrInt_spec, bdrInt_spec]
    by_cases h : boundaryIntegral F (fun _ => 1) p.tag = 0
    · right
      rw [if_pos h]
      exact ⟨rfl, fun h' => h' h⟩
    · left
      rw [if_neg h]
      exact ⟨rfl, h⟩

theorem innerParts_sub (mats : Materials 𝕜) (incl : Bool) {x : InnerPart 𝕜} (hx : x ∈ innerParts mats incl) :
    x ∈ innerParts mats true := by
  unfold innerParts at hx ⊢
  rcases List.mem_append.mp hx with h | h
  · exact List.mem_append.mpr (Or.inl h)
  · cases incl with
    | true => exact List.mem_append.mpr (Or.inr h)
    | false => cases h

/-- The loop goes over the parts. -/
theorem innerNames_perm (model : Model 𝕜) (hn : DistinctNames model.materials)
    (h0 : ∃ d ∈ model.materials.dielectrics, d.name = "Vacuum_0") (incl : Bool) :
    (Driver.listMaterialsInInnerRegion model incl).Perm ((innerParts model.materials incl).map InnerPart.name) := by
  unfold DistinctNames declared at hn
  simp only [List.map_append, List.map_map] at hn
  rw [List.nodup_append, List.nodup_append] at hn
  obtain ⟨⟨n1, _, _⟩, n3, _⟩ := hn
  change (model.materials.pecs.map PEC.name).Nodup at n1
  change (model.materials.dielectrics.map Dielectric.name).Nodup at n3
  unfold Driver.listMaterialsInInnerRegion innerParts
  rw [List.map_append, List.map_map, ← List.cons_append]
  refine List.Perm.append ?_ ?_
  · have hs : model.materials.buildNameToAttrMapForDielectric.Sorted := SMap.Sorted.nil.setAll _ _ _
    refine (List.perm_ext_iff_of_nodup ?_ ?_).mpr ?_
    · rw [List.nodup_cons]
      refine ⟨?_, ?_⟩
      · intro h
        obtain ⟨kv, hkv, e⟩ := List.mem_map.mp h
        have := (List.mem_filter.mp hkv).2
        rw [e] at this
        revert this
        decide +kernel
      · refine List.Nodup.sublist (List.Sublist.map _ List.filter_sublist) ?_
        exact (List.pairwise_map.mpr hs).imp (fun h e => by rw [e] at h; exact lt_irrefl _ h)
    · exact List.Nodup.sublist (List.Sublist.map _ List.filter_sublist) n3
    · intro k
      rw [List.mem_cons, List.mem_map, List.mem_map]
      constructor
      · rintro (rfl | ⟨kv, hkv, rfl⟩)
        · obtain ⟨d, hd, e⟩ := h0
          exact ⟨d, List.mem_filter.mpr ⟨hd, by simp [e]⟩, e⟩
        · obtain ⟨h1, h2⟩ := List.mem_filter.mp hkv
          obtain ⟨d, hd, e, _⟩ := (dielMap_mem n3 kv.1 kv.2).mp h1
          refine ⟨d, List.mem_filter.mpr ⟨hd, ?_⟩, e⟩
          rw [e]
          simp only [Bool.not_eq_true', ← Bool.not_eq_true, hasInfix_iff] at h2
          simpa using Or.inr h2
      · rintro ⟨d, hd, rfl⟩
        obtain ⟨h1, h2⟩ := List.mem_filter.mp hd
        rcases of_decide_eq_true h2 with h2 | h2
        · exact Or.inl h2
        · refine Or.inr ⟨(d.name, d.tag), List.mem_filter.mpr ⟨(dielMap_mem n3 _ _).mpr ⟨d, h1, rfl, rfl⟩, ?_⟩, rfl⟩
          simp only [Bool.not_eq_true', ← Bool.not_eq_true, hasInfix_iff]
          exact h2
  · cases incl with
    | false => exact List.Perm.refl _
    | true =>
      have := (pecMap_perm (mats := model.materials) n1).map Prod.fst
      simpa [Function.comp_def, InnerPart.name] using this

theorem perm_of_map {α β : Type} (f : α → β) {l m : List β} (h : l.Perm m) :
    ∀ xs : List α, m = xs.map f → ∃ ys : List α, ys.Perm xs ∧ l = ys.map f := by
  induction h with
  | nil => intro xs h; exact ⟨[], by rw [List.map_eq_nil_iff.mp h.symm], rfl⟩
  | cons b _ ih =>
    intro xs h
    obtain ⟨x, xs', rfl, rfl, h2⟩ := List.map_eq_cons_iff.mp h.symm
    obtain ⟨ys, h3, h4⟩ := ih xs' h2.symm
    exact ⟨x :: ys, h3.cons x, by rw [h4]; rfl⟩
  | swap b c l =>
    intro xs h
    obtain ⟨x, xs', rfl, rfl, h2⟩ := List.map_eq_cons_iff.mp h.symm
    obtain ⟨y, xs'', rfl, rfl, h4⟩ := List.map_eq_cons_iff.mp h2
    exact ⟨y :: x :: xs'', List.Perm.swap _ _ _, by rw [← h4]; rfl⟩
  | trans _ _ ih1 ih2 =>
    intro xs h
    obtain ⟨ys, h1, h2⟩ := ih2 xs h
    obtain ⟨zs, h3, h4⟩ := ih1 ys h2
    exact ⟨zs, h3.trans h1, h4⟩

/-- **C62, inner region.** With distinct material names and a region `Vacuum_0`, the average potential is that of the
inner region, means of the parts weighted by their areas; it is not finite exactly when that mean is not defined. -/
theorem C62_inner (model : Model 𝕜) (hn : DistinctNames model.materials)
    (h0 : ∃ d ∈ model.materials.dielectrics, d.name = "Vacuum_0") (incl : Bool) (s : Solver F) :
    (HasInnerMean model F incl →
      Driver.getInnerRegionAveragePotential model s incl = .ok (innerMean model F s.sol.phi incl)) ∧
    (¬ HasInnerMean model F incl → Driver.getInnerRegionAveragePotential model s incl = .nonfinite) := by
  obtain ⟨l, hl, hmap⟩ : ∃ l : List (InnerPart 𝕜), l.Perm (innerParts model.materials incl) ∧
      Driver.listMaterialsInInnerRegion model incl = l.map InnerPart.name := by
    exact perm_of_map _ (innerNames_perm model hn h0 incl) _ rfl
  obtain ⟨h1, h2⟩ := innerLoop_parts model s (InnerPart.area model.mesh) (InnerPart.mean F s.sol.phi)
    (fun x => x.integral F (fun _ => 1) ≠ 0) InnerPart.name l 0 0
    (fun x hx => innerStep_part model hn s (innerParts_sub _ _ (hl.mem_iff.mp hx)))
  have hg : (∀ x ∈ l, x.integral F (fun _ => 1) ≠ 0) ↔
      ∀ x ∈ innerParts model.materials incl, x.integral F (fun _ => 1) ≠ 0 :=
    ⟨fun h x hx => h x (hl.mem_iff.mpr hx), fun h x hx => h x (hl.mem_iff.mp hx)⟩
  have ha : (l.map (InnerPart.area model.mesh)).sum = innerArea model incl := (hl.map _).sum_eq
  have hp : (l.map (fun x => x.area model.mesh * x.mean F s.sol.phi)).sum =
      ((innerParts model.materials incl).map (fun x => x.area model.mesh * x.mean F s.sol.phi)).sum := (hl.map _).sum_eq
  unfold Driver.getInnerRegionAveragePotential
  rw [hmap]
  by_cases hall : ∀ x ∈ l, x.integral F (fun _ => 1) ≠ 0
  · rw [(h1 _).mpr ⟨hall, rfl⟩, Outcome.ok_bind]
    unfold divide HasInnerMean innerMean
    rw [zero_add, zero_add, ha, hp, ← hg]
    by_cases hz : innerArea model incl = 0
    · simp [hz]
    · rw [if_neg hz]
      exact ⟨fun _ => rfl, fun h => absurd ⟨hall, hz⟩ h⟩
  · rw [h2 hall]
    refine ⟨fun h => absurd (hg.mpr h.1) hall, fun _ => rfl⟩

/-- Mean of a part: linear, and `c` for the constant `c`. -/
theorem mean_const {x : InnerPart 𝕜} (h : x.integral F (fun _ => 1) ≠ 0) (c : 𝕜) : x.mean F (fun _ => c) = c := by
  unfold InnerPart.mean
  rw [div_eq_iff h]
  cases x with
  | region d =>
    have := (domInt_const (F := F) d.tag c).trans (mul_comm _ _)
    rwa [domInt_spec, domInt_spec] at this
  | conductor p =>
    have := (bdrInt_const (F := F) p.tag c).trans (mul_comm _ _)
    rwa [bdrInt_spec, bdrInt_spec] at this

theorem mean_linear (x : InnerPart 𝕜) (a b : 𝕜) (u v : Fin F.n → 𝕜) :
    x.mean F (fun i => a * u i + b * v i) = a * x.mean F u + b * x.mean F v := by
  have : x.integral F (fun i => a * u i + b * v i) = a * x.integral F u + b * x.integral F v := by
    cases x with
    | region d =>
      show domainIntegral F _ _ = a * domainIntegral F _ _ + b * domainIntegral F _ _
      simp only [← domInt_spec]
      unfold FEM.domInt
      rw [Finset.mul_sum, Finset.mul_sum, ← Finset.sum_add_distrib]
      exact Finset.sum_congr rfl (fun k _ => by ring)
    | conductor p =>
      show boundaryIntegral F _ _ = a * boundaryIntegral F _ _ + b * boundaryIntegral F _ _
      simp only [← bdrInt_spec]
      unfold FEM.bdrInt
      rw [Finset.mul_sum, Finset.mul_sum, ← Finset.sum_add_distrib]
      exact Finset.sum_congr rfl (fun k _ => by ring)
  unfold InnerPart.mean
  rw [this]
  ring

/-- **C62, inner region, consequences.** A constant potential has its value as average; the average is linear in the
potential; it lies between any bounds of the averages of its parts when areas are not negative. -/
theorem C62_inner_mean [LinearOrder 𝕜] [IsStrictOrderedRing 𝕜] (model : Model 𝕜) (hn : DistinctNames model.materials)
    (h0 : ∃ d ∈ model.materials.dielectrics, d.name = "Vacuum_0") (incl : Bool) (hm : HasInnerMean model F incl) :
    (∀ (s : Solver F) (c : 𝕜), s.sol.phi = (fun _ => c) →
      Driver.getInnerRegionAveragePotential model s incl = .ok c) ∧
    (∀ (s s1 s2 : Solver F) (a b x1 x2 : 𝕜), s.sol.phi = (fun i => a * s1.sol.phi i + b * s2.sol.phi i) →
      Driver.getInnerRegionAveragePotential model s1 incl = .ok x1 →
      Driver.getInnerRegionAveragePotential model s2 incl = .ok x2 →
      Driver.getInnerRegionAveragePotential model s incl = .ok (a * x1 + b * x2)) ∧
    (∀ (s : Solver F) (lo hi : 𝕜), (∀ x ∈ innerParts model.materials incl, 0 ≤ x.area model.mesh ∧
        lo ≤ x.mean F s.sol.phi ∧ x.mean F s.sol.phi ≤ hi) →
      ∃ x, Driver.getInnerRegionAveragePotential model s incl = .ok x ∧ lo ≤ x ∧ x ≤ hi) := by
  have key := fun s : Solver F => (C62_inner model hn h0 incl s).1 hm
  refine ⟨?_, ?_, ?_⟩
  · intro s c hs
    rw [key s, hs]
    unfold innerMean
    congr 1
    rw [div_eq_iff hm.2, innerArea, ← List.sum_map_mul_left]
    congr 1
    apply List.map_congr_left
    intro x hx
    rw [mean_const (hm.1 x hx), mul_comm]
  · intro s s1 s2 a b x1 x2 hs h1 h2
    rw [key] at h1 h2
    cases h1
    cases h2
    rw [key s, hs]
    congr 1
    unfold innerMean
    rw [← mul_div_assoc, ← mul_div_assoc, ← add_div, ← List.sum_map_mul_left, ← List.sum_map_mul_left,
      ← List.sum_map_add]
    congr 2
    apply List.map_congr_left
    intro x _
    rw [mean_linear]
    ring
  · intro s lo hi h
    refine ⟨_, key s, ?_⟩
    have hpos : 0 < innerArea model incl := by
      refine lt_of_le_of_ne ?_ (Ne.symm hm.2)
      apply List.sum_nonneg
      intro y hy
      obtain ⟨x, hx, rfl⟩ := List.mem_map.mp hy
      exact (h x hx).1
    unfold innerMean
    constructor
    · rw [le_div_iff₀ hpos, innerArea, ← List.sum_map_mul_left]
      apply List.sum_le_sum
      intro x hx
      obtain ⟨h1, h2, _⟩ := h x hx
      rw [mul_comm lo]
      exact mul_le_mul_of_nonneg_left h2 h1
    · rw [div_le_iff₀ hpos, innerArea, ← List.sum_map_mul_left]
      apply List.sum_le_sum
      intro x hx
      obtain ⟨h1, _, h3⟩ := h x hx
      rw [mul_comm hi]
      exact mul_le_mul_of_nonneg_left h3 h1

end Tulip.Props
