import Verif.Proofs.Congruent

/-!
# The discrete fields of congruent meshes
-/

set_option linter.unusedSectionVars false

namespace Tulip
open Matrix Spec MvPolynomial

section
variable {𝕜 : Type} [Field 𝕜] [LinearOrder 𝕜] [IsStrictOrderedRing 𝕜] {T T' : Triangulation 𝕜} {number : Fin T.nv ≃ Fin T'.nv} {twin : Tri T.nv → Tri T'.nv}
  {side : Seg 𝕜 T.nv → Seg 𝕜 T'.nv} {label : Equiv.Perm Int} {g : PlaneMap 𝕜} {p : Nat}

theorem Spec.Carried.cases (h : Carried g T T' number twin side label) {t : Tri T.nv} (ht : t ∈ T.tris) :
    ∃ x y z, (((twin t).a = number x ∧ (twin t).b = number y ∧ (twin t).c = number z)) ∧
      if g.mirrored then (x, y, z) = (t.c, t.b, t.a) ∨ (x, y, z) = (t.b, t.a, t.c) ∨ (x, y, z) = (t.a, t.c, t.b)
      else (x, y, z) = (t.a, t.b, t.c) ∨ (x, y, z) = (t.b, t.c, t.a) ∨ (x, y, z) = (t.c, t.a, t.b) := by
  have e := h.vertices t ht
  have key : ∀ x y z : Fin T.nv, ([number x, number y, number z] : Cycle (Fin T'.nv)) = [(twin t).a, (twin t).b, (twin t).c] →
      ((twin t).a = number x ∧ (twin t).b = number y ∧ (twin t).c = number z) ∨
      ((twin t).a = number y ∧ (twin t).b = number z ∧ (twin t).c = number x) ∨
      ((twin t).a = number z ∧ (twin t).b = number x ∧ (twin t).c = number y) := by
    intro x y z e
    rw [Cycle.coe_eq_coe, List.isRotated_iff_mod] at e
    obtain ⟨n, hn, e⟩ := e
    have : n = 0 ∨ n = 1 ∨ n = 2 ∨ n = 3 := by
      have : n ≤ 3 := hn
      omega
    rcases this with rfl | rfl | rfl | rfl <;> simp [List.rotate_cons_succ] at e <;> tauto
  by_cases hg : g.mirrored
  · rw [if_pos hg] at e
    simp only [hg, if_true]
    rcases key _ _ _ e.symm with h | h | h
    · exact ⟨_, _, _, h, .inl rfl⟩
    · exact ⟨_, _, _, h, .inr (.inl rfl)⟩
    · exact ⟨_, _, _, h, .inr (.inr rfl)⟩
  · rw [if_neg hg] at e
    simp only [hg, if_false, Bool.false_eq_true]
    rcases key _ _ _ e.symm with h | h | h
    · exact ⟨_, _, _, h, .inl rfl⟩
    · exact ⟨_, _, _, h, .inr (.inl rfl)⟩
    · exact ⟨_, _, _, h, .inr (.inr rfl)⟩

theorem Spec.Carried.matched (h : Carried g T T' number twin side label) {t : Tri T.nv} (ht : t ∈ T.tris) :
    Matched number t (twin t) := by
  intro v
  obtain ⟨x, y, z, ⟨ha, hb, hc⟩, e⟩ := h.cases ht
  unfold IsVertex
  rw [ha, hb, hc]
  simp only [number.injective.eq_iff]
  split at e <;> rcases e with e | e | e <;> simp only [Prod.mk.injEq] at e <;> obtain ⟨rfl, rfl, rfl⟩ := e <;> tauto

theorem Spec.Carried.sides (h : Carried g T T' number twin side label) {t : Tri T.nv} (ht : t ∈ T.tris) (v w : Fin T.nv) :
    (v, w) ∈ t.sides ↔ (if g.mirrored then (number w, number v) else (number v, number w)) ∈ (twin t).sides := by
  obtain ⟨x, y, z, ⟨ha, hb, hc⟩, e⟩ := h.cases ht
  unfold Tri.sides
  rw [ha, hb, hc]
  split at e <;> next hg =>
    simp only [hg, if_true, if_false, Bool.false_eq_true]
    rcases e with e | e | e <;> simp only [Prod.mk.injEq] at e <;> obtain ⟨rfl, rfl, rfl⟩ := e <;>
      simp only [List.mem_cons, Prod.mk.injEq, List.not_mem_nil, or_false, number.injective.eq_iff] <;> tauto

theorem Spec.Carried.det (h : Carried g T T' number twin side label) {t : Tri T.nv} (ht : t ∈ T.tris) :
    T'.det (twin t) = g.square * T.det t := by
  obtain ⟨x, y, z, ⟨ha, hb, hc⟩, e⟩ := h.cases ht
  unfold Triangulation.det
  rw [ha, hb, hc, h.coord, h.coord, h.coord]
  unfold PlaneMap.point PlaneMap.square PlaneMap.xy PlaneMap.yy
  split at e <;> next hg =>
    simp only [hg, if_true, if_false, Bool.false_eq_true]
    rcases e with e | e | e <;> simp only [Prod.mk.injEq] at e <;> obtain ⟨rfl, rfl, rfl⟩ := e <;> ring

theorem Spec.Carried.mem (h : Carried g T T' number twin side label) {t : Tri T.nv} (ht : t ∈ T.tris) : twin t ∈ T'.tris :=
  h.tris.mem_iff.mpr (List.mem_map_of_mem ht)

theorem Spec.Carried.kin (h : Carried g T T' number twin side label) (hT : Proper T) (hT' : Proper T') : Kin g T T' number twin :=
  ⟨h.coord, fun _ => h.mem, hT.det_ne, hT'.det_ne, fun _ => h.matched⟩

theorem side_unique (hc : Conforming T) {t t2 : Tri T.nv} (ht : t ∈ T.tris) (ht2 : t2 ∈ T.tris) {e : Fin T.nv × Fin T.nv}
    (h1 : e ∈ t.sides) (h2 : e ∈ t2.sides) : t = t2 := by
  by_contra hne
  haveI : Std.Symm (Function.onFun List.Disjoint (Tri.sides (nv := T.nv))) := ⟨fun _ _ h => List.Disjoint.symm h⟩
  exact (List.nodup_flatMap.mp hc.sides).2.forall ht ht2 hne h1 h2

/-! ## Back -/

theorem Spec.Carried.exists_back (h : Carried g T T' number twin side label) (hT : Proper T) (hT' : Proper T') :
    ∃ back : Tri T'.nv → Tri T.nv, Kin g.inv T' T number.symm back ∧ ∀ t' ∈ T'.tris, twin (back t') = t' := by
  classical
  have key : ∀ t', ∃ t, t' ∈ T'.tris → t ∈ T.tris ∧ twin t = t' := by
    intro t'
    by_cases ht' : t' ∈ T'.tris
    · obtain ⟨t, ht, e⟩ := List.mem_map.mp (h.tris.mem_iff.mp ht')
      exact ⟨t, fun _ => ⟨ht, e⟩⟩
    · exact ⟨⟨t'.attr, number.symm t'.a, number.symm t'.b, number.symm t'.c⟩, fun h => absurd h ht'⟩
  choose back hback using key
  refine ⟨back, ⟨fun v => ?_, fun t' ht' => (hback t' ht').1, hT'.det_ne, hT.det_ne, fun t' ht' => ?_⟩, fun t' ht' => (hback t' ht').2⟩
  · rw [← g.inv_point (T.coord (number.symm v)), ← h.coord, number.apply_symm_apply]
  · have := (h.matched (hback t' ht').1).symm
    rwa [(hback t' ht').2] at this

theorem Spec.Carried.back_twin (h : Carried g T T' number twin side label) (hT : Proper T) (hc : Conforming T)
    {back : Tri T'.nv → Tri T.nv} (hk : Kin g.inv T' T number.symm back) (hb : ∀ t' ∈ T'.tris, twin (back t') = t') {t : Tri T.nv} (ht : t ∈ T.tris) :
    back (twin t) = t := by
  have hm := hk.mem _ (h.mem ht)
  refine same_vertices hT hc hm ht fun v hv => ?_
  rw [h.matched hm, hb _ (h.mem ht)] at hv
  exact (h.matched ht v).mpr hv

/-! ## Products -/

theorem Spec.Carried.product (h : Carried g T T' number twin side label) (hT : Proper T) (hT' : Proper T')
    {Q Q' : Rule 𝕜} (hQ : ExactRule Q (2 * p)) (hQ' : ExactRule Q' (2 * p)) {eps eps' : Int → 𝕜}
    (he : ∀ t ∈ T.tris, eps' (twin t).attr = eps t.attr) {F G : Tri T'.nv → MvPolynomial (Fin 2) 𝕜 × MvPolynomial (Fin 2) 𝕜}
    (hF : ∀ t ∈ T'.tris, (F t).1.totalDegree ≤ p ∧ (F t).2.totalDegree ≤ p) (hG : ∀ t ∈ T'.tris, (G t).1.totalDegree ≤ p ∧ (G t).2.totalDegree ≤ p) :
    fieldProduct T Q eps (fun t => carryField g number t (twin t) (F (twin t))) (fun t => carryField g number t (twin t) (G (twin t))) =
      fieldProduct T' Q' eps' F G := by
  unfold fieldProduct
  rw [(h.tris.map _).sum_eq, List.map_map]
  refine congrArg List.sum (List.map_congr_left fun t ht => ?_)
  simp only [Function.comp]
  rw [he t ht, h.det ht, ← integral_carry hQ hQ' (h.matched ht) (hT.det_ne t ht) (hT'.det_ne _ (h.mem ht))
    (totalDegree_dot (hF _ (h.mem ht)) (hG _ (h.mem ht)))]
  obtain ⟨h1, h2, h3⟩ := g.rows
  have c1 := congrArg (C (σ := Fin 2)) h1
  have c2 := congrArg (C (σ := Fin 2)) h2
  have c3 := congrArg (C (σ := Fin 2)) h3
  simp only [map_add, map_mul, map_zero] at c1 c2 c3
  have e : (carryField g number t (twin t) (F (twin t))).1 * (carryField g number t (twin t) (G (twin t))).1 +
      (carryField g number t (twin t) (F (twin t))).2 * (carryField g number t (twin t) (G (twin t))).2 =
      C g.square * carry number t (twin t) ((F (twin t)).1 * (G (twin t)).1 + (F (twin t)).2 * (G (twin t)).2) := by
    unfold carryField pullP
    simp only [map_add, map_mul]
    generalize carry number t (twin t) (F (twin t)).1 = f1
    generalize carry number t (twin t) (F (twin t)).2 = f2
    generalize carry number t (twin t) (G (twin t)).1 = g1
    generalize carry number t (twin t) (G (twin t)).2 = g2
    linear_combination (f1 * g1) * c1 + (f2 * g2) * c2 + (f1 * g2 + f2 * g1) * c3
  rw [e, triIntegral_points, pointSum_C_mul, ← triIntegral_points]
  ring

/-! ## Boundaries -/

theorem onSide_swap {nv : Nat} (t : Tri nv) (v w : Fin nv) (x y : 𝕜) : Triangulation.onSide t v w x y = Triangulation.onSide t w v y x := by
  unfold Triangulation.onSide
  rw [add_comm, add_comm (if v = t.c then x else 0)]

theorem Spec.Carried.side_mem (h : Carried g T T' number twin side label) {s : Seg 𝕜 T.nv} (hs : s ∈ T.segs) : side s ∈ T'.segs :=
  h.segs.mem_iff.mpr (List.mem_map_of_mem hs)

theorem Spec.Carried.side_side (h : Carried g T T' number twin side label) {s : Seg 𝕜 T.nv} (hs : s ∈ T.segs) {t : Tri T.nv}
    (ht : t ∈ T.tris) : (s.a, s.b) ∈ t.sides ↔ ((side s).a, (side s).b) ∈ (twin t).sides := by
  rw [h.sides ht, h.ends s hs]

/-- Values on a segment. -/
theorem Spec.Carried.value (h : Carried g T T' number twin side label) (hT : Proper T) (hT' : Proper T') {s : Seg 𝕜 T.nv} (hs : s ∈ T.segs)
    {t : Tri T.nv} (ht : t ∈ T.tris) (hst : (s.a, s.b) ∈ t.sides) {x y : 𝕜} (hxy : x + y = 1) (P : MvPolynomial (Fin 2) 𝕜) :
    eval (Triangulation.onSide t s.a s.b x y) (carry number t (twin t) P) =
      eval (if g.mirrored then Triangulation.onSide (twin t) (side s).a (side s).b y x else Triangulation.onSide (twin t) (side s).a (side s).b x y) P := by
  obtain ⟨ha, hb⟩ := side_vertices hst
  rw [carry_eval (h.matched ht) (hT.det_ne t ht) (hT'.det_ne _ (h.mem ht)) ha hb hxy]
  have e := h.ends s hs
  split at e <;> next hg =>
    simp only [Prod.mk.injEq] at e
    rw [e.1, e.2]
    first
    | rw [if_pos hg, onSide_swap]
    | rw [if_neg hg]

theorem Spec.Carried.constantOn (h : Carried g T T' number twin side label) (hT : Proper T) (hT' : Proper T')
    {P : Tri T'.nv → MvPolynomial (Fin 2) 𝕜} {tag : Int} {c : 𝕜} (hP : ConstantOn T' P (label tag) c) :
    ConstantOn T (fun t => carry number t (twin t) (P (twin t))) tag c := by
  intro s hs e t ht hst x y hxy
  rw [h.value hT hT' hs ht hst hxy]
  have := hP (side s) (h.side_mem hs) (by rw [h.labels s hs, e]) (twin t) (h.mem ht) ((h.side_side hs ht).mp hst)
  split
  · exact this y x ((add_comm y x).trans hxy)
  · exact this x y hxy

theorem Spec.Carried.constantOn_back (h : Carried g T T' number twin side label) (hT : Proper T) (hT' : Proper T')
    {back : Tri T'.nv → Tri T.nv} (hk : Kin g.inv T' T number.symm back) (hb : ∀ t' ∈ T'.tris, twin (back t') = t')
    {P : Tri T.nv → MvPolynomial (Fin 2) 𝕜} {tag : Int} {c : 𝕜} (hP : ConstantOn T P tag c) :
    ConstantOn T' (fun t' => carry number.symm t' (back t') (P (back t'))) (label tag) c := by
  intro s' hs' e t' ht' hst x y hxy
  obtain ⟨s, hs, rfl⟩ := List.mem_map.mp (h.segs.mem_iff.mp hs')
  have htb := hk.mem t' ht'
  have hst' : (s.a, s.b) ∈ (back t').sides := by rw [h.side_side hs htb, hb t' ht']; exact hst
  rw [h.labels s hs, label.injective.eq_iff] at e
  have key : ∀ x y : 𝕜, x + y = 1 → eval (Triangulation.onSide (back t') s.a s.b x y) (P (back t')) = c := hP s hs e _ htb hst'
  have hm := h.matched htb
  rw [hb t' ht'] at hm
  have val := fun x y (hxy : x + y = 1) => h.value hT hT' hs htb hst' (x := x) (y := y) hxy (carry number.symm t' (back t') (P (back t')))
  simp only [hb t' ht', carry_carry hm (hT.det_ne _ htb) (hT'.det_ne _ ht')] at val
  by_cases hg : g.mirrored
  · have := val y x ((add_comm y x).trans hxy)
    rw [if_pos hg] at this
    rw [← this, key _ _ ((add_comm y x).trans hxy)]
  · have := val x y hxy
    rw [if_neg hg] at this
    rw [← this, key _ _ hxy]

/-! ## The discrete field -/

theorem absorbed_closed {T : Triangulation 𝕜} (A : Analytic 𝕜) (Q : Rule 𝕜) (P R : Tri T.nv → MvPolynomial (Fin 2) 𝕜) : absorbed T A Q [] P R = 0 := by
  unfold absorbed
  simp

/-- The discrete field of the one mesh, carried over, is that of the other. -/
theorem Spec.Carried.galerkin (h : Carried g T T' number twin side label) (hT : Proper T) (hT' : Proper T') (hc : Conforming T)
    {Q Q' : Rule 𝕜} (hQ : ExactRule Q (2 * p)) (hQ' : ExactRule Q' (2 * p)) {A A' : Analytic 𝕜} {mats mats' : Materials 𝕜} {b : Bool}
    {V V' : Int → 𝕜} (hp : ∀ c ∈ mats.pecs, ∃ c' ∈ mats'.pecs, c'.tag = label c.tag)
    (hp' : ∀ c' ∈ mats'.pecs, ∃ c ∈ mats.pecs, c'.tag = label c.tag) (hV : ∀ tag, V' (label tag) = V tag)
    (he : ∀ t ∈ T.tris, declaredEps mats' b (twin t).attr = declaredEps mats b t.attr) (ho : mats.openBoundaries = [])
    (ho' : mats'.openBoundaries = []) {P : Tri T'.nv → MvPolynomial (Fin 2) 𝕜} {D : Tri T'.nv → MvPolynomial (Fin 2) 𝕜 × MvPolynomial (Fin 2) 𝕜}
    (hG : GalerkinField T' A' Q' p mats' b V' P D) :
    GalerkinField T A Q p mats b V (fun t => carry number t (twin t) (P (twin t))) (fun t => carryField g number t (twin t) (D (twin t))) := by
  have k := h.kin hT hT'
  obtain ⟨back, hk, hb⟩ := h.exists_back hT hT'
  have grad : ∀ (R : Tri T'.nv → MvPolynomial (Fin 2) 𝕜), ∀ t ∈ T.tris, T.gradient t (carry number t (twin t) (R (twin t))) =
      carryField g number t (twin t) (T'.gradient (twin t) (R (twin t))) := fun R t ht =>
    gradient_carry h.coord (h.matched ht) (hT.det_ne t ht) (hT'.det_ne _ (h.mem ht)) _
  refine ⟨k.piecewise hG.potential, fun c hcm => ?_, fun R hR hR0 => ?_, k.raviartThomas hG.displacement, fun G hGm => ?_⟩
  · obtain ⟨c', hc', e⟩ := hp c hcm
    have := hG.conductors c' hc'
    rw [e, hV] at this
    exact h.constantOn hT hT' this
  · have hR' := hk.piecewise hR
    have := hG.equations _ hR' fun c' hc' => by
      obtain ⟨c, hcm, e⟩ := hp' c' hc'
      rw [e]
      exact h.constantOn_back hT hT' hk hb (hR0 c hcm)
    rw [ho', List.map_nil, absorbed_closed, add_zero] at this
    rw [ho, List.map_nil, absorbed_closed, add_zero, ← this,
      ← h.product hT hT' hQ hQ' he (fun t ht => hR'.gradient_degree ht) (fun t ht => hG.potential.gradient_degree ht)]
    refine fieldProduct_congr (fun t ht => ?_) fun t ht => grad _ t ht
    rw [← grad (fun t' => carry number.symm t' (back t') (R (back t'))) t ht]
    simp only [h.back_twin hT hc hk hb ht]
    rw [carry_carry (h.matched ht) (hT.det_ne t ht) (hT'.det_ne _ (h.mem ht))]
  · have hG' := hk.raviartThomas hGm
    have := hG.projection _ hG'
    have e : ∀ t ∈ T.tris, G t = carryField g number t (twin t) (carryField g.inv number.symm (twin t) (back (twin t)) (G (back (twin t)))) := by
      intro t ht
      rw [h.back_twin hT hc hk hb ht, carryField_back (h.matched ht) (hT.det_ne t ht) (hT'.det_ne _ (h.mem ht))]
    rw [fieldProduct_congr e (fun _ _ => rfl), h.product (eps' := fun _ => 1) (F := fun t' => carryField g.inv number.symm t' (back t') (G (back t'))) hT hT' hQ hQ' (fun _ _ => rfl)
      (fun t ht => hG'.degree ht) (fun t ht => hG.displacement.degree ht), this,
      ← h.product hT hT' hQ hQ' he (fun t ht => hG'.degree ht) (fun t ht => hG.potential.gradient_degree ht)]
    exact congrArg Neg.neg (fieldProduct_congr (fun t ht => (e t ht).symm) fun t ht => (grad _ t ht).symm)

/-! ## Charges -/

theorem Spec.Carried.behind (h : Carried g T T' number twin side label) (hc' : Conforming T') {s : Seg 𝕜 T.nv} (hs : s ∈ T.segs)
    {t : Tri T.nv} (ht : T.behind s = some t) : T'.behind (side s) = some (twin t) := by
  obtain ⟨htm, hst⟩ := behind_some ht
  have h' := (h.side_side hs htm).mp hst
  obtain ⟨t2, ht2⟩ := behind_exists (T := T') (s := side s) ⟨twin t, h.mem htm, h'⟩
  rw [ht2, side_unique hc' (behind_some ht2).1 (h.mem htm) (behind_some ht2).2 h']

/-- Flux through the segments with a label, of polynomial fields. -/
noncomputable def fluxThrough (T : Triangulation 𝕜) (Q : Rule 𝕜) (tag : Int) (D : Tri T.nv → MvPolynomial (Fin 2) 𝕜 × MvPolynomial (Fin 2) 𝕜) : 𝕜 :=
  ((T.segs.filter (fun s => decide (s.attr = tag))).map (fun s => ((T.behind s).toList.map (fun t =>
    (Q.seg.map (fun r => r.1 * (eval (Triangulation.onSide t s.a s.b (1 - r.2) r.2) (D t).1 * ((T.coord s.b).2 - (T.coord s.a).2) -
      eval (Triangulation.onSide t s.a s.b (1 - r.2) r.2) (D t).2 * ((T.coord s.b).1 - (T.coord s.a).1)))).sum)).sum)).sum

theorem side_points (Q : Rule 𝕜) (t : Tri T.nv) (v w : Fin T.nv) (P : MvPolynomial (Fin 2) 𝕜) :
    (Q.seg.map (fun r => r.1 * eval (Triangulation.onSide t v w (1 - r.2) r.2) P)).sum = pointSum (sidePoints Q t v w) P := by
  unfold pointSum sidePoints
  rw [List.map_map]
  rfl

theorem Spec.Carried.flux (h : Carried g T T' number twin side label) (hT : Proper T) (hT' : Proper T') (hc' : Conforming T')
    {Q Q' : Rule 𝕜} (hQ : ExactRule Q (2 * p)) (hQ' : ExactRule Q' (2 * p)) (tag : Int)
    {D : Tri T'.nv → MvPolynomial (Fin 2) 𝕜 × MvPolynomial (Fin 2) 𝕜} (hD : ∀ t ∈ T'.tris, (D t).1.totalDegree ≤ p ∧ (D t).2.totalDegree ≤ p) :
    fluxThrough T Q tag (fun t => carryField g number t (twin t) (D (twin t))) = fluxThrough T' Q' (label tag) D := by
  unfold fluxThrough
  rw [((h.segs.filter _).map _).sum_eq, List.filter_map, List.map_map]
  have hf : T.segs.filter ((fun s : Seg 𝕜 T'.nv => decide (s.attr = label tag)) ∘ side) = T.segs.filter (fun s => decide (s.attr = tag)) := by
    refine List.filter_congr fun s hs => ?_
    simp only [Function.comp, h.labels s hs, label.injective.eq_iff]
  rw [hf]
  refine congrArg List.sum (List.map_congr_left fun s hs => ?_)
  have hs := (List.mem_filter.mp hs).1
  obtain ⟨t, ht⟩ := behind_exists (hT.segs s hs)
  obtain ⟨htm, hst⟩ := behind_some ht
  simp only [Function.comp]
  rw [h.behind hc' hs ht, ht]
  simp only [Option.toList_some, List.map_cons, List.map_nil, List.sum_cons, List.sum_nil, add_zero]
  have hst' := (h.side_side hs htm).mp hst
  obtain ⟨va, vb⟩ := side_vertices hst
  -- the component across the segment, as a polynomial
  let e1 := (T'.coord (side s).b).1 - (T'.coord (side s).a).1
  let e2 := (T'.coord (side s).b).2 - (T'.coord (side s).a).2
  let N : MvPolynomial (Fin 2) 𝕜 := C e2 * (D (twin t)).1 - C e1 * (D (twin t)).2
  have hN : N.totalDegree ≤ 2 * p := by
    obtain ⟨d1, d2⟩ := hD _ (h.mem htm)
    have hcm : ∀ (c : 𝕜) (P : MvPolynomial (Fin 2) 𝕜), P.totalDegree ≤ p → (C c * P).totalDegree ≤ 2 * p := fun c P h => by
      have := totalDegree_mul (C c) P
      rw [totalDegree_C] at this
      omega
    exact (totalDegree_sub _ _).trans (max_le (hcm _ _ d1) (hcm _ _ d2))
  have right : (Q'.seg.map (fun r => r.1 * (eval (Triangulation.onSide (twin t) (side s).a (side s).b (1 - r.2) r.2) (D (twin t)).1 * e2 -
      eval (Triangulation.onSide (twin t) (side s).a (side s).b (1 - r.2) r.2) (D (twin t)).2 * e1))).sum =
      (Q.seg.map (fun r => r.1 * eval (Triangulation.onSide (twin t) (side s).a (side s).b (1 - r.2) r.2) N)).sum := by
    rw [← side_same ⟨fun j k hjk => (hQ'.tri j k hjk).trans (hQ.tri j k hjk).symm, fun j hj => (hQ'.seg j hj).trans (hQ.seg j hj).symm⟩ hN]
    refine congrArg List.sum (List.map_congr_left fun r _ => ?_)
    simp only [N, map_sub, map_mul, eval_C]
    ring
  refine Eq.trans ?_ right.symm
  have cr : ∀ r : 𝕜, eval (Triangulation.onSide t s.a s.b (1 - r) r) (carryField g number t (twin t) (D (twin t))).1 * ((T.coord s.b).2 - (T.coord s.a).2) -
      eval (Triangulation.onSide t s.a s.b (1 - r) r) (carryField g number t (twin t) (D (twin t))).2 * ((T.coord s.b).1 - (T.coord s.a).1) = _ :=
    fun r => carryField_cross h.coord (h.matched htm) (hT.det_ne t htm) (hT'.det_ne _ (h.mem htm)) va vb (sub_add_cancel 1 r) (D (twin t))
  have en := h.ends s hs
  by_cases hg : g.mirrored
  · rw [if_pos hg] at en
    simp only [Prod.mk.injEq] at en
    have : ∀ r : 𝕜, eval (Triangulation.onSide t s.a s.b (1 - r) r) (carryField g number t (twin t) (D (twin t))).1 * ((T.coord s.b).2 - (T.coord s.a).2) -
        eval (Triangulation.onSide t s.a s.b (1 - r) r) (carryField g number t (twin t) (D (twin t))).2 * ((T.coord s.b).1 - (T.coord s.a).1) =
        eval (Triangulation.onSide (twin t) (side s).b (side s).a (1 - r) r) N := by
      intro r
      rw [cr r]
      simp only [PlaneMap.sign, hg, if_true, N, e1, e2, en.1, en.2, map_sub, map_mul, eval_C]
      ring
    simp only [this]
    rw [side_points, side_points, sidePoints_swap hQ (hT'.det_ne _ (h.mem htm)) hN hst']
  · rw [if_neg hg] at en
    simp only [Prod.mk.injEq] at en
    refine congrArg List.sum (List.map_congr_left fun r _ => congrArg (r.1 * ·) ?_)
    rw [cr r.2]
    simp only [PlaneMap.sign, hg, if_false, Bool.false_eq_true, N, e1, e2, en.1, en.2, map_sub, map_mul, eval_C]
    ring

end
end Tulip
