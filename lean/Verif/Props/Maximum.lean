import Verif.Props.Triangles
import Verif.Props.SolverHistory
import Verif.Props.TriangleExamples
import Verif.Props.Model
import Verif.Props.Fields
import Verif.Proofs.Maximum

/-!
# C83: bounds of the potential; areas and averages on triangle meshes (C79)
-/

set_option linter.unusedSectionVars false

namespace Tulip.Props
open Tulip Tulip.Spec Matrix

theorem sum_flatMap_filter {𝕜 : Type} [Field 𝕜] {α β : Type _} (f : α → List β) (g : β → 𝕜) (pa : α → Bool) (pb : β → Bool)
    (h : ∀ a, ∀ x ∈ f a, pb x = pa a) : ∀ l : List α,
    (((l.flatMap f).filter pb).map g).sum = ((l.filter pa).map (fun a => ((f a).map g).sum)).sum
  | [] => rfl
  | a :: l => by
    rw [List.flatMap_cons, List.filter_append, List.map_append, List.sum_append, sum_flatMap_filter f g pa pb h l]
    cases ha : pa a
    · rw [List.filter_cons_of_neg (by simp [ha])]
      have : (f a).filter pb = [] := List.filter_eq_nil_iff.mpr fun x hx => by rw [h a x hx, ha]; simp
      rw [this, List.map_nil, List.sum_nil, zero_add]
    · rw [List.filter_cons_of_pos ha, List.map_cons, List.sum_cons]
      have : (f a).filter pb = f a := List.filter_eq_self.mpr fun x hx => by rw [h a x hx, ha]
      rw [this]

section
variable {𝕜 : Type} [Field 𝕜] [DecidableEq 𝕜] [LinearOrder 𝕜] [IsStrictOrderedRing 𝕜] {T : Triangulation 𝕜}

theorem point_scalar {t : Tri T.nv} (hd : T.det t ≠ 0) (u : Fin T.nv → 𝕜) (x y z : 𝕜) :
    scalarAt (T.point t x y z).N u = u t.a * x + u t.b * y + u t.c * z := by
  unfold scalarAt
  obtain ⟨a, b, c⟩ := hat_verts hd x y z
  refine (sum_verts hd (fun k => u k * T.hat t x y z k) (fun k hk => by rw [hat_off hk, mul_zero])).trans ?_
  rw [a, b, c]

theorem segPoint_scalar {s : Seg 𝕜 T.nv} (hs : s.a ≠ s.b) (u : Fin T.nv → 𝕜) (x y f : 𝕜) :
    scalarAt (T.segPoint s x y f).N u = u s.a * x + u s.b * y := by
  have e : ∀ k : Fin T.nv, u k * (if k = s.a then x else if k = s.b then y else 0) =
      (if k = s.a then u k * x else 0) + (if k = s.b then u k * y else 0) := by
    intro k
    by_cases h1 : k = s.a
    · have : k ≠ s.b := fun e => hs (h1.symm.trans e)
      rw [if_pos h1, if_pos h1, if_neg this, add_zero]
    · rw [if_neg h1, if_neg h1, zero_add, mul_ite, mul_zero]
  show ∑ k : Fin T.nv, u k * (if k = s.a then x else if k = s.b then y else 0) = _
  simp only [e, Finset.sum_add_distrib, Finset.sum_ite_eq', Finset.mem_univ, if_true]

theorem domainIntegral_triangles (h : Proper T) (u : Fin T.nv → 𝕜) (tag : Int) :
    domainIntegral T.fem u tag =
      ((T.tris.filter (fun t => t.attr = tag)).map (fun t => triArea T t * ((u t.a + u t.b + u t.c) / 3))).sum := by
  refine (sum_flatMap_filter _ _ (fun t : Tri T.nv => decide (t.attr = tag)) _ ?_ T.tris).trans ?_
  · intro t q hq
    change q ∈ [T.point t (1/2) (1/2) 0, T.point t 0 (1/2) (1/2), T.point t (1/2) 0 (1/2)] at hq
    rcases List.mem_cons.mp hq with rfl | hq
    · rfl
    rcases List.mem_cons.mp hq with rfl | hq
    · rfl
    cases List.mem_singleton.mp hq
    rfl
  congr 1
  refine List.map_congr_left fun t ht => ?_
  have hd := h.det_ne t (List.mem_filter.mp ht).1
  have ew : ∀ x y z : 𝕜, (T.point t x y z).w = triArea T t / 3 := by
    intro x y z
    rw [← det_area two_ne_zero]
    show T.det t / 6 = _
    ring
  have term : ∀ x y z : 𝕜, (T.point t x y z).w * scalarAt (T.point t x y z).N u =
      triArea T t / 3 * (u t.a * x + u t.b * y + u t.c * z) := fun x y z => by rw [ew, point_scalar hd]
  refine (congrArg₂ (· + ·) (term _ _ _) (congrArg₂ (· + ·) (term _ _ _) (congrArg (· + 0) (term _ _ _)))).trans ?_
  ring

theorem boundaryIntegral_triangles (h : Proper T) (u : Fin T.nv → 𝕜) (tag : Int) :
    boundaryIntegral T.fem u tag =
      ((T.segs.filter (fun s => s.attr = tag)).map (fun s => s.len * ((u s.a + u s.b) / 2))).sum := by
  refine (sum_flatMap_filter _ _ (fun s : Seg 𝕜 T.nv => decide (s.attr = tag)) _ ?_ T.segs).trans ?_
  · intro s q hq
    change q ∈ [T.segPoint s 1 0 (1/6), T.segPoint s (1/2) (1/2) (4/6), T.segPoint s 0 1 (1/6)] at hq
    rcases List.mem_cons.mp hq with rfl | hq
    · rfl
    rcases List.mem_cons.mp hq with rfl | hq
    · rfl
    cases List.mem_singleton.mp hq
    rfl
  congr 1
  refine List.map_congr_left fun s hs => ?_
  have hn := h.seg_ne s (List.mem_filter.mp hs).1
  have term : ∀ x y f : 𝕜, (T.segPoint s x y f).w * scalarAt (T.segPoint s x y f).N u =
      s.len * f * (u s.a * x + u s.b * y) := fun x y f => by rw [segPoint_scalar hn]; rfl
  refine (congrArg₂ (· + ·) (term _ _ _) (congrArg₂ (· + ·) (term _ _ _) (congrArg (· + 0) (term _ _ _)))).trans ?_
  ring

theorem filter_map_sum {α β : Type _} (f : α → β) (pa : α → Bool) (pb : β → Bool) (g : β → 𝕜)
    (h : ∀ a, pb (f a) = pa a) (l : List α) :
    (((l.map f).filter pb).map g).sum = ((l.filter pa).map (fun a => g (f a))).sum := by
  rw [List.filter_map, List.map_map]
  have : (pb ∘ f) = pa := funext h
  rw [this]
  rfl

/-- **C79, geometry.** In a model meshed with triangles: the integrals of a potential are those of its linear
interpolation (area times the mean of the three vertices, length times the mean of the two ends); the area of a
dielectric is the sum of the areas of its triangles; its bounding box is the smallest one holding them. -/
theorem C79_geometry (hT : Proper T) :
    (∀ (u : Fin T.nv → 𝕜) (tag : Int), domainIntegral T.fem u tag =
      ((T.tris.filter (fun t => t.attr = tag)).map (fun t => triArea T t * ((u t.a + u t.b + u t.c) / 3))).sum) ∧
    (∀ (u : Fin T.nv → 𝕜) (tag : Int), boundaryIntegral T.fem u tag =
      ((T.segs.filter (fun s => s.attr = tag)).map (fun s => s.len * ((u s.a + u s.b) / 2))).sum) ∧
    ∀ model : Model 𝕜, model.mesh = T.toMesh → DistinctNames model.materials → ∀ d ∈ model.materials.dielectrics,
      model.getAreaOfMaterial d.name = .ok ((T.tris.filter (fun t => t.attr = d.tag)).map (triArea T)).sum ∧
      ∃ b, model.getBoundingBoxOfMaterial d.name = .ok b ∧
        (∀ t ∈ T.tris, t.attr = d.tag → ∀ v, IsVertex t v →
          b.minX ≤ fin (T.coord v).1 ∧ fin (T.coord v).1 ≤ b.maxX ∧ b.minY ≤ fin (T.coord v).2 ∧ fin (T.coord v).2 ≤ b.maxY) ∧
        ((∃ t ∈ T.tris, t.attr = d.tag) →
          (∃ t ∈ T.tris, t.attr = d.tag ∧ ∃ v, IsVertex t v ∧ b.minX = fin (T.coord v).1) ∧
          (∃ t ∈ T.tris, t.attr = d.tag ∧ ∃ v, IsVertex t v ∧ b.maxX = fin (T.coord v).1) ∧
          (∃ t ∈ T.tris, t.attr = d.tag ∧ ∃ v, IsVertex t v ∧ b.minY = fin (T.coord v).2) ∧
          (∃ t ∈ T.tris, t.attr = d.tag ∧ ∃ v, IsVertex t v ∧ b.maxY = fin (T.coord v).2)) := by
  refine ⟨domainIntegral_triangles hT, boundaryIntegral_triangles hT, fun model hm hn d hd => ⟨?_, ?_⟩⟩
  · rw [(C19_area model hn).1 d hd, hm]
    congr 1
    refine (filter_map_sum _ (fun t : Tri T.nv => decide (t.attr = d.tag)) _ _ (fun t => rfl) T.tris).trans ?_
    congr 1
    exact List.map_congr_left fun t _ => det_area two_ne_zero t
  · have coord : ∀ v : Fin T.nv, model.mesh.coord (v.1 : Int) = T.coord v := by
      intro v
      rw [hm]
      show (if h : ((v.1 : Int)).toNat < T.nv then T.coord ⟨((v.1 : Int)).toNat, h⟩ else (0, 0)) = _
      rw [dif_pos (by simp)]
      rfl
    have vertex : ∀ {e : Elem 𝕜}, e ∈ model.mesh.elems → ∃ t ∈ T.tris, e.attr = t.attr ∧
        ∀ x, x ∈ e.verts ↔ ∃ v, IsVertex t v ∧ x = (v.1 : Int) := by
      intro e he
      rw [hm] at he
      obtain ⟨t, ht, rfl⟩ := List.mem_map.mp he
      refine ⟨t, ht, rfl, fun x => ?_⟩
      unfold IsVertex
      simp only [List.mem_cons, List.not_mem_nil, or_false]
      constructor
      · rintro (rfl | rfl | rfl)
        exacts [⟨_, Or.inl rfl, rfl⟩, ⟨_, Or.inr (Or.inl rfl), rfl⟩, ⟨_, Or.inr (Or.inr rfl), rfl⟩]
      · rintro ⟨v, rfl | rfl | rfl, rfl⟩
        exacts [Or.inl rfl, Or.inr (Or.inl rfl), Or.inr (Or.inr rfl)]
    have elem : ∀ t ∈ T.tris, ∃ e ∈ model.mesh.elems, e.attr = t.attr ∧ ∀ v, IsVertex t v → (v.1 : Int) ∈ e.verts := by
      intro t ht
      rw [hm]
      refine ⟨_, List.mem_map_of_mem ht, rfl, ?_⟩
      unfold IsVertex
      rintro v (rfl | rfl | rfl) <;> simp
    obtain ⟨b, hb, hin, htight, _⟩ := (C18_bounding_box model hn d.name).2 d.tag (by
      unfold declared
      simp only [List.mem_append, List.mem_map]
      exact Or.inr ⟨d, hd, rfl⟩)
    refine ⟨b, hb, ?_, ?_⟩
    · intro t ht hta v hv
      obtain ⟨e, he, ea, ev⟩ := elem t ht
      have := hin e he (ea.trans hta) _ (ev v hv)
      rwa [coord] at this
    · rintro ⟨t, ht, hta⟩
      obtain ⟨e, he, ea, ev⟩ := elem t ht
      obtain ⟨h1, h2, h3, h4⟩ := htight ⟨e, he, ea.trans hta, List.ne_nil_of_mem (ev t.a (Or.inl rfl))⟩
      have conv : ∀ {P : 𝕜 × 𝕜 → Prop}, (∃ e ∈ model.mesh.elems, e.attr = d.tag ∧ ∃ v ∈ e.verts, P (model.mesh.coord v)) →
          ∃ t ∈ T.tris, t.attr = d.tag ∧ ∃ v, IsVertex t v ∧ P (T.coord v) := by
        rintro P ⟨e, he, ea, x, hx, hP⟩
        obtain ⟨t, ht, ta, tv⟩ := vertex he
        obtain ⟨v, hv, rfl⟩ := (tv x).mp hx
        exact ⟨t, ht, ta.symm.trans ea, v, hv, by rwa [coord] at hP⟩
      exact ⟨conv (P := fun p => b.minX = fin p.1) h1, conv (P := fun p => b.maxX = fin p.1) h2,
        conv (P := fun p => b.minY = fin p.2) h3, conv (P := fun p => b.maxY = fin p.2) h4⟩

/-- **C83, what holds.** On a mesh of triangles without obtuse angles, at order 1, in a closed model: potentials lie
between the lowest and the highest conductor potential, at the vertices and hence in every average over a material or
boundary; the stored solutions have potentials between 0 and 1. (Missing: other meshes, see `C83_refuted`; open
boundaries.) -/
theorem C83_bounds_partial (E : Engine 𝕜) {model : Model 𝕜} {opts : DriverOptions}
    {ps : List (PEC 𝕜)} (hm : model.mesh = T.toMesh) (h1 : opts.solverOptions.order = 1)
    (hE : E.disc T.toMesh 1 = T.fem) (hP : ExactSolver E.pcg) (hN : Numbering model.materials ps) (hT : Proper T)
    (hno : NonObtuse T) (hlen : ∀ s ∈ T.segs, 0 ≤ s.len)
    (hS : Sensible T model.materials) (hj : JoinedToConductors T model.materials)
    (ha : ConductorsApart T model.materials) (hopen : model.materials.openBoundaries = []) (b : Bool) :
    (∀ (V : Int → 𝕜) (t : SolverSolution T.fem) (lo hi : 𝕜), PrescribedField E.analytic T.fem model.materials b V t →
      (∀ p ∈ model.materials.pecs, lo ≤ V p.tag ∧ V p.tag ≤ hi) →
      (∀ v : Fin T.nv, lo ≤ t.phi v ∧ t.phi v ≤ hi) ∧
      ∀ (s : Solver T.fem) (tag : Int) (x : 𝕜), s.getSolution = t →
        (s.getAveragePotentialInDomain tag = .ok x → lo ≤ x ∧ x ≤ hi) ∧
        (s.getAveragePotentialInBoundary tag = .ok x → lo ≤ x ∧ x ≤ hi)) ∧
    ∀ d, (Driver.construct E model opts).1 = .ok d → ∀ t, some t ∈ (Driver.problem b d).solutions →
      ∀ v, 0 ≤ t.phi v ∧ t.phi v ≤ 1 := by
  have hF : E.fem model opts = T.fem := by
    unfold Engine.fem
    rw [hm, h1, hE]
  have ho : OpenAbsorb E.analytic T model.materials := by
    rintro s _ ⟨o, ho, _⟩
    rw [hopen] at ho
    cases ho
  have he := triangles_elliptic hT hS hj ho
  have hs := triangles_separate ha
  have hW : WellDeclared model.materials := ⟨hS.names, hS.tags, hS.openNames⟩
  have hB : Buildable (E.fem model opts) model.materials := by rw [hF]; exact triangles_buildable hT hS
  refine ⟨fun V t lo hi ht hV => ?_, fun d hd t ht => ?_⟩
  · have hb := maximum_principle hT (C79_elements hT).1 hno he hs hopen ht hV
    refine ⟨hb, fun s tag x hst => ?_⟩
    have hC := (C79_elements hT).1
    obtain ⟨_, _, _, hav⟩ := C62_averages hC tag
    obtain ⟨a1, a2⟩ := hav s lo hi x
    have hphi : ∀ v : Fin T.nv, lo ≤ s.getSolution.phi v ∧ s.getSolution.phi v ≤ hi := by rw [hst]; exact hb
    constructor
    · refine a1 fun q hq _ => ?_
      obtain ⟨r, hr, hq⟩ := mem_dom.mp hq
      have hd := hT.det_ne r hr
      have hw : 0 ≤ T.det r / 6 := (div_pos (hT.area r hr) (by norm_num)).le
      have v1 := hphi r.a
      have v2 := hphi r.b
      have v3 := hphi r.c
      rcases hq with rfl | rfl | rfl
      · exact ⟨hw, (point_scalar hd _ _ _ _).ge.trans' (by linarith), (point_scalar hd _ _ _ _).trans_le (by linarith)⟩
      · exact ⟨hw, (point_scalar hd _ _ _ _).ge.trans' (by linarith), (point_scalar hd _ _ _ _).trans_le (by linarith)⟩
      · exact ⟨hw, (point_scalar hd _ _ _ _).ge.trans' (by linarith), (point_scalar hd _ _ _ _).trans_le (by linarith)⟩
    · refine a2 fun q hq _ => ?_
      obtain ⟨r, hr, hq⟩ := mem_bdr.mp hq
      have hn := hT.seg_ne r hr
      have hl := hlen r hr
      have hw : ∀ f : 𝕜, 0 ≤ f → 0 ≤ r.len * f := fun f hf => mul_nonneg hl hf
      have v1 := hphi r.a
      have v2 := hphi r.b
      rcases hq with rfl | rfl | rfl
      · exact ⟨hw _ (by norm_num), (segPoint_scalar hn _ _ _ _).ge.trans' (by linarith), (segPoint_scalar hn _ _ _ _).trans_le (by linarith)⟩
      · exact ⟨hw _ (by norm_num), (segPoint_scalar hn _ _ _ _).ge.trans' (by linarith), (segPoint_scalar hn _ _ _ _).trans_le (by linarith)⟩
      · exact ⟨hw _ (by norm_num), (segPoint_scalar hn _ _ _ _).ge.trans' (by linarith), (segPoint_scalar hn _ _ _ _).trans_le (by linarith)⟩
  · obtain ⟨sols, hlen, hst, hf⟩ := C29_excitation E hN hB d hd b
    rw [hst] at ht
    obtain ⟨u, hu, e⟩ := List.mem_map.mp ht
    cases e
    obtain ⟨i, hi, rfl⟩ := List.getElem_of_mem hu
    have hfield := (hf i (by omega) hi).2 hW hP (by rw [hF]; exact he.wellPosed)
    generalize sols[i] = t at hfield
    generalize ps[i].tag = tag at hfield
    clear hf hst hu ht hB hlen
    clear hi hd
    clear sols d
    revert t
    rw [hF]
    intro t hfield
    refine maximum_principle hT (C79_elements hT).1 hno he hs hopen hfield fun p _ => ?_
    unfold oneVolt
    split
    · exact ⟨zero_le_one, le_refl _⟩
    · exact ⟨le_refl _, zero_le_one⟩

end
end Tulip.Props

namespace Tulip.Props
open Tulip Tulip.Spec Matrix

/-! ## Meshes with and without obtuse angles -/

/-- a region between two conductors; the first triangle is obtuse at the vertex (12, 5) -/
def obtuse : Triangulation ℚ where
  nv := 5
  coord := ![(0, 0), (24, 0), (12, 5), (24, 15), (12, 15)]
  tris := [⟨1, 0, 1, 2⟩, ⟨1, 1, 3, 2⟩, ⟨1, 2, 3, 4⟩]
  segs := [⟨3, 0, 1, 24⟩, ⟨2, 1, 3, 15⟩, ⟨3, 3, 4, 12⟩, ⟨1, 4, 2, 10⟩, ⟨3, 2, 0, 13⟩]

def obtuseModel : Model ℚ where
  materials := { pecs := pecsOf 1 2 }
  mesh := obtuse.toMesh

theorem obtuse_numbering : Numbering obtuseModel.materials (pecsOf 1 2) :=
  ⟨List.Perm.refl _, ids_of 1 2, by simp [pecsOf]⟩

theorem obtuse_proper : Proper obtuse where
  area := by decide +kernel
  segs := by unfold IsSide; decide +kernel
  boundary := List.cons_ne_nil _ _
  triAttrs := by decide +kernel
  segAttrs := by decide +kernel

theorem obtuse_conforming : Conforming obtuse where
  sides := by decide +kernel
  once := by decide +kernel
  boundary := by unfold IsSide; decide +kernel

theorem obtuse_measured : Measured obtuse := by unfold Measured; decide +kernel

theorem obtuse_sensible : Sensible obtuse obtuseModel.materials where
  pecs := by decide +kernel
  opens := by intro o ho; cases ho
  dielectrics := by intro d hd; cases hd
  names := List.nodup_nil
  tags := List.nodup_nil
  openNames := List.nodup_nil
  permittivities := by intro d hd; cases hd

theorem obtuse_apart : ConductorsApart obtuse obtuseModel.materials := by
  unfold ConductorsApart OnTag
  decide +kernel

theorem obtuse_joined : JoinedToConductors obtuse obtuseModel.materials := by
  have one : ∀ v : Fin obtuse.nv, ∃ p ∈ obtuseModel.materials.pecs, ∃ w, OnTag obtuse p.tag w ∧ (v = w ∨ Adjacent obtuse v w) := by
    unfold OnTag Adjacent IsVertex
    decide +kernel
  intro v
  obtain ⟨p, hp, w, hw, h⟩ := one v
  refine ⟨p, hp, w, hw, ?_⟩
  rcases h with rfl | h
  · exact .refl
  · exact .single h

theorem obtuse_open (A : Analytic ℚ) : OpenAbsorb A obtuse obtuseModel.materials :=
  fun s _ ⟨o, ho, _⟩ => by cases ho

/-- the corner (0, 0) -/
def corner : Fin obtuse.nv := ⟨0, by decide⟩

theorem obtuse_row (A : Analytic ℚ) (b : Bool) : ∀ k : Fin obtuse.nv,
    weakForm A obtuse.fem (declaredEps obtuseModel.materials b) [] (fun j : Fin obtuse.nv => if j.1 = 0 then 1 else 0) k =
      ![169 / 240, 119 / 240, -6/5, 0, 0] k := by
  have he : declaredEps obtuseModel.materials b = fun _ => 1 := by
    funext tag
    cases b <;> rfl
  have key : ∀ k : Fin obtuse.fem.n, (obtuse.fem.dom.map (fun q => q.w * (1 : ℚ) * inner2 (q.gradN k)
      (vectorAt q.gradN (fun j => if j.1 = 0 then (1 : ℚ) else 0)))).sum = [169 / 240, 119 / 240, -6/5, 0, 0].getD k.1 0 := by
    decide +kernel
  intro k
  rw [he]
  refine (congrArg₂ (· + ·) ((key k).trans ?_) ?_).trans (add_zero _)
  · fin_cases k <;> rfl
  have : (obtuse.fem.bdr.filter (fun q => q.attr ∈ ([] : List Int))) = [] := List.filter_eq_nil_iff.mpr fun q _ => by simp
  rw [this]
  rfl

/-- **C83, refuted.** On a conforming mesh of triangles with an obtuse angle, in a closed model without dielectrics: with
conductor 1 at 1 V and conductor 0 at 0 V the computed potential is -119/169 V at a vertex; the driver stores it. -/
theorem C83_refuted : ∃ E : Engine ℚ, E.disc obtuse.toMesh 1 = obtuse.fem ∧ ExactSolver E.pcg ∧
    Proper obtuse ∧ Conforming obtuse ∧ Measured obtuse ∧ Sensible obtuse obtuseModel.materials ∧
    JoinedToConductors obtuse obtuseModel.materials ∧ ConductorsApart obtuse obtuseModel.materials ∧
    (∀ (b : Bool) (t : SolverSolution obtuse.fem),
      PrescribedField E.analytic obtuse.fem obtuseModel.materials b (oneVolt 2) t → t.phi (0 : Fin 5) = -119 / 169) ∧
    ∃ d, (Driver.construct E obtuseModel order1).1 = .ok d ∧
      ∀ b, ∃ t, some t ∈ (Driver.problem b d).solutions ∧ ∃ v, t.phi v < 0 := by
  have hell := triangles_elliptic obtuse_proper obtuse_sensible obtuse_joined (obtuse_open (triEngine obtuse).analytic)
  have hsep := triangles_separate obtuse_apart
  have field : ∀ (b : Bool) (t : SolverSolution obtuse.fem),
      PrescribedField (triEngine obtuse).analytic obtuse.fem obtuseModel.materials b (oneVolt 2) t →
      t.phi (0 : Fin 5) = -119 / 169 := by
    intro b t ht
    have on : ∀ v : Fin obtuse.nv, v ≠ corner → ∃ p ∈ obtuseModel.materials.pecs, OnTag obtuse p.tag v ∧
        (oneVolt 2 p.tag : ℚ) = ![0, 1, 0, 1, 0] v := by
      unfold OnTag
      decide +kernel
    have off : ∀ p ∈ obtuseModel.materials.pecs, ¬ OnTag obtuse p.tag corner := by
      unfold OnTag
      decide +kernel
    have val : ∀ v : Fin obtuse.nv, v ≠ corner → t.phi v = ![0, 1, 0, 1, 0] v := by
      intro v hv
      obtain ⟨p, hp, hk, e⟩ := on v hv
      exact (ht.at_conductor hsep hp (onBoundary_iff.mpr hk)).trans e
    have eq := ht.equations corner (fun p hp h => off p hp (onBoundary_iff.mp h))
    have sym := weakForm_symm (A := (triEngine obtuse).analytic) (F := obtuse.fem) (declaredEps obtuseModel.materials b) []
      (fun j : Fin obtuse.nv => if j.1 = 0 then 1 else 0) t.phi
    have left : ∑ k : Fin obtuse.nv, (if k.1 = 0 then (1 : ℚ) else 0) *
        weakForm (triEngine obtuse).analytic obtuse.fem (declaredEps obtuseModel.materials b) [] t.phi k = 0 := by
      refine (Finset.sum_congr rfl (fun k _ => ?_)).trans Finset.sum_const_zero
      by_cases hk : k = corner
      · subst hk
        exact mul_eq_zero_of_right _ eq
      · exact mul_eq_zero_of_left (if_neg (fun h : k.1 = 0 => hk (Fin.ext h))) _
    have right : ∑ k : Fin 5, t.phi k * (![169 / 240, 119 / 240, -6/5, 0, 0] : Fin 5 → ℚ) k = 0 := by
      refine Eq.trans ?_ (sym.symm.trans left)
      exact Finset.sum_congr rfl fun k _ => congrArg (t.phi k * ·) (obtuse_row _ b k).symm
    have v1 : t.phi (1 : Fin 5) = 1 := val (1 : Fin 5) (by decide : (⟨1, by decide⟩ : Fin obtuse.nv) ≠ corner)
    have v2 : t.phi (2 : Fin 5) = 0 := val (2 : Fin 5) (by decide : (⟨2, by decide⟩ : Fin obtuse.nv) ≠ corner)
    rw [Fin.sum_univ_five, v1, v2] at right
    generalize t.phi (0 : Fin 5) = x at right ⊢
    simp at right
    linarith
  obtain ⟨_, _, d, hd, _⟩ := C79_triangles (triEngine obtuse) (T := obtuse) (model := obtuseModel) (opts := order1) rfl rfl rfl
    inverseSolver_exact obtuse_numbering obtuse_proper obtuse_sensible obtuse_joined obtuse_apart (obtuse_open _)
  refine ⟨triEngine obtuse, rfl, inverseSolver_exact, obtuse_proper, obtuse_conforming, obtuse_measured, obtuse_sensible,
    obtuse_joined, obtuse_apart, field, d, hd, fun b => ?_⟩
  obtain ⟨sols, hlen, hst, hf⟩ := C29_excitation (triEngine obtuse) obtuse_numbering
    (triangles_buildable obtuse_proper obtuse_sensible) d hd b
  have h1 : 1 < sols.length := by rw [hlen]; decide
  refine ⟨sols[1], by rw [hst]; exact List.mem_map_of_mem (List.getElem_mem h1), (0 : Fin 5), ?_⟩
  have := (hf 1 (by decide) h1).2 ⟨List.nodup_nil, List.nodup_nil, List.nodup_nil⟩ inverseSolver_exact hell.wellPosed
  exact (field b sols[1] this).trans_lt (by norm_num)

/-- a square of four right triangles; the plates are at x = 0 and x = 2 -/
def cross : Triangulation ℚ where
  nv := 5
  coord := ![(0, 0), (2, 0), (2, 2), (0, 2), (1, 1)]
  tris := [⟨1, 0, 1, 4⟩, ⟨1, 1, 2, 4⟩, ⟨2, 2, 3, 4⟩, ⟨1, 3, 0, 4⟩]
  segs := [⟨3, 0, 1, 2⟩, ⟨2, 1, 2, 2⟩, ⟨3, 2, 3, 2⟩, ⟨1, 3, 0, 2⟩]

/-- a dielectric in one of the triangles -/
def crossModel : Model ℚ where
  materials := { pecs := pecsOf 1 2, dielectrics := [⟨"Dielectric_1", 2, 4⟩] }
  mesh := cross.toMesh

theorem cross_proper : Proper cross where
  area := by decide +kernel
  segs := by unfold IsSide; decide +kernel
  boundary := List.cons_ne_nil _ _
  triAttrs := by decide +kernel
  segAttrs := by decide +kernel

theorem cross_sensible : Sensible cross crossModel.materials where
  pecs := by decide +kernel
  opens := by intro o ho; cases ho
  dielectrics := by decide +kernel
  names := by decide +kernel
  tags := by decide +kernel
  openNames := by decide +kernel
  permittivities := by decide +kernel

/-- `C83_bounds_partial` and `C79_geometry` hold of a model whose triangles have no obtuse angle. -/
example : ∃ d, (Driver.construct (triEngine cross) crossModel order1).1 = .ok d ∧
    (∀ t, some t ∈ (Driver.problem false d).solutions → ∀ v, 0 ≤ t.phi v ∧ t.phi v ≤ 1) ∧
    crossModel.getAreaOfMaterial "Dielectric_1" = .ok 1 := by
  have ha : ConductorsApart cross crossModel.materials := by unfold ConductorsApart OnTag; decide +kernel
  have hj : JoinedToConductors cross crossModel.materials := by
    have one : ∀ v : Fin cross.nv, ∃ p ∈ crossModel.materials.pecs, ∃ w, OnTag cross p.tag w ∧ (v = w ∨ Adjacent cross v w) := by
      unfold OnTag Adjacent IsVertex
      decide +kernel
    intro v
    obtain ⟨p, hp, w, hw, h⟩ := one v
    refine ⟨p, hp, w, hw, ?_⟩
    rcases h with rfl | h
    · exact .refl
    · exact .single h
  obtain ⟨_, _, d, hd, _⟩ := C79_triangles (triEngine cross) (T := cross) (model := crossModel) (opts := order1) rfl rfl rfl
    inverseSolver_exact (ps := pecsOf 1 2) ⟨List.Perm.refl _, ids_of 1 2, List.cons_ne_nil _ _⟩ cross_proper cross_sensible hj ha (fun s _ ⟨o, ho, _⟩ => by cases ho)
  refine ⟨d, hd, fun t ht => ?_, ?_⟩
  · exact (C83_bounds_partial (triEngine cross) (T := cross) (model := crossModel) (opts := order1) rfl rfl rfl inverseSolver_exact
      (ps := pecsOf 1 2) ⟨List.Perm.refl _, ids_of 1 2, List.cons_ne_nil _ _⟩ cross_proper (by unfold NonObtuse; decide +kernel) (by decide +kernel) cross_sensible hj ha rfl
      false).2 d hd t ht
  · refine (((C79_geometry cross_proper).2.2 crossModel rfl (by unfold DistinctNames; decide +kernel)
      ⟨"Dielectric_1", 2, 4⟩ (by decide +kernel)).1).trans ?_
    have : ((cross.tris.filter (fun t => t.attr = (2 : Int))).map (triArea cross)).sum = 1 := by decide +kernel
    exact congrArg Outcome.ok this

end Tulip.Props
