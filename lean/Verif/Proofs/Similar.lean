import Verif.Spec.Similar
import Verif.Proofs.MatrixQueries
import Verif.Proofs.Prescribed

/-!
# Moved models
-/

set_option linter.unusedSectionVars false

namespace Tulip
open Spec Matrix

section
variable {𝕜 : Type} {f : Elem 𝕜 → Elem 𝕜}

/-- Map over the values. -/
def mapVals (f : Elem 𝕜 → Elem 𝕜) (m : SMap Int (Elem 𝕜)) : SMap Int (Elem 𝕜) := m.map (fun kv => (kv.1, f kv.2))

theorem mapVals_set (m : SMap Int (Elem 𝕜)) (k : Int) (e : Elem 𝕜) :
    mapVals f (m.set k e) = SMap.set (mapVals f m) k (f e) := by
  induction m with
  | nil => rfl
  | cons a t ih =>
    obtain ⟨k', v⟩ := a
    show mapVals f (SMap.set ((k', v) :: t) k e) = SMap.set ((k', f v) :: mapVals f t) k (f e)
    unfold SMap.set
    split
    · rfl
    · split
      · rfl
      · rw [← ih]; rfl

theorem mapVals_find (m : SMap Int (Elem 𝕜)) (k : Int) : SMap.find? (mapVals f m) k = (SMap.find? m k).map f := by
  induction m with
  | nil => rfl
  | cons a t ih =>
    obtain ⟨k', v⟩ := a
    show SMap.find? ((k', f v) :: mapVals f t) k = _
    rw [SMap.find?_cons, SMap.find?_cons]
    split
    · rfl
    · exact ih

theorem closedLoopsBuild_map (hf : ∀ e, (f e).verts = e.verts) : ∀ (es : List (Elem 𝕜)) (g : DGraph) (m : SMap Int (Elem 𝕜)),
    closedLoopsBuild (es.map f) g (mapVals f m) = (closedLoopsBuild es g m).bind (fun r => .ok (r.1, mapVals f r.2))
  | [], g, m => rfl
  | e :: es, g, m => by
    rw [List.map_cons, closedLoopsBuild, closedLoopsBuild, hf]
    rcases e.verts with _ | ⟨v0, _ | ⟨v1, t⟩⟩
    · rfl
    · rfl
    · simp only
      rcases g.addEdge v0 v1 with ⟨g', _ | err⟩
      · simp only
        rw [← mapVals_set]
        exact closedLoopsBuild_map hf es g' _
      · rfl

theorem closedLoopsCollect_map (m : SMap Int (Elem 𝕜)) : ∀ l : List Int,
    closedLoopsCollect (mapVals f m) l = (closedLoopsCollect m l).bind (fun r => .ok (r.map f))
  | [] => rfl
  | v :: vs => by
    rw [closedLoopsCollect, closedLoopsCollect, mapVals_find, closedLoopsCollect_map m vs]
    cases SMap.find? m v with
    | none => rfl
    | some e =>
      show Outcome.bind ((closedLoopsCollect m vs).bind _) _ = Outcome.bind (Outcome.bind (closedLoopsCollect m vs) _) _
      cases closedLoopsCollect m vs <;> rfl

theorem elementsFormOpenLoops_map (hf : ∀ e, (f e).verts = e.verts) (es : List (Elem 𝕜)) :
    elementsFormOpenLoops (es.map f) = elementsFormOpenLoops es := by
  unfold elementsFormOpenLoops determineClosedLoops
  have h : closedLoopsBuild (es.map f) DGraph.empty [] = _ := closedLoopsBuild_map hf es DGraph.empty []
  rw [h]
  rcases closedLoopsBuild es DGraph.empty [] with ⟨g, m⟩ | _ | _ | _
  · show ((match g.findCycles with | none => Outcome.ub | some cycles => closedLoopsCollect (mapVals f m) cycles.flatten)
      >>= _) = ((match g.findCycles with | none => Outcome.ub | some cycles => closedLoopsCollect m cycles.flatten) >>= _)
    cases g.findCycles with
    | none => rfl
    | some cycles =>
      simp only [closedLoopsCollect_map]
      cases closedLoopsCollect m cycles.flatten with
      | ok r =>
        show Outcome.ok _ = Outcome.ok _
        rw [List.length_map, List.length_map]
      | _ => rfl
  · rfl
  · rfl
  · rfl

end

variable {𝕜 : Type} [Field 𝕜] (g : Similarity 𝕜)

theorem getElementsWithAttribute_moved (m : Mesh 𝕜) (a : Int) : getElementsWithAttribute (movedMesh g m) a =
    (getElementsWithAttribute m a).map (fun e => { e with vol := g.scale * e.vol }) := by
  unfold getElementsWithAttribute movedMesh
  rw [List.filter_map]
  rfl

theorem opennessLoop_moved (m : Mesh 𝕜) : ∀ os : List OpenBoundary,
    Model.opennessLoop (movedMesh g m) os = Model.opennessLoop m os
  | [] => rfl
  | o :: os => by
    rw [Model.opennessLoop, Model.opennessLoop, getElementsWithAttribute_moved,
      elementsFormOpenLoops_map (f := fun e => { e with vol := g.scale * e.vol }) (fun _ => rfl), opennessLoop_moved m os]

theorem determineOpenness_moved (model : Model 𝕜) : (movedModel g model).determineOpenness = model.determineOpenness := by
  unfold Model.determineOpenness
  rw [show (movedModel g model).mesh = movedMesh g model.mesh from rfl, opennessLoop_moved]
  rfl

/-! ## Fields -/

variable {g}

theorem vectorAt_field {n : Nat} (B : Fin n → 𝕜 × 𝕜) (u : Fin n → 𝕜) :
    vectorAt (fun k => g.field (B k)) u = g.field (vectorAt B u) := by
  unfold vectorAt Similarity.field Similarity.turn
  ext
  · show ∑ k, u k * ((g.cos * (B k).1 - g.sin * (B k).2) / g.scale) =
      (g.cos * ∑ k, u k * (B k).1 - g.sin * ∑ k, u k * (B k).2) / g.scale
    rw [Finset.mul_sum, Finset.mul_sum, ← Finset.sum_sub_distrib, div_eq_mul_inv, Finset.sum_mul]
    exact Finset.sum_congr rfl fun k _ => by ring
  · show ∑ k, u k * ((g.sin * (B k).1 + g.cos * (B k).2) / g.scale) =
      (g.sin * ∑ k, u k * (B k).1 + g.cos * ∑ k, u k * (B k).2) / g.scale
    rw [Finset.mul_sum, Finset.mul_sum, ← Finset.sum_add_distrib, div_eq_mul_inv, Finset.sum_mul]
    exact Finset.sum_congr rfl fun k _ => by ring

theorem inner2_field (a b : 𝕜 × 𝕜) : g.scale * g.scale * inner2 (g.field a) (g.field b) = inner2 a b := by
  unfold inner2 Similarity.field Similarity.turn
  have h := g.unit
  have h0 := g.scale_ne
  field_simp
  linear_combination (a.1 * b.1 + a.2 * b.2) * h

/-- As `AbsorbsAlike`, with different coefficients for the two models. -/
def Absorbs (g : Similarity 𝕜) (A A' : Analytic 𝕜) (F : FEM 𝕜) (mats : Materials 𝕜) : Prop :=
  ∀ q ∈ F.bdr, q.attr ∈ mats.openBoundaries.map OpenBoundary.tag → g.scale * A'.abc (g.point q.pos) = A.abc q.pos

theorem weakForm_moved {A A' : Analytic 𝕜} {F : FEM 𝕜} {mats : Materials 𝕜} (h : Absorbs g A A' F mats) (eps : Int → 𝕜)
    (u : Fin F.n → 𝕜) (i : Fin F.n) :
    weakForm A' (movedFEM g F) eps (mats.openBoundaries.map OpenBoundary.tag) u i =
      weakForm A F eps (mats.openBoundaries.map OpenBoundary.tag) u i := by
  unfold weakForm
  congr 1
  · unfold movedFEM
    simp only [List.map_map, Function.comp_def]
    refine congrArg List.sum (List.map_congr_left fun q _ => ?_)
    rw [vectorAt_field, ← inner2_field (g := g) (q.gradN i)]
    ring
  · unfold movedFEM
    simp only [List.filter_map, List.map_map, Function.comp_def]
    refine congrArg List.sum (List.map_congr_left fun q hq => ?_)
    obtain ⟨hq, ho⟩ := List.mem_filter.mp hq
    rw [← h q hq (of_decide_eq_true ho)]
    ring

theorem projection_moved {F : FEM 𝕜} (d : Fin F.nd → 𝕜) (k : Fin F.nd) :
    ((movedFEM g F).dom.map (fun q => q.w * inner2 (q.R k) (vectorAt q.R d))).sum =
      (F.dom.map (fun q => q.w * inner2 (q.R k) (vectorAt q.R d))).sum := by
  unfold movedFEM
  simp only [List.map_map, Function.comp_def]
  refine congrArg List.sum (List.map_congr_left fun q _ => ?_)
  rw [vectorAt_field, ← inner2_field (g := g) (q.R k)]
  ring

theorem displacement_moved {F : FEM 𝕜} (eps : Int → 𝕜) (e : Fin F.ne → 𝕜) (d : Fin F.nd → 𝕜) :
    Displacement (movedFEM g F) eps e d ↔ Displacement F eps e d := by
  unfold Displacement
  refine forall_congr' fun k => ?_
  have h2 : ((movedFEM g F).dom.map (fun q => q.w * eps q.attr * inner2 (q.R k) (vectorAt q.W e))).sum =
      (F.dom.map (fun q => q.w * eps q.attr * inner2 (q.R k) (vectorAt q.W e))).sum := by
    unfold movedFEM
    simp only [List.map_map, Function.comp_def]
    refine congrArg List.sum (List.map_congr_left fun q _ => ?_)
    rw [vectorAt_field, ← inner2_field (g := g) (q.R k)]
    ring
  exact Eq.congr (projection_moved (g := g) d k) h2

/-- The materials of the moved model. -/
abbrev movedMats (g : Similarity 𝕜) (mats : Materials 𝕜) : Materials 𝕜 :=
  { mats with pecs := mats.pecs.map (fun p => { p with area := g.scale * g.scale * p.area }) }

theorem pecs_moved {mats : Materials 𝕜} {P : Int → Prop} :
    (∀ p ∈ (movedMats g mats).pecs, P p.tag) ↔ ∀ p ∈ mats.pecs, P p.tag := List.forall_mem_map

theorem exists_moved {mats : Materials 𝕜} {P : Int → Prop} :
    (∃ p ∈ (movedMats g mats).pecs, P p.tag) ↔ ∃ p ∈ mats.pecs, P p.tag := by
  constructor
  · rintro ⟨p, hp, h⟩
    obtain ⟨q, hq, rfl⟩ := List.mem_map.mp hp
    exact ⟨q, hq, h⟩
  · rintro ⟨p, hp, h⟩
    exact ⟨_, List.mem_map.mpr ⟨p, hp, rfl⟩, h⟩

theorem field_moved {A A' : Analytic 𝕜} {F : FEM 𝕜} {mats : Materials 𝕜} (h : Absorbs g A A' F mats) {b : Bool} {V : Int → 𝕜}
    {t : SolverSolution (movedFEM g F)} (ht : PrescribedField A' (movedFEM g F) (movedMats g mats) b V t) :
    PrescribedField A F mats b V ⟨t.phi, t.e, t.d⟩ where
  values k c hk hc := ht.values k c ((exists_moved (P := fun a => OnBoundary F a k)).mpr hk)
    ((pecs_moved (P := fun a => OnBoundary F a k → V a = c)).mpr hc)
  equations k hk := (weakForm_moved h _ _ k).symm.trans
    (ht.equations k ((pecs_moved (P := fun a => ¬ OnBoundary F a k)).mpr hk))
  e := ht.e
  d := (displacement_moved _ _ _).mp ht.d

theorem wellPosed_moved {A A' : Analytic 𝕜} {F : FEM 𝕜} {mats : Materials 𝕜} (h : Absorbs g A A' F mats)
    (hw : WellPosed A F mats) : WellPosed A' (movedFEM g F) (movedMats g mats) where
  unique b u h0 h1 := hw.unique b u (fun k hk => h0 k ((exists_moved (P := fun a => OnBoundary F a k)).mpr hk))
    (fun k hk => (weakForm_moved h _ u k).symm.trans
      (h1 k (fun hk' => hk ((exists_moved (P := fun a => OnBoundary F a k)).mp hk'))))
  diagonal b k hk := by
    exact fun h0 => hw.diagonal b k ((exists_moved (P := fun a => OnBoundary F a k)).mp hk)
      ((weakForm_moved h _ _ k).symm.trans h0)
  projection d hd := hw.projection d fun k => (projection_moved (g := g) (F := F) d k).symm.trans (hd k)

theorem buildable_moved {F : FEM 𝕜} {mats : Materials 𝕜} (hB : Buildable F mats) :
    Buildable (movedFEM g F) (movedMats g mats) where
  bdr := hB.bdr
  bdrAttrs := hB.bdrAttrs
  points := List.forall_mem_map.mpr hB.points
  pecs := (pecs_moved (P := fun a => 1 ≤ a)).mpr hB.pecs
  opens := hB.opens
  names := hB.names
  dielectrics := hB.dielectrics

theorem declared_moved {mats : Materials 𝕜} (h : WellDeclared mats) : WellDeclared (movedMats g mats) := ⟨h.1, h.2, h.3⟩

theorem numbering_moved {mats : Materials 𝕜} {ps : List (PEC 𝕜)} (h : Numbering mats ps) :
    Numbering (movedMats g mats) (ps.map (fun p => { p with area := g.scale * g.scale * p.area })) where
  all := h.all.map _
  ids := by
    intro i hi
    rw [List.length_map] at hi
    rw [List.getElem_map]
    exact h.ids i hi
  nonempty := by simpa using h.nonempty

theorem chargeOn_moved {F : FEM 𝕜} (t : SolverSolution (movedFEM g F)) (tag : Int) :
    chargeOn t tag = chargeOn (F := F) ⟨t.phi, t.e, t.d⟩ tag := by
  unfold chargeOn outwardFlux movedFEM
  simp only [List.filter_map, List.map_map, Function.comp_def]

end Tulip
