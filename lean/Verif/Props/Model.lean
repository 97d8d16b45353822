import Verif.Proofs.Loops
import Verif.Proofs.Materials
import Verif.Props.Materials
import Mathlib.Algebra.Field.Rat

/-!
# C16–C19: openness, bounding box and area
-/

namespace Tulip.Props
open Tulip Tulip.Spec
variable {𝕜 : Type _}

theorem opennessLoop_ne_closed (mesh : Mesh 𝕜) (os : List OpenBoundary) :
    Model.opennessLoop mesh os ≠ .ok .closed := by
  induction os with
  | nil => simp [Model.opennessLoop]
  | cons o t ih =>
    rw [Model.opennessLoop]
    intro h
    rw [Outcome.bind_eq_ok] at h
    obtain ⟨b, _, h⟩ := h
    cases b
    · simp at h
    · simp at h; exact ih h

/-- **C16.** A model built from materials with distinct names is classified closed iff no declared open
boundary has its tag in the mesh; and the classification is a function of the mesh boundary and the open
boundaries alone. -/
theorem C16_closed_iff (mesh : Mesh 𝕜) (mats : Materials 𝕜) (hd : DistinctNames mats) :
    ((Model.make mesh mats).determineOpenness = .ok .closed ↔
      ∀ o ∈ mats.openBoundaries, ¬ TagInMesh mesh o.tag) ∧
    (∀ m₁ m₂ : Model 𝕜, m₁.materials.openBoundaries = m₂.materials.openBoundaries →
      m₁.mesh.bdr = m₂.mesh.bdr → m₁.determineOpenness = m₂.determineOpenness) := by
  refine ⟨?_, ?_⟩
  · have hf := (C11_filter mesh mats hd).2.1
    unfold Model.determineOpenness
    rw [hf]
    constructor
    · intro h o ho ht
      split at h
      · rename_i h0
        have := List.length_eq_zero_iff.mp h0
        rw [List.filter_eq_nil_iff] at this
        exact this o ho (by simpa using ht)
      · exact opennessLoop_ne_closed _ _ h
    · intro h
      rw [if_pos]
      rw [List.length_eq_zero_iff, List.filter_eq_nil_iff]
      intro o ho
      simpa using h o ho
  · intro m₁ m₂ h1 h2
    unfold Model.determineOpenness
    rw [h1]
    have : ∀ os, Model.opennessLoop m₁.mesh os = Model.opennessLoop m₂.mesh os := by
      intro os
      induction os with
      | nil => rfl
      | cons o t ih => simp only [Model.opennessLoop, getElementsWithAttribute, h2, ih]
    rw [this]

/-- both classes occur -/
example :
    let mesh : Mesh Int := { elems := [⟨7, [0, 1, 2], 1⟩], bdr := [⟨1, [0, 1], 1⟩], coord := fun _ => (0, 0) }
    let mats : Materials Int := { openBoundaries := [⟨"OpenBoundary_0", 4⟩] }
    DistinctNames mats ∧ ∀ o ∈ mats.openBoundaries, ¬ TagInMesh mesh o.tag := by
  refine ⟨by unfold DistinctNames; decide, by decide⟩

/-- Segments for examples. -/
def seg (tag a b : Int) : Elem Int := ⟨tag, [a, b], 1⟩

/-- **C17, refuted.** A branching open boundary with a dangling segment is classified open because the
total length of its cycles (0-1 and 0-2-1) happens to be the number of segments: the segment 3-4 is on no
loop. -/
theorem C17_refuted :
    let es := [seg 4 0 1, seg 4 1 0, seg 4 0 2, seg 4 2 1, seg 4 3 4]
    let m : Model Int := { mesh := { elems := [], bdr := es, coord := fun _ => (0, 0) },
                           materials := { openBoundaries := [⟨"OpenBoundary_0", 4⟩] } }
    m.determineOpenness = .ok .open_ ∧ ¬ OnClosedLoop es (seg 4 3 4) := by
  refine ⟨?_, ?_⟩
  · have hp : ProperSegments [seg 4 0 1, seg 4 1 0, seg 4 0 2, seg 4 2 1, seg 4 3 4] := by
      intro e he
      simp only [List.mem_cons, List.not_mem_nil, or_false] at he
      rcases he with rfl | rfl | rfl | rfl | rfl <;> exact ⟨_, _, rfl, by decide⟩
    have hdet : ∃ ls, determineClosedLoops [seg 4 0 1, seg 4 1 0, seg 4 0 2, seg 4 2 1, seg 4 3 4]
        = .ok ls ∧ ls.length = 5 := by
      obtain ⟨g, hg, _, cs, hcs, ls, hls, hlen⟩ := determineClosedLoops_spec _ hp
      have hg2 := closedLoopsBuild_spec _ hp DGraph.empty [] DGraph.wf_empty
      unfold determineClosedLoops
      have hb : closedLoopsBuild [seg 4 0 1, seg 4 1 0, seg 4 0 2, seg 4 2 1, seg 4 3 4]
          DGraph.empty [] = .ok (DGraph.run [.addEdge 0 1, .addEdge 1 0, .addEdge 0 2, .addEdge 2 1,
            .addEdge 3 4], [(0, seg 4 0 2), (1, seg 4 1 0), (2, seg 4 2 1), (3, seg 4 3 4)]) := by
        decide
      rw [hb]
      simp only [Outcome.ok_bind]
      have hc : (DGraph.run [.addEdge 0 1, .addEdge 1 0, .addEdge 0 2, .addEdge 2 1,
            .addEdge 3 4]).findCycles = some [[0, 1], [0, 2, 1]] :=
        findCyclesFuel_sound (k := 20) (by decide)
      rw [hc]
      exact ⟨[seg 4 0 2, seg 4 1 0, seg 4 0 2, seg 4 2 1, seg 4 1 0], by decide, rfl⟩
    obtain ⟨ls, h1, h2⟩ := hdet
    have hfil : getElementsWithAttribute (𝕜 := Int)
        { elems := [], bdr := [seg 4 0 1, seg 4 1 0, seg 4 0 2, seg 4 2 1, seg 4 3 4],
          coord := fun _ => (0, 0) } 4 = [seg 4 0 1, seg 4 1 0, seg 4 0 2, seg 4 2 1, seg 4 3 4] := by
      decide
    simp only [Model.determineOpenness, List.length_singleton, Nat.one_ne_zero, if_false,
      Model.opennessLoop, hfil, elementsFormOpenLoops, h1, Outcome.ok_bind, h2]
    rfl
  · rintro ⟨c, hc, he⟩
    have hr := DGraph.reach_cyclic hc.edges _ he
    have key : ∀ a b, Reach ([seg 4 0 1, seg 4 1 0, seg 4 0 2, seg 4 2 1, seg 4 3 4].map ends) a b →
        a = 4 → b = 4 := by
      intro a b h
      induction h with
      | refl => exact id
      | tail _ h ih =>
        intro ha
        have := ih ha
        subst this
        simp [Adj, ends, seg] at h
    exact absurd (key _ _ hr rfl) (by decide)

/-- **C17, the part that holds.** With one open boundary whose segments are proper and start at different
vertices (an oriented simple curve system), the model is open iff every segment lies on a closed loop of
consistently oriented segments, and semiopen otherwise. Missing: branching boundaries (false, see above). -/
theorem C17_open_iff_loops_partial (m : Model 𝕜) (o : OpenBoundary)
    (ho : m.materials.openBoundaries = [o])
    (hp : ProperSegments (m.mesh.bdr.filter (fun e => decide (e.attr = o.tag))))
    (hu : UniqueStarts (m.mesh.bdr.filter (fun e => decide (e.attr = o.tag)))) :
    (m.determineOpenness = .ok .open_ ↔
      ∀ e ∈ m.mesh.bdr, e.attr = o.tag →
        OnClosedLoop (m.mesh.bdr.filter (fun e => decide (e.attr = o.tag))) e) ∧
    (m.determineOpenness = .ok .open_ ∨ m.determineOpenness = .ok .semiopen) := by
  have hp : ProperSegments (getElementsWithAttribute m.mesh o.tag) := hp
  have hu : UniqueStarts (getElementsWithAttribute m.mesh o.tag) := hu
  obtain ⟨g, hg, hE, cs, hcs, ls, h1, h2⟩ := determineClosedLoops_spec _ hp
  have hcount := closedLoops_count _ hu hg hE hcs
  have hall : (∀ e ∈ m.mesh.bdr, e.attr = o.tag →
        OnClosedLoop (m.mesh.bdr.filter (fun e => decide (e.attr = o.tag))) e) ↔
      ∀ e ∈ getElementsWithAttribute m.mesh o.tag, OnClosedLoop
        (getElementsWithAttribute m.mesh o.tag) e := by
    unfold getElementsWithAttribute
    simp only [List.mem_filter, decide_eq_true_eq, and_imp]
  rw [hall, ← hcount, ← h2]
  unfold Model.determineOpenness
  rw [ho]
  simp only [List.length_singleton, Nat.one_ne_zero, if_false, Model.opennessLoop,
    elementsFormOpenLoops, h1, Outcome.ok_bind]
  by_cases h : ls.length = (getElementsWithAttribute m.mesh o.tag).length
  · simp [h]
  · simp [h]

theorem loopsCount_iff {es : List (Elem 𝕜)} (hp : ProperSegments es) :
    ∃ ls, determineClosedLoops es = .ok ls ∧ (ls.length = es.length ↔ LoopsCount es) := by
  obtain ⟨g, hg, hE, cs, hcs, ls, h1, h2⟩ := determineClosedLoops_spec _ hp
  refine ⟨ls, h1, ?_⟩
  obtain ⟨cs', e, nd, hm⟩ := hg.findCycles_spec
  have : cs = cs' := Option.some.inj (hcs.symm.trans e)
  subst this
  have hinj : ∀ c ∈ cs, ∀ d ∈ cs, (c : Cycle Int) = d → c = d := by
    intro c hc d hd h
    obtain ⟨w, _, hw⟩ := hg.findCycles_unique hcs ((hm d).mp hd).1
    rw [hw c ⟨hc, Cycle.coe_eq_coe.mp h⟩, hw d ⟨hd, List.IsRotated.refl _⟩]
  have hS : ∀ c : List Int, (c : Cycle Int) ∈ (cs.map Cycle.ofList).toFinset ↔ ElemCycle (es.map ends) c := by
    intro c
    rw [List.mem_toFinset, List.mem_map, ← hE]
    constructor
    · rintro ⟨d, hd, h⟩
      obtain ⟨k, rfl⟩ := Cycle.coe_eq_coe.mp h
      exact ElemCycle.rotate ((hm d).mp hd).1 k
    · intro hc
      obtain ⟨d, ⟨hd, hr⟩, _⟩ := hg.findCycles_unique hcs hc
      exact ⟨d, hd, Cycle.coe_eq_coe.mpr hr⟩
  have hsum : ∑ c ∈ (cs.map Cycle.ofList).toFinset, c.length = cs.flatten.length := by
    rw [List.sum_toFinset _ (nd.map_on hinj), List.map_map, List.length_flatten]
    rfl
  rw [h2, ← hsum]
  constructor
  · intro h
    exact ⟨_, hS, h⟩
  · rintro ⟨S, hs, h⟩
    have : S = (cs.map Cycle.ofList).toFinset := by
      ext c
      induction c using Quotient.inductionOn with
      | h c => exact (hs c).trans (hS c).symm
    rw [← this, h]

/-- **C17, exact** (what the code computes, for any open boundaries made of proper segments): a model without open
boundary is closed; otherwise it is open iff for one of its open boundaries the closed loops that can be made of its
segments have as many segments in total as the boundary, and semiopen if for none. -/
theorem C17_exact_partial (m : Model 𝕜) (hp : ∀ o ∈ m.materials.openBoundaries,
      ProperSegments (m.mesh.bdr.filter (fun e => decide (e.attr = o.tag)))) :
    (m.determineOpenness = .ok .closed ↔ m.materials.openBoundaries = []) ∧
    (m.determineOpenness = .ok .open_ ↔ ∃ o ∈ m.materials.openBoundaries,
      LoopsCount (m.mesh.bdr.filter (fun e => decide (e.attr = o.tag)))) ∧
    (m.determineOpenness = .ok .semiopen ↔ m.materials.openBoundaries ≠ [] ∧ ∀ o ∈ m.materials.openBoundaries,
      ¬ LoopsCount (m.mesh.bdr.filter (fun e => decide (e.attr = o.tag)))) := by
  have key : ∀ os : List OpenBoundary, (∀ o ∈ os, ProperSegments (m.mesh.bdr.filter (fun e => decide (e.attr = o.tag)))) →
      Model.opennessLoop m.mesh os = .ok (open Classical in if ∃ o ∈ os, LoopsCount (m.mesh.bdr.filter
        (fun e => decide (e.attr = o.tag))) then .open_ else .semiopen) := by
    intro os
    induction os with
    | nil => intro _; simp [Model.opennessLoop]
    | cons o t ih =>
      intro h
      obtain ⟨ls, h1, h2⟩ := loopsCount_iff (h o (by simp))
      have h1' : determineClosedLoops (getElementsWithAttribute m.mesh o.tag) = .ok ls := h1
      have h2' : ls.length = (getElementsWithAttribute m.mesh o.tag).length ↔ _ := h2
      rw [Model.opennessLoop, elementsFormOpenLoops, h1']
      simp only [Outcome.ok_bind]
      rw [ih (fun o ho => h o (List.mem_cons_of_mem _ ho))]
      by_cases hc : LoopsCount (m.mesh.bdr.filter (fun e => decide (e.attr = o.tag)))
      · simp [h2'.mpr hc, hc]
      · have := fun h => hc (h2'.mp h)
        rw [if_neg (by simpa using this)]
        refine congrArg _ ?_
        classical
        exact if_congr (by simp [hc]) rfl rfl
  unfold Model.determineOpenness
  rcases ho : m.materials.openBoundaries with _ | ⟨o, t⟩
  · simp
  · rw [ho] at hp
    rw [key _ hp]
    by_cases h : ∃ o' ∈ o :: t, LoopsCount (m.mesh.bdr.filter (fun e => decide (e.attr = o'.tag)))
    · rw [if_pos h]
      refine ⟨by simp, by simpa using h, ?_⟩
      constructor
      · simp
      · rintro ⟨_, hn⟩
        obtain ⟨o', h1, h2⟩ := h
        exact absurd h2 (hn o' h1)
    · rw [if_neg h]
      refine ⟨by simp, ?_, ?_⟩
      · constructor
        · simp
        · exact fun h' => absurd h' h
      · push Not at h
        simpa using h

/-- The branching boundary of `C17_refuted` meets the hypotheses of `C17_exact_partial`: its loops 0-1 and 0-2-1 have five
segments in total, as many as the boundary, although 3-4 is on none. -/
example : LoopsCount [seg 4 0 1, seg 4 1 0, seg 4 0 2, seg 4 2 1, seg 4 3 4] ∧
    ¬ OnClosedLoop [seg 4 0 1, seg 4 1 0, seg 4 0 2, seg 4 2 1, seg 4 3 4] (seg 4 3 4) := by
  refine ⟨?_, C17_refuted.2⟩
  obtain ⟨o, ho, h⟩ := (C17_exact_partial _ (by
    intro o ho
    simp only [List.mem_singleton] at ho
    subst ho
    intro e he
    simp only [List.mem_filter, List.mem_cons, List.not_mem_nil, or_false] at he
    rcases he.1 with rfl | rfl | rfl | rfl | rfl <;> exact ⟨_, _, rfl, by decide⟩)).2.1.mp C17_refuted.1
  simp only [List.mem_singleton] at ho
  subst ho
  exact h

/-- A square loop meets the hypotheses of C17 and is open. -/
example :
    let es := [seg 4 0 1, seg 4 1 2, seg 4 2 3, seg 4 3 0]
    ProperSegments es ∧ UniqueStarts es ∧ ∀ e ∈ es, OnClosedLoop es e := by
  refine ⟨?_, by unfold UniqueStarts; decide, ?_⟩
  · intro e he
    simp only [List.mem_cons, List.not_mem_nil, or_false] at he
    rcases he with rfl | rfl | rfl | rfl <;> exact ⟨_, _, rfl, by decide⟩
  · have hc : ElemCycle ([seg 4 0 1, seg 4 1 2, seg 4 2 3, seg 4 3 0].map ends) [0, 1, 2, 3] :=
      ⟨by decide, by decide, by decide⟩
    intro e he
    refine ⟨[0, 1, 2, 3], hc, ?_⟩
    simp only [List.mem_cons, List.not_mem_nil, or_false] at he
    rcases he with rfl | rfl | rfl | rfl <;> decide

/-! ## C18 -/

section box
variable [LinearOrder 𝕜]

/-- Points of the vertices of the elements with a tag. -/
def tagPoints (mesh : Mesh 𝕜) (tag : Int) : List (𝕜 × 𝕜) :=
  (mesh.elems.filter (fun e => decide (e.attr = tag))).flatMap (fun e => e.verts.map mesh.coord)

/-- A side value as an extended number. -/
def fin (x : 𝕜) : WithBot (WithTop 𝕜) := ((x : WithTop 𝕜) : WithBot (WithTop 𝕜))

theorem box_foldl (pts : List (𝕜 × 𝕜)) : ∀ b : EBox 𝕜,
    let r := pts.foldl Model.boxStep b
    (∀ p ∈ pts, r.minX ≤ fin p.1 ∧ fin p.1 ≤ r.maxX ∧ r.minY ≤ fin p.2 ∧ fin p.2 ≤ r.maxY) ∧
    (r.minX ≤ b.minX ∧ b.maxX ≤ r.maxX ∧ r.minY ≤ b.minY ∧ b.maxY ≤ r.maxY) ∧
    (r.minX = b.minX ∨ ∃ p ∈ pts, r.minX = fin p.1) ∧
    (r.maxX = b.maxX ∨ ∃ p ∈ pts, r.maxX = fin p.1) ∧
    (r.minY = b.minY ∨ ∃ p ∈ pts, r.minY = fin p.2) ∧
    (r.maxY = b.maxY ∨ ∃ p ∈ pts, r.maxY = fin p.2) := by
  induction pts with
  | nil => intro b; simp
  | cons q t ih =>
    intro b
    simp only [List.foldl_cons]
    obtain ⟨h1, ⟨h2a, h2b, h2c, h2d⟩, h3, h4, h5, h6⟩ := ih (Model.boxStep b q)
    refine ⟨?_, ?_, ?_, ?_, ?_, ?_⟩
    · intro p hp
      rcases List.mem_cons.mp hp with rfl | hp
      · exact ⟨le_trans h2a (min_le_right _ _), le_trans (le_max_right _ _) h2b,
          le_trans h2c (min_le_right _ _), le_trans (le_max_right _ _) h2d⟩
      · exact h1 p hp
    · exact ⟨le_trans h2a (min_le_left _ _), le_trans (le_max_left _ _) h2b,
          le_trans h2c (min_le_left _ _), le_trans (le_max_left _ _) h2d⟩
    · rcases h3 with h | ⟨p, hp, h⟩
      · rw [h]
        rcases min_choice b.minX (fin q.1) with e | e
        · exact Or.inl e
        · exact Or.inr ⟨q, by simp, e⟩
      · exact Or.inr ⟨p, by simp [hp], h⟩
    · rcases h4 with h | ⟨p, hp, h⟩
      · rw [h]
        rcases max_choice b.maxX (fin q.1) with e | e
        · exact Or.inl e
        · exact Or.inr ⟨q, by simp, e⟩
      · exact Or.inr ⟨p, by simp [hp], h⟩
    · rcases h5 with h | ⟨p, hp, h⟩
      · rw [h]
        rcases min_choice b.minY (fin q.2) with e | e
        · exact Or.inl e
        · exact Or.inr ⟨q, by simp, e⟩
      · exact Or.inr ⟨p, by simp [hp], h⟩
    · rcases h6 with h | ⟨p, hp, h⟩
      · rw [h]
        rcases max_choice b.maxY (fin q.2) with e | e
        · exact Or.inl e
        · exact Or.inr ⟨q, by simp, e⟩
      · exact Or.inr ⟨p, by simp [hp], h⟩

theorem box_elems (coord : Int → 𝕜 × 𝕜) (tag : Int) (es : List (Elem 𝕜)) : ∀ b : EBox 𝕜,
    es.foldl (fun b e =>
      if e.attr ≠ tag then b else e.verts.foldl (fun b v => Model.boxStep b (coord v)) b) b =
    ((es.filter (fun e => decide (e.attr = tag))).flatMap (fun e => e.verts.map coord)).foldl
      Model.boxStep b := by
  induction es with
  | nil => intro b; rfl
  | cons e t ih =>
    intro b
    rw [List.foldl_cons, ih]
    by_cases h : e.attr = tag
    · simp [h, List.foldl_append, List.foldl_map]
    · simp [h]

/-- **C18.** For a name present in the model's materials (mapped to `tag`): if some element with the tag
has a vertex, the box has finite sides, contains every vertex of every element with the tag, and each of
its four sides touches such a vertex; if there is none, it is the inverted infinite box. Unknown names
throw. -/
theorem C18_bounding_box (m : Model 𝕜) (hd : DistinctNames m.materials) (name : String) :
    ((¬ ∃ tag, (name, tag) ∈ declared m.materials) →
      m.getBoundingBoxOfMaterial name = .throw .outOfRange) ∧
    (∀ tag, (name, tag) ∈ declared m.materials → ∃ b, m.getBoundingBoxOfMaterial name = .ok b ∧
      (∀ e ∈ m.mesh.elems, e.attr = tag → ∀ v ∈ e.verts,
        b.minX ≤ fin (m.mesh.coord v).1 ∧ fin (m.mesh.coord v).1 ≤ b.maxX ∧
        b.minY ≤ fin (m.mesh.coord v).2 ∧ fin (m.mesh.coord v).2 ≤ b.maxY) ∧
      ((∃ e ∈ m.mesh.elems, e.attr = tag ∧ e.verts ≠ []) →
        (∃ e ∈ m.mesh.elems, e.attr = tag ∧ ∃ v ∈ e.verts, b.minX = fin (m.mesh.coord v).1) ∧
        (∃ e ∈ m.mesh.elems, e.attr = tag ∧ ∃ v ∈ e.verts, b.maxX = fin (m.mesh.coord v).1) ∧
        (∃ e ∈ m.mesh.elems, e.attr = tag ∧ ∃ v ∈ e.verts, b.minY = fin (m.mesh.coord v).2) ∧
        (∃ e ∈ m.mesh.elems, e.attr = tag ∧ ∃ v ∈ e.verts, b.maxY = fin (m.mesh.coord v).2)) ∧
      ((¬ ∃ e ∈ m.mesh.elems, e.attr = tag ∧ e.verts ≠ []) →
        b.minX = ((⊤ : WithTop 𝕜) : WithBot (WithTop 𝕜)) ∧
        b.minY = ((⊤ : WithTop 𝕜) : WithBot (WithTop 𝕜)) ∧ b.maxX = ⊥ ∧ b.maxY = ⊥)) := by
  refine ⟨?_, ?_⟩
  · intro hn
    unfold Model.getBoundingBoxOfMaterial
    cases h : m.materials.buildNameToAttrMap.find? name with
    | none => rfl
    | some tag => exact absurd ⟨tag, (Materials.mem_declared_of_distinct hd _ _).mp h⟩ hn
  · intro tag ht
    unfold Model.getBoundingBoxOfMaterial
    rw [(Materials.mem_declared_of_distinct hd _ _).mpr ht]
    simp only
    rw [box_elems]
    refine ⟨_, rfl, ?_⟩
    have hmem : ∀ p, p ∈ (m.mesh.elems.filter (fun e => decide (e.attr = tag))).flatMap
        (fun e => e.verts.map m.mesh.coord) ↔
        ∃ e ∈ m.mesh.elems, e.attr = tag ∧ ∃ v ∈ e.verts, m.mesh.coord v = p := by
      intro p
      simp only [List.mem_flatMap, List.mem_filter, decide_eq_true_eq, List.mem_map, and_assoc]
    obtain ⟨h1, _, h3, h4, h5, h6⟩ := box_foldl ((m.mesh.elems.filter
      (fun e => decide (e.attr = tag))).flatMap (fun e => e.verts.map m.mesh.coord))
      { minX := ((⊤ : WithTop 𝕜) : WithBot (WithTop 𝕜)), minY := ((⊤ : WithTop 𝕜) : WithBot (WithTop 𝕜)),
        maxX := ⊥, maxY := ⊥ }
    refine ⟨?_, ?_, ?_⟩
    · intro e he hea v hv
      have := h1 (m.mesh.coord v) ((hmem _).mpr ⟨e, he, hea, v, hv, rfl⟩)
      exact ⟨this.1, this.2.1, this.2.2.1, this.2.2.2⟩
    · rintro ⟨e, he, hea, hne⟩
      obtain ⟨v, hv⟩ := List.exists_mem_of_ne_nil _ hne
      have hb := h1 (m.mesh.coord v) ((hmem _).mpr ⟨e, he, hea, v, hv, rfl⟩)
      have pick : ∀ {P : 𝕜 × 𝕜 → Prop}, (∃ p ∈ (m.mesh.elems.filter
          (fun e => decide (e.attr = tag))).flatMap (fun e => e.verts.map m.mesh.coord), P p) →
          ∃ e ∈ m.mesh.elems, e.attr = tag ∧ ∃ v ∈ e.verts, P (m.mesh.coord v) := by
        rintro P ⟨p, hp, hP⟩
        obtain ⟨e, he, hea, v, hv, rfl⟩ := (hmem p).mp hp
        exact ⟨e, he, hea, v, hv, hP⟩
      refine ⟨?_, ?_, ?_, ?_⟩
      · rcases h3 with h | h
        · rw [h] at hb
          exact absurd (WithBot.coe_le_coe.mp hb.1) (not_le.mpr (WithTop.coe_lt_top _))
        · exact pick h
      · rcases h4 with h | h
        · rw [h] at hb
          exact absurd hb.2.1 (not_le.mpr (WithBot.bot_lt_coe _))
        · exact pick h
      · rcases h5 with h | h
        · rw [h] at hb
          exact absurd (WithBot.coe_le_coe.mp hb.2.2.1) (not_le.mpr (WithTop.coe_lt_top _))
        · exact pick h
      · rcases h6 with h | h
        · rw [h] at hb
          exact absurd hb.2.2.2 (not_le.mpr (WithBot.bot_lt_coe _))
        · exact pick h
    · intro hn
      have : (m.mesh.elems.filter (fun e => decide (e.attr = tag))).flatMap
          (fun e => e.verts.map m.mesh.coord) = [] := by
        rw [List.eq_nil_iff_forall_not_mem]
        intro p hp
        obtain ⟨e, he, hea, v, hv, _⟩ := (hmem p).mp hp
        exact hn ⟨e, he, hea, List.ne_nil_of_mem hv⟩
      rw [this]
      exact ⟨rfl, rfl, rfl, rfl⟩

end box

/-- **C19.** Areas: volume of exactly the elements with the tag for a dielectric, the declared area for a
conductor; names of no material, and names of open boundaries, throw. -/
theorem C19_area [Field 𝕜] (m : Model 𝕜) (hd : DistinctNames m.materials) :
    (∀ d ∈ m.materials.dielectrics, m.getAreaOfMaterial d.name =
      .ok ((m.mesh.elems.filter (fun e => decide (e.attr = d.tag))).map Elem.vol).sum) ∧
    (∀ p ∈ m.materials.pecs, m.getAreaOfMaterial p.name = .ok p.area) ∧
    (∀ name, (∀ d ∈ m.materials.dielectrics, d.name ≠ name) → (∀ p ∈ m.materials.pecs, p.name ≠ name) →
      ((∀ o ∈ m.materials.openBoundaries, o.name ≠ name) →
        m.getAreaOfMaterial name = .throw (.runtimeError "Unable to determine inner region.")) ∧
      ((∃ o ∈ m.materials.openBoundaries, o.name = name) →
        m.getAreaOfMaterial name = .throw (.runtimeError "Invalid material type"))) := by
  have hdom : ∀ name, m.materials.isDomainMaterial name = true ↔
      ∃ d ∈ m.materials.dielectrics, d.name = name := by
    intro name
    unfold Materials.isDomainMaterial Materials.buildNameToAttrMapForDielectric
    rw [SMap.contains_iff, SMap.keys_setAll_mem SMap.Sorted.nil]
    simp [SMap.keys]
  have hnd := hd
  unfold DistinctNames declared at hnd
  simp only [List.map_append, List.map_map] at hnd
  rw [List.nodup_append, List.nodup_append] at hnd
  obtain ⟨⟨n1, n2, d12⟩, n3, d123⟩ := hnd
  refine ⟨?_, ?_, ?_⟩
  · intro d hdm
    have hf : m.materials.buildNameToAttrMap.find? d.name = some d.tag := by
      rw [Materials.mem_declared_of_distinct hd]
      unfold declared
      exact List.mem_append.mpr (Or.inr (List.mem_map.mpr ⟨d, hdm, rfl⟩))
    unfold Model.getAreaOfMaterial
    simp only [hf]
    rw [if_pos ((hdom d.name).mpr ⟨d, hdm, rfl⟩)]
    congr 1
    have : ∀ (es : List (Elem 𝕜)) (a : 𝕜),
        es.foldl (fun area e => if d.tag = e.attr then area + e.vol else area) a =
          a + ((es.filter (fun e => decide (e.attr = d.tag))).map Elem.vol).sum := by
      intro es
      induction es with
      | nil => intro a; simp
      | cons e t ih =>
        intro a
        rw [List.foldl_cons, ih]
        by_cases h : e.attr = d.tag
        · simp [h, add_assoc]
        · simp [h, Ne.symm h]
    rw [this, zero_add]
  · intro p hpm
    have hf : m.materials.buildNameToAttrMap.find? p.name = some p.tag := by
      rw [Materials.mem_declared_of_distinct hd]
      unfold declared
      exact List.mem_append.mpr (Or.inl (List.mem_append.mpr (Or.inl (List.mem_map.mpr ⟨p, hpm, rfl⟩))))
    have hnotdom : ¬ m.materials.isDomainMaterial p.name = true := by
      rw [hdom]
      rintro ⟨d, hdm, e⟩
      exact d123 p.name (List.mem_append.mpr (Or.inl (List.mem_map.mpr ⟨p, hpm, rfl⟩))) d.name
        (List.mem_map.mpr ⟨d, hdm, rfl⟩) e.symm
    unfold Model.getAreaOfMaterial
    simp only [hf]
    rw [if_neg hnotdom]
    have hget : m.materials.getPEC p.name = .ok p := by
      unfold Materials.getPEC
      rw [Outcome.ofOption_eq_ok]
      cases hq : m.materials.pecs.find? (fun x => decide (x.name = p.name)) with
      | none =>
        have := List.find?_eq_none.mp hq p hpm
        simp at this
      | some q =>
        have h1 := List.mem_of_find?_eq_some hq
        have h2 := List.find?_some hq
        simp only [decide_eq_true_eq] at h2
        rw [List.inj_on_of_nodup_map n1 h1 hpm h2]
    rw [hget]
    rfl
  · intro name h1 h2
    unfold Model.getAreaOfMaterial
    cases hf : m.materials.buildNameToAttrMap.find? name with
    | none =>
      simp only [hf]
      refine ⟨fun _ => trivial, ?_⟩
      rintro ⟨o, ho, rfl⟩
      have : m.materials.buildNameToAttrMap.find? o.name = some o.tag := by
        rw [Materials.mem_declared_of_distinct hd]
        unfold declared
        exact List.mem_append.mpr (Or.inl (List.mem_append.mpr (Or.inr (List.mem_map.mpr ⟨o, ho, rfl⟩))))
      rw [hf] at this
      cases this
    | some tag =>
      simp only [hf]
      rw [if_neg (by rw [hdom]; rintro ⟨d, hdm, e⟩; exact h1 d hdm e)]
      have : m.materials.getPEC name = .throw Materials.invalidTypeErr := by
        unfold Materials.getPEC
        have : m.materials.pecs.find? (fun x => decide (x.name = name)) = none := by
          rw [List.find?_eq_none]
          intro p hp
          simpa using h2 p hp
        rw [this]; rfl
      rw [this]
      refine ⟨fun h3 => ?_, fun _ => rfl⟩
      exfalso
      rw [Materials.mem_declared_of_distinct hd] at hf
      unfold declared at hf
      simp only [List.mem_append, List.mem_map, Prod.mk.injEq] at hf
      rcases hf with (⟨p, hp, e, _⟩ | ⟨o, ho, e, _⟩) | ⟨d, hdm, e, _⟩
      · exact h2 p hp e
      · exact h3 o ho e
      · exact h1 d hdm e

/-- A two-triangle dielectric. -/
example :
    let m : Model ℚ := { mesh := { elems := [⟨7, [0, 1, 2], 1/2⟩, ⟨8, [1, 3, 2], 1/2⟩, ⟨7, [3, 4, 2], 1/4⟩],
                                   bdr := [], coord := fun v => ((v : ℚ), 0) },
                         materials := { dielectrics := [⟨"Dielectric_1", 7, 2⟩], pecs := [⟨"Conductor_0", 1, 5⟩] } }
    DistinctNames m.materials ∧ m.getAreaOfMaterial "Dielectric_1" = .ok (3/4) ∧
      m.getAreaOfMaterial "Conductor_0" = .ok 5 := by
  refine ⟨by unfold DistinctNames; decide, ?_, ?_⟩ <;> decide +kernel

end Tulip.Props
