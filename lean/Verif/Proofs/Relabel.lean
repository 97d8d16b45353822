import Verif.Spec.Renumber
import Verif.Proofs.Loops

/-!
# Cycles and loops of renamed meshes
-/

namespace Tulip
open Spec

theorem elemCycle_map {E E' : List (Int × Int)} {f : Int → Int} {c : List Int} (h : ElemCycle E c)
    (hf : ∀ x ∈ c, ∀ y ∈ c, f x = f y → x = y) (hE : ∀ e ∈ cyclicPairs c, (f e.1, f e.2) ∈ E') :
    ElemCycle E' (c.map f) where
  two_le := by rw [List.length_map]; exact h.two_le
  nodup := List.Nodup.map_on hf h.nodup
  edges := by
    intro e he
    rw [cyclicPairs_map] at he
    obtain ⟨e0, he0, rfl⟩ := List.mem_map.mp he
    exact hE e0 he0

/-- every vertex of a cycle starts an edge -/
theorem elemCycle_start {E : List (Int × Int)} {c : List Int} (h : ElemCycle E c) {x : Int} (hx : x ∈ c) :
    ∃ e ∈ E, e.1 = x := by
  obtain ⟨i, hi, rfl⟩ := List.getElem_of_mem hx
  have hi' : i < (cyclicPairs c).length := by rw [cyclicPairs_eq_zip_rotate]; simpa using hi
  exact ⟨_, h.edges _ (List.getElem_mem hi'), by simp [cyclicPairs_eq_zip_rotate]⟩

/-- The cycles of a graph with other vertex names and edges in another order: the same up to rotation. -/
theorem cycles_renamed {g g' : DGraph} (hg : g.WF) (hg' : g'.WF) (f : Int → Int)
    (hf0 : ∀ x y, (∃ e ∈ g.getEdgesAsPairs, x = e.1 ∨ x = e.2) → (∃ e ∈ g.getEdgesAsPairs, y = e.1 ∨ y = e.2) →
      f x = f y → x = y)
    (hE : ∀ e, e ∈ g'.getEdgesAsPairs ↔ ∃ e0 ∈ g.getEdgesAsPairs, e = (f e0.1, f e0.2))
    {cs cs' : List (List Int)} (hcs : g.findCycles = some cs) (hcs' : g'.findCycles = some cs') :
    (cs'.map (fun c : List Int => (c : Cycle Int))).Perm (cs.map (fun c : List Int => (c.map f : Cycle Int))) := by
  obtain ⟨_, e, nd, m⟩ := hg.findCycles_spec
  obtain ⟨_, e', nd', m'⟩ := hg'.findCycles_spec
  rw [hcs] at e; rw [hcs'] at e'
  obtain rfl := Option.some.inj e
  obtain rfl := Option.some.inj e'
  have hf : ∀ e ∈ g.getEdgesAsPairs, ∀ e' ∈ g.getEdgesAsPairs, f e.1 = f e'.1 → e.1 = e'.1 :=
    fun e he e' he' h => hf0 _ _ ⟨e, he, .inl rfl⟩ ⟨e', he', .inl rfl⟩ h
  have fwd : ∀ c, ElemCycle g.getEdgesAsPairs c → ElemCycle g'.getEdgesAsPairs (c.map f) := by
    intro c hc
    refine elemCycle_map hc ?_ fun e he => (hE _).mpr ⟨e, hc.edges e he, rfl⟩
    intro x hx y hy h
    obtain ⟨a, ha, rfl⟩ := elemCycle_start hc hx
    obtain ⟨b, hb, rfl⟩ := elemCycle_start hc hy
    exact hf a ha b hb h
  classical
  let τ : Int → Int := fun y => if h : ∃ e ∈ g.getEdgesAsPairs, f e.1 = y then h.choose.1 else 0
  have hτ : ∀ e ∈ g.getEdgesAsPairs, τ (f e.1) = e.1 := by
    intro e he
    have hx : ∃ e' ∈ g.getEdgesAsPairs, f e'.1 = f e.1 := ⟨e, he, rfl⟩
    show (if h : _ then _ else _) = _
    rw [dif_pos hx]
    exact hf _ hx.choose_spec.1 e he hx.choose_spec.2
  have back : ∀ c, ElemCycle g.getEdgesAsPairs c → (c.map f).map τ = c := by
    intro c hc
    rw [List.map_map]
    conv_rhs => rw [← List.map_id c]
    refine List.map_congr_left fun x hx => ?_
    obtain ⟨a, ha, rfl⟩ := elemCycle_start hc hx
    exact hτ a ha
  have nd1 : (cs'.map (fun c : List Int => (c : Cycle Int))).Nodup := by
    refine List.Nodup.map_on ?_ nd'
    intro c hc d hd h
    have h : c ~r d := Cycle.coe_eq_coe.mp h
    obtain ⟨w, _, hw⟩ := hg'.findCycles_unique hcs' ((m' d).mp hd).1
    rw [hw c ⟨hc, h⟩, hw d ⟨hd, List.IsRotated.refl _⟩]
  have nd2 : (cs.map (fun c : List Int => (c.map f : Cycle Int))).Nodup := by
    refine List.Nodup.map_on ?_ nd
    intro c hc d hd h
    obtain ⟨k, h⟩ : c.map f ~r d.map f := Cycle.coe_eq_coe.mp h
    have h : c ~r d := by
      refine ⟨k, ?_⟩
      rw [← back c ((m c).mp hc).1, ← back d ((m d).mp hd).1, ← h, ← List.map_rotate]
    obtain ⟨w, _, hw⟩ := hg.findCycles_unique hcs ((m d).mp hd).1
    rw [hw c ⟨hc, h⟩, hw d ⟨hd, List.IsRotated.refl _⟩]
  rw [List.perm_ext_iff_of_nodup nd1 nd2]
  intro z
  constructor
  · intro hz
    obtain ⟨c', hc', rfl⟩ := List.mem_map.mp hz
    have hE' := ((m' c').mp hc').1
    have hfix : (c'.map τ).map f = c' := by
      rw [List.map_map]
      conv_rhs => rw [← List.map_id c']
      refine List.map_congr_left fun x hx => ?_
      obtain ⟨a, ha, rfl⟩ := elemCycle_start hE' hx
      obtain ⟨a0, h0, rfl⟩ := (hE a).mp ha
      show f (τ (f a0.1)) = f a0.1
      rw [hτ a0 h0]
    have hc : ElemCycle g.getEdgesAsPairs (c'.map τ) := by
      refine elemCycle_map hE' ?_ ?_
      · intro x hx y hy h
        obtain ⟨a, ha, rfl⟩ := elemCycle_start hE' hx
        obtain ⟨b, hb, rfl⟩ := elemCycle_start hE' hy
        obtain ⟨a0, h0, rfl⟩ := (hE a).mp ha
        obtain ⟨b0, h1, rfl⟩ := (hE b).mp hb
        rw [hτ a0 h0, hτ b0 h1] at h
        exact congrArg f h
      · intro e he
        obtain ⟨e0, h0, rfl⟩ := (hE e).mp (hE'.edges e he)
        obtain ⟨b, hb, hb2⟩ := elemCycle_start hE' (mem_of_mem_cyclicPairs he).2
        obtain ⟨b0, h1, rfl⟩ := (hE b).mp hb
        have h1' : f b0.1 = f e0.2 := hb2
        rw [hτ e0 h0, ← h1', hτ b0 h1]
        rw [hf0 b0.1 e0.2 ⟨b0, h1, .inl rfl⟩ ⟨e0, h0, .inr rfl⟩ h1']
        exact h0
    obtain ⟨d, ⟨hd, hr⟩, _⟩ := hg.findCycles_unique hcs hc
    refine List.mem_map.mpr ⟨d, hd, Cycle.coe_eq_coe.mpr ?_⟩
    rw [← hfix]
    exact hr.map f
  · intro hz
    obtain ⟨c, hc, rfl⟩ := List.mem_map.mp hz
    obtain ⟨d, ⟨hd, hr⟩, _⟩ := hg'.findCycles_unique hcs' (fwd c ((m c).mp hc).1)
    exact List.mem_map.mpr ⟨d, hd, Cycle.coe_eq_coe.mpr hr⟩

/-- As many entries. -/
theorem cycles_renamed_length {g g' : DGraph} (hg : g.WF) (hg' : g'.WF) (f : Int → Int)
    (hf : ∀ x y, (∃ e ∈ g.getEdgesAsPairs, x = e.1 ∨ x = e.2) → (∃ e ∈ g.getEdgesAsPairs, y = e.1 ∨ y = e.2) →
      f x = f y → x = y)
    (hE : ∀ e, e ∈ g'.getEdgesAsPairs ↔ ∃ e0 ∈ g.getEdgesAsPairs, e = (f e0.1, f e0.2))
    {cs cs' : List (List Int)} (hcs : g.findCycles = some cs) (hcs' : g'.findCycles = some cs') :
    cs'.flatten.length = cs.flatten.length := by
  have h := ((cycles_renamed hg hg' f hf hE hcs hcs').map Cycle.length).sum_eq
  rw [List.map_map, List.map_map] at h
  have e1 : (Cycle.length ∘ fun c : List Int => (c : Cycle Int)) = List.length := by
    funext c; exact Cycle.length_coe c
  have e2 : (Cycle.length ∘ fun c : List Int => (c.map f : Cycle Int)) = List.length := by
    funext c; exact (Cycle.length_coe _).trans (List.length_map ..)
  rw [e1, e2] at h
  rw [List.length_flatten, List.length_flatten, h]

variable {𝕜 : Type}

/-- A segment with equal ends makes the construction of the graph throw. -/
theorem closedLoopsBuild_degenerate : ∀ (es : List (Elem 𝕜)) (g : DGraph) (m : SMap Int (Elem 𝕜)),
    (∀ e ∈ es, ∃ a b, e.verts = [a, b]) → (∃ e ∈ es, ∃ a, e.verts = [a, a]) →
    closedLoopsBuild es g m = .throw DGraph.selfLoopErr
  | [], _, _, _, h => by obtain ⟨e, he, _⟩ := h; cases he
  | e :: es, g, m, h2, h => by
    obtain ⟨a, b, hv⟩ := h2 e List.mem_cons_self
    rw [closedLoopsBuild, hv]
    simp only
    by_cases hab : a = b
    · subst hab
      rw [show g.addEdge a a = (g, some DGraph.selfLoopErr) from if_pos rfl]
    · obtain ⟨x, hx⟩ : ∃ x, g.addEdge a b = (x, none) := ⟨_, if_neg hab⟩
      rw [hx]
      refine closedLoopsBuild_degenerate es _ _ (fun e he => h2 e (List.mem_cons_of_mem _ he)) ?_
      obtain ⟨e', he', c, hc⟩ := h
      rcases List.mem_cons.mp he' with rfl | he'
      · rw [hv] at hc
        simp only [List.cons.injEq, and_true] at hc
        exact absurd (hc.1.trans hc.2.symm) hab
      · exact ⟨e', he', c, hc⟩

/-- Segments with two vertices each, in another order and with other names: closed or not as before. -/
theorem elementsFormOpenLoops_renamed (f : Int → Int) {es es' : List (Elem 𝕜)}
    (h2 : ∀ e ∈ es, e.verts.length = 2)
    (hf : ∀ v w, (∃ e ∈ es, v ∈ e.verts) → (∃ e ∈ es, w ∈ e.verts) → f v = f w → v = w)
    (hp : es'.Perm (es.map (fun e => { e with verts := e.verts.map f }))) :
    elementsFormOpenLoops es' = elementsFormOpenLoops es := by
  have h2 : ∀ e ∈ es, ∃ a b, e.verts = [a, b] := fun e he => List.length_eq_two.mp (h2 e he)
  have h2' : ∀ e ∈ es', ∃ a b, e.verts = [a, b] := by
    intro e he
    obtain ⟨e0, he0, rfl⟩ := List.mem_map.mp (hp.mem_iff.mp he)
    obtain ⟨a, b, hv⟩ := h2 e0 he0
    exact ⟨f a, f b, by simp [hv]⟩
  unfold elementsFormOpenLoops
  by_cases hd : ∃ e ∈ es, ∃ a, e.verts = [a, a]
  · have hd' : ∃ e ∈ es', ∃ a, e.verts = [a, a] := by
      obtain ⟨e, he, a, hv⟩ := hd
      exact ⟨_, hp.mem_iff.mpr (List.mem_map.mpr ⟨e, he, rfl⟩), f a, by simp [hv]⟩
    unfold determineClosedLoops
    rw [closedLoopsBuild_degenerate es _ _ h2 hd, closedLoopsBuild_degenerate es' _ _ h2' hd']
    rfl
  · have hp1 : ProperSegments es := by
      intro e he
      obtain ⟨a, b, hv⟩ := h2 e he
      exact ⟨a, b, hv, fun h => hd ⟨e, he, a, by rw [hv, h]⟩⟩
    have hp2 : ProperSegments es' := by
      intro e he
      obtain ⟨e0, he0, rfl⟩ := List.mem_map.mp (hp.mem_iff.mp he)
      obtain ⟨a, b, hv, hab⟩ := hp1 e0 he0
      exact ⟨f a, f b, by simp [hv], fun h => hab (hf a b ⟨e0, he0, by simp [hv]⟩ ⟨e0, he0, by simp [hv]⟩ h)⟩
    obtain ⟨g, hg, hE, cs, hcs, ls, hl, hn⟩ := determineClosedLoops_spec es hp1
    obtain ⟨g', hg', hE', cs', hcs', ls', hl', hn'⟩ := determineClosedLoops_spec es' hp2
    have ends_mem : ∀ e ∈ es, (ends e).1 ∈ e.verts ∧ (ends e).2 ∈ e.verts := by
      intro e he
      obtain ⟨a, b, hv⟩ := h2 e he
      simp [ends, hv]
    have key : cs'.flatten.length = cs.flatten.length := by
      refine cycles_renamed_length hg hg' f ?_ ?_ hcs hcs'
      · rw [hE]
        have : ∀ x, (∃ e ∈ es.map ends, x = e.1 ∨ x = e.2) → ∃ e ∈ es, x ∈ e.verts := by
          rintro x ⟨_, he', hx⟩
          obtain ⟨e, he, rfl⟩ := List.mem_map.mp he'
          rcases hx with rfl | rfl
          · exact ⟨e, he, (ends_mem e he).1⟩
          · exact ⟨e, he, (ends_mem e he).2⟩
        exact fun x y hx hy => hf x y (this x hx) (this y hy)
      · intro e
        rw [hE, hE', List.mem_map]
        constructor
        · rintro ⟨e', he', rfl⟩
          obtain ⟨e0, he0, rfl⟩ := List.mem_map.mp (hp.mem_iff.mp he')
          obtain ⟨a, b, hv⟩ := h2 e0 he0
          exact ⟨ends e0, List.mem_map_of_mem he0, by simp [ends, hv]⟩
        · rintro ⟨_, he1, rfl⟩
          obtain ⟨e0, he0, rfl⟩ := List.mem_map.mp he1
          obtain ⟨a, b, hv⟩ := h2 e0 he0
          exact ⟨_, hp.mem_iff.mpr (List.mem_map.mpr ⟨e0, he0, rfl⟩), by simp [ends, hv]⟩
    rw [hl, hl']
    show Outcome.ok _ = Outcome.ok _
    rw [hn, hn', key, hp.length_eq, List.length_map]

theorem getElementsWithAttribute_renamed {f : Int → Int} {m m' : Mesh 𝕜}
    (hp : m'.bdr.Perm (m.bdr.map (fun e => { e with verts := e.verts.map f }))) (a : Int) :
    (getElementsWithAttribute m' a).Perm
      ((getElementsWithAttribute m a).map (fun e => { e with verts := e.verts.map f })) := by
  unfold getElementsWithAttribute
  refine (hp.filter _).trans (List.Perm.of_eq ?_)
  rw [List.filter_map]
  rfl

theorem determineOpenness_renamed {f : Int → Int} {model model' : Model 𝕜} (h : RenamedMesh f model.mesh model'.mesh)
    (h2 : ∀ e ∈ model.mesh.bdr, e.verts.length = 2)
    (ho : model'.materials.openBoundaries = model.materials.openBoundaries) :
    model'.determineOpenness = model.determineOpenness := by
  have loop : ∀ os, Model.opennessLoop model'.mesh os = Model.opennessLoop model.mesh os := by
    intro os
    induction os with
    | nil => rfl
    | cons o os ih =>
      have mem : ∀ v, (∃ e ∈ getElementsWithAttribute model.mesh o.tag, v ∈ e.verts) → IsMeshVertex model.mesh v := by
        rintro v ⟨e, he, hv⟩
        exact ⟨e, List.mem_append_right _ (List.mem_filter.mp he).1, hv⟩
      have k := elementsFormOpenLoops_renamed f (fun e he => h2 e (List.mem_filter.mp he).1)
        (fun v w hv hw => h.different v w (mem v hv) (mem w hw)) (getElementsWithAttribute_renamed h.bdr o.tag)
      rw [Model.opennessLoop, Model.opennessLoop, ih, k]
      rfl
  unfold Model.determineOpenness
  rw [ho, loop]

theorem getAreaOfMaterial_renamed [Field 𝕜] {f : Int → Int} {model model' : Model 𝕜}
    (h : RenamedMesh f model.mesh model'.mesh) (hm : model'.materials = model.materials) (name : String) :
    model'.getAreaOfMaterial name = model.getAreaOfMaterial name := by
  unfold Model.getAreaOfMaterial
  rw [hm]
  simp only
  split
  · rfl
  · rename_i tag _
    split
    · have e : ∀ l : List (Elem 𝕜), l.foldl (fun area e => if tag = e.attr then area + e.vol else area) 0 =
          (l.map (fun e => (e.attr, e.vol))).foldl (fun area e => if tag = e.1 then area + e.2 else area) 0 := by
        intro l
        rw [List.foldl_map]
      rw [e, e]
      have hp := h.elems.map (fun x => (x.1, x.2.2))
      rw [List.map_map, List.map_map] at hp
      congr 1
      refine List.Perm.foldl_eq' hp ?_ _
      intro x _ y _ z
      split <;> split <;> ring
    · rfl

theorem boxStep_comm [LinearOrder 𝕜] (b : EBox 𝕜) (p q : 𝕜 × 𝕜) :
    Model.boxStep (Model.boxStep b p) q = Model.boxStep (Model.boxStep b q) p := by
  simp only [Model.boxStep, EBox.mk.injEq]
  exact ⟨min_right_comm .., min_right_comm .., max_right_comm .., max_right_comm ..⟩

theorem boxFold_comm [LinearOrder 𝕜] (l m : List (𝕜 × 𝕜)) (b : EBox 𝕜) :
    m.foldl Model.boxStep (l.foldl Model.boxStep b) = l.foldl Model.boxStep (m.foldl Model.boxStep b) := by
  rw [← List.foldl_append, ← List.foldl_append]
  exact List.Perm.foldl_eq' List.perm_append_comm (fun x _ y _ z => boxStep_comm z x y) _

theorem getBoundingBoxOfMaterial_renamed [LinearOrder 𝕜] {f : Int → Int} {model model' : Model 𝕜}
    (h : RenamedMesh f model.mesh model'.mesh) (hm : model'.materials = model.materials) (name : String) :
    model'.getBoundingBoxOfMaterial name = model.getBoundingBoxOfMaterial name := by
  unfold Model.getBoundingBoxOfMaterial
  rw [hm]
  split
  · rfl
  · rename_i tag _
    congr 1
    haveI : RightCommutative (Model.boxStep (𝕜 := 𝕜)) := ⟨boxStep_comm⟩
    -- the step as a function of the attribute and the coordinates of the vertices
    have e : ∀ (l : List (Elem 𝕜)) (c : Int → 𝕜 × 𝕜) (b : EBox 𝕜),
        l.foldl (fun b e => if e.attr ≠ tag then b else e.verts.foldl (fun b v => Model.boxStep b (c v)) b) b =
          (l.map (fun e => (e.attr, ((e.verts.map c : List (𝕜 × 𝕜)) : Multiset (𝕜 × 𝕜))))).foldl
            (fun b x => if x.1 ≠ tag then b else x.2.foldl Model.boxStep b) b := by
      intro l c b
      rw [List.foldl_map]
      simp only [Multiset.coe_foldl, List.foldl_map]
    rw [e, e]
    have hp : (model'.mesh.elems.map (fun e => (e.attr, ((e.verts.map model'.mesh.coord : List (𝕜 × 𝕜)) : Multiset (𝕜 × 𝕜))))).Perm
        (model.mesh.elems.map (fun e => (e.attr, ((e.verts.map model.mesh.coord : List (𝕜 × 𝕜)) : Multiset (𝕜 × 𝕜))))) := by
      have := h.elems.map (fun x => (x.1, (x.2.1.toMultiset.map model'.mesh.coord)))
      rw [List.map_map, List.map_map] at this
      refine (List.Perm.of_eq ?_).trans (this.trans (List.Perm.of_eq ?_))
      · exact List.map_congr_left fun e _ => by simp
      · refine List.map_congr_left fun e he => ?_
        simp only [Function.comp_apply, Prod.mk.injEq, true_and]
        rw [Cycle.coe_toMultiset, Multiset.map_coe, List.map_map]
        congr 1
        exact List.map_congr_left fun v hv => h.coord v ⟨e, List.mem_append_left _ he, hv⟩
    refine List.Perm.foldl_eq' hp ?_ _
    intro x _ y _ z
    split <;> split <;> try rfl
    refine Quotient.inductionOn₂ x.2 y.2 fun l m => ?_
    exact boxFold_comm l m z

end Tulip
