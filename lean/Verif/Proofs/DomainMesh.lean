import Verif.Spec.Domain
import Verif.Props.Split
import Verif.Proofs.Cycles

/-! # Mesh graph, components and domains (before the grounds are set) -/

namespace Tulip
open Spec DGraph
variable {𝕜 : Type _}

/-- The history of calls `buildMeshGraph` makes. -/
def meshOps (es : List (Elem 𝕜)) : List GraphOp := es.map (fun e => .addClosedPath e.verts)

theorem addClosedPath_good {g : DGraph} (hg : g.WF) {vs : List Int} :
    (g.addClosedPath vs).2 = none ↔ GoodPath vs := by
  rw [(addClosedPath_spec hg vs).2.2.2]
  unfold GoodPath
  split
  · rename_i h; simp [h]
  · rename_i h
    split
    · rename_i h2; simp only [true_iff]; exact ⟨h, h2⟩
    · rename_i h2; exact ⟨fun h => (by cases h), fun h => absurd h.2 h2⟩

theorem buildMeshGraphLoop_spec (es : List (Elem 𝕜)) : ∀ {g : DGraph}, g.WF →
    ((∀ e ∈ es, GoodPath e.verts) →
      buildMeshGraphLoop es g = .ok ((meshOps es).foldl DGraph.apply g)) ∧
    ((¬ ∀ e ∈ es, GoodPath e.verts) → ∃ err, buildMeshGraphLoop es g = .throw err) := by
  induction es with
  | nil => intro g _; simp [buildMeshGraphLoop, meshOps]
  | cons e t ih =>
    intro g hg
    have hw := (addClosedPath_spec hg e.verts).1
    by_cases he : GoodPath e.verts
    · have h2 := (addClosedPath_good hg).mpr he
      have hb : buildMeshGraphLoop (e :: t) g = buildMeshGraphLoop t (g.addClosedPath e.verts).1 := by
        rw [buildMeshGraphLoop]
        generalize hr : g.addClosedPath e.verts = r at h2
        obtain ⟨g', o⟩ := r
        simp only at h2; subst h2; rfl
      rw [hb]
      obtain ⟨a, b⟩ := ih hw
      refine ⟨fun h => ?_, fun h => ?_⟩
      · rw [a (fun x hx => h x (List.mem_cons_of_mem _ hx))]; rfl
      · apply b
        intro hall; apply h
        intro x hx
        rcases List.mem_cons.mp hx with rfl | hx
        · exact he
        · exact hall x hx
    · refine ⟨fun h => absurd (h e (by simp)) he, fun _ => ?_⟩
      have h2 : (g.addClosedPath e.verts).2 ≠ none := fun h => he ((addClosedPath_good hg).mp h)
      rw [buildMeshGraphLoop]
      generalize g.addClosedPath e.verts = r at h2
      obtain ⟨g', o⟩ := r
      cases o with
      | none => exact absurd rfl h2
      | some err => exact ⟨err, rfl⟩

theorem buildMeshGraph_spec (mesh : Mesh 𝕜) :
    ((∀ e ∈ mesh.elems, GoodPath e.verts) →
      buildMeshGraph mesh = .ok (DGraph.run (meshOps mesh.elems))) ∧
    ((¬ ∀ e ∈ mesh.elems, GoodPath e.verts) → ∃ err, buildMeshGraph mesh = .throw err) :=
  buildMeshGraphLoop_spec mesh.elems wf_empty

theorem acceptedEdges_good {vs : List Int} (hg : GoodPath vs) :
    acceptedEdges (.addClosedPath vs) = cyclicPairs vs := by
  simp only [acceptedEdges, if_neg hg.1]
  exact List.takeWhile_eq_self_iff.mpr (fun e he => by simpa using hg.2 e he)

theorem exists_cyclicPair_of_mem {vs : List Int} {x : Int} (h : x ∈ vs) :
    ∃ e ∈ cyclicPairs vs, e.1 = x := by
  obtain ⟨i, hi, rfl⟩ := List.mem_iff_getElem.mp h
  have hl := cyclicPairs_length vs
  refine ⟨(cyclicPairs vs)[i]'(by omega), List.getElem_mem _, ?_⟩
  unfold cyclicPairs
  rw [List.getElem_zip]

theorem meshGraph_mem {es : List (Elem 𝕜)} (hg : GoodElems es) (x : Int) :
    x ∈ (DGraph.run (meshOps es)).getVertices ↔ ∃ e ∈ es, x ∈ e.verts := by
  rw [mem_getVertices, run_mem_verts]
  simp only [meshOps, List.mem_flatMap, List.mem_map]
  constructor
  · rintro ⟨op, ⟨e, he, rfl⟩, hx⟩
    refine ⟨e, he, ?_⟩
    simp only [acceptedIds, acceptedEdges_good (hg e he).2, List.mem_flatMap] at hx
    obtain ⟨p, hp, hx⟩ := hx
    have := mem_of_mem_cyclicPairs hp
    simp at hx
    rcases hx with rfl | rfl
    · exact this.1
    · exact this.2
  · rintro ⟨e, he, hx⟩
    refine ⟨_, ⟨e, he, rfl⟩, ?_⟩
    simp only [acceptedIds, acceptedEdges_good (hg e he).2, List.mem_flatMap]
    obtain ⟨p, hp, rfl⟩ := exists_cyclicPair_of_mem hx
    exact ⟨p, hp, by simp⟩

theorem meshGraph_pairs {es : List (Elem 𝕜)} (hg : GoodElems es) (p : Int × Int) :
    p ∈ (DGraph.run (meshOps es)).getEdgesAsPairs ↔ ∃ e ∈ es, p ∈ cyclicPairs e.verts := by
  rw [run_pairs]
  simp only [meshOps, List.mem_flatMap, List.mem_map]
  constructor
  · rintro ⟨op, ⟨e, he, rfl⟩, hx⟩
    exact ⟨e, he, by rwa [acceptedEdges_good (hg e he).2] at hx⟩
  · rintro ⟨e, he, hx⟩
    exact ⟨_, ⟨e, he, rfl⟩, by rwa [acceptedEdges_good (hg e he).2]⟩

theorem connected_chain {E : List (Int × Int)} : ∀ (t : List Int) (a : Int) (z : List Int),
    (∀ p ∈ (a :: t).zip (t ++ z), p ∈ E) → ∀ x ∈ t, Connected E a x := by
  intro t
  induction t with
  | nil => intro a z _ x hx; simp at hx
  | cons b t ih =>
    intro a z h x hx
    have hab : Connected E a b := Relation.ReflTransGen.single (Or.inl (h (a, b) (by simp)))
    rcases List.mem_cons.mp hx with rfl | hx
    · exact hab
    · exact hab.trans (ih b z (fun p hp => h p (by
        rw [List.cons_append, List.zip_cons_cons]
        exact List.mem_cons_of_mem _ hp)) x hx)

theorem connected_symm {E : List (Int × Int)} {a b : Int} (h : Connected E a b) : Connected E b a := by
  induction h with
  | refl => exact .refl
  | tail _ h2 ih => exact Relation.ReflTransGen.head (h2.symm) ih

theorem connected_of_mem {E : List (Int × Int)} {vs : List Int} (h : ∀ p ∈ cyclicPairs vs, p ∈ E)
    {x y : Int} (hx : x ∈ vs) (hy : y ∈ vs) : Connected E x y := by
  cases vs with
  | nil => simp at hx
  | cons a t =>
    have key : ∀ z ∈ a :: t, Connected E a z := by
      intro z hz
      rcases List.mem_cons.mp hz with rfl | hz
      · exact .refl
      · exact connected_chain t a [a] (by simpa [cyclicPairs] using h) z hz
    exact (connected_symm (key x hx)).trans (key y hy)

/-- Connectedness in the mesh graph of vertices of elements `i`, `j` is the chain relation. -/
theorem connected_iff_chain {es : List (Elem 𝕜)} (hg : GoodElems es) {i j : Nat} {e f : Elem 𝕜}
    (hi : es[i]? = some e) (hj : es[j]? = some f) {x y : Int} (hx : x ∈ e.verts) (hy : y ∈ f.verts) :
    Connected (DGraph.run (meshOps es)).getEdgesAsPairs x y ↔ ElemChain es i j := by
  set E := (DGraph.run (meshOps es)).getEdgesAsPairs with hE
  have hsub : ∀ e ∈ es, ∀ p ∈ cyclicPairs e.verts, p ∈ E :=
    fun e he p hp => (meshGraph_pairs hg p).mpr ⟨e, he, hp⟩
  constructor
  · intro h
    induction h generalizing j f with
    | refl => exact Relation.ReflTransGen.single ⟨e, f, x, hi, hj, hx, hy⟩
    | tail h1 h2 ih =>
      rename_i b c
      have : ∃ e' ∈ es, b ∈ e'.verts ∧ c ∈ e'.verts := by
        rcases h2 with h2 | h2
        · obtain ⟨e', he', hp⟩ := (meshGraph_pairs hg _).mp h2
          exact ⟨e', he', mem_of_mem_cyclicPairs hp⟩
        · obtain ⟨e', he', hp⟩ := (meshGraph_pairs hg _).mp h2
          exact ⟨e', he', (mem_of_mem_cyclicPairs hp).symm⟩
      obtain ⟨e', he', hb, hc⟩ := this
      obtain ⟨k, hk⟩ := List.getElem?_of_mem he'
      exact (ih hk hb).tail ⟨e', f, c, hk, hj, hc, hy⟩
  · intro h
    induction h generalizing f y with
    | refl =>
      rw [hi] at hj; cases hj
      exact connected_of_mem (hsub e (List.mem_of_getElem? hi)) hx hy
    | tail h1 h2 ih =>
      obtain ⟨e', f', v, h3, h4, h5, h6⟩ := h2
      rw [hj] at h4; cases h4
      exact (ih h3 h5).trans (connected_of_mem (hsub f (List.mem_of_getElem? hj)) h6 hy)

/-! ## One domain -/

theorem foldl_insert_filter {α : Type _} (P : α → Bool) (l : List (α × Nat)) (s : SSet Nat) :
    l.foldl (fun res p => if P p.1 then SSet.insert res p.2 else res) s =
      SSet.insertAll s ((l.filter (fun p => P p.1)).map Prod.snd) := by
  induction l generalizing s with
  | nil => simp [SSet.insertAll]
  | cons a t ih =>
    rw [List.foldl_cons, ih, List.filter_cons]
    by_cases h : P a.1 <;> simp [h, SSet.insertAll]

theorem mem_domainElems (mesh : Mesh 𝕜) (vs : SSet Int) (i : Nat) :
    i ∈ domainElems mesh vs ↔ ∃ e, mesh.elems[i]? = some e ∧ ∀ v ∈ e.verts, v ∈ vs := by
  unfold domainElems
  rw [foldl_insert_filter (fun e : Elem 𝕜 => e.verts.all (fun i => vs.contains i))]
  rw [SSet.mem_insertAll]
  simp only [List.mem_map, List.mem_filter, List.mem_zipIdx_iff_getElem?]
  constructor
  · rintro (h | ⟨⟨e, k⟩, ⟨h1, h2⟩, rfl⟩)
    · simp at h
    · exact ⟨e, h1, by simpa using h2⟩
  · rintro ⟨e, h1, h2⟩
    exact Or.inr ⟨(e, i), ⟨h1, by simpa using h2⟩, rfl⟩

theorem sorted_domainElems (mesh : Mesh 𝕜) (vs : SSet Int) : SSet.Sorted (domainElems mesh vs) := by
  unfold domainElems
  rw [foldl_insert_filter (fun e : Elem 𝕜 => e.verts.all (fun i => vs.contains i))]
  exact SSet.sorted_nil.insertAll _

theorem two_le_iff {l : List Int} (hn : l.Nodup) : 2 ≤ l.length ↔ ∃ x y, x ≠ y ∧ x ∈ l ∧ y ∈ l := by
  constructor
  · intro h
    match l, h with
    | a :: b :: t, _ =>
      refine ⟨a, b, ?_, by simp, by simp⟩
      rintro rfl; simp at hn
  · rintro ⟨x, y, hxy, hx, hy⟩
    match l with
    | [] => simp at hx
    | [a] => simp at hx hy; exact absurd (hx.trans hy.symm) hxy
    | a :: b :: t => simp

theorem mem_setIntersection {s t : SSet Int} {x : Int} : x ∈ setIntersection s t ↔ x ∈ s ∧ x ∈ t := by
  simp [setIntersection]

theorem sorted_setIntersection {s t : SSet Int} (hs : SSet.Sorted s) :
    SSet.Sorted (setIntersection s t) := hs.filter _

theorem mem_bdrElems (tag : Int) {vs : SSet Int} (hs : SSet.Sorted vs) (mesh : Mesh 𝕜) (i : Nat) :
    i ∈ getBdrElemsInDomain tag vs mesh ↔
      ∃ b, mesh.bdr[i]? = some b ∧ b.attr = tag ∧ TwoVertices b (· ∈ vs) := by
  unfold getBdrElemsInDomain
  have : (fun (res : SSet Nat) (p : Elem 𝕜 × Nat) => if p.1.attr ≠ tag then res
      else if (setIntersection vs (SSet.ofList p.1.verts)).length < 2 then res
      else SSet.insert res p.2) =
      (fun res p => if (fun e : Elem 𝕜 => decide (e.attr = tag) &&
        decide (2 ≤ (setIntersection vs (SSet.ofList e.verts)).length)) p.1
        then SSet.insert res p.2 else res) := by
    funext res p
    by_cases h1 : p.1.attr = tag
    · by_cases h2 : (setIntersection vs (SSet.ofList p.1.verts)).length < 2
      · simp [h1, h2]
      · simp [h1, h2, not_lt.mp h2]
    · simp [h1]
  rw [this, foldl_insert_filter (fun e : Elem 𝕜 => decide (e.attr = tag) &&
        decide (2 ≤ (setIntersection vs (SSet.ofList e.verts)).length)), SSet.mem_insertAll]
  simp only [List.mem_map, List.mem_filter, List.mem_zipIdx_iff_getElem?, Bool.and_eq_true,
    decide_eq_true_eq, two_le_iff (sorted_setIntersection hs).nodup, mem_setIntersection,
    SSet.mem_ofList]
  constructor
  · rintro (h | ⟨⟨e, k⟩, ⟨h1, h2, x, y, h3, h4, h5⟩, rfl⟩)
    · simp at h
    · exact ⟨e, h1, h2, x, y, h3, h4.2, h5.2, h4.1, h5.1⟩
  · rintro ⟨e, h1, h2, x, y, h3, h4, h5, h6, h7⟩
    exact Or.inr ⟨(e, i), ⟨h1, h2, x, y, h3, ⟨h6, h4⟩, ⟨h7, h5⟩⟩, rfl⟩

/-- What `buildDomains` computes for one component with vertex set `vs` before grounds are set. -/
structure DomainOf (m : Model 𝕜) (vs : SSet Int) (d : Domain) : Prop where
  ground : d.ground = -1
  elems : ∀ i, i ∈ d.elems ↔ ∃ e, m.mesh.elems[i]? = some e ∧ ∀ v ∈ e.verts, v ∈ vs
  conds : ∀ c, c ∈ d.conductorIds ↔ Touches m c (· ∈ vs)
  bdr : ∀ i, i ∈ d.bdrElems ↔ ∃ b, m.mesh.bdr[i]? = some b ∧ TwoVertices b (· ∈ vs) ∧
    ∃ pec ∈ m.materials.pecs, pec.tag = b.attr
  sorted : SSet.Sorted d.conductorIds

theorem domainConductorsLoop_spec (m : Model 𝕜) {vs : SSet Int} (hs : SSet.Sorted vs) :
    ∀ (ps : List (PEC 𝕜)) (d d' : Domain), SSet.Sorted d.conductorIds →
    domainConductorsLoop m.mesh vs ps d = .ok d' →
    d'.ground = d.ground ∧ d'.elems = d.elems ∧ SSet.Sorted d'.conductorIds ∧
    (∀ c, c ∈ d'.conductorIds ↔ c ∈ d.conductorIds ∨
      ∃ pec ∈ ps, getMaterialIdFromName pec.name = .ok c ∧
        ∃ b ∈ m.mesh.bdr, b.attr = pec.tag ∧ TwoVertices b (· ∈ vs)) ∧
    (∀ i, i ∈ d'.bdrElems ↔ i ∈ d.bdrElems ∨
      ∃ b, m.mesh.bdr[i]? = some b ∧ TwoVertices b (· ∈ vs) ∧ ∃ pec ∈ ps, pec.tag = b.attr) := by
  intro ps
  induction ps with
  | nil => intro d d' hd h; simp [domainConductorsLoop] at h; subst h; simp [hd]
  | cons p t ih =>
    intro d d' hd h
    rw [domainConductorsLoop] at h
    by_cases he : (getBdrElemsInDomain p.tag vs m.mesh).isEmpty = true
    · rw [if_pos he] at h
      have hno : ∀ (i : Nat) (b : Elem 𝕜), m.mesh.bdr[i]? = some b → b.attr = p.tag → ¬ TwoVertices b (· ∈ vs) := by
        intro i b h1 h2 h3
        have := (mem_bdrElems p.tag hs m.mesh i).mpr ⟨b, h1, h2, h3⟩
        rw [List.isEmpty_iff.mp he] at this; simp at this
      obtain ⟨a1, a2, a3, a4, a5⟩ := ih d d' hd h
      refine ⟨a1, a2, a3, ?_, ?_⟩
      · intro c
        rw [a4]
        constructor
        · rintro (h | ⟨q, hq, h⟩)
          · exact Or.inl h
          · exact Or.inr ⟨q, List.mem_cons_of_mem _ hq, h⟩
        · rintro (h | ⟨q, hq, h1, b, hb, h2, h3⟩)
          · exact Or.inl h
          · rcases List.mem_cons.mp hq with rfl | hq
            · obtain ⟨i, hi⟩ := List.getElem?_of_mem hb
              exact absurd h3 (hno i b hi h2)
            · exact Or.inr ⟨q, hq, h1, b, hb, h2, h3⟩
      · intro i
        rw [a5]
        constructor
        · rintro (h | ⟨b, h1, h2, q, hq, h3⟩)
          · exact Or.inl h
          · exact Or.inr ⟨b, h1, h2, q, List.mem_cons_of_mem _ hq, h3⟩
        · rintro (h | ⟨b, h1, h2, q, hq, h3⟩)
          · exact Or.inl h
          · rcases List.mem_cons.mp hq with rfl | hq
            · exact absurd h2 (hno i b h1 h3.symm)
            · exact Or.inr ⟨b, h1, h2, q, hq, h3⟩
    · rw [if_neg he, Outcome.bind_eq_ok] at h
      obtain ⟨id, hid, h⟩ := h
      obtain ⟨a1, a2, a3, a4, a5⟩ := ih _ d' (hd.insert id) h
      have hyes : ∃ b ∈ m.mesh.bdr, b.attr = p.tag ∧ TwoVertices b (· ∈ vs) := by
        have hne : getBdrElemsInDomain p.tag vs m.mesh ≠ [] := by simpa using he
        obtain ⟨i, hi⟩ := List.exists_mem_of_ne_nil _ hne
        obtain ⟨b, h1, h2, h3⟩ := (mem_bdrElems p.tag hs m.mesh i).mp hi
        exact ⟨b, List.mem_of_getElem? h1, h2, h3⟩
      refine ⟨a1, a2, a3, ?_, ?_⟩
      · intro c
        rw [a4, SSet.mem_insert]
        constructor
        · rintro ((rfl | h) | ⟨q, hq, h⟩)
          · exact Or.inr ⟨p, by simp, hid, hyes⟩
          · exact Or.inl h
          · exact Or.inr ⟨q, List.mem_cons_of_mem _ hq, h⟩
        · rintro (h | ⟨q, hq, h1, h2⟩)
          · exact Or.inl (Or.inr h)
          · rcases List.mem_cons.mp hq with rfl | hq
            · rw [hid] at h1; cases h1; exact Or.inl (Or.inl rfl)
            · exact Or.inr ⟨q, hq, h1, h2⟩
      · intro i
        rw [a5, SSet.mem_insertAll, mem_bdrElems p.tag hs]
        constructor
        · rintro ((h | ⟨b, h1, h2, h3⟩) | ⟨b, h1, h2, q, hq, h3⟩)
          · exact Or.inl h
          · exact Or.inr ⟨b, h1, h3, p, by simp, h2.symm⟩
          · exact Or.inr ⟨b, h1, h2, q, List.mem_cons_of_mem _ hq, h3⟩
        · rintro (h | ⟨b, h1, h2, q, hq, h3⟩)
          · exact Or.inl (Or.inl h)
          · rcases List.mem_cons.mp hq with rfl | hq
            · exact Or.inl (Or.inr ⟨b, h1, h3.symm, h2⟩)
            · exact Or.inr ⟨b, h1, h2, q, hq, h3⟩

theorem domainConductorsLoop_total (m : Model 𝕜) (vs : SSet Int) (ps : List (PEC 𝕜))
    (hid : ∀ p ∈ ps, ∃ c, getMaterialIdFromName p.name = .ok c) :
    ∀ d, ∃ d', domainConductorsLoop m.mesh vs ps d = .ok d' := by
  induction ps with
  | nil => intro d; exact ⟨d, rfl⟩
  | cons p t ih =>
    intro d
    obtain ⟨c, hc⟩ := hid p (by simp)
    rw [domainConductorsLoop]
    split
    · exact ih (fun q hq => hid q (List.mem_cons_of_mem _ hq)) d
    · rw [hc, Outcome.ok_bind]
      exact ih (fun q hq => hid q (List.mem_cons_of_mem _ hq)) _

/-! ## All domains -/

theorem SMap.set_append {V : Type _} {m : SMap Int V} {k : Int} {v : V} (h : ∀ p ∈ m, p.1 < k) :
    m.set k v = m ++ [(k, v)] := by
  induction m with
  | nil => rfl
  | cons a t ih =>
    obtain ⟨k', v'⟩ := a
    have := h (k', v') (by simp)
    simp only [SMap.set]
    rw [if_neg (by simp at this; omega), if_neg (by simp at this; omega),
      ih (fun p hp => h p (List.mem_cons_of_mem _ hp))]
    rfl

/-- Numbered from `k` on. -/
def numberFrom {α : Type _} : Int → List α → List (Int × α)
  | _, [] => []
  | k, a :: t => (k, a) :: numberFrom (k + 1) t

theorem domainsLoop_spec (m : Model 𝕜) : ∀ (gs : List DGraph) (k : Int) (res res' : IdToDomain),
    (∀ p ∈ res, p.1 < k) → domainsLoop m gs k res = .ok res' →
    ∃ ds, List.Forall₂ (fun (g : DGraph) d => DomainOf m g.getVertices d) gs ds ∧
      res' = res ++ numberFrom k ds := by
  intro gs
  induction gs with
  | nil =>
    intro k res res' _ h
    simp [domainsLoop] at h
    exact ⟨[], .nil, by simp [h, numberFrom]⟩
  | cons g t ih =>
    intro k res res' hk h
    rw [domainsLoop] at h
    simp only [Outcome.bind_eq_ok] at h
    obtain ⟨d, hd, h⟩ := h
    rw [SMap.set_append hk] at h
    obtain ⟨ds, h1, h2⟩ := ih (k + 1) _ res' (by
      intro p hp
      rcases List.mem_append.mp hp with hp | hp
      · have := hk p hp; omega
      · simp at hp; subst hp; simp) h
    have hs : SSet.Sorted g.getVertices := SSet.sorted_ofList _
    obtain ⟨a1, a2, a3, a4, a5⟩ := domainConductorsLoop_spec m hs _ _ _ SSet.sorted_nil hd
    refine ⟨d :: ds, .cons ⟨a1, ?_, ?_, ?_, a3⟩ h1, ?_⟩
    · intro i; rw [a2]; exact mem_domainElems _ _ _
    · intro c; rw [a4]
      simp only [List.not_mem_nil, false_or]
      rfl
    · intro i; rw [a5]; simp
    · rw [h2]; simp [numberFrom]

theorem domainsLoop_total (m : Model 𝕜)
    (hid : ∀ p ∈ m.materials.pecs, ∃ c, getMaterialIdFromName p.name = .ok c) :
    ∀ (gs : List DGraph) (k : Int) (res : IdToDomain), ∃ res', domainsLoop m gs k res = .ok res' := by
  intro gs
  induction gs with
  | nil => intro k res; exact ⟨res, rfl⟩
  | cons g t ih =>
    intro k res
    obtain ⟨d, hd⟩ := domainConductorsLoop_total m g.getVertices m.materials.pecs hid
      { elems := domainElems m.mesh g.getVertices }
    simp only [domainsLoop, hd, Outcome.ok_bind]
    exact ih _ _

theorem mem_numberFrom {α : Type _} : ∀ {l : List α} {k : Int} {p : Int × α},
    p ∈ numberFrom k l ↔ ∃ i : Nat, l[i]? = some p.2 ∧ p.1 = k + i := by
  intro l
  induction l with
  | nil => intro k p; simp [numberFrom]
  | cons a t ih =>
    intro k p
    rw [numberFrom, List.mem_cons, ih]
    constructor
    · rintro (rfl | ⟨i, h1, h2⟩)
      · exact ⟨0, by simp⟩
      · exact ⟨i + 1, by simpa using h1, by push_cast; omega⟩
    · rintro ⟨i, h1, h2⟩
      cases i with
      | zero => left; simp at h1 h2; obtain ⟨x, y⟩ := p; simp_all
      | succ i => right; exact ⟨i, by simpa using h1, by push_cast at h2; omega⟩

theorem numberFrom_keys {α : Type _} (l : List α) (k : Int) :
    (numberFrom k l).map Prod.fst = (List.range l.length).map (fun i : Nat => k + (i : Int)) := by
  induction l generalizing k with
  | nil => rfl
  | cons a t ih =>
    rw [numberFrom, List.map_cons, ih, List.length_cons, List.range_succ_eq_map, List.map_cons]
    simp only [List.map_map]
    congr 1
    · simp
    · apply List.map_congr_left
      intro i _; simp; omega

theorem numberFrom_length {α : Type _} (l : List α) (k : Int) : (numberFrom k l).length = l.length := by
  induction l generalizing k with
  | nil => rfl
  | cons a t ih => simp [numberFrom, ih]

theorem numberFrom_sorted {α : Type _} (l : List α) (k : Int) : SMap.Sorted (numberFrom k l) := by
  induction l generalizing k with
  | nil => exact List.Pairwise.nil
  | cons a t ih =>
    refine List.pairwise_cons.mpr ⟨?_, ih _⟩
    intro b hb
    obtain ⟨i, _, h⟩ := mem_numberFrom.mp hb
    simp only; omega

end Tulip
