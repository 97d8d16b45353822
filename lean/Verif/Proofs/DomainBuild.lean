import Verif.Proofs.DomainTree

/-! # `buildDomains` as a whole -/

namespace Tulip
open Spec DGraph
variable {𝕜 : Type _}

theorem groundLoop_ok_strip (es : List (Int × Int)) : ∀ (r r' : IdToDomain), SMap.Sorted r →
    groundLoop es r = .ok r' → r'.map strip = r.map strip := by
  induction es with
  | nil => intro r r' _ h; simp [groundLoop] at h; rw [h]
  | cons e t ih =>
    obtain ⟨a, b⟩ := e
    intro r r' hs h
    cases ha : SMap.find? r a with
    | none =>
      rw [groundLoop] at h
      simp only [domainAt, ha] at h
      simp [setIntersection] at h
    | some x =>
      cases hb : SMap.find? r b with
      | none =>
        rw [groundLoop] at h
        simp only [domainAt, ha, hb] at h
        simp [setIntersection] at h
      | some y =>
        have hx := SMap.mem_of_find? ha
        have hy := SMap.mem_of_find? hb
        cases hc : setIntersection x.conductorIds y.conductorIds with
        | nil =>
          rw [groundLoop] at h
          simp only [domainAt, ha, hb, hc] at h
          cases h
        | cons c cs =>
          rw [groundLoop_step hs hx hy hc] at h
          have hst := strip_map_set hy hs c
          rw [← hst]
          exact ih _ _ (sorted_of_strip_eq hst hs) h

/-- The partition of the elements by the components of the mesh graph. -/
structure Built (m : Model 𝕜) (ds : IdToDomain) : Prop where
  parts : ∃ ds0, List.Forall₂ (fun (g : DGraph) d => DomainOf m g.getVertices d)
      (DGraph.run (meshOps m.mesh.elems)).split ds0 ∧
    ds.map strip = (numberFrom 0 ds0).map strip

theorem domainTree_ok_count {ds : IdToDomain} {g : DGraph} (h : domainTree ds = .ok g) :
    (domainsWith ds 0).length = 1 := by
  unfold domainTree at h
  rw [checkConductor0_spec] at h
  simp only [Bool.false_eq_true, if_false, Nat.add_zero] at h
  by_cases h0 : (domainsWith ds 0).length = 0
  · simp [h0] at h
  · by_cases h1 : (domainsWith ds 0).length = 1
    · exact h1
    · rw [if_neg h0, if_neg h1] at h; cases h

theorem buildDomains_ok {m : Model 𝕜} {ds : IdToDomain} (h : buildDomains m = .ok ds) :
    (∀ e ∈ m.mesh.elems, GoodPath e.verts) ∧ m.determineOpenness = .ok .closed ∧ Built m ds ∧
    (domainsWith ds 0).length = 1 := by
  unfold buildDomains at h
  rw [Outcome.bind_eq_ok] at h
  obtain ⟨o, ho, h⟩ := h
  by_cases hoc : o = .closed
  swap
  · rw [if_pos hoc] at h; cases h
  subst hoc
  simp only [ne_eq, not_true_eq_false, if_false] at h
  obtain ⟨g, hg, h'⟩ := Outcome.bind_eq_ok.mp h
  obtain ⟨res, hres, h''⟩ := Outcome.bind_eq_ok.mp h'
  obtain ⟨tree, htree, h3⟩ := Outcome.bind_eq_ok.mp h''
  clear h h' h''
  have hgood : ∀ e ∈ m.mesh.elems, GoodPath e.verts := by
    by_contra hno
    obtain ⟨err, he⟩ := (buildMeshGraph_spec m.mesh).2 hno
    rw [he] at hg; cases hg
  rw [(buildMeshGraph_spec m.mesh).1 hgood] at hg
  cases hg
  obtain ⟨ds0, h1, h2⟩ := domainsLoop_spec m _ 0 [] res (by simp) hres
  rw [List.nil_append] at h2
  have hsort : SMap.Sorted (setGround0 res) :=
    sorted_of_strip_eq (setGround0_strip res) (h2 ▸ numberFrom_sorted _ _)
  have hst := groundLoop_ok_strip _ _ _ hsort h3
  refine ⟨hgood, ho, ⟨⟨ds0, h1, ?_⟩⟩, ?_⟩
  · rw [hst, setGround0_strip, h2]
  · rw [domainsWith_of_strip_eq hst]
    exact domainTree_ok_count htree

/-- Domain `p` of the result and its component. -/
theorem Built.of_mem {m : Model 𝕜} {ds : IdToDomain} (hb : Built m ds) {p : Int × Domain} (hp : p ∈ ds) :
    ∃ (i : Nat) (g : DGraph), (DGraph.run (meshOps m.mesh.elems)).split[i]? = some g ∧ p.1 = i ∧
      DomainOf m g.getVertices { p.2 with ground := -1 } := by
  obtain ⟨ds0, h1, h2⟩ := hb.parts
  have hsp : strip p ∈ (numberFrom 0 ds0).map strip := by rw [← h2]; exact List.mem_map_of_mem hp
  rw [List.mem_map] at hsp
  obtain ⟨q, hq, hs⟩ := hsp
  obtain ⟨i, hi, hqi⟩ := mem_numberFrom.mp hq
  simp only [strip, Prod.mk.injEq, Domain.mk.injEq, true_and] at hs
  obtain ⟨e1, e2, e3, e4⟩ := hs
  have hlen : i < ds0.length := by
    rw [List.getElem?_eq_some_iff] at hi; exact hi.1
  have hlen' : i < (DGraph.run (meshOps m.mesh.elems)).split.length := by
    rw [List.Forall₂.length_eq h1]; exact hlen
  have hd : ds0[i] = q.2 := by
    rw [List.getElem?_eq_some_iff] at hi; exact hi.2
  refine ⟨i, (DGraph.run (meshOps m.mesh.elems)).split[i], by simp [hlen'], by omega, ?_⟩
  have hdom := h1.get hlen' hlen
  simp only [List.get_eq_getElem] at hdom
  rw [hd] at hdom
  obtain ⟨d1, d2, d3, d4, d5⟩ := hdom
  refine ⟨rfl, ?_, ?_, ?_, ?_⟩
  · intro j; rw [← d2]; simp [e3]
  · intro c; rw [← d3]; simp [e2]
  · intro j; rw [← d4]; simp [e4]
  · rw [← e2]; exact d5

theorem Built.exists_of_part {m : Model 𝕜} {ds : IdToDomain} (hb : Built m ds) {i : Nat} {g : DGraph}
    (hg : (DGraph.run (meshOps m.mesh.elems)).split[i]? = some g) :
    ∃ p ∈ ds, p.1 = i ∧ DomainOf m g.getVertices { p.2 with ground := -1 } := by
  obtain ⟨ds0, h1, h2⟩ := hb.parts
  rw [List.getElem?_eq_some_iff] at hg
  obtain ⟨hlen', hg⟩ := hg
  have hlen : i < ds0.length := by rw [← List.Forall₂.length_eq h1]; exact hlen'
  have hq : ((i : Int), ds0[i]) ∈ numberFrom 0 ds0 :=
    mem_numberFrom.mpr ⟨i, by simp [hlen], by simp⟩
  have hsp : strip ((i : Int), ds0[i]) ∈ ds.map strip := by rw [h2]; exact List.mem_map_of_mem hq
  rw [List.mem_map] at hsp
  obtain ⟨p, hp, hs⟩ := hsp
  simp only [strip, Prod.mk.injEq, Domain.mk.injEq, true_and] at hs
  obtain ⟨e1, e2, e3, e4⟩ := hs
  refine ⟨p, hp, e1, ?_⟩
  have hdom := h1.get hlen' hlen
  simp only [List.get_eq_getElem] at hdom
  rw [hg] at hdom
  obtain ⟨d1, d2, d3, d4, d5⟩ := hdom
  refine ⟨rfl, ?_, ?_, ?_, ?_⟩
  · intro j; rw [← d2]; simp [e3]
  · intro c; rw [← d3]; simp [e2]
  · intro j; rw [← d4]; simp [e4]
  · simp only; rw [e2]; exact d5

theorem Built.keys {m : Model 𝕜} {ds : IdToDomain} (hb : Built m ds) :
    SMap.keys ds = (List.range ds.length).map (fun i : Nat => (i : Int)) := by
  obtain ⟨ds0, _, h2⟩ := hb.parts
  have hl : ds.length = ds0.length := by
    have := congrArg List.length h2
    simpa [numberFrom_length] using this
  rw [keys_of_strip_eq h2, SMap.keys, numberFrom_keys, hl]
  simp

theorem Built.sorted {m : Model 𝕜} {ds : IdToDomain} (hb : Built m ds) : DomainsSorted ds := by
  obtain ⟨ds0, _, h2⟩ := hb.parts
  refine ⟨sorted_of_strip_eq h2 (numberFrom_sorted _ _), ?_⟩
  intro p hp
  obtain ⟨i, g, _, _, hd⟩ := hb.of_mem hp
  exact hd.sorted

/-- What the components of the mesh graph are. -/
theorem mesh_parts {es : List (Elem 𝕜)} (hg : GoodElems es) :
    (∀ p ∈ (DGraph.run (meshOps es)).split, ∃ (k : Nat) (e : Elem 𝕜), es[k]? = some e ∧
      ∀ x, x ∈ p.getVertices ↔ VertexNear es k x) ∧
    (DGraph.run (meshOps es)).split.Pairwise (fun p q => ∀ x ∈ p.getVertices, x ∉ q.getVertices) ∧
    (∀ e ∈ es, ∃ p ∈ (DGraph.run (meshOps es)).split, ∀ x ∈ e.verts, x ∈ p.getVertices) := by
  have hops : ∀ op ∈ meshOps es, ∃ vs, op = .addClosedPath vs ∧ GoodPath vs := by
    intro op hop
    simp only [meshOps, List.mem_map] at hop
    obtain ⟨e, he, rfl⟩ := hop
    exact ⟨_, rfl, (hg e he).2⟩
  obtain ⟨a, b, c⟩ := Props.C05_split_components (meshOps es) hops
  refine ⟨?_, b, ?_⟩
  · intro p hp
    obtain ⟨r, hr, hv, _⟩ := a p hp
    obtain ⟨e, he, hre⟩ := (meshGraph_mem hg r).mp ((hv r).mp hr).1
    obtain ⟨k, hk⟩ := List.getElem?_of_mem he
    refine ⟨k, e, hk, ?_⟩
    intro x
    rw [hv, meshGraph_mem hg]
    constructor
    · rintro ⟨⟨f, hf, hx⟩, hcon⟩
      obtain ⟨j, hj⟩ := List.getElem?_of_mem hf
      exact ⟨j, f, (connected_iff_chain hg hk hj hre hx).mp hcon, hj, hx⟩
    · rintro ⟨j, f, hch, hj, hx⟩
      exact ⟨⟨f, List.mem_of_getElem? hj, hx⟩, (connected_iff_chain hg hk hj hre hx).mpr hch⟩
  · intro e he
    obtain ⟨x, hx⟩ := List.exists_mem_of_ne_nil _ (hg e he).1
    obtain ⟨p, hp, hxp⟩ := c x ((meshGraph_mem hg x).mpr ⟨e, he, hx⟩)
    refine ⟨p, hp, ?_⟩
    intro y hy
    obtain ⟨r, hr, hv, _⟩ := a p hp
    rw [hv]
    refine ⟨(meshGraph_mem hg y).mpr ⟨e, he, hy⟩, ((hv x).mp hxp).2.trans ?_⟩
    exact connected_of_mem (fun q hq => (meshGraph_pairs hg q).mpr ⟨e, he, hq⟩) hx hy

theorem shareVertex_symm {es : List (Elem 𝕜)} {i j : Nat} (h : ShareVertex es i j) : ShareVertex es j i := by
  obtain ⟨e, f, v, h1, h2, h3, h4⟩ := h
  exact ⟨f, e, v, h2, h1, h4, h3⟩

theorem elemChain_symm {es : List (Elem 𝕜)} {i j : Nat} (h : ElemChain es i j) : ElemChain es j i := by
  induction h with
  | refl => exact .refl
  | tail _ h2 ih => exact Relation.ReflTransGen.head (shareVertex_symm h2) ih

theorem elemChain_of_common {es : List (Elem 𝕜)} {i j : Nat} {e f : Elem 𝕜} {v : Int}
    (hi : es[i]? = some e) (hj : es[j]? = some f) (h1 : v ∈ e.verts) (h2 : v ∈ f.verts) :
    ElemChain es i j := Relation.ReflTransGen.single ⟨e, f, v, hi, hj, h1, h2⟩

/-- Vertices near element `k` are closed under elements. -/
theorem vertexNear_elem {es : List (Elem 𝕜)} {k j : Nat} {f : Elem 𝕜} (hj : es[j]? = some f) {v : Int}
    (hv : v ∈ f.verts) : VertexNear es k v ↔ ElemChain es k j := by
  constructor
  · rintro ⟨j', f', hch, hj', hv'⟩
    exact hch.trans (elemChain_of_common hj' hj hv' hv)
  · intro h; exact ⟨j, f, h, hj, hv⟩

/-- Elements, vertices and representative of one domain of the result. -/
theorem Built.domain {m : Model 𝕜} {ds : IdToDomain} (hb : Built m ds) (hg : GoodElems m.mesh.elems)
    {p : Int × Domain} (hp : p ∈ ds) :
    ∃ k e, m.mesh.elems[k]? = some e ∧ k ∈ p.2.elems ∧
      (∀ j, j ∈ p.2.elems ↔ j < m.mesh.elems.length ∧ ElemChain m.mesh.elems k j) ∧
      (∀ v, VertexOf m.mesh.elems p.2 v ↔ VertexNear m.mesh.elems k v) ∧
      ∃ (i : Nat) (g : DGraph), (DGraph.run (meshOps m.mesh.elems)).split[i]? = some g ∧ p.1 = i ∧
        (∀ x, x ∈ g.getVertices ↔ VertexNear m.mesh.elems k x) ∧
        DomainOf m g.getVertices { p.2 with ground := -1 } := by
  obtain ⟨i, g, hgi, hpi, hd⟩ := hb.of_mem hp
  obtain ⟨k, e, hk, hv⟩ := (mesh_parts hg).1 g (List.mem_of_getElem? hgi)
  have helems : ∀ j, j ∈ p.2.elems ↔ j < m.mesh.elems.length ∧ ElemChain m.mesh.elems k j := by
    intro j
    have hje := hd.elems j
    simp only at hje
    rw [hje]
    constructor
    · rintro ⟨f, hf, hall⟩
      refine ⟨(List.getElem?_eq_some_iff.mp hf).1, ?_⟩
      obtain ⟨x, hx⟩ := List.exists_mem_of_ne_nil _ (hg f (List.mem_of_getElem? hf)).1
      exact (vertexNear_elem hf hx).mp ((hv x).mp (hall x hx))
    · rintro ⟨hlt, hch⟩
      refine ⟨m.mesh.elems[j], by simp [hlt], ?_⟩
      intro v hvm
      exact (hv v).mpr ⟨j, _, hch, by simp [hlt], hvm⟩
  refine ⟨k, e, hk, (helems k).mpr ⟨(List.getElem?_eq_some_iff.mp hk).1, .refl⟩, helems, ?_, i, g, hgi, hpi, hv, hd⟩
  intro v
  constructor
  · rintro ⟨j, hj, f, hf, hvf⟩
    exact ⟨j, f, ((helems j).mp hj).2, hf, hvf⟩
  · rintro ⟨j, f, hch, hf, hvf⟩
    exact ⟨j, (helems j).mpr ⟨(List.getElem?_eq_some_iff.mp hf).1, hch⟩, f, hf, hvf⟩

theorem Built.exists_domain {m : Model 𝕜} {ds : IdToDomain} (hb : Built m ds)
    (hg : GoodElems m.mesh.elems) : ∀ i, i < m.mesh.elems.length → ∃ p ∈ ds, i ∈ p.2.elems := by
  intro i hi
  obtain ⟨g, hgm, hv⟩ := (mesh_parts hg).2.2 _ (List.getElem_mem hi)
  obtain ⟨k, hk⟩ := List.getElem?_of_mem hgm
  obtain ⟨p, hp, _, hd⟩ := hb.exists_of_part hk
  exact ⟨p, hp, (hd.elems i).mpr ⟨_, by simp [hi], hv⟩⟩

theorem Built.unique_domain {m : Model 𝕜} {ds : IdToDomain} (hb : Built m ds)
    (hg : GoodElems m.mesh.elems) :
    ∀ i, ∀ p ∈ ds, ∀ q ∈ ds, i ∈ p.2.elems → i ∈ q.2.elems → p = q := by
  intro i p hp q hq hip hiq
  obtain ⟨k, e, hk, _, hel, _, a, ga, hga, hpa, hva, hda⟩ := hb.domain hg hp
  obtain ⟨k', e', hk', _, hel', _, b, gb, hgb, hqb, hvb, hdb⟩ := hb.domain hg hq
  by_contra hne'
  have hab : a ≠ b := by
    rintro rfl
    have hkeys := hb.sorted.1
    apply hne'
    obtain ⟨p1, p2⟩ := p
    obtain ⟨q1, q2⟩ := q
    simp only at hpa hqb
    have e1 : p1 = q1 := by omega
    subst e1
    have h1 := SMap.find?_of_mem hkeys hp
    rw [SMap.find?_of_mem hkeys hq] at h1
    cases h1; rfl
  obtain ⟨hlt, hch⟩ := (hel i).mp hip
  obtain ⟨_, hch'⟩ := (hel' i).mp hiq
  obtain ⟨x, hx⟩ := List.exists_mem_of_ne_nil _ (hg _ (List.getElem_mem hlt)).1
  have hxa : x ∈ ga.getVertices := (hva x).mpr ⟨i, _, hch, by simp [hlt], hx⟩
  have hxb : x ∈ gb.getVertices := (hvb x).mpr ⟨i, _, hch', by simp [hlt], hx⟩
  have hpw := (mesh_parts hg).2.1
  rw [List.pairwise_iff_getElem] at hpw
  rw [List.getElem?_eq_some_iff] at hga hgb
  obtain ⟨ha, rfl⟩ := hga
  obtain ⟨hb', rfl⟩ := hgb
  rcases Nat.lt_or_gt_of_ne hab with hlt' | hlt'
  · exact hpw a b ha hb' hlt' x hxa hxb
  · exact hpw b a hb' ha hlt' x hxb hxa

theorem Built.near {m : Model 𝕜} {ds : IdToDomain} (hb : Built m ds) (hg : GoodElems m.mesh.elems)
    {p : Int × Domain} (hp : p ∈ ds) {i : Nat} (hi : i ∈ p.2.elems) (c : Int) :
    c ∈ p.2.conductorIds ↔ Touches m c (VertexNear m.mesh.elems i) := by
  obtain ⟨k, e, hk, hkm, hel, hvo, j, g, hgi, hpi, hv, hd⟩ := hb.domain hg hp
  have hch := ((hel i).mp hi).2
  have heq : (fun x => x ∈ g.getVertices) = VertexNear m.mesh.elems i := by
    funext x
    refine propext ((hv x).trans ?_)
    constructor
    · rintro ⟨a, f, h1, h2, h3⟩; exact ⟨a, f, (elemChain_symm hch).trans h1, h2, h3⟩
    · rintro ⟨a, f, h1, h2, h3⟩; exact ⟨a, f, hch.trans h1, h2, h3⟩
  have := hd.conds c
  rw [heq] at this
  exact this

theorem domainsWith_length_one {ds : IdToDomain} (hs : SMap.Sorted ds) {c : Int} :
    (domainsWith ds c).length = 1 ↔ ∃! p, p ∈ ds ∧ c ∈ p.2.conductorIds := by
  have hsrt := domainsWith_sorted hs c
  constructor
  · intro h
    obtain ⟨d, hd⟩ := List.length_eq_one_iff.mp h
    have hm : d ∈ domainsWith ds c := by simp [hd]
    obtain ⟨x, hx, hx2⟩ := mem_domainsWith.mp hm
    refine ⟨(d, x), ⟨hx, hx2⟩, ?_⟩
    rintro ⟨d', x'⟩ ⟨h1, h2⟩
    have : d' ∈ domainsWith ds c := mem_domainsWith.mpr ⟨x', h1, h2⟩
    rw [hd] at this
    simp at this
    subst this
    have e := SMap.find?_of_mem hs h1
    rw [SMap.find?_of_mem hs hx] at e
    cases e; rfl
  · rintro ⟨⟨d, x⟩, ⟨h1, h2⟩, hu⟩
    match hl : domainsWith ds c with
    | [] =>
      have : d ∈ domainsWith ds c := mem_domainsWith.mpr ⟨x, h1, h2⟩
      rw [hl] at this; simp at this
    | [a] => rfl
    | a :: b :: t =>
      exfalso
      rw [hl] at hsrt
      have hab := (List.pairwise_cons.mp hsrt).1 b (by simp)
      obtain ⟨xa, ha1, ha2⟩ := mem_domainsWith.mp (show a ∈ domainsWith ds c by simp [hl])
      obtain ⟨xb, hb1, hb2⟩ := mem_domainsWith.mp (show b ∈ domainsWith ds c by simp [hl])
      have e1 := hu (a, xa) ⟨ha1, ha2⟩
      have e2 := hu (b, xb) ⟨hb1, hb2⟩
      rw [← e2] at e1
      simp at e1
      omega

/-- The result of `buildDomains` for a sensible closed model. -/
theorem buildDomains_eq {m : Model 𝕜} (hc : m.determineOpenness = .ok .closed)
    (hg : GoodElems m.mesh.elems)
    (hid : ∀ p ∈ m.materials.pecs, ∃ c, getMaterialIdFromName p.name = .ok c ∧ c ≠ -1) :
    ∃ res, Built m res ∧ (∀ p ∈ res, p.2.ground = if (0 : Int) ∈ p.2.conductorIds then 0 else -1) ∧
      (∀ p ∈ res, (-1 : Int) ∉ p.2.conductorIds) ∧
      ((domainsWith res 0).length = 1 →
        buildDomains m = groundLoop (expectedTreeEdges res) res) ∧
      ((domainsWith res 0).length = 0 →
        buildDomains m = .throw (.runtimeError "Conductor 0 is not present")) ∧
      (2 ≤ (domainsWith res 0).length → buildDomains m =
        .throw (.runtimeError "Conductor 0 must be only in a single domain.")) := by
  have hgr := (buildMeshGraph_spec m.mesh).1 (fun e he => (hg e he).2)
  obtain ⟨res0, hres⟩ := domainsLoop_total m (fun p hp => (hid p hp).imp fun c h => h.1)
    (DGraph.run (meshOps m.mesh.elems)).split 0 []
  obtain ⟨ds0, h1, h2⟩ := domainsLoop_spec m _ 0 [] res0 (by simp) hres
  rw [List.nil_append] at h2
  have hb : Built m (setGround0 res0) := ⟨⟨ds0, h1, by rw [setGround0_strip, h2]⟩⟩
  have hm1 : ∀ p ∈ setGround0 res0, (-1 : Int) ∉ p.2.conductorIds := by
    intro p hp hmem
    obtain ⟨i, g, _, _, hd⟩ := hb.of_mem hp
    obtain ⟨pec, hpec, hname, _⟩ := (hd.conds (-1)).mp hmem
    obtain ⟨c, hc1, hc2⟩ := hid pec hpec
    rw [hname] at hc1; cases hc1; exact hc2 rfl
  have heq : buildDomains m = (domainTree (setGround0 res0) >>= fun tree =>
      groundLoop tree.getEdgesAsPairs (setGround0 res0)) := by
    unfold buildDomains
    rw [hc, Outcome.ok_bind]
    simp only [ne_eq, not_true_eq_false, if_false]
    rw [hgr, Outcome.ok_bind, hres, Outcome.ok_bind]
  obtain ⟨t1, t2, t3⟩ := domainTree_spec hb.sorted hm1
  refine ⟨setGround0 res0, hb, ?_, hm1, ?_, ?_, ?_⟩
  · intro p hp
    obtain ⟨q, hq, _, _, hgq⟩ := mem_setGround0 hp
    have hq2 : q.2.ground = -1 := by
      rw [h2] at hq
      obtain ⟨i, hi, _⟩ := mem_numberFrom.mp hq
      obtain ⟨hlt, hi⟩ := List.getElem?_eq_some_iff.mp hi
      have hlt' : i < (DGraph.run (meshOps m.mesh.elems)).split.length := by
        rw [List.Forall₂.length_eq h1]; exact hlt
      have := (h1.get hlt' hlt).ground
      simp only [List.get_eq_getElem] at this
      rw [hi] at this
      exact this
    rw [hgq, hq2]
  · intro h; obtain ⟨g, e, _, _, hp⟩ := t1 h; rw [heq, e, Outcome.ok_bind, hp]
  · intro h; rw [heq, t2 h]; rfl
  · intro h; rw [heq, t3 h]; rfl

theorem expected_share {res : IdToDomain} (hs : SMap.Sorted res) :
    ∀ e ∈ expectedTreeEdges res, ∃ c, Shares res e.1 e.2 c := by
  rintro ⟨a, b⟩ he
  obtain ⟨c, ha, _, hb, _⟩ := (mem_expectedTreeEdges hs).mp he
  obtain ⟨x, hx, hx2⟩ := mem_domainsWith.mp ha
  obtain ⟨y, hy, hy2⟩ := mem_domainsWith.mp hb
  exact ⟨c, x, y, hx, hy, hx2, hy2⟩

theorem shares_of_strip {r s : IdToDomain} (h : r.map strip = s.map strip) {a b c : Int}
    (hsh : Shares r a b c) : Shares s a b c := by
  obtain ⟨u, v, h1, h2, h3, h4⟩ := hsh
  obtain ⟨⟨_, u'⟩, hu, rfl, e1, _⟩ := mem_of_strip_eq h h1
  obtain ⟨⟨_, v'⟩, hv, rfl, e2, _⟩ := mem_of_strip_eq h h2
  simp only at e1 e2
  exact ⟨u', v', hu, hv, by rw [e1]; exact h3, by rw [e2]; exact h4⟩

end Tulip
