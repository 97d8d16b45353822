import Mathlib.Data.Finset.Max
import Verif.Proofs.DomainBuild
import Verif.Proofs.Eval

/-!
# C20–C24: domains
-/

namespace Tulip.Props
open Tulip Tulip.Spec
variable {𝕜 : Type _}

theorem goodElems_of_ok {m : Model 𝕜} {ds : IdToDomain} (h : buildDomains m = .ok ds)
    (hne : ∀ e ∈ m.mesh.elems, e.verts ≠ []) : GoodElems m.mesh.elems :=
  fun e he => ⟨hne e he, (buildDomains_ok h).1 e he⟩

/-- **C20.** Whenever `buildDomains` returns: the domains are numbered 0..n-1; every element is in exactly
one of them (and nothing else is); two elements are in the same one iff a chain of elements sharing
vertices joins them; no domain is empty. -/
theorem C20_partition (m : Model 𝕜) (hne : ∀ e ∈ m.mesh.elems, e.verts ≠ []) (ds : IdToDomain)
    (h : buildDomains m = .ok ds) :
    ds.map Prod.fst = (List.range ds.length).map (fun i : Nat => (i : Int)) ∧
    (∀ i, i < m.mesh.elems.length → ∃! p, p ∈ ds ∧ i ∈ p.2.elems) ∧
    (∀ p ∈ ds, p.2.elems ≠ [] ∧ ∀ i ∈ p.2.elems, i < m.mesh.elems.length) ∧
    (∀ i j, i < m.mesh.elems.length → j < m.mesh.elems.length →
      ((∃ p ∈ ds, i ∈ p.2.elems ∧ j ∈ p.2.elems) ↔ ElemChain m.mesh.elems i j)) := by
  have hg := goodElems_of_ok h hne
  obtain ⟨_, _, hb, _⟩ := buildDomains_ok h
  have hex := hb.exists_domain hg
  have huniq := hb.unique_domain hg
  refine ⟨hb.keys, ?_, ?_, ?_⟩
  · intro i hi
    obtain ⟨p, hp, hip⟩ := hex i hi
    exact ⟨p, ⟨hp, hip⟩, fun q hq => huniq i q hq.1 p hp hq.2 hip⟩
  · intro p hp
    obtain ⟨k, e, hk, hkm, hel, _⟩ := hb.domain hg hp
    exact ⟨List.ne_nil_of_mem hkm, fun i hi => ((hel i).mp hi).1⟩
  · intro i j hi hj
    constructor
    · rintro ⟨p, hp, h1, h2⟩
      obtain ⟨k, e, hk, hkm, hel, _⟩ := hb.domain hg hp
      exact (elemChain_symm ((hel i).mp h1).2).trans ((hel j).mp h2).2
    · intro hch
      obtain ⟨p, hp, hip⟩ := hex i hi
      obtain ⟨k, e, hk, hkm, hel, _⟩ := hb.domain hg hp
      exact ⟨p, hp, hip, (hel j).mpr ⟨hj, ((hel i).mp hip).2.trans hch⟩⟩

/-- **C21.** In the result, a conductor is listed in a domain iff some boundary element with its tag has at
least two different vertices in the domain; the domain's boundary elements are exactly the conductor
boundary elements with two different vertices there; a two-vertex boundary element is in at most one
domain. -/
theorem C21_conductors (m : Model 𝕜) (hne : ∀ e ∈ m.mesh.elems, e.verts ≠ []) (ds : IdToDomain)
    (h : buildDomains m = .ok ds) :
    (∀ p ∈ ds, ∀ c, c ∈ p.2.conductorIds ↔ Touches m c (VertexOf m.mesh.elems p.2)) ∧
    (∀ p ∈ ds, ∀ i, i ∈ p.2.bdrElems ↔ ∃ b, m.mesh.bdr[i]? = some b ∧
      TwoVertices b (VertexOf m.mesh.elems p.2) ∧ ∃ pec ∈ m.materials.pecs, pec.tag = b.attr) ∧
    (∀ p ∈ ds, ∀ q ∈ ds, ∀ i b, m.mesh.bdr[i]? = some b → b.verts.length = 2 →
      i ∈ p.2.bdrElems → i ∈ q.2.bdrElems → p = q) := by
  have hg := goodElems_of_ok h hne
  obtain ⟨_, _, hb, _⟩ := buildDomains_ok h
  have hpart := C20_partition m hne ds h
  have key : ∀ p ∈ ds, (∀ c, c ∈ p.2.conductorIds ↔ Touches m c (VertexOf m.mesh.elems p.2)) ∧
      (∀ i, i ∈ p.2.bdrElems ↔ ∃ b, m.mesh.bdr[i]? = some b ∧
        TwoVertices b (VertexOf m.mesh.elems p.2) ∧ ∃ pec ∈ m.materials.pecs, pec.tag = b.attr) := by
    intro p hp
    obtain ⟨k, e, hk, hkm, hel, hvo, i, g, hgi, hpi, hv, hd⟩ := hb.domain hg hp
    have heq : (fun x => x ∈ g.getVertices) = VertexOf m.mesh.elems p.2 := by
      funext x; exact propext ((hv x).trans (hvo x).symm)
    constructor
    · intro c
      have := hd.conds c
      rw [heq] at this
      exact this
    · intro j
      have := hd.bdr j
      rw [heq] at this
      exact this
  refine ⟨fun p hp => (key p hp).1, fun p hp => (key p hp).2, ?_⟩
  intro p hp q hq i b hbi hlen h1 h2
  obtain ⟨b1, e1, ⟨x, y, hxy, hx, hy, hvx, hvy⟩, _⟩ := ((key p hp).2 i).mp h1
  obtain ⟨b2, e2, ⟨x', y', hxy', hx', hy', hvx', hvy'⟩, _⟩ := ((key q hq).2 i).mp h2
  rw [hbi] at e1 e2; cases e1; cases e2
  -- a common vertex
  have hcommon : ∃ v, VertexOf m.mesh.elems p.2 v ∧ VertexOf m.mesh.elems q.2 v := by
    match hv : b.verts, hlen with
    | [u, w], _ =>
      rw [hv] at hx hy hx' hy'
      simp only [List.mem_cons, List.not_mem_nil, or_false] at hx hy hx' hy'
      rcases hx with rfl | rfl <;> rcases hy with rfl | rfl <;> rcases hx' with rfl | rfl <;>
        first
        | exact absurd rfl hxy
        | exact ⟨_, hvx, hvx'⟩
        | exact ⟨_, hvy, hvx'⟩
  obtain ⟨v, ⟨j, hj, f, hf, hvf⟩, ⟨j', hj', f', hf', hvf'⟩⟩ := hcommon
  have hjl := ((hpart.2.2.1 p hp).2 j hj)
  have hjl' := ((hpart.2.2.1 q hq).2 j' hj')
  obtain ⟨r, hr, hr1, hr2⟩ := (hpart.2.2.2 j j' hjl hjl').mpr (elemChain_of_common hf hf' hvf hvf')
  obtain ⟨u, _, hu⟩ := hpart.2.1 j hjl
  obtain ⟨u', _, hu'⟩ := hpart.2.1 j' hjl'
  have a1 := hu p ⟨hp, hj⟩
  have a2 := hu r ⟨hr, hr1⟩
  have a3 := hu' q ⟨hq, hj'⟩
  have a4 := hu' r ⟨hr, hr2⟩
  rw [a1, ← a2, a4, ← a3]

/-- **C24.** For every map of domains in which conductor 0 is in exactly one (and no conductor has number
-1) the domain tree is built: one vertex per domain; its edges are, for each conductor in ascending
order, those from the first domain that contains it to each of the others (so k domains contribute k-1
edges, all from lower to higher domain number); it has no directed cycle. -/
theorem C24_tree (ds : IdToDomain) (hs : DomainsSorted ds)
    (hm1 : ∀ p ∈ ds, (-1 : Int) ∉ p.2.conductorIds) (h0 : (domainsWith ds 0).length = 1) :
    ∃ g, domainTree ds = .ok g ∧ (∀ x, x ∈ g.getVertices ↔ x ∈ ds.map Prod.fst) ∧
      g.getEdgesAsPairs = expectedTreeEdges ds ∧
      (∀ a b, (a, b) ∈ g.getEdgesAsPairs → a < b ∧ ∃ c, Shares ds a b c) ∧
      g.findCycles = some [] := by
  obtain ⟨g, h1, hw, hv, hp⟩ := (domainTree_spec hs hm1).1 h0
  have hedge : ∀ a b, (a, b) ∈ g.getEdgesAsPairs → a < b ∧ ∃ c, Shares ds a b c := by
    intro a b hab
    rw [hp, mem_expectedTreeEdges hs.1] at hab
    obtain ⟨c, ha, hmin, hb, hne⟩ := hab
    refine ⟨lt_of_le_of_ne (hmin b hb) hne, c, ?_⟩
    obtain ⟨x, hx, hx2⟩ := mem_domainsWith.mp ha
    obtain ⟨y, hy, hy2⟩ := mem_domainsWith.mp hb
    exact ⟨x, y, hx, hy, hx2, hy2⟩
  refine ⟨g, h1, ?_, hp, hedge, ?_⟩
  · intro x; rw [DGraph.mem_getVertices, hv]; rfl
  · obtain ⟨cs, hcs, _, hspec⟩ := hw.findCycles_spec
    rw [hcs]
    cases cs with
    | nil => rfl
    | cons c t =>
      exfalso
      have hc := (hspec c).mp (by simp)
      have htr := transGen_of_elemCycle hc.1
      obtain ⟨v, htr⟩ := htr
      have hlt : ∀ {a b}, Relation.TransGen (Adj g.getEdgesAsPairs) a b → a < b := by
        intro a b h
        induction h with
        | single h => exact (hedge _ _ h).1
        | tail _ h ih => exact lt_trans ih (hedge _ _ h).1
      exact absurd (hlt htr) (lt_irrefl _)

/-- C24: a conductor that is in k domains contributes k-1 edges. -/
theorem C24_edge_count (l : List Int) : (starEdges l).length = l.length - 1 := by
  cases l <;> simp [starEdges]


/-! ## C22 -/

/-- **C22.** If `buildDomains` returns, exactly one domain contains conductor 0. And for a closed model with
meaningful elements and conductor names it returns iff conductor 0 touches some connected part of the mesh
and does not touch two different ones; in the other cases it throws. -/
theorem C22_conductor0 (m : Model 𝕜) :
    (∀ ds, buildDomains m = .ok ds → ∃! p, p ∈ ds ∧ (0 : Int) ∈ p.2.conductorIds) ∧
    (m.determineOpenness = .ok .closed → GoodElems m.mesh.elems →
      (∀ p ∈ m.materials.pecs, ∃ c, getMaterialIdFromName p.name = .ok c ∧ c ≠ -1) →
      ((∃ ds, buildDomains m = .ok ds) ↔
        (∃ i, i < m.mesh.elems.length ∧ Touches m 0 (VertexNear m.mesh.elems i)) ∧
        ∀ i j, i < m.mesh.elems.length → j < m.mesh.elems.length →
          Touches m 0 (VertexNear m.mesh.elems i) → Touches m 0 (VertexNear m.mesh.elems j) →
          ElemChain m.mesh.elems i j) ∧
      ((¬ ∃ ds, buildDomains m = .ok ds) → ∃ msg, buildDomains m = .throw (.runtimeError msg))) := by
  refine ⟨?_, ?_⟩
  · intro ds h
    obtain ⟨_, _, hb, h1⟩ := buildDomains_ok h
    exact (domainsWith_length_one hb.sorted.1).mp h1
  · intro hc hg hid
    obtain ⟨res, hb, hgr, hm1, k1, k0, k2⟩ := buildDomains_eq hc hg hid
    have hs := hb.sorted
    have hok : (∃ ds, buildDomains m = .ok ds) ↔ (domainsWith res 0).length = 1 := by
      constructor
      · rintro ⟨ds, hds⟩
        rcases Nat.lt_trichotomy (domainsWith res 0).length 1 with h | h | h
        · rw [k0 (by omega)] at hds; cases hds
        · exact h
        · rw [k2 h] at hds; cases hds
      · intro h
        rw [k1 h]
        obtain ⟨r', hr', _⟩ := groundLoop_spec (expectedTreeEdges res) res hs.1 hs.2
          (expected_share hs.1)
        exact ⟨r', hr'⟩
    refine ⟨?_, ?_⟩
    · rw [hok, domainsWith_length_one hs.1]
      constructor
      · rintro ⟨p, ⟨hp, h0⟩, hu⟩
        obtain ⟨k, e, hk, hkm, hel, _⟩ := hb.domain hg hp
        refine ⟨⟨k, ((hel k).mp hkm).1, (hb.near hg hp hkm 0).mp h0⟩, ?_⟩
        intro i j hi hj ti tj
        obtain ⟨q, hq, hqi⟩ := hb.exists_domain hg i hi
        obtain ⟨q', hq', hqj⟩ := hb.exists_domain hg j hj
        have e1 := hu q ⟨hq, (hb.near hg hq hqi 0).mpr ti⟩
        have e2 := hu q' ⟨hq', (hb.near hg hq' hqj 0).mpr tj⟩
        rw [e1] at hqi; rw [e2] at hqj
        exact (elemChain_symm ((hel i).mp hqi).2).trans ((hel j).mp hqj).2
      · rintro ⟨⟨i, hi, ti⟩, hu⟩
        obtain ⟨p, hp, hpi⟩ := hb.exists_domain hg i hi
        refine ⟨p, ⟨hp, (hb.near hg hp hpi 0).mpr ti⟩, ?_⟩
        rintro q ⟨hq, hq0⟩
        obtain ⟨k, e, hk, hkm, hel, _⟩ := hb.domain hg hq
        have tk := (hb.near hg hq hkm 0).mp hq0
        have hch := hu k i ((hel k).mp hkm).1 hi tk ti
        exact hb.unique_domain hg i q hq p hp ((hel i).mpr ⟨hi, hch⟩) hpi
    · intro hn
      rw [hok] at hn
      rcases Nat.lt_trichotomy (domainsWith res 0).length 1 with h | h | h
      · exact ⟨_, k0 (by omega)⟩
      · exact absurd h hn
      · exact ⟨_, k2 h⟩

/-- **C22, messages.** What the error says: that the model is not closed; that no part of the mesh is touched by conductor
0; that more than one is. -/
theorem C22_messages (m : Model 𝕜) :
    (∀ o, m.determineOpenness = .ok o → o ≠ .closed →
      buildDomains m = .throw (.runtimeError "Domains can only be determined for closed problems.")) ∧
    (m.determineOpenness = .ok .closed → GoodElems m.mesh.elems →
      (∀ p ∈ m.materials.pecs, ∃ c, getMaterialIdFromName p.name = .ok c ∧ c ≠ -1) →
      ((∀ i, i < m.mesh.elems.length → ¬ Touches m 0 (VertexNear m.mesh.elems i)) →
        buildDomains m = .throw (.runtimeError "Conductor 0 is not present")) ∧
      ((∃ i j, i < m.mesh.elems.length ∧ j < m.mesh.elems.length ∧ Touches m 0 (VertexNear m.mesh.elems i) ∧
          Touches m 0 (VertexNear m.mesh.elems j) ∧ ¬ ElemChain m.mesh.elems i j) →
        buildDomains m = .throw (.runtimeError "Conductor 0 must be only in a single domain."))) := by
  refine ⟨fun o ho hne => ?_, fun hc hg hid => ?_⟩
  · unfold buildDomains
    rw [ho, Outcome.ok_bind, if_pos hne]
    rfl
  · obtain ⟨res, hb, hgr, hm1, k1, k0, k2⟩ := buildDomains_eq hc hg hid
    have hs := hb.sorted
    obtain ⟨hiff, _⟩ := (C22_conductor0 m).2 hc hg hid
    have hok : (domainsWith res 0).length = 1 → ∃ ds, buildDomains m = .ok ds := by
      intro h
      rw [k1 h]
      obtain ⟨r', hr', _⟩ := groundLoop_spec (expectedTreeEdges res) res hs.1 hs.2 (expected_share hs.1)
      exact ⟨r', hr'⟩
    have some : 0 < (domainsWith res 0).length → ∃ i, i < m.mesh.elems.length ∧ Touches m 0 (VertexNear m.mesh.elems i) := by
      intro h
      obtain ⟨c, hcm⟩ := List.exists_mem_of_length_pos h
      obtain ⟨p, hp, _⟩ := List.mem_map.mp hcm
      obtain ⟨hp, h0⟩ := List.mem_filter.mp hp
      obtain ⟨k, e, hk, hkm, hel, _⟩ := hb.domain hg hp
      exact ⟨k, ((hel k).mp hkm).1, (hb.near hg hp hkm 0).mp (of_decide_eq_true h0)⟩
    constructor
    · intro h
      refine k0 (Nat.eq_zero_of_not_pos fun hpos => ?_)
      obtain ⟨i, hi, ht⟩ := some hpos
      exact h i hi ht
    · rintro ⟨i, j, hi, hj, ti, tj, hn⟩
      refine k2 ?_
      obtain ⟨p, hp, hpi⟩ := hb.exists_domain hg i hi
      have h0 : 0 < (domainsWith res 0).length := by
        refine List.length_pos_of_mem (a := p.1) (List.mem_map.mpr ⟨p, List.mem_filter.mpr ⟨hp, ?_⟩, rfl⟩)
        exact decide_eq_true ((hb.near hg hp hpi 0).mpr ti)
      have h1 : (domainsWith res 0).length ≠ 1 := fun h => hn ((hiff.mp (hok h)).2 i j hi hj ti tj)
      omega

/-! ## C23 -/

/-- **C23, partial.** If the domains are nested around the one of conductor 0 and every domain has a higher
number than the one that encloses it, then the grounds are as documented. Missing (false, see
`C23_refuted`): any other numbering; the number of a domain depends on the order of the mesh elements. -/
theorem C23_grounds_partial (m : Model 𝕜) (hne : ∀ e ∈ m.mesh.elems, e.verts ≠ [])
    (hid : ∀ p ∈ m.materials.pecs, ∃ c, getMaterialIdFromName p.name = .ok c ∧ c ≠ -1)
    (ds : IdToDomain) (h : buildDomains m = .ok ds) (root : Int) (enclosing : Int → Int)
    (hn : Nesting ds root enclosing) (hnum : ∀ p ∈ ds, p.1 ≠ root → enclosing p.1 < p.1) :
    GroundsFollow ds root enclosing := by
  have hg := goodElems_of_ok h hne
  obtain ⟨_, hc, _, _⟩ := buildDomains_ok h
  obtain ⟨res, hb, hgr, hm1, k1, k0, k2⟩ := buildDomains_eq hc hg hid
  have hs := hb.sorted
  have h1 : (domainsWith res 0).length = 1 := by
    rcases Nat.lt_trichotomy (domainsWith res 0).length 1 with h' | h' | h'
    · rw [k0 (by omega)] at h; cases h
    · exact h'
    · rw [k2 h'] at h; cases h
  rw [k1 h1] at h
  obtain ⟨r', hr', hstrip, hgs⟩ := groundLoop_spec (expectedTreeEdges res) res hs.1 hs.2
    (expected_share hs.1)
  rw [hr'] at h
  cases h
  have hs' : SMap.Sorted ds := sorted_of_strip_eq hstrip hs.1
  have hdw : ∀ c, domainsWith res c = domainsWith ds c := fun c => (domainsWith_of_strip_eq hstrip c).symm
  -- the minimal domain of a shared conductor is the enclosing one of the others
  have hmin : ∀ c a b, a ∈ domainsWith ds c → (∀ d ∈ domainsWith ds c, a ≤ d) → b ∈ domainsWith ds c →
      a ≠ b → b ≠ root ∧ enclosing b = a := by
    intro c a b ha hm hbm hab
    obtain ⟨x, hx, hx2⟩ := mem_domainsWith.mp ha
    obtain ⟨y, hy, hy2⟩ := mem_domainsWith.mp hbm
    obtain ⟨t, z, hz, hz2, hall⟩ := hn.shield c a b hab ⟨x, y, hx, hy, hx2, hy2⟩
    have hat : a = t := by
      by_contra hne'
      have h2 := hall (a, x) hx hx2 hne'
      have h3 := hnum (a, x) hx h2.1
      have h4 := hm t (mem_domainsWith.mpr ⟨z, hz, hz2⟩)
      simp only at h2 h3
      rw [h2.2] at h3
      omega
    subst hat
    exact hall (b, y) hy hy2 (fun e => hab e.symm)
  obtain ⟨r, hr, hr0⟩ := hn.root_mem
  intro p hp
  rcases hgs p hp with ⟨q, hq, hq1, hq2, hno⟩ | ⟨e, he, he2, hsh⟩
  · refine ⟨?_, ?_⟩
    · intro hpr
      have hpe : p = (root, r) := by
        have a := SMap.find?_of_mem hs' (show (p.1, p.2) ∈ ds from hp)
        rw [hpr, SMap.find?_of_mem hs' hr] at a
        cases p; simp only at hpr a; rw [hpr]; cases a; rfl
      obtain ⟨q', hq', b1, b2, _⟩ := mem_of_strip_eq hstrip hp
      have hqq : q = q' := by
        have a := SMap.find?_of_mem hs.1 (show (q.1, q.2) ∈ res from hq)
        have a' := SMap.find?_of_mem hs.1 (show (q'.1, q'.2) ∈ res from hq')
        rw [hq1, ← b1, a'] at a
        cases q; cases q'; simp only at hq1 b1 a; subst hq1; subst b1; cases a; rfl
      rw [← hq2, hgr q hq, if_pos]
      rw [hqq, b2, hpe]; exact hr0
    · intro hpr c hc'
      exfalso
      obtain ⟨hne', _⟩ := hn.encl p hp hpr
      obtain ⟨t, z, hz, hz2, hall⟩ := hn.shield c _ _ hne' hc'
      obtain ⟨x, y, hx, hy, hx2, hy2⟩ := hc'
      have hpt : p.1 ≠ t := by
        intro e
        have h2 := hall (enclosing p.1, x) hx hx2 (by simp only; rw [← e]; exact hne')
        have h3 := hnum _ hx h2.1
        have h4 := hnum p hp hpr
        simp only at h2 h3
        rw [h2.2, ← e] at h3
        omega
      have htp : enclosing p.1 = t := (hall (p.1, y) hy hy2 hpt).2
      have hedge : (t, p.1) ∈ expectedTreeEdges res := by
        rw [mem_expectedTreeEdges hs.1]
        refine ⟨c, ?_, ?_, ?_, fun e => hpt e.symm⟩
        · rw [hdw]; exact mem_domainsWith.mpr ⟨z, hz, hz2⟩
        · intro d hd
          rw [hdw] at hd
          obtain ⟨w, hw, hw2⟩ := mem_domainsWith.mp hd
          by_cases hdt : d = t
          · omega
          · have h2 := hall (d, w) hw hw2 hdt
            have h3 := hnum _ hw h2.1
            simp only at h2 h3
            rw [h2.2] at h3
            omega
        · rw [hdw]; exact mem_domainsWith.mpr ⟨y, hy, hy2⟩
      exact hno _ hedge rfl
  · obtain ⟨a, b⟩ := e
    simp only at he2 hsh
    subst he2
    rw [mem_expectedTreeEdges hs.1] at he
    obtain ⟨c, ha, hm, hb', hab⟩ := he
    rw [hdw] at ha hb'
    obtain ⟨u1, u2⟩ := hmin c a p.1 ha (fun d hd => hm d (by rw [hdw]; exact hd)) hb' hab
    refine ⟨fun e => absurd e u1, ?_⟩
    intro _ c' hc'
    rw [u2] at hc'
    exact hn.one a p.1 _ _ hab (shares_of_strip hstrip.symm hsh) hc'

/-- **C23, exact.** In nested domains around the one of conductor 0 the grounds are as documented if and only if every domain has a higher number than
the one that encloses it. -/
theorem C23_exact_partial (m : Model 𝕜) (hne : ∀ e ∈ m.mesh.elems, e.verts ≠ [])
    (hid : ∀ p ∈ m.materials.pecs, ∃ c, getMaterialIdFromName p.name = .ok c ∧ c ≠ -1)
    (ds : IdToDomain) (h : buildDomains m = .ok ds) (root : Int) (enclosing : Int → Int) (hn : Nesting ds root enclosing) :
    GroundsFollow ds root enclosing ↔ ∀ p ∈ ds, p.1 ≠ root → enclosing p.1 < p.1 := by
  refine ⟨?_, C23_grounds_partial m hne hid ds h root enclosing hn⟩
  intro hgf p hp hpr
  have huniq := (C22_conductor0 m).1 ds h
  have hg := goodElems_of_ok h hne
  obtain ⟨_, hc, _, _⟩ := buildDomains_ok h
  obtain ⟨res, hb, hgr, hm1, k1, k0, k2⟩ := buildDomains_eq hc hg hid
  have hs := hb.sorted
  have h1 : (domainsWith res 0).length = 1 := by
    rcases Nat.lt_trichotomy (domainsWith res 0).length 1 with h' | h' | h'
    · rw [k0 (by omega)] at h; cases h
    · exact h'
    · rw [k2 h'] at h; cases h
  rw [k1 h1] at h
  obtain ⟨r', hr', hstrip, hgs⟩ := groundLoop_spec (expectedTreeEdges res) res hs.1 hs.2
    (expected_share hs.1)
  rw [hr'] at h
  cases h
  have hdw : ∀ c, domainsWith res c = domainsWith ds c := fun c => (domainsWith_of_strip_eq hstrip c).symm
  obtain ⟨hpe, c, hsh⟩ := hn.encl p hp hpr
  by_contra hlt
  have hlt : p.1 < enclosing p.1 := by omega
  obtain ⟨x, y, hx, hy, hcx, hcy⟩ := hsh
  have hpc : p.1 ∈ domainsWith ds c := mem_domainsWith.mpr ⟨y, hy, hcy⟩
  -- the first domain that has the conductor
  obtain ⟨a, ha, hamin⟩ : ∃ a ∈ domainsWith ds c, ∀ d ∈ domainsWith ds c, a ≤ d := by
    have hF : (domainsWith ds c).toFinset.Nonempty := ⟨p.1, List.mem_toFinset.mpr hpc⟩
    exact ⟨_, List.mem_toFinset.mp (Finset.min'_mem _ hF), fun d hd => Finset.min'_le _ _ (List.mem_toFinset.mpr hd)⟩
  obtain ⟨z, hz, hcz⟩ := mem_domainsWith.mp ha
  have hap := hamin _ hpc
  -- it is enclosed by another one that has the conductor
  have key : a ≠ root ∧ Shares ds (enclosing a) a c := by
    obtain ⟨t, w, hw, hcw, hall⟩ := hn.shield c _ _ hpe ⟨x, y, hx, hy, hcx, hcy⟩
    by_cases hat : a = t
    · have hpt : p.1 = t := by
        by_contra hpt
        have := (hall (p.1, y) hy hcy hpt).2
        simp only at this
        omega
      rw [hat, ← hpt]
      exact ⟨hpr, x, y, hx, hy, hcx, hcy⟩
    · obtain ⟨u1, u2⟩ := hall (a, z) hz hcz hat
      exact ⟨u1, w, z, by rw [u2]; exact hw, hz, hcw, hcz⟩
  have hgc : z.ground = c := (hgf (a, z) hz).2 key.1 c key.2
  rcases hgs (a, z) hz with ⟨q, hq, hq1, hq2, -⟩ | ⟨e, he, he2, hshe⟩
  · obtain ⟨q', hq', b1, b2, -⟩ := mem_of_strip_eq hstrip hz
    have : z.ground = 0 ∨ z.ground = -1 := by
      have hq2 : q.2.ground = z.ground := hq2
      rw [← hq2, hgr q hq]
      split
      · exact Or.inl rfl
      · exact Or.inr rfl
    rcases this with h0 | h0
    · obtain ⟨o, -, ho⟩ := huniq
      have e1 := ho (a, z) ⟨hz, by rw [← h0, hgc]; exact hcz⟩
      obtain ⟨x', y', hx', -, hcx', -⟩ := key.2
      have e2 := ho (enclosing a, x') ⟨hx', by rw [← h0, hgc]; exact hcx'⟩
      have := (hn.encl (a, z) hz key.1).1
      rw [← e2] at e1
      exact this (congrArg Prod.fst e1).symm
    · refine hm1 q' hq' ?_
      rw [b2, ← h0, hgc]
      exact hcz
  · obtain ⟨u, v⟩ := e
    simp only at he2 hshe
    subst he2
    obtain ⟨c', hu, hmin', hv, huv⟩ := (mem_expectedTreeEdges hs.1).mp he
    rw [hgc] at hshe
    obtain ⟨x', y', hx', -, hcx', -⟩ := hshe
    have l1 := hamin u (by rw [← hdw]; exact mem_domainsWith.mpr ⟨x', hx', hcx'⟩)
    have l2 := hmin' _ hv
    exact huv (le_antisymm l2 l1)

/-- Two triangles; the first boundary is shared by conductors 0 and 1, the second by 1 and 2. -/
def twoTriangles (ts : List (List Int)) : Model Int where
  mesh := { elems := ts.map (fun v => ⟨7, v, 1⟩)
            bdr := [⟨1, [0, 1], 1⟩, ⟨2, [1, 2], 1⟩, ⟨2, [2, 0], 1⟩, ⟨2, [3, 4], 1⟩, ⟨2, [4, 5], 1⟩, ⟨3, [5, 3], 1⟩]
            coord := fun _ => (0, 0) }
  materials := { pecs := [⟨"Conductor_0", 1, 0⟩, ⟨"Conductor_1", 2, 0⟩, ⟨"Conductor_2", 3, 0⟩] }

theorem buildDomains_good : buildDomains (twoTriangles [[0, 1, 2], [3, 4, 5]]) =
    .ok [(0, ⟨0, [0, 1], [0], [0, 1, 2]⟩), (1, ⟨1, [1, 2], [1], [3, 4, 5]⟩)] :=
  buildDomainsFuel_eq (k := 100) (by decide +kernel)

theorem buildDomains_bad : buildDomains (twoTriangles [[3, 4, 5], [0, 1, 2]]) =
    .ok [(0, ⟨-1, [1, 2], [0], [3, 4, 5]⟩), (1, ⟨1, [0, 1], [1], [0, 1, 2]⟩)] :=
  buildDomainsFuel_eq (k := 100) (by decide +kernel)

/-- the hypotheses of C20–C23 are met by a model with two nested domains -/
example : ∃ ds, buildDomains (twoTriangles [[0, 1, 2], [3, 4, 5]]) = .ok ds ∧
    (∀ e ∈ (twoTriangles [[0, 1, 2], [3, 4, 5]]).mesh.elems, e.verts ≠ []) ∧
    (∀ p ∈ (twoTriangles [[0, 1, 2], [3, 4, 5]]).materials.pecs,
      ∃ c, getMaterialIdFromName p.name = .ok c ∧ c ≠ -1) ∧
    Nesting ds 0 (fun _ => 0) ∧ ∀ p ∈ ds, p.1 ≠ 0 → (fun _ => 0) p.1 < p.1 := by
  refine ⟨_, buildDomains_good, by decide, ?_, ?_, by decide⟩
  · intro p hp
    simp only [twoTriangles, List.mem_cons, List.not_mem_nil, or_false] at hp
    rcases hp with rfl | rfl | rfl
    · exact ⟨0, by decide +kernel, by decide⟩
    · exact ⟨1, by decide +kernel, by decide⟩
    · exact ⟨2, by decide +kernel, by decide⟩
  · have hsh : ∀ a b c, Shares [(0, ⟨0, [0, 1], [0], [0, 1, 2]⟩), (1, ⟨1, [1, 2], [1], [3, 4, 5]⟩)] a b c →
        a ≠ b → c = 1 := by
      rintro a b c ⟨x, y, hx, hy, hcx, hcy⟩ hab
      simp only [List.mem_cons, Prod.mk.injEq, List.not_mem_nil, or_false] at hx hy
      rcases hx with ⟨rfl, rfl⟩ | ⟨rfl, rfl⟩ <;> rcases hy with ⟨rfl, rfl⟩ | ⟨rfl, rfl⟩ <;>
        simp at hab hcx hcy <;> omega
    refine ⟨⟨_, List.mem_cons_self .., by decide⟩, ?_, ?_, ?_⟩
    · intro p hp hpr
      simp only [List.mem_cons, List.not_mem_nil, or_false] at hp
      rcases hp with rfl | rfl
      · simp at hpr
      · exact ⟨by decide, 1, _, _, List.mem_cons_self .., List.mem_cons_of_mem _ (List.mem_cons_self ..),
          by decide, by decide⟩
    · intro c a b hab hs
      have := hsh a b c hs hab
      subst this
      refine ⟨0, _, List.mem_cons_self .., by decide, ?_⟩
      intro q hq _ hq0
      exact ⟨hq0, rfl⟩
    · intro a b c c' hab h1 h2
      rw [hsh a b c h1 hab, hsh a b c' h2 hab]

/-- **C23, refuted.** The same two nested domains with the elements listed in the other order: the domain of
conductor 0 gets ground 1 and the other one keeps ground -1. -/
theorem C23_refuted : ∃ (m : Model Int) (ds : IdToDomain), buildDomains m = .ok ds ∧
    (∃ p ∈ ds, (0 : Int) ∈ p.2.conductorIds ∧ p.2.ground = 1) ∧
    (∃ p ∈ ds, p.2.conductorIds = [1, 2] ∧ p.2.ground = -1) ∧
    ∃ root enclosing, Nesting ds root enclosing ∧ ¬ GroundsFollow ds root enclosing := by
  refine ⟨_, _, buildDomains_bad, by decide, by decide, 1, fun _ => 1, ?_, ?_⟩
  · have hsh : ∀ a b c, Shares [(0, ⟨-1, [1, 2], [0], [3, 4, 5]⟩), (1, ⟨1, [0, 1], [1], [0, 1, 2]⟩)] a b c →
        a ≠ b → c = 1 := by
      rintro a b c ⟨x, y, hx, hy, hcx, hcy⟩ hab
      simp only [List.mem_cons, Prod.mk.injEq, List.not_mem_nil, or_false] at hx hy
      rcases hx with ⟨rfl, rfl⟩ | ⟨rfl, rfl⟩ <;> rcases hy with ⟨rfl, rfl⟩ | ⟨rfl, rfl⟩ <;>
        simp at hab hcx hcy <;> omega
    refine ⟨⟨_, List.mem_cons_of_mem _ (List.mem_cons_self ..), by decide⟩, ?_, ?_, ?_⟩
    · intro p hp hpr
      simp only [List.mem_cons, List.not_mem_nil, or_false] at hp
      rcases hp with rfl | rfl
      · exact ⟨by decide, 1, _, _, List.mem_cons_of_mem _ (List.mem_cons_self ..), List.mem_cons_self ..,
          by decide, by decide⟩
      · simp at hpr
    · intro c a b hab hs
      have := hsh a b c hs hab
      subst this
      refine ⟨1, _, List.mem_cons_of_mem _ (List.mem_cons_self ..), by decide, ?_⟩
      intro q hq _ hq0
      exact ⟨hq0, rfl⟩
    · intro a b c c' hab h1 h2
      rw [hsh a b c h1 hab, hsh a b c' h2 hab]
  · intro hf
    have := (hf (1, ⟨1, [0, 1], [1], [0, 1, 2]⟩) (by simp)).1 rfl
    simp at this

end Tulip.Props
