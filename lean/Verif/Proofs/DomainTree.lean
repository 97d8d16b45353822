import Verif.Proofs.DomainMesh

/-! # The domain tree and the grounds -/

namespace Tulip
open Spec DGraph

/-! ## Conductor 0 -/

theorem checkConductor0_spec (ds : IdToDomain) : ∀ (found : Bool),
    checkConductor0 ds found =
      (let n := (domainsWith ds 0).length + (if found then 1 else 0)
       if n = 0 then .ok false else if n = 1 then .ok true
       else .throw (.runtimeError "Conductor 0 must be only in a single domain.")) := by
  induction ds with
  | nil => intro found; cases found <;> simp [checkConductor0, domainsWith]
  | cons a t ih =>
    obtain ⟨k, d⟩ := a
    intro found
    have hd : (domainsWith ((k, d) :: t) 0).length =
        (if (0 : Int) ∈ d.conductorIds then 1 else 0) + (domainsWith t 0).length := by
      unfold domainsWith
      rw [List.filter_cons]
      by_cases h : (0 : Int) ∈ d.conductorIds <;> simp [h]; omega
    rw [checkConductor0]
    by_cases h : (0 : Int) ∈ d.conductorIds
    · have hc : d.conductorIds.contains 0 = true := by simpa using h
      rw [if_pos hc]
      cases found with
      | true =>
        simp only [if_true, hd, if_pos h]
        rw [if_neg (by omega), if_neg (by omega)]
      | false =>
        simp only [Bool.false_eq_true, if_false, ih, hd, if_pos h, if_true]
        have : (domainsWith t 0).length + 1 = 1 + (domainsWith t 0).length + 0 := by omega
        rw [this]
    · have hc : ¬ d.conductorIds.contains 0 = true := by simpa using h
      rw [if_neg hc, ih, hd, if_neg h, Nat.zero_add]

/-! ## The multimap -/

/-- sorted by key -/
def MMSorted (m : List (Int × Int)) : Prop := m.Pairwise (fun a b => a.1 ≤ b.1)

theorem mem_mmEmplace {m : List (Int × Int)} {k v : Int} {x : Int × Int} :
    x ∈ mmEmplace m k v ↔ x = (k, v) ∨ x ∈ m := by
  induction m with
  | nil => simp [mmEmplace]
  | cons a t ih =>
    rw [mmEmplace]
    split
    · simp
    · simp only [List.mem_cons, ih]; tauto

theorem MMSorted.mmEmplace {m : List (Int × Int)} (h : MMSorted m) (k v : Int) :
    MMSorted (mmEmplace m k v) := by
  induction m with
  | nil => exact List.pairwise_singleton _ _
  | cons a t ih =>
    have h1 := (List.pairwise_cons.mp h).1
    rw [Tulip.mmEmplace]
    split
    · rename_i hlt
      refine List.pairwise_cons.mpr ⟨?_, h⟩
      intro b hb
      rcases List.mem_cons.mp hb with rfl | hb
      · exact le_of_lt hlt
      · exact le_trans (le_of_lt hlt) (h1 b hb)
    · rename_i hlt
      refine List.pairwise_cons.mpr ⟨?_, ih (List.pairwise_cons.mp h).2⟩
      intro b hb
      rcases mem_mmEmplace.mp hb with rfl | hb
      · exact not_lt.mp hlt
      · exact h1 b hb

theorem filter_mmEmplace {m : List (Int × Int)} (h : MMSorted m) (k v c : Int) :
    (mmEmplace m k v).filter (fun p => p.1 = c) =
      m.filter (fun p => p.1 = c) ++ (if k = c then [(k, v)] else []) := by
  induction m with
  | nil => rw [mmEmplace]; by_cases e : k = c <;> simp [e]
  | cons a t ih =>
    have h1 := (List.pairwise_cons.mp h).1
    obtain ⟨k', v'⟩ := a
    rw [mmEmplace]
    split
    · rename_i hlt
      by_cases e : k = c
      · subst e
        have hnil : ((k', v') :: t).filter (fun p => decide (p.1 = k)) = [] := by
          rw [List.filter_eq_nil_iff]
          intro p hp
          simp only [decide_eq_true_eq]
          rcases List.mem_cons.mp hp with rfl | hp
          · simp only; omega
          · have := h1 p hp; simp only at this; omega
        rw [List.filter_cons, hnil]; simp
      · rw [List.filter_cons]; simp [e]
    · rw [List.filter_cons, ih (List.pairwise_cons.mp h).2, List.filter_cons]
      split <;> simp

theorem foldl_mmEmplace (cs : List Int) (hn : cs.Nodup) (d : Int) : ∀ (m : List (Int × Int)),
    MMSorted m → MMSorted (cs.foldl (fun m c => mmEmplace m c d) m) ∧
    (∀ c, (cs.foldl (fun m c => mmEmplace m c d) m).filter (fun p => p.1 = c) =
      m.filter (fun p => p.1 = c) ++ (if c ∈ cs then [(c, d)] else [])) ∧
    (∀ x, x ∈ cs.foldl (fun m c => mmEmplace m c d) m ↔ x ∈ m ∨ (x.1 ∈ cs ∧ x.2 = d)) := by
  induction cs with
  | nil => intro m hm; simp [hm]
  | cons c0 t ih =>
    intro m hm
    rw [List.nodup_cons] at hn
    obtain ⟨a, b, e⟩ := ih hn.2 _ (hm.mmEmplace c0 d)
    refine ⟨a, ?_, ?_⟩
    · intro c
      rw [List.foldl_cons, b, filter_mmEmplace hm]
      by_cases h : c0 = c
      · subst h; simp [hn.1]
      · simp [h, Ne.symm h]
    · intro x
      rw [List.foldl_cons, e, mem_mmEmplace]
      obtain ⟨x1, x2⟩ := x
      simp only [List.mem_cons, Prod.mk.injEq]
      tauto

theorem treeVertices_spec (ds : IdToDomain) : ∀ (g : DGraph) (m : List (Int × Int)), g.WF →
    MMSorted m → (∀ p ∈ ds, p.2.conductorIds.Nodup) → ds.keys.Nodup → (∀ k ∈ ds.keys, k ∉ g.verts) →
    (treeVertices ds g m).1.WF ∧ (treeVertices ds g m).1.verts = g.verts ++ ds.keys ∧
    (treeVertices ds g m).1.getEdgesAsPairs = g.getEdgesAsPairs ∧
    MMSorted (treeVertices ds g m).2 ∧
    (∀ c, (treeVertices ds g m).2.filter (fun p => p.1 = c) =
      m.filter (fun p => p.1 = c) ++ (domainsWith ds c).map (fun d => (c, d))) ∧
    (∀ c, c ∈ (treeVertices ds g m).2.map Prod.fst ↔
      c ∈ m.map Prod.fst ∨ c ∈ allConductors ds) := by
  induction ds with
  | nil => intro g m hg hm _ _ _; simp [treeVertices, hg, hm, SMap.keys, domainsWith, allConductors, SSet.ofList, SSet.insertAll]
  | cons a t ih =>
    obtain ⟨k, d⟩ := a
    intro g m hg hm hn hk hnew
    obtain ⟨f1, f2, f3⟩ := foldl_mmEmplace d.conductorIds (hn (k, d) (by simp)) k m hm
    have hkt : (k :: SMap.keys t).Nodup := hk
    rw [List.nodup_cons] at hkt
    have hkg : k ∉ g.verts := hnew k (by simp [SMap.keys])
    have hv : (g.addVertex k).verts = g.verts ++ [k] := by
      rw [addVertex_verts hg]; simp [insNew, hkg]
    obtain ⟨a1, a2, a3, a4, a5, a6⟩ := ih (g.addVertex k) _ (addVertex_wf hg k) f1
      (fun p hp => hn p (List.mem_cons_of_mem _ hp)) hkt.2 (by
        intro k' hk' hm'
        rw [hv] at hm'
        rcases List.mem_append.mp hm' with h | h
        · exact hnew k' (by simp [SMap.keys] at hk' ⊢; exact Or.inr hk') h
        · simp at h; subst h; exact hkt.1 hk')
    refine ⟨a1, ?_, ?_, a4, ?_, ?_⟩
    · rw [treeVertices, a2, hv]; simp [SMap.keys]
    · rw [treeVertices, a3, addVertex_pairs hg]
    · intro c
      rw [treeVertices, a5, f2]
      unfold domainsWith
      rw [List.filter_cons]
      by_cases h : c ∈ d.conductorIds <;> simp [h]
    · intro c
      rw [treeVertices, a6]
      simp only [allConductors, SSet.mem_ofList, List.flatMap_cons, List.mem_append]
      have : c ∈ (d.conductorIds.foldl (fun m c => mmEmplace m c k) m).map Prod.fst ↔
          c ∈ m.map Prod.fst ∨ c ∈ d.conductorIds := by
        simp only [List.mem_map]
        constructor
        · rintro ⟨x, hx, rfl⟩
          rcases (f3 x).mp hx with h | h
          · exact Or.inl ⟨x, h, rfl⟩
          · exact Or.inr h.1
        · rintro (⟨x, hx, rfl⟩ | h)
          · exact ⟨x, (f3 x).mpr (Or.inl hx), rfl⟩
          · exact ⟨(c, k), (f3 _).mpr (Or.inr ⟨h, rfl⟩), rfl⟩
      rw [this]; tauto

/-! ## Grouping -/

theorem split_least {m : List (Int × Int)} (h : MMSorted m) {c : Int} (hc : ∀ p ∈ m, c ≤ p.1) :
    m = m.filter (fun p => p.1 = c) ++ m.filter (fun p => ¬ p.1 = c) := by
  induction m with
  | nil => rfl
  | cons a t ih =>
    have h1 := (List.pairwise_cons.mp h).1
    by_cases e : a.1 = c
    · conv_lhs => rw [ih (List.pairwise_cons.mp h).2 (fun p hp => hc p (List.mem_cons_of_mem _ hp))]
      simp [List.filter_cons, e]
    · have hgt : c < a.1 := lt_of_le_of_ne (hc a (by simp)) (Ne.symm e)
      have hnil : (a :: t).filter (fun p => decide (p.1 = c)) = [] := by
        rw [List.filter_eq_nil_iff]
        intro p hp
        simp only [decide_eq_true_eq]
        rcases List.mem_cons.mp hp with rfl | hp
        · exact e
        · have := h1 p hp; omega
      rw [hnil, List.nil_append]
      symm
      rw [List.filter_eq_self]
      intro p hp
      simp only [decide_eq_true_eq]
      rcases List.mem_cons.mp hp with rfl | hp
      · exact e
      · have := h1 p hp; omega

theorem grouping (cs : List Int) : SSet.Sorted cs → ∀ (m : List (Int × Int)), MMSorted m →
    (∀ p ∈ m, p.1 ∈ cs) → m = cs.flatMap (fun c => m.filter (fun p => p.1 = c)) := by
  induction cs with
  | nil =>
    intro _ m _ h
    cases m with
    | nil => rfl
    | cons a t => exact absurd (h a (by simp)) (by simp)
  | cons c t ih =>
    intro hs m hm h
    have h1 := (List.pairwise_cons.mp hs).1
    have hle : ∀ p ∈ m, c ≤ p.1 := by
      intro p hp
      rcases List.mem_cons.mp (h p hp) with e | e
      · omega
      · exact le_of_lt (h1 _ e)
    have hsplit := split_least hm hle
    have hm2 : MMSorted (m.filter (fun p => ¬ p.1 = c)) := hm.filter _
    have hrec := ih (List.pairwise_cons.mp hs).2 _ hm2 (by
      intro p hp
      rw [List.mem_filter] at hp
      rcases List.mem_cons.mp (h p hp.1) with e | e
      · simp [e] at hp
      · exact e)
    rw [List.flatMap_cons]
    conv_lhs => rw [hsplit, hrec]
    congr 1
    apply List.flatMap_congr
    intro c' hc'
    rw [List.filter_filter]
    apply List.filter_congr
    intro p _
    have : c < c' := h1 c' hc'
    simp only [Bool.decide_and, decide_not, Bool.and_eq_left_iff_imp, decide_eq_true_eq, Bool.not_eq_eq_eq_not,
      Bool.not_true, decide_eq_false_iff_not]
    intro h; omega

/-! ## The edge loop -/

theorem addVertex_of_mem {g : DGraph} (hg : g.WF) {v : Int} (h : v ∈ g.verts) : g.addVertex v = g := by
  unfold addVertex; rw [if_pos ((hg.contains_iff v).mpr h)]

theorem addEdge_ok {g : DGraph} (hg : g.WF) {a b : Int} (hab : a ≠ b) (ha : a ∈ g.verts)
    (hb : b ∈ g.verts) : ∃ g', g.addEdge a b = (g', none) ∧ g'.WF ∧ g'.verts = g.verts ∧
      g'.getEdgesAsPairs = g.getEdgesAsPairs ++ [(a, b)] := by
  refine ⟨(g.addEdge a b).1, ?_, addEdge_wf hg a b, ?_, addEdge_pairs hg hab⟩
  · have := addEdge_snd g a b
    rw [if_neg hab] at this
    rw [← this]
  · rw [addEdge_verts hg hab]
    simp [insNew, ha, hb]

theorem treeEdges_star (c d0 : Int) (ds : List Int) : ∀ (g : DGraph) (rest : List (Int × Int)), g.WF →
    d0 ∈ g.verts → (∀ d ∈ ds, d ∈ g.verts ∧ d0 ≠ d) →
    ∃ g', treeEdges (ds.map (fun d => (c, d)) ++ rest) c d0 g = treeEdges rest c d0 g' ∧ g'.WF ∧
      g'.verts = g.verts ∧ g'.getEdgesAsPairs = g.getEdgesAsPairs ++ ds.map (fun d => (d0, d)) := by
  induction ds with
  | nil => intro g rest hg _ _; exact ⟨g, by simp, hg, rfl, by simp⟩
  | cons d t ih =>
    intro g rest hg h0 hd
    obtain ⟨hdv, hne⟩ := hd d (by simp)
    obtain ⟨g1, e1, w1, v1, p1⟩ := addEdge_ok hg hne h0 hdv
    obtain ⟨g2, e2, w2, v2, p2⟩ := ih g1 rest w1 (by rw [v1]; exact h0)
      (fun x hx => by rw [v1]; exact hd x (List.mem_cons_of_mem _ hx))
    refine ⟨g2, ?_, w2, by rw [v2, v1], by rw [p2, p1]; simp⟩
    rw [← e2]
    simp only [List.map_cons, List.cons_append, treeEdges, if_true, e1]

theorem treeEdges_groups (grp : Int → List Int) : ∀ (cs : List Int), SSet.Sorted cs →
    ∀ (prevC prevD : Int) (g : DGraph), g.WF → prevC ∉ cs →
    (∀ c ∈ cs, (grp c).Nodup ∧ ∀ d ∈ grp c, d ∈ g.verts) →
    (∀ c ∈ cs, grp c ≠ []) →
    ∃ g', treeEdges (cs.flatMap (fun c => (grp c).map (fun d => (c, d)))) prevC prevD g = .ok g' ∧ g'.WF ∧
      g'.verts = g.verts ∧
      g'.getEdgesAsPairs = g.getEdgesAsPairs ++ cs.flatMap (fun c => starEdges (grp c)) := by
  intro cs
  induction cs with
  | nil => intro _ pc pd g hg _ _ _; exact ⟨g, by simp [treeEdges], hg, rfl, by simp⟩
  | cons c t ih =>
    intro hs pc pd g hg hpc hgrp hne
    have hsc := (List.pairwise_cons.mp hs).1
    cases hd : grp c with
    | nil => exact absurd hd (hne c (by simp))
    | cons d0 ds =>
      obtain ⟨hnd, hv⟩ := hgrp c (by simp)
      rw [hd] at hnd hv
      rw [List.nodup_cons] at hnd
      have hd0 := hv d0 (by simp)
      obtain ⟨g1, e1, w1, v1, p1⟩ := treeEdges_star c d0 ds g
        (t.flatMap (fun c => (grp c).map (fun d => (c, d)))) hg hd0
        (fun d hd' => ⟨hv d (List.mem_cons_of_mem _ hd'), fun e => hnd.1 (e ▸ hd')⟩)
      obtain ⟨g2, e2, w2, v2, p2⟩ := ih (List.pairwise_cons.mp hs).2 c d0 g1 w1
        (fun h => absurd (hsc c h) (lt_irrefl _))
        (fun c' hc' => by rw [v1]; exact hgrp c' (List.mem_cons_of_mem _ hc'))
        (fun c' hc' => hne c' (List.mem_cons_of_mem _ hc'))
      refine ⟨g2, ?_, w2, by rw [v2, v1], ?_⟩
      · rw [List.flatMap_cons, hd, List.map_cons, List.cons_append, treeEdges]
        have hcp : ¬ c = pc := fun h => hpc (by simp [h])
        rw [if_neg hcp, addVertex_of_mem hg hd0, e1, e2]
      · rw [p2, p1, List.flatMap_cons, hd]
        simp [starEdges]

theorem mem_domainsWith {ds : IdToDomain} {c d : Int} :
    d ∈ domainsWith ds c ↔ ∃ x, (d, x) ∈ ds ∧ c ∈ x.conductorIds := by
  simp only [domainsWith, List.mem_map, List.mem_filter, decide_eq_true_eq]
  constructor
  · rintro ⟨⟨k, x⟩, ⟨h1, h2⟩, rfl⟩; exact ⟨x, h1, h2⟩
  · rintro ⟨x, h1, h2⟩; exact ⟨(d, x), ⟨h1, h2⟩, rfl⟩

theorem domainsWith_sorted {ds : IdToDomain} (h : SMap.Sorted ds) (c : Int) :
    (domainsWith ds c).Pairwise (· < ·) := by
  unfold domainsWith
  rw [List.pairwise_map]
  exact h.filter _

theorem mem_allConductors {ds : IdToDomain} {c : Int} :
    c ∈ allConductors ds ↔ ∃ p ∈ ds, c ∈ p.2.conductorIds := by
  simp [allConductors]

/-- The constructor of `DomainTree`. -/
theorem domainTree_spec {ds : IdToDomain} (h : DomainsSorted ds)
    (hm1 : ∀ p ∈ ds, (-1 : Int) ∉ p.2.conductorIds) :
    ((domainsWith ds 0).length = 1 → ∃ g, domainTree ds = .ok g ∧ g.WF ∧ g.verts = ds.keys ∧
      g.getEdgesAsPairs = expectedTreeEdges ds) ∧
    ((domainsWith ds 0).length = 0 → domainTree ds = .throw (.runtimeError "Conductor 0 is not present")) ∧
    (2 ≤ (domainsWith ds 0).length → domainTree ds =
      .throw (.runtimeError "Conductor 0 must be only in a single domain.")) := by
  refine ⟨?_, ?_, ?_⟩
  · intro h1
    have hc : checkConductor0 ds false = .ok true := by rw [checkConductor0_spec]; simp [h1]
    obtain ⟨a1, a2, a3, a4, a5, a6⟩ := treeVertices_spec ds DGraph.empty [] wf_empty List.Pairwise.nil
      (fun p hp => (h.2 p hp).nodup) h.1.keys_nodup (by simp [DGraph.empty])
    have hsorted : SSet.Sorted (allConductors ds) := SSet.sorted_ofList _
    have hgr := grouping (allConductors ds) hsorted _ a4 (by
      intro p hp
      have := (a6 p.1).mp (List.mem_map_of_mem hp)
      simpa using this)
    have hgr2 : (treeVertices ds DGraph.empty []).2 =
        (allConductors ds).flatMap (fun c => (domainsWith ds c).map (fun d => (c, d))) := by
      conv_lhs => rw [hgr]
      apply List.flatMap_congr
      intro c _
      rw [a5]; simp
    have hverts : (treeVertices ds DGraph.empty []).1.verts = ds.keys := by
      rw [a2]; simp [DGraph.empty]
    obtain ⟨g, e, w, v, p⟩ := treeEdges_groups (domainsWith ds) (allConductors ds) hsorted (-1) (-1)
      (treeVertices ds DGraph.empty []).1 a1
      (by
        intro hmem
        obtain ⟨q, hq, hq2⟩ := mem_allConductors.mp hmem
        exact hm1 q hq hq2)
      (by
        intro c _
        refine ⟨(domainsWith_sorted h.1 c).imp (fun h => ne_of_lt h), ?_⟩
        intro d hd
        rw [hverts]
        obtain ⟨x, hx, _⟩ := mem_domainsWith.mp hd
        exact List.mem_map_of_mem (f := Prod.fst) hx)
      (by
        intro c hc
        obtain ⟨q, hq, hq2⟩ := mem_allConductors.mp hc
        intro hnil
        have : q.1 ∈ domainsWith ds c := mem_domainsWith.mpr ⟨q.2, hq, hq2⟩
        rw [hnil] at this; simp at this)
    refine ⟨g, ?_, w, by rw [v, hverts], ?_⟩
    · unfold domainTree
      rw [hc, Outcome.ok_bind]
      simp only [Bool.not_true, Bool.false_eq_true, if_false]
      rw [hgr2]; exact e
    · rw [p, a3]
      simp [expectedTreeEdges, DGraph.empty, getEdgesAsPairs]
  · intro h0
    unfold domainTree
    rw [checkConductor0_spec]; simp [h0]
  · intro h2
    unfold domainTree
    rw [checkConductor0_spec]
    simp only [Bool.false_eq_true, if_false, Nat.add_zero]
    rw [if_neg (by omega), if_neg (by omega)]; rfl

theorem mem_starEdges {l : List Int} {a b : Int} :
    (a, b) ∈ starEdges l ↔ ∃ t, l = a :: t ∧ b ∈ t := by
  cases l with
  | nil => simp [starEdges]
  | cons d ds =>
    simp only [starEdges, List.mem_map, Prod.mk.injEq, List.cons.injEq]
    constructor
    · rintro ⟨x, hx, rfl, rfl⟩; exact ⟨ds, ⟨rfl, rfl⟩, hx⟩
    · rintro ⟨t, ⟨rfl, rfl⟩, hb⟩; exact ⟨b, hb, rfl, rfl⟩

/-- An edge joins the first domain with a conductor to a later one with it. -/
theorem mem_expectedTreeEdges {ds : IdToDomain} (h : SMap.Sorted ds) {a b : Int} :
    (a, b) ∈ expectedTreeEdges ds ↔
      ∃ c, a ∈ domainsWith ds c ∧ (∀ d ∈ domainsWith ds c, a ≤ d) ∧ b ∈ domainsWith ds c ∧ a ≠ b := by
  simp only [expectedTreeEdges, List.mem_flatMap, mem_starEdges]
  constructor
  · rintro ⟨c, _, t, hl, hb⟩
    have hs := domainsWith_sorted h c
    rw [hl] at hs
    have h1 := (List.pairwise_cons.mp hs).1
    refine ⟨c, by simp [hl], ?_, by simp [hl, hb], ?_⟩
    · intro d hd
      rw [hl] at hd
      rcases List.mem_cons.mp hd with rfl | hd
      · exact le_refl _
      · exact le_of_lt (h1 d hd)
    · have := h1 b hb; omega
  · rintro ⟨c, ha, hmin, hb, hab⟩
    have hs := domainsWith_sorted h c
    cases hl : domainsWith ds c with
    | nil => rw [hl] at ha; simp at ha
    | cons d t =>
      rw [hl] at hs ha hb hmin
      have h1 := (List.pairwise_cons.mp hs).1
      have hd : a = d := by
        rcases List.mem_cons.mp ha with e | e
        · exact e
        · have := h1 a e; have := hmin d (by simp); omega
      subst hd
      refine ⟨c, ?_, t, hl, ?_⟩
      · have : a ∈ domainsWith ds c := by rw [hl]; simp
        obtain ⟨x, hx, hx2⟩ := mem_domainsWith.mp this
        exact mem_allConductors.mpr ⟨_, hx, hx2⟩
      · rcases List.mem_cons.mp hb with e | e
        · exact absurd e.symm hab
        · exact e

/-! ## Grounds -/

/-- Everything but the ground. -/
def strip (p : Int × Domain) : Int × Domain := (p.1, { p.2 with ground := -1 })

theorem mem_of_strip_eq {r s : IdToDomain} (h : r.map strip = s.map strip) {p : Int × Domain}
    (hp : p ∈ r) : ∃ q ∈ s, q.1 = p.1 ∧ q.2.conductorIds = p.2.conductorIds ∧ q.2.elems = p.2.elems ∧
      q.2.bdrElems = p.2.bdrElems := by
  have h1 : strip p ∈ r.map strip := List.mem_map_of_mem hp
  rw [h, List.mem_map] at h1
  obtain ⟨q, hq, hs⟩ := h1
  simp only [strip, Prod.mk.injEq, Domain.mk.injEq, true_and] at hs
  exact ⟨q, hq, hs⟩

theorem keys_of_strip_eq {r s : IdToDomain} (h : r.map strip = s.map strip) : r.keys = s.keys := by
  have := congrArg (List.map Prod.fst) h
  simpa [SMap.keys, strip, List.map_map, Function.comp_def] using this

theorem domainsWith_of_strip_eq {r s : IdToDomain} (h : r.map strip = s.map strip) (c : Int) :
    domainsWith r c = domainsWith s c := by
  have key : ∀ r : IdToDomain, domainsWith r c =
      ((r.map strip).filter (fun p => decide (c ∈ p.2.conductorIds))).map Prod.fst := by
    intro r
    rw [List.filter_map, List.map_map]
    rfl
  rw [key r, key s, h]

theorem sorted_of_strip_eq {r s : IdToDomain} (h : r.map strip = s.map strip) (hs : SMap.Sorted s) :
    SMap.Sorted r := by
  have hk := keys_of_strip_eq h
  have := hs.keys_pairwise
  rw [← hk] at this
  unfold SMap.keys at this
  rw [List.pairwise_map] at this
  exact this

theorem set_of_mem {r : IdToDomain} (hs : SMap.Sorted r) {k : Int} {d d' : Domain} (h : (k, d) ∈ r) :
    r.set k d' = r.map (fun p => if p.1 = k then (k, d') else p) := by
  induction r with
  | nil => simp at h
  | cons a t ih =>
    obtain ⟨k', v'⟩ := a
    have h1 := hs.head_lt
    rw [SMap.set]
    rcases List.mem_cons.mp h with e | e
    · cases e
      rw [if_neg (lt_irrefl _), if_pos rfl, List.map_cons, if_pos rfl]
      congr 1
      symm
      have : t = t.map id := by simp
      conv_rhs => rw [this]
      apply List.map_congr_left
      intro p hp
      have := h1 p hp
      simp only at this
      rw [if_neg (by omega)]; rfl
    · have := h1 _ e
      simp only at this
      rw [if_neg (by omega), if_neg (by omega), ih hs.tail e, List.map_cons, if_neg (by simp; omega)]

theorem groundLoop_step {r : IdToDomain} (hs : SMap.Sorted r) {a b : Int} {x y : Domain}
    (ha : (a, x) ∈ r) (hb : (b, y) ∈ r) {c : Int} {cs : List Int}
    (hc : setIntersection x.conductorIds y.conductorIds = c :: cs) (es : List (Int × Int)) :
    groundLoop ((a, b) :: es) r =
      groundLoop es (r.map (fun p => if p.1 = b then (b, { y with ground := c }) else p)) := by
  rw [groundLoop]
  simp only [domainAt, SMap.find?_of_mem hs ha, SMap.find?_of_mem hs hb, hc, set_of_mem hs hb]

theorem strip_map_set {r : IdToDomain} {b : Int} {y : Domain} (hb : (b, y) ∈ r) (hs : SMap.Sorted r)
    (c : Int) :
    (r.map (fun p => if p.1 = b then (b, { y with ground := c }) else p)).map strip = r.map strip := by
  rw [List.map_map]
  apply List.map_congr_left
  rintro ⟨k, d⟩ hp
  simp only [Function.comp]
  split
  · rename_i e
    subst e
    have := SMap.find?_of_mem hs hp
    rw [SMap.find?_of_mem hs hb] at this
    cases this
    rfl
  · rfl

/-- General description of the ground loop. -/
theorem groundLoop_spec (es : List (Int × Int)) : ∀ (r : IdToDomain), SMap.Sorted r →
    (∀ p ∈ r, SSet.Sorted p.2.conductorIds) →
    (∀ e ∈ es, ∃ c, Shares r e.1 e.2 c) →
    ∃ r', groundLoop es r = .ok r' ∧ r'.map strip = r.map strip ∧
      ∀ p' ∈ r', (∃ p ∈ r, p.1 = p'.1 ∧ p.2.ground = p'.2.ground ∧ ∀ e ∈ es, e.2 ≠ p'.1) ∨
        ∃ e ∈ es, e.2 = p'.1 ∧ Shares r e.1 e.2 p'.2.ground := by
  induction es with
  | nil => intro r hs _ _; exact ⟨r, rfl, rfl, fun p hp => Or.inl ⟨p, hp, rfl, rfl, by simp⟩⟩
  | cons e t ih =>
    obtain ⟨a, b⟩ := e
    intro r hs hss hsh
    obtain ⟨c0, x, y, hx, hy, hcx, hcy⟩ := hsh (a, b) (by simp)
    have hmem : c0 ∈ setIntersection x.conductorIds y.conductorIds :=
      mem_setIntersection.mpr ⟨hcx, hcy⟩
    cases hc : setIntersection x.conductorIds y.conductorIds with
    | nil => rw [hc] at hmem; simp at hmem
    | cons c cs =>
      have hcm : c ∈ setIntersection x.conductorIds y.conductorIds := by rw [hc]; simp
      have hcm' := mem_setIntersection.mp hcm
      have hst := strip_map_set hy hs c
      generalize hr2 : r.map (fun p => if p.1 = b then (b, { y with ground := c }) else p) = r2 at hst
      have hs2 : SMap.Sorted r2 := sorted_of_strip_eq hst hs
      have shares_iff : ∀ {a b c}, Shares r2 a b c ↔ Shares r a b c := by
        intro a b c
        constructor
        · rintro ⟨u, v, h1, h2, h3, h4⟩
          obtain ⟨⟨_, u'⟩, hu, rfl, e1, _⟩ := mem_of_strip_eq hst h1
          obtain ⟨⟨_, v'⟩, hv, rfl, e2, _⟩ := mem_of_strip_eq hst h2
          simp only at e1 e2
          exact ⟨u', v', hu, hv, by rw [e1]; exact h3, by rw [e2]; exact h4⟩
        · rintro ⟨u, v, h1, h2, h3, h4⟩
          obtain ⟨⟨_, u'⟩, hu, rfl, e1, _⟩ := mem_of_strip_eq hst.symm h1
          obtain ⟨⟨_, v'⟩, hv, rfl, e2, _⟩ := mem_of_strip_eq hst.symm h2
          simp only at e1 e2
          exact ⟨u', v', hu, hv, by rw [e1]; exact h3, by rw [e2]; exact h4⟩
      obtain ⟨r', h1, h2, h3⟩ := ih r2 hs2
        (by
          intro p hp
          obtain ⟨q, hq, _, e1, _⟩ := mem_of_strip_eq hst hp
          rw [← e1]; exact hss q hq)
        (by
          intro e he
          obtain ⟨c, h⟩ := hsh e (List.mem_cons_of_mem _ he)
          exact ⟨c, shares_iff.mpr h⟩)
      refine ⟨r', ?_, h2.trans hst, ?_⟩
      · rw [groundLoop_step hs hx hy hc, hr2, h1]
      · intro p' hp'
        rcases h3 p' hp' with ⟨p, hp, e1, e2, e3⟩ | ⟨e, he, e1, e2⟩
        · rw [← hr2, List.mem_map] at hp
          obtain ⟨q, hq, hqp⟩ := hp
          by_cases hqb : q.1 = b
          · rw [if_pos hqb] at hqp
            subst hqp
            right
            refine ⟨(a, b), by simp, e1, ?_⟩
            simp only at e2
            rw [← e2]
            exact ⟨x, y, hx, hy, hcm'.1, hcm'.2⟩
          · rw [if_neg hqb] at hqp
            subst hqp
            left
            refine ⟨q, hq, e1, e2, ?_⟩
            intro e he
            rcases List.mem_cons.mp he with rfl | he
            · simp only; rw [← e1]; exact fun h => hqb h.symm
            · exact e3 e he
        · exact Or.inr ⟨e, List.mem_cons_of_mem _ he, e1, shares_iff.mp e2⟩

theorem setGround0_strip (r : IdToDomain) : (setGround0 r).map strip = r.map strip := by
  unfold setGround0
  rw [List.map_map]
  apply List.map_congr_left
  rintro ⟨k, d⟩ _
  simp only [Function.comp, strip]
  split <;> rfl

theorem mem_setGround0 {r : IdToDomain} {p : Int × Domain} (h : p ∈ setGround0 r) :
    ∃ q ∈ r, q.1 = p.1 ∧ q.2.conductorIds = p.2.conductorIds ∧
      p.2.ground = if (0 : Int) ∈ p.2.conductorIds then 0 else q.2.ground := by
  unfold setGround0 at h
  rw [List.mem_map] at h
  obtain ⟨q, hq, rfl⟩ := h
  refine ⟨q, hq, rfl, ?_, ?_⟩
  · simp only; split <;> rfl
  · simp only
    by_cases h0 : (0 : Int) ∈ q.2.conductorIds
    · have hc : q.2.conductorIds.contains 0 = true := by simpa using h0
      rw [if_pos hc]; simp [h0]
    · have hc : ¬ q.2.conductorIds.contains 0 = true := by simpa using h0
      rw [if_neg hc]; simp [h0]

end Tulip
