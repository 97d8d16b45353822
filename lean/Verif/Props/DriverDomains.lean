import Verif.Props.DriverQuery
import Verif.Props.DomainModel

/-!
# C26: parameters by domains
-/

set_option linter.unusedSectionVars false

namespace Tulip.Props
open Tulip Tulip.Spec

section
variable {𝕜 : Type} [Field 𝕜] [DecidableEq 𝕜] [LinearOrder 𝕜]

/-- `p` are the parameters a new driver answers for the model of one domain. -/
def DomainAnswer (E : Engine 𝕜) (model : Model 𝕜) (opts : DriverOptions) (domain : Domain) (p : PULParameters 𝕜) : Prop :=
  ∃ (sub : Model 𝕜) (mesh : Mesh 𝕜) (drv : Driver (E.fem sub opts)),
    buildModelForDomain model.mesh model.materials domain = .ok (sub, mesh) ∧
    (Driver.construct E sub opts).1 = .ok drv ∧ (Query.pulMTL.exec E drv).1 = .ok (.pul p)

theorem logged_bind_ok {α β : Type} {x : Logged 𝕜 α} {f : α → Logged 𝕜 β} {b : β} :
    (x >>= f).1 = .ok b ↔ ∃ a, x.1 = .ok a ∧ (f a).1 = .ok b := by
  show (Logged.bind x f).1 = .ok b ↔ _
  unfold Logged.bind
  rcases x with ⟨o, w⟩
  cases o with
  | ok a => exact ⟨fun h => ⟨a, rfl, h⟩, by rintro ⟨a', h, h'⟩; cases h; exact h'⟩
  | throw _ => exact ⟨fun h => (by cases h), by rintro ⟨_, h, _⟩; cases h⟩
  | ub => exact ⟨fun h => (by cases h), by rintro ⟨_, h, _⟩; cases h⟩
  | nonfinite => exact ⟨fun h => (by cases h), by rintro ⟨_, h, _⟩; cases h⟩

theorem exec_pul_ok {E : Engine 𝕜} {F : FEM 𝕜} {d : Driver F} {p : PULParameters 𝕜} :
    (Query.pulMTL.exec E d).1 = .ok (.pul p) ↔ (Driver.getPULMTL E d).1 = .ok p := by
  rw [exec_pulMTL]
  rcases (Driver.getPULMTL E d).1 with q | _ | _ | _
  · exact ⟨fun h => by cases h; rfl, fun h => by cases h; rfl⟩
  all_goals exact ⟨fun h => (by cases h), fun h => (by cases h)⟩

theorem domainPUL_ok {E : Engine 𝕜} {model : Model 𝕜} {opts : DriverOptions} {domain : Domain} {p : PULParameters 𝕜} :
    (Driver.domainPUL E model opts domain).1 = .ok p ↔ DomainAnswer E model opts domain p := by
  unfold Driver.domainPUL DomainAnswer
  rw [logged_bind_ok]
  constructor
  · rintro ⟨⟨sub, mesh⟩, h1, h2⟩
    obtain ⟨drv, h3, h4⟩ := logged_bind_ok.mp h2
    exact ⟨sub, mesh, drv, h1, h3, exec_pul_ok.mpr h4⟩
  · rintro ⟨sub, mesh, drv, h1, h3, h4⟩
    exact ⟨(sub, mesh), h1, logged_bind_ok.mpr ⟨drv, h3, exec_pul_ok.mp h4⟩⟩

theorem domainsPULLoop_ok {E : Engine 𝕜} {model : Model 𝕜} {opts : DriverOptions} :
    ∀ (l : List (Int × Domain)) (res r : SMap Int (PULParameters 𝕜)), SMap.Sorted l → SMap.Sorted res →
    ((Driver.domainsPULLoop E model opts l res).1 = .ok r ↔ SMap.Sorted r ∧
      (∀ id, SMap.find? l id = none → SMap.find? r id = SMap.find? res id) ∧
      (∀ id domain, SMap.find? l id = some domain → ∃ p, DomainAnswer E model opts domain p ∧
        SMap.find? r id = some p))
  | [], res, r, _, hres => by
    unfold Driver.domainsPULLoop
    constructor
    · intro h
      cases h
      exact ⟨hres, fun _ _ => rfl, fun _ _ h => by cases h⟩
    · rintro ⟨h1, h2, _⟩
      have : r = res := SMap.ext h1 hres (fun k => h2 k rfl)
      rw [this]
      rfl
  | (id, domain) :: t, res, r, hl, hres => by
    have ht : SMap.Sorted t := List.Pairwise.of_cons hl
    have hid : ∀ x, SMap.find? ((id, domain) :: t) x = if x = id then some domain else SMap.find? t x := by
      intro x
      rw [SMap.find?_cons]
      by_cases h : id = x
      · rw [if_pos h, if_pos h.symm]
      · rw [if_neg h, if_neg (fun h' => h h'.symm)]
    have htid : SMap.find? t id = none := SMap.find?_none_of_lt (fun b hb => SMap.Sorted.head_lt hl b hb)
    unfold Driver.domainsPULLoop
    rw [logged_bind_ok]
    constructor
    · rintro ⟨p, h1, h2⟩
      obtain ⟨k1, k2, k3⟩ := (domainsPULLoop_ok t _ r ht (hres.set id p)).mp h2
      refine ⟨k1, ?_, ?_⟩
      · intro x hx
        rw [hid] at hx
        split at hx
        · cases hx
        · next hne => rw [k2 x hx, SMap.find?_set hres, if_neg (fun h => hne h.symm)]
      · intro x dom hx
        rw [hid] at hx
        split at hx
        · next he =>
          cases hx
          subst he
          exact ⟨p, domainPUL_ok.mp h1, by rw [k2 _ htid, SMap.find?_set hres, if_pos rfl]⟩
        · exact k3 x dom hx
    · rintro ⟨k1, k2, k3⟩
      obtain ⟨p, h1, h2⟩ := k3 id domain (by rw [hid, if_pos rfl])
      refine ⟨p, domainPUL_ok.mpr h1, (domainsPULLoop_ok t _ r ht (hres.set id p)).mpr ⟨k1, ?_, ?_⟩⟩
      · intro x hx
        rw [SMap.find?_set hres]
        split
        · next he => subst he; exact h2
        · next hne => exact k2 x (by rw [hid, if_neg (fun h => hne h.symm)]; exact hx)
      · intro x dom hx
        refine k3 x dom ?_
        rw [hid, if_neg]
        · exact hx
        · rintro rfl
          rw [htid] at hx
          cases hx

theorem byDomains_ok {E : Engine 𝕜} {F : FEM 𝕜} {d : Driver F} {r : Driver.PULParametersByDomain 𝕜} :
    (Query.pulMTLByDomains.exec E d).1 = .ok (.pulByDomain r) ↔ ∃ ds, buildDomains d.model = .ok ds ∧
      (Driver.domainsPULLoop E d.model d.opts ds []).1 = .ok r.domainToPUL ∧ Tulip.domainTree ds = .ok r.domainTree := by
  have h0 : (Query.pulMTLByDomains.exec E d).1 =
      ((Driver.getPULMTLByDomains E d).1 >>= fun p => .ok (.pulByDomain p)) := map_fst _ _ d
  have h1 : (Query.pulMTLByDomains.exec E d).1 = .ok (.pulByDomain r) ↔ (Driver.getPULMTLByDomains E d).1 = .ok r := by
    rw [h0]
    rcases (Driver.getPULMTLByDomains E d).1 with q | _ | _ | _
    · exact ⟨fun h => by cases h; rfl, fun h => by cases h; rfl⟩
    all_goals exact ⟨fun h => (by cases h), fun h => (by cases h)⟩
  rw [h1]
  unfold Driver.getPULMTLByDomains
  rw [Act.read_bind, Act.read_bind]
  rcases hb : buildDomains d.model with ds | _ | _ | _
  · rw [Act.lift_ok_bind]
    have hl : ∀ (x : Logged 𝕜 (SMap Int (PULParameters 𝕜))) (g : SMap Int (PULParameters 𝕜) →
        Act F (Driver.PULParametersByDomain 𝕜)) (b : Driver.PULParametersByDomain 𝕜),
        ((Act.ofLogged x >>= g) d).1 = .ok b ↔ ∃ a, x.1 = .ok a ∧ (g a d).1 = .ok b := by
      intro x g b
      rw [bind_def]
      rcases x with ⟨o, w⟩
      cases o with
      | ok a => exact ⟨fun h => ⟨a, rfl, h⟩, by rintro ⟨a', h, h'⟩; cases h; exact h'⟩
      | throw _ => exact ⟨fun h => (by cases h), by rintro ⟨_, h, _⟩; cases h⟩
      | ub => exact ⟨fun h => (by cases h), by rintro ⟨_, h, _⟩; cases h⟩
      | nonfinite => exact ⟨fun h => (by cases h), by rintro ⟨_, h, _⟩; cases h⟩
    rw [hl]
    constructor
    · rintro ⟨m, hm1, h2⟩
      rcases ht : Tulip.domainTree ds with tree | _ | _ | _ <;> rw [ht] at h2
      · rw [Act.lift_ok_bind] at h2
        cases h2
        exact ⟨ds, rfl, hm1, ht⟩
      all_goals cases h2
    · rintro ⟨ds', h, h2, h3⟩
      cases h
      refine ⟨_, h2, ?_⟩
      rw [h3, Act.lift_ok_bind]
      rfl
  all_goals
    constructor
    · intro h; cases h
    · rintro ⟨_, h, _⟩; cases h

theorem domainTree_strip (r : IdToDomain) : Tulip.domainTree (r.map strip) = Tulip.domainTree r := by
  have h1 : ∀ (l : IdToDomain) b, checkConductor0 (l.map strip) b = checkConductor0 l b := by
    intro l
    induction l with
    | nil => intro b; rfl
    | cons p t ih =>
      intro b
      show (if p.2.conductorIds.contains 0 then if b then _ else checkConductor0 (t.map strip) true
        else checkConductor0 (t.map strip) b) = _
      rw [ih, ih]
      rfl
  have h2 : ∀ (l : IdToDomain) g m, treeVertices (l.map strip) g m = treeVertices l g m := by
    intro l
    induction l with
    | nil => intro g m; rfl
    | cons p t ih => intro g m; exact ih _ _
  unfold Tulip.domainTree
  rw [h1, h2]

theorem domainTree_of_buildDomains {m : Model 𝕜} {ds : IdToDomain} (h : buildDomains m = .ok ds) :
    ∃ tree, Tulip.domainTree ds = .ok tree := by
  have hb := (buildDomains_ok h).2.2.1
  unfold buildDomains at h
  rw [Outcome.bind_eq_ok] at h
  obtain ⟨o, _, h⟩ := h
  split at h
  · cases h
  · obtain ⟨g, _, h'⟩ := Outcome.bind_eq_ok.mp h
    obtain ⟨res, hres, h''⟩ := Outcome.bind_eq_ok.mp h'
    obtain ⟨tree, htree, h3⟩ := Outcome.bind_eq_ok.mp h''
    obtain ⟨ds0, h1, h2⟩ := domainsLoop_spec m _ 0 [] res (by simp) hres
    rw [List.nil_append] at h2
    have hst := groundLoop_ok_strip _ _ _
      (sorted_of_strip_eq (setGround0_strip res) (h2 ▸ numberFrom_sorted _ _)) h3
    exact ⟨tree, by rw [← domainTree_strip, hst, domainTree_strip]; exact htree⟩

/-- **C26** (partial: what holds; the calls that succeed never have two domains, see `C26_never`). The query succeeds
exactly when the domains can be determined and a driver for the model of each of them answers; it then returns exactly one
parameter set for each domain, that answer, and the tree of the domains. -/
theorem C26_domains_partial (E : Engine 𝕜) {F : FEM 𝕜} (d : Driver F) :
    (∀ r, (Query.pulMTLByDomains.exec E d).1 = .ok (.pulByDomain r) → ∃ ds, buildDomains d.model = .ok ds ∧
      Tulip.domainTree ds = .ok r.domainTree ∧ r.domainToPUL.map Prod.fst = ds.map Prod.fst ∧
      ∀ q ∈ ds, ∃ p, (q.1, p) ∈ r.domainToPUL ∧ DomainAnswer E d.model d.opts q.2 p) ∧
    (∀ ds, buildDomains d.model = .ok ds → (∀ q ∈ ds, ∃ p, DomainAnswer E d.model d.opts q.2 p) →
      ∃ r, (Query.pulMTLByDomains.exec E d).1 = .ok (.pulByDomain r)) := by
  constructor
  · intro r hr
    obtain ⟨ds, h1, h2, h3⟩ := byDomains_ok.mp hr
    have hs := (buildDomains_ok h1).2.2.1.sorted.1
    obtain ⟨k1, k2, k3⟩ := (domainsPULLoop_ok ds [] _ hs SMap.Sorted.nil).mp h2
    refine ⟨ds, h1, h3, ?_, ?_⟩
    · refine SSet.ext (SMap.Sorted.keys_pairwise k1) (SMap.Sorted.keys_pairwise hs) (fun x => ?_)
      show x ∈ SMap.keys _ ↔ x ∈ SMap.keys _
      rw [← SMap.find?_isSome_iff, ← SMap.find?_isSome_iff]
      rcases h : SMap.find? ds x with _ | dom
      · rw [k2 x h]; rfl
      · obtain ⟨p, _, hp⟩ := k3 x dom h
        rw [hp]; simp
    · intro q hq
      obtain ⟨p, hp, hf⟩ := k3 q.1 q.2 (SMap.find?_of_mem hs hq)
      exact ⟨p, SMap.mem_of_find? hf, hp⟩
  · intro ds h1 h2
    obtain ⟨tree, h3⟩ := domainTree_of_buildDomains h1
    have hs := (buildDomains_ok h1).2.2.1.sorted.1
    have key : ∀ (l : List (Int × Domain)) (res : SMap Int (PULParameters 𝕜)),
        (∀ q ∈ l, ∃ p, DomainAnswer E d.model d.opts q.2 p) →
        ∃ m, (Driver.domainsPULLoop E d.model d.opts l res).1 = .ok m := by
      intro l
      induction l with
      | nil => intro res _; exact ⟨res, rfl⟩
      | cons q t ih =>
        intro res hq
        obtain ⟨p, hp⟩ := hq q (List.mem_cons_self ..)
        obtain ⟨m, hm⟩ := ih (SMap.set res q.1 p) (fun x hx => hq x (List.mem_cons_of_mem _ hx))
        refine ⟨m, ?_⟩
        unfold Driver.domainsPULLoop
        exact logged_bind_ok.mpr ⟨p, domainPUL_ok.mpr hp, hm⟩
    obtain ⟨m, hm⟩ := key ds [] h2
    exact ⟨⟨tree, m⟩, byDomains_ok.mpr ⟨ds, h1, hm, h3⟩⟩

theorem face_vertices {vs : List Int} {f : Int × Int} (hf : f ∈ (vs.zip (vs.tail ++ vs.head?.toList)).map
    (fun p => faceKey p.1 p.2)) : ∃ a b, (a, b) ∈ cyclicPairs vs ∧ f = faceKey a b ∧ a ∈ vs ∧ b ∈ vs := by
  obtain ⟨⟨a, b⟩, h, rfl⟩ := List.mem_map.mp hf
  refine ⟨a, b, ?_, rfl, (List.of_mem_zip h).1, ?_⟩
  · cases vs with
    | nil => cases h
    | cons v t => exact h
  · have := (List.of_mem_zip h).2
    cases vs with
    | nil => cases this
    | cons v t =>
      rcases List.mem_append.mp this with h | h
      · exact List.mem_cons_of_mem _ h
      · rw [List.mem_singleton.mp h]; exact List.mem_cons_self ..

/-- **C26, refuted** for every model with two or more domains: if conductor 0 is only a boundary (its tag is no tag of
elements), the query fails. The driver of a domain without conductor 0 rejects its model. -/
theorem C26_never (E : Engine 𝕜) {F : FEM 𝕜} (d : Driver F) {ds : IdToDomain} (h : buildDomains d.model = .ok ds)
    (h2 : 2 ≤ ds.length) (hne : ∀ e ∈ d.model.mesh.elems, e.verts ≠ [])
    (hb : ∀ b ∈ d.model.mesh.bdr, b.verts.length = 2) (hd : DistinctNames d.model.materials)
    (htag : ∀ p ∈ d.model.materials.pecs, getMaterialIdFromName p.name = .ok 0 →
      ∀ e ∈ d.model.mesh.elems, e.attr ≠ p.tag) :
    ∀ a, (Query.pulMTLByDomains.exec E d).1 ≠ .ok a := by
  intro a ha
  have hr : ∃ r, (Query.pulMTLByDomains.exec E d).1 = .ok (.pulByDomain r) := by
    have h0 : (Query.pulMTLByDomains.exec E d).1 =
      ((Driver.getPULMTLByDomains E d).1 >>= fun p => .ok (.pulByDomain p)) := map_fst _ _ d
    rw [h0] at ha ⊢
    rcases hg : (Driver.getPULMTLByDomains E d).1 with q | _ | _ | _
    · exact ⟨q, rfl⟩
    all_goals (rw [hg] at ha; cases ha)
  obtain ⟨r, hr⟩ := hr
  obtain ⟨ds', h', _, _, hall⟩ := (C26_domains_partial E d).1 r hr
  rw [h] at h'
  cases h'
  obtain ⟨good, _, hbuilt, _⟩ := buildDomains_ok h
  have hs := hbuilt.sorted.1
  obtain ⟨q0, ⟨hq0, _⟩, huniq⟩ := (C22_conductor0 d.model).1 ds h
  have hq : ∃ q ∈ ds, (0 : Int) ∉ q.2.conductorIds := by
    by_contra hcon
    push Not at hcon
    match ds, h2 with
    | q1 :: q2 :: t, _ =>
      have e1 := huniq q1 ⟨List.mem_cons_self .., hcon _ (List.mem_cons_self ..)⟩
      have m2 : q2 ∈ q1 :: q2 :: t := List.mem_cons_of_mem _ (List.mem_cons_self ..)
      have e2 := huniq q2 ⟨m2, hcon _ m2⟩
      have := SMap.Sorted.head_lt hs q2 (List.mem_cons_self ..)
      rw [e1, e2] at this
      exact absurd this (lt_irrefl _)
  obtain ⟨q, hqm, hq0'⟩ := hq
  obtain ⟨p, _, sub, mesh, drv, hsub, hcon, _⟩ := hall q hqm
  have hfit : ∀ f ∈ exposedSides (elemsAt d.model.mesh.elems q.2.elems), ∃ b ∈ d.model.mesh.bdr, LiesOn b f := by
    by_contra hcon
    push Not at hcon
    rw [(C25_domain_model d.model.mesh d.model.materials hd q.2).2 hcon] at hsub
    cases hsub
  obtain ⟨sub', hsub', hel, _, hbd, hp, _⟩ := (C25_domain_model d.model.mesh d.model.materials hd q.2).1 hfit
  rw [hsub'] at hsub
  cases hsub
  have hnames : (d.model.materials.pecs.map PEC.name).Nodup := by
    unfold DistinctNames declared at hd
    simp only [List.map_append, List.map_map] at hd
    have := (List.nodup_append.mp (List.nodup_append.mp hd).1).1
    exact this
  obtain ⟨ps, hN, _⟩ := construct_ready E (by
    rw [hp]
    exact hnames.sublist (List.filter_sublist.map _)) hcon
  have hpos : 0 < ps.length := List.length_pos_iff.mpr hN.nonempty
  have hid := hN.ids 0 hpos
  have hmem := hN.all.mem_iff.mp (List.getElem_mem hpos)
  rw [hp, List.mem_filter] at hmem
  obtain ⟨hm1, hm2⟩ := hmem
  have hm2 : TagInMesh sub.mesh (ps[0].tag) := by simpa using hm2
  have hsubmem : ∀ e ∈ elemsAt d.model.mesh.elems q.2.elems, ∃ i, i ∈ q.2.elems ∧ d.model.mesh.elems[i]? = some e := by
    intro e he
    unfold elemsAt at he
    obtain ⟨x, hx, rfl⟩ := List.mem_map.mp he
    obtain ⟨hx1, hx2⟩ := List.mem_filter.mp hx
    exact ⟨x.2, by simpa using hx2, List.mem_zipIdx_iff_getElem?.mp hx1⟩
  rcases hm2 with ⟨e, he, hea⟩ | ⟨b, hbm, hba⟩
  · rw [hel] at he
    obtain ⟨i, _, hi⟩ := hsubmem e he
    exact htag _ hm1 hid e (List.mem_of_getElem? hi) hea
  · have hex : ∃ f ∈ exposedSides (elemsAt d.model.mesh.elems q.2.elems), BdrFits d.model.mesh.bdr f b := by
      clear hp hel hm1 hN hcon
      revert hbd hbm
      generalize exposedSides (elemsAt d.model.mesh.elems q.2.elems) = fs
      generalize sub.mesh.bdr = bs
      intro hbd hbm
      induction hbd with
      | nil => cases hbm
      | cons h _ ih =>
        rcases List.mem_cons.mp hbm with rfl | hbm
        · exact ⟨_, List.mem_cons_self .., h⟩
        · obtain ⟨f, hf, hf2⟩ := ih hbm
          exact ⟨f, List.mem_cons_of_mem _ hf, hf2⟩
    obtain ⟨f, hf, _, g, hg, hgf, hga⟩ := hex
    refine hq0' (((C21_conductors d.model hne ds h).1 q hqm 0).mpr ⟨_, hm1, hid, g, hg, hga.symm.trans hba, ?_⟩)
    have hf1 := (List.mem_filter.mp hf).1
    obtain ⟨e, he, hfe⟩ := List.mem_flatMap.mp hf1
    obtain ⟨i, hi1, hi2⟩ := hsubmem e he
    rw [← sidesOf_eq] at hfe
    rw [liesOn_eq] at hgf
    obtain ⟨x, y, hxy, rfl, hx, hy⟩ := face_vertices hfe
    have hne' := (good e (List.mem_of_getElem? hi2)).2 _ hxy
    have hgl := hb g hg
    match hgv : g.verts, hgl with
    | [u, v], _ =>
      have hk : faceKey u v = faceKey x y := by
        unfold bdrFace at hgf
        rw [hgv] at hgf
        exact hgf
      have hxy' : (u = x ∧ v = y) ∨ (u = y ∧ v = x) := by
        unfold faceKey at hk
        have k1 : min u v = min x y := (Prod.mk.inj hk).1
        have k2 : max u v = max x y := (Prod.mk.inj hk).2
        omega
      have vx : VertexOf d.model.mesh.elems q.2 x := ⟨i, hi1, e, hi2, hx⟩
      have vy : VertexOf d.model.mesh.elems q.2 y := ⟨i, hi1, e, hi2, hy⟩
      rcases hxy' with ⟨rfl, rfl⟩ | ⟨rfl, rfl⟩
      · exact ⟨u, v, hne', by simp [hgv], by simp [hgv], vx, vy⟩
      · exact ⟨u, v, fun h => hne' h.symm, by simp [hgv], by simp [hgv], vy, vx⟩

end

/-! ### Examples -/

theorem pair_domains : buildDomains pair = .ok [(0, ⟨0, [0, 1], [0], [0, 1, 2]⟩)] :=
  buildDomainsFuel_eq (k := 100) (by decide +kernel)

/-- `pair` has one domain and its driver answers. -/
example : ∃ (d : Driver (chainEngine.fem pair {})) (r : Driver.PULParametersByDomain ℚ),
    (Driver.construct chainEngine pair {}).1 = .ok d ∧
    (Query.pulMTLByDomains.exec chainEngine d).1 = .ok (.pulByDomain r) ∧ r.domainToPUL.map Prod.fst = [0] := by
  obtain ⟨d, p, hd, _⟩ := pair_parameters {}
  obtain ⟨ho, hm⟩ := construct_opts hd
  have hds : buildDomains d.model = .ok [(0, ⟨0, [0, 1], [0], [0, 1, 2]⟩)] := by rw [hm]; exact pair_domains
  obtain ⟨r, hr⟩ := (C26_domains_partial chainEngine d).2 _ hds (by
    intro q hq
    rw [List.mem_singleton.mp hq, hm, ho]
    obtain ⟨sub, hsub, _, _, _, _⟩ := (C25_domain_model pair.mesh pair.materials
      (show ((declared pair.materials).map Prod.fst).Nodup by decide +kernel)
      ⟨0, [0, 1], [0], [0, 1, 2]⟩).1 (by decide +kernel)
    obtain ⟨drv, p, h1, h2⟩ := pairOn_parameters sub.mesh sub.groundConductorId {}
    have hs : sub = pairOn sub.mesh sub.groundConductorId := by
      rcases sub with ⟨mats, mesh, g⟩
      have hmats : mats = pair.materials := by
        have := congrArg (fun x => match x with | Outcome.ok (y : Model ℚ × Mesh ℚ) => y.1.materials | _ => {}) hsub
        exact this.symm.trans (by decide +kernel)
      rw [hmats]
      rfl
    rw [hs] at hsub
    exact ⟨p, _, _, drv, hsub, h1, h2⟩)
  obtain ⟨ds, hds', _, hk, _⟩ := (C26_domains_partial chainEngine d).1 r hr
  rw [hds] at hds'
  cases hds'
  exact ⟨d, r, hd, hr, hk⟩

/-- Two triangles without common vertices: conductors 0 and 1 around the first, 1 and 2 around the second. -/
def nested : Model ℚ where
  mesh := { elems := [⟨7, [0, 1, 2], 1⟩, ⟨7, [3, 4, 5], 1⟩]
            bdr := [⟨1, [0, 1], 1⟩, ⟨2, [1, 2], 1⟩, ⟨2, [2, 0], 1⟩, ⟨2, [3, 4], 1⟩, ⟨2, [4, 5], 1⟩, ⟨3, [5, 3], 1⟩]
            coord := fun _ => (0, 0) }
  materials := { pecs := [⟨"Conductor_0", 1, 0⟩, ⟨"Conductor_1", 2, 0⟩, ⟨"Conductor_2", 3, 0⟩] }

/-- The full C26 is false of the code: the closed model `nested` is accepted by the driver and has two domains, but there
are no parameters by domains. -/
theorem C26_refuted : ∃ (d : Driver (chainEngine.fem nested {})) (ds : IdToDomain),
    (Driver.construct chainEngine nested {}).1 = .ok d ∧ nested.determineOpenness = .ok .closed ∧
    buildDomains nested = .ok ds ∧ ds.length = 2 ∧ ∀ a, (Query.pulMTLByDomains.exec chainEngine d).1 ≠ .ok a := by
  have hN : Numbering nested.materials nested.materials.pecs := by
    refine ⟨List.Perm.refl _, ?_, by simp [nested]⟩
    intro i h
    match i, h with
    | 0, _ => show getMaterialIdFromName "Conductor_0" = .ok 0; decide +kernel
    | 1, _ => show getMaterialIdFromName "Conductor_1" = .ok 1; decide +kernel
    | 2, _ => show getMaterialIdFromName "Conductor_2" = .ok 2; decide +kernel
  have hB : Buildable (chainEngine.fem nested {}) nested.materials := {
    bdr := chain_valid
    bdrAttrs := List.cons_ne_nil _ _
    points := show ∀ q ∈ chain.bdr, 1 ≤ q.attr by decide +kernel
    pecs := by decide +kernel
    opens := by intro o ho; cases ho
    names := by decide +kernel
    dielectrics := by intro d hd; cases hd }
  have hds : buildDomains nested = .ok [(0, ⟨0, [0, 1], [0], [0, 1, 2]⟩), (1, ⟨1, [1, 2], [1], [3, 4, 5]⟩)] :=
    buildDomainsFuel_eq (k := 100) (by decide +kernel)
  obtain ⟨d, hd, hm, _⟩ := (C27_accepts chainEngine nested {} (by decide +kernel) hN.readable).2 ⟨_, hN⟩ hB
  refine ⟨d, _, hd, rfl, hds, rfl, ?_⟩
  refine C26_never chainEngine d (by rw [hm]; exact hds) (by decide) ?_ ?_ ?_ ?_ <;> rw [hm]
  · decide +kernel
  · decide +kernel
  · exact show ((declared nested.materials).map Prod.fst).Nodup by decide +kernel
  · have : ∀ p ∈ nested.materials.pecs, ∀ e ∈ nested.mesh.elems, e.attr ≠ p.tag := by decide +kernel
    exact fun p hp _ => this p hp

/-- `C22_messages` for the open model `wires`, and for two triangles that only conductors 1 and 2 touch. -/
example : buildDomains wires = .throw (.runtimeError "Domains can only be determined for closed problems.") ∧
    buildDomains (𝕜 := Int) { twoTriangles [[0, 1, 2], [3, 4, 5]] with
      materials := { pecs := [⟨"Conductor_1", 2, 0⟩, ⟨"Conductor_2", 3, 0⟩] } } =
      .throw (.runtimeError "Conductor 0 is not present") := by
  refine ⟨(C22_messages wires).1 _ wires_open (by decide), ((C22_messages _).2 rfl ?_ ?_).1 ?_⟩
  · unfold GoodElems GoodPath
    decide +kernel
  · intro p hp
    fin_cases hp
    · exact ⟨1, by decide +kernel, by decide⟩
    · exact ⟨2, by decide +kernel, by decide⟩
  · rintro i _ ⟨p, hp, e, _⟩
    fin_cases hp
    · exact absurd e (by decide +kernel)
    · exact absurd e (by decide +kernel)

end Tulip.Props
