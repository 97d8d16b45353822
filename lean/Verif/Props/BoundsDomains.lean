import Verif.Props.Bounds
import Verif.Props.DriverDomains

/-!
# C110 for the parameters by domains
-/

namespace Tulip.Props
open Tulip Tulip.Spec

section
variable {𝕜 : Type}

theorem sidesOf_fst {e : Elem 𝕜} {f : Int × Int} (h : f ∈ sidesOf e) : f.1 ∈ e.verts := by
  rw [sidesOf, List.zipWith_eq_zipWith_take_min, List.mem_iff_getElem] at h
  obtain ⟨i, hi, rfl⟩ := h
  rw [List.getElem_zipWith]
  unfold side
  split
  · exact List.mem_of_mem_take (List.getElem_mem _)
  · exact List.mem_rotate.mp (List.mem_of_mem_take (List.getElem_mem _))

theorem mem_elemsAt {es : List (Elem 𝕜)} {s : SSet Nat} {e : Elem 𝕜} : e ∈ elemsAt es s ↔ ∃ i ∈ s, es[i]? = some e := by
  unfold elemsAt
  rw [List.mem_map]
  constructor
  · rintro ⟨⟨e', i⟩, h, rfl⟩
    obtain ⟨h1, h2⟩ := List.mem_filter.mp h
    exact ⟨i, of_decide_eq_true h2, List.mem_zipIdx_iff_getElem?.mp h1⟩
  · rintro ⟨i, hi, h⟩
    exact ⟨(e, i), List.mem_filter.mpr ⟨List.mem_zipIdx_iff_getElem?.mpr h, decide_eq_true hi⟩, rfl⟩

theorem elemsAt_perm (es : List (Elem 𝕜)) (s : SSet Nat) :
    (elemsAt es s ++ (es.zipIdx.filter (fun p => !decide (p.2 ∈ s))).map Prod.fst).Perm es := by
  unfold elemsAt
  rw [← List.map_append]
  have := (List.filter_append_perm (fun p : Elem 𝕜 × Nat => decide (p.2 ∈ s)) es.zipIdx).map Prod.fst
  rwa [List.zipIdx_map_fst] at this

/-- The sides exposed by a domain are exposed in the whole mesh. -/
theorem exposed_of_domain (m : Model 𝕜) (hne : ∀ e ∈ m.mesh.elems, e.verts ≠ []) {ds : IdToDomain} (h : buildDomains m = .ok ds)
    {q : Int × Domain} (hq : q ∈ ds) {f : Int × Int} (hf : f ∈ exposedSides (elemsAt m.mesh.elems q.2.elems)) :
    f ∈ exposedSides m.mesh.elems := by
  obtain ⟨-, h1, h2, h3⟩ := C20_partition m hne ds h
  obtain ⟨hf1, hf2⟩ := List.mem_filter.mp hf
  have hf2 := of_decide_eq_true hf2
  obtain ⟨e, he, hfe⟩ := List.mem_flatMap.mp hf1
  obtain ⟨i, hi, hie⟩ := mem_elemsAt.mp he
  have hp := (elemsAt_perm m.mesh.elems q.2.elems).flatMap_right sidesOf
  refine List.mem_filter.mpr ⟨List.mem_flatMap.mpr ⟨e, List.mem_of_getElem? hie, hfe⟩, decide_eq_true ?_⟩
  rw [← hp.count_eq, List.flatMap_append, List.count_append, hf2, Nat.add_eq_left, List.count_eq_zero]
  intro hc
  obtain ⟨e', he', hfe'⟩ := List.mem_flatMap.mp hc
  obtain ⟨⟨e'', j⟩, hj, rfl⟩ := List.mem_map.mp he'
  obtain ⟨hj1, hj2⟩ := List.mem_filter.mp hj
  have hje := List.mem_zipIdx_iff_getElem?.mp hj1
  have hj2 : j ∉ q.2.elems := by simpa using hj2
  have hjl : j < m.mesh.elems.length := (List.getElem?_eq_some_iff.mp hje).1
  have hil := (h2 q hq).2 i hi
  obtain ⟨p, hp, hpi, hpj⟩ := (h3 i j hil hjl).mpr (Relation.ReflTransGen.single ⟨e, e'', f.1, hie, hje, sidesOf_fst hfe, sidesOf_fst hfe'⟩)
  obtain ⟨_, _, hu⟩ := h1 i hil
  rw [hu q ⟨hq, hi⟩, ← hu p ⟨hp, hpi⟩] at hj2
  exact hj2 hpj

end

section
variable {𝕜 : Type} [Field 𝕜] [DecidableEq 𝕜] [LinearOrder 𝕜]

omit [Field 𝕜] [DecidableEq 𝕜] [LinearOrder 𝕜] in
theorem logged_bind_ub {α β : Type} {x : Logged 𝕜 α} {f : α → Logged 𝕜 β} (h : x.1 ≠ .ub) (h' : ∀ a, x.1 = .ok a → (f a).1 ≠ .ub) :
    (x >>= f).1 ≠ .ub := by
  show (Logged.bind x f).1 ≠ .ub
  unfold Logged.bind
  rcases x with ⟨o, w⟩
  cases o with
  | ok a => exact h' a rfl
  | throw _ => exact fun h => by cases h
  | ub => exact absurd rfl h
  | nonfinite => exact fun h => by cases h

theorem domainPUL_safe (E : Engine 𝕜) (model : Model 𝕜) (opts : DriverOptions)
    (hF : ∀ mesh, Discretises (E.disc mesh opts.solverOptions.order) mesh) (hT : Tagged model.mesh)
    (hd : DistinctNames model.materials) (hr : ∀ p ∈ model.materials.pecs, ∃ i, getMaterialIdFromName p.name = .ok i)
    (hS : TagsApart model.mesh model.materials) (hne : ∀ e ∈ model.mesh.elems, e.verts ≠ []) (hc : model.materials.openBoundaries = [])
    {ds : IdToDomain} (h : buildDomains model = .ok ds) {q : Int × Domain} (hq : q ∈ ds) :
    (Driver.domainPUL E model opts q.2).1 ≠ .ub := by
  obtain ⟨sub, e1, hel, -, hbd, hp, ho, hdi, -⟩ := (C25_domain_model model.mesh model.materials hd q.2).1
    (fun f hf => hS.exposed f (exposed_of_domain model hne h hq hf))
  have hbd' : ∀ b ∈ sub.mesh.bdr, ∃ g ∈ model.mesh.bdr, b.attr = g.attr := by
    intro b hb
    obtain ⟨i, hi, rfl⟩ := List.getElem_of_mem hb
    obtain ⟨-, g, hg, -, e⟩ := (List.forall₂_iff_get.mp hbd).2 i (by rw [hbd.length_eq]; exact hi) hi
    exact ⟨g, hg, e⟩
  have hel' : ∀ e ∈ sub.mesh.elems, e ∈ model.mesh.elems := by
    intro e he
    rw [hel] at he
    obtain ⟨i, -, h⟩ := mem_elemsAt.mp he
    exact List.mem_of_getElem? h
  have hm : sub.materials = (Model.make sub.mesh model.materials).materials := by
    obtain ⟨k1, k2, k3, -⟩ := C11_filter sub.mesh model.materials hd
    rcases hs : sub.materials with ⟨a, b, c⟩
    rcases hs' : (Model.make sub.mesh model.materials).materials with ⟨a', b', c'⟩
    rw [hs] at hp ho hdi
    rw [hs'] at k1 k2 k3
    simp only at hp ho hdi k1 k2 k3
    rw [hp, ho, hdi, k1, k2, k3]
  have hpm : ∀ p ∈ sub.materials.pecs, p ∈ model.materials.pecs ∧ TagInMesh sub.mesh p.tag := by
    intro p h
    rw [hp, List.mem_filter] at h
    exact ⟨h.1, of_decide_eq_true h.2⟩
  have hnames : (sub.materials.pecs.map PEC.name).Nodup := by
    have : (model.materials.pecs.map PEC.name).Nodup := by
      have hd := hd
      unfold DistinctNames declared at hd
      rw [List.append_assoc, List.map_append] at hd
      have := (List.nodup_append.mp hd).1
      rwa [List.map_map] at this
    rw [hp]
    exact this.sublist (List.filter_sublist.map _)
  have hsafe : (Driver.construct E sub opts).1 ≠ .ub ∧ ∀ d, (Driver.construct E sub opts).1 = .ok d → (Driver.getPULMTL E d).1 ≠ .ub := by
    have hacc := C27_accepts E sub opts hnames (fun p h => hr p (hpm p h).1)
    by_cases hN : ∃ ps, Numbering sub.materials ps
    · have hbne : sub.mesh.bdr ≠ [] := by
        obtain ⟨ps, hN⟩ := hN
        obtain ⟨p, hp'⟩ := List.exists_mem_of_ne_nil _ hN.nonempty
        obtain ⟨h1, h2⟩ := hpm p (hN.all.mem_iff.mp hp')
        rcases h2 with ⟨e, he, h2⟩ | ⟨b, hb, -⟩
        · exact absurd h2 (hS.conductors p h1 e (hel' e he))
        · exact List.ne_nil_of_mem hb
      have hTs : Tagged sub.mesh := by
        refine ⟨fun e he => hT.elems e (hel' e he), fun b hb => ?_, hbne⟩
        obtain ⟨g, hg, e⟩ := hbd' b hb
        rw [e]
        exact hT.bdr g hg
      have hB : Buildable (E.fem sub opts) sub.materials := by
        rw [hm]
        refine buildable_of (hF sub.mesh) hTs hd ?_
        rintro x hx (⟨e, he, e'⟩ | ⟨b, hb, e'⟩)
        · exact ⟨e, he, e'.ge⟩
        · obtain ⟨g, hg, e''⟩ := hbd' b hb
          exact absurd (e''.symm.trans e') (hS.dielectrics x hx g hg)
      obtain ⟨d, e2, -⟩ := hacc.2 hN hB
      refine ⟨by rw [e2]; exact nofun, fun d' e3 => ?_⟩
      have hcl : sub.determineOpenness = .ok .closed := by
        unfold Model.determineOpenness
        rw [if_pos]
        rw [ho, hc]
        rfl
      have h := (C28_in_range E hnames e3).2 _ hcl [] .pulMTL (fun h => by cases h)
      intro hu
      refine h ?_
      show (Query.pulMTL.exec E d').1 = .ub
      rw [exec_pulMTL, hu]
      rfl
    · obtain ⟨msg, e2⟩ := hacc.1 hN
      rw [e2]
      exact ⟨nofun, nofun⟩
  unfold Driver.domainPUL
  refine logged_bind_ub (by rw [e1]; exact fun h => by cases h) ?_
  intro a ha
  rw [e1] at ha
  cases ha
  exact logged_bind_ub hsafe.1 hsafe.2

omit [LinearOrder 𝕜] in
theorem domainsPULLoop_safe {E : Engine 𝕜} {model : Model 𝕜} {opts : DriverOptions} : ∀ (l : List (Int × Domain)) (res : SMap Int (PULParameters 𝕜)),
    (∀ q ∈ l, (Driver.domainPUL E model opts q.2).1 ≠ .ub) → (Driver.domainsPULLoop E model opts l res).1 ≠ .ub
  | [], _, _ => fun h => by cases h
  | (i, q) :: t, _, h => by
    have h1 : (Driver.domainPUL E model opts q).1 ≠ .ub := h (i, q) (List.mem_cons_self ..)
    unfold Driver.domainsPULLoop
    exact logged_bind_ub h1 (fun _ _ => domainsPULLoop_safe t _ (fun q hq => h q (List.mem_cons_of_mem _ hq)))

/-- **C110, by domains.** The parameters by domains access nothing out of range either, after any queries, if every exposed side of the mesh carries a
boundary element and the tags of dielectrics are not those of boundary elements, nor the tags of conductors those of elements. -/
theorem C110_by_domains (E : Engine 𝕜) {mesh : Mesh 𝕜} {mats : Materials 𝕜} {opts : DriverOptions}
    (hF : ∀ mesh, Discretises (E.disc mesh opts.solverOptions.order) mesh) (hT : Tagged mesh) (hd : DistinctNames mats)
    (hG : GoodElems mesh.elems) (hS : TagsApart mesh mats)
    {d : Driver (E.fem (Model.make mesh mats) opts)} (h : (Driver.construct E (Model.make mesh mats) opts).1 = .ok d)
    {o : Openness} (hO : (Model.make mesh mats).determineOpenness = .ok o) (history : List Query) :
    (Query.pulMTLByDomains.exec E (afterQueries E history d)).1 ≠ .ub := by
  rw [(C39_history E d history _).1]
  obtain ⟨h1, h2, h3, h4, h5⟩ := C11_filter mesh mats hd
  have hd' : DistinctNames (Model.make mesh mats).materials := by
    unfold DistinctNames declared at hd ⊢
    rw [h1, h2, h3]
    exact hd.sublist ((((List.filter_sublist.map _).append (List.filter_sublist.map _)).append (List.filter_sublist.map _)).map _)
  have hnames : ((Model.make mesh mats).materials.pecs.map PEC.name).Nodup := by
    have hd := hd'
    unfold DistinctNames declared at hd
    rw [List.append_assoc, List.map_append] at hd
    have := (List.nodup_append.mp hd).1
    rwa [List.map_map] at this
  obtain ⟨ps, hN, -⟩ := construct_ready E hnames h
  have hid : ∀ p ∈ (Model.make mesh mats).materials.pecs, ∃ c, getMaterialIdFromName p.name = .ok c ∧ c ≠ -1 := by
    intro p hp
    obtain ⟨i, hi, rfl⟩ := List.getElem_of_mem (hN.all.mem_iff.mpr hp)
    exact ⟨i, hN.ids i hi, by omega⟩
  have hS' : TagsApart (Model.make mesh mats).mesh (Model.make mesh mats).materials := by
    refine ⟨h4 ▸ hS.exposed, ?_, ?_⟩
    · intro x hx
      rw [h3] at hx
      exact hS.dielectrics x (List.mem_filter.mp hx).1
    · intro x hx
      rw [h1] at hx
      exact hS.conductors x (List.mem_filter.mp hx).1
  obtain ⟨ho, hm⟩ := construct_opts h
  have h0 : (Query.pulMTLByDomains.exec E d).1 =
      ((Driver.getPULMTLByDomains E d).1 >>= fun p => .ok (.pulByDomain p)) := map_fst _ _ d
  rw [h0]
  have key : (Driver.getPULMTLByDomains E d).1 ≠ .ub := by
    unfold Driver.getPULMTLByDomains
    rw [Act.read_bind, Act.read_bind, hm, ho]
    by_cases hcl : o = .closed
    · subst hcl
      have hc : (Model.make mesh mats).materials.openBoundaries = [] := by
        unfold Model.determineOpenness at hO
        split at hO
        · next h => exact List.eq_nil_of_length_eq_zero h
        · exact absurd hO (opennessLoop_ne_closed _ _)
      have hG' : GoodElems (Model.make mesh mats).mesh.elems := h4 ▸ hG
      rcases Classical.em (∃ ds, buildDomains (Model.make mesh mats) = .ok ds) with ⟨ds, hds⟩ | hn
      · rw [hds, Act.lift_ok_bind]
        obtain ⟨tree, ht⟩ := domainTree_of_buildDomains hds
        have hl := domainsPULLoop_safe (E := E) (model := Model.make mesh mats) (opts := opts) ds [] (fun q hq =>
          domainPUL_safe E _ opts hF (h4 ▸ hT) hd' (fun p hp => (hid p hp).imp fun _ h => h.1) hS' (fun e he => (hG' e he).1) hc hds hq)
        rw [bind_def]
        rcases hx : Driver.domainsPULLoop E (Model.make mesh mats) opts ds [] with ⟨x, w⟩
        rw [hx] at hl
        cases x with
        | ok a =>
          show ((Act.lift (Tulip.domainTree ds) >>= _ : Act _ _) d).1 ≠ .ub
          rw [ht, Act.lift_ok_bind]
          exact nofun
        | throw _ => exact nofun
        | ub => exact absurd rfl hl
        | nonfinite => exact nofun
      · obtain ⟨msg, e⟩ := ((C22_conductor0 _).2 hO hG' hid).2 hn
        rw [e]
        exact nofun
    · rw [(C22_messages _).1 o hO hcl]
      exact nofun
  rcases hx : (Driver.getPULMTLByDomains E d).1 with a | _ | _ | _
  · exact nofun
  · exact nofun
  · exact absurd hx key
  · exact nofun

end

/-! ### Example -/

/-- an engine that discretises every mesh, with the attributes of the mesh -/
noncomputable def anyEngine : Engine ℚ := { chainEngine with
  disc := fun mesh _ => { chain with
    domAttrs := mesh.elems.map Elem.attr, bdrAttrs := mesh.bdr.map Elem.attr
    bdrElems := mesh.bdr.map (fun b => (b.attr, [])), bdr := [] } }

theorem anyEngine_discretises (mesh : Mesh ℚ) (order : Int) : Discretises (anyEngine.disc mesh order) mesh where
  domains := fun _ => List.mem_map
  boundaries := fun _ => List.mem_map
  elements := by
    intro b hb
    obtain ⟨e, he, rfl⟩ := List.mem_map.mp hb
    exact ⟨e, he, rfl⟩
  points := fun _ h => by cases h

/-- `nested` has two domains: its parameters by domains are not computed, see `C26_refuted`, but nothing out of range is accessed. -/
example : ∃ d, (Driver.construct anyEngine (Model.make nested.mesh nested.materials) {}).1 = .ok d ∧
    (Query.pulMTLByDomains.exec anyEngine (afterQueries anyEngine [.cMatrix] d)).1 ≠ .ub := by
  have hd : DistinctNames nested.materials := show ((declared nested.materials).map Prod.fst).Nodup by decide +kernel
  have hT : Tagged nested.mesh := ⟨by decide +kernel, by decide +kernel, by decide +kernel⟩
  have hp : (Model.make nested.mesh nested.materials).materials.pecs = nested.materials.pecs := by
    rw [(C11_filter nested.mesh _ hd).1]
    decide +kernel
  have hN : Numbering (Model.make nested.mesh nested.materials).materials nested.materials.pecs := by
    refine ⟨by rw [hp], ?_, by simp [nested]⟩
    intro i h
    match i, h with
    | 0, _ => show getMaterialIdFromName "Conductor_0" = .ok 0; decide +kernel
    | 1, _ => show getMaterialIdFromName "Conductor_1" = .ok 1; decide +kernel
    | 2, _ => show getMaterialIdFromName "Conductor_2" = .ok 2; decide +kernel
  obtain ⟨d, h, -⟩ := C110_safe anyEngine (mesh := nested.mesh) (mats := nested.materials) (opts := {}) (anyEngine_discretises _ _) hT hd ⟨_, hN⟩
    (by intro x hx; cases hx)
  refine ⟨d, h, C110_by_domains anyEngine (fun m => anyEngine_discretises m _) hT hd ?_ ⟨?_, ?_, ?_⟩ h (o := .closed) ?_ _⟩
  · unfold GoodElems GoodPath
    decide +kernel
  · decide +kernel
  · decide +kernel
  · decide +kernel
  · unfold Model.determineOpenness
    rw [(C11_filter nested.mesh _ hd).2.1]
    rfl

end Tulip.Props
