import Verif.Props.DriverQuery
import Verif.Props.Materials
import Verif.Model.Elements
import Verif.Spec.Bounds

/-!
# C110: no access out of range when a driver is constructed, but for tags of dielectrics
-/

namespace Tulip
open Tulip.Spec
variable {𝕜 : Type} [Field 𝕜] {F : FEM 𝕜}

theorem epsLoop_ub (maxAttr : Int) : ∀ (m : List (Int × 𝕜)) (eps : Int → 𝕜), (∃ x ∈ m, maxAttr < x.1) → epsLoop maxAttr m eps = .ub
  | [], _, h => by obtain ⟨_, h, _⟩ := h; cases h
  | (a, er) :: t, eps, h => by
    rw [epsLoop]
    split
    · next ha =>
      refine epsLoop_ub maxAttr t _ ?_
      obtain ⟨x, hx, hlt⟩ := h
      rcases List.mem_cons.mp hx with rfl | hx
      · exact absurd ha.2 (not_le.mpr hlt)
      · exact ⟨x, hx, hlt⟩
    · rfl

theorem permittivity_ub {m : AttrToValueMap 𝕜} (h : ∃ x ∈ m, ∀ a ∈ F.domAttrs, a < x.1) : F.permittivity m = .ub := by
  obtain ⟨x, hx, hlt⟩ := h
  unfold FEM.permittivity
  rw [if_neg (by intro e; rw [List.eq_nil_of_length_eq_zero e] at hx; cases hx)]
  by_cases hd : F.domAttrs = []
  · rw [hd]; rfl
  · obtain ⟨m', e, hm, -⟩ := arrayMax_spec hd
    rw [e, Outcome.ok_bind]
    exact epsLoop_ub _ _ _ ⟨x, hx, hlt _ hm⟩

variable {mesh : Mesh 𝕜} {mats : Materials 𝕜}

theorem kept_tag (hd : DistinctNames mats) :
    (∀ p ∈ (Model.make mesh mats).materials.pecs, p ∈ mats.pecs ∧ TagInMesh mesh p.tag) ∧
    (∀ p ∈ (Model.make mesh mats).materials.openBoundaries, p ∈ mats.openBoundaries ∧ TagInMesh mesh p.tag) ∧
    ∀ p, p ∈ (Model.make mesh mats).materials.dielectrics ↔ p ∈ mats.dielectrics ∧ TagInMesh mesh p.tag := by
  obtain ⟨h1, h2, h3, -⟩ := Props.C11_filter mesh mats hd
  refine ⟨?_, ?_, ?_⟩
  · intro p hp
    rw [h1, List.mem_filter] at hp
    exact ⟨hp.1, of_decide_eq_true hp.2⟩
  · intro p hp
    rw [h2, List.mem_filter] at hp
    exact ⟨hp.1, of_decide_eq_true hp.2⟩
  · intro p
    rw [h3, List.mem_filter]
    simp

theorem tag_pos (hT : Tagged mesh) {t : Int} (h : TagInMesh mesh t) : 1 ≤ t := by
  rcases h with ⟨e, he, rfl⟩ | ⟨e, he, rfl⟩
  · exact hT.elems e he
  · exact hT.bdr e he

theorem kept_names (hd : DistinctNames mats) : ((Model.make mesh mats).materials.dielectrics.map Dielectric.name).Nodup := by
  rw [(Props.C11_filter mesh mats hd).2.2.1]
  have : (mats.dielectrics.map Dielectric.name).Nodup := by
    unfold DistinctNames declared at hd
    rw [List.map_append] at hd
    have := (List.nodup_append.mp hd).2.1
    rwa [List.map_map] at this
  exact this.sublist (List.filter_sublist.map _)

/-- What the solver needs follows from the tags of the mesh, but for dielectrics with tags above all elements'. -/
theorem buildable_of (hF : Discretises F mesh) (hT : Tagged mesh) (hd : DistinctNames mats)
    (h : ∀ x ∈ mats.dielectrics, TagInMesh mesh x.tag → ∃ e ∈ mesh.elems, x.tag ≤ e.attr) : Buildable F (Model.make mesh mats).materials where
  bdr := by
    refine ⟨fun b hb => (hF.boundaries _).mpr (hF.elements b hb), fun a ha => ?_⟩
    obtain ⟨e, he, rfl⟩ := (hF.boundaries a).mp ha
    exact hT.bdr e he
  bdrAttrs := by
    obtain ⟨e, he⟩ := List.exists_mem_of_ne_nil _ hT.nonempty
    exact List.ne_nil_of_mem ((hF.boundaries _).mpr ⟨e, he, rfl⟩)
  points := by
    intro q hq
    obtain ⟨e, he, h⟩ := hF.points q hq
    rw [← h]
    exact hT.bdr e he
  pecs := fun p hp => tag_pos hT ((kept_tag hd).1 p hp).2
  opens := fun p hp => tag_pos hT ((kept_tag hd).2.1 p hp).2
  names := kept_names hd
  dielectrics := by
    intro x hx
    obtain ⟨h1, h2⟩ := ((kept_tag hd).2.2 x).mp hx
    obtain ⟨e, he, hle⟩ := h x h1 h2
    exact ⟨tag_pos hT h2, e.attr, (hF.domains _).mpr ⟨e, he, rfl⟩, hle⟩

end Tulip

namespace Tulip.Props
open Tulip.Spec
variable {𝕜 : Type} [Field 𝕜] [LinearOrder 𝕜] [DecidableEq 𝕜]

/-- **C110, safe.** A driver for numbered conductors is constructed without accesses out of range, and later calls make none, if no dielectric has
a tag of the mesh that is greater than those of all elements. -/
theorem C110_safe (E : Engine 𝕜) {mesh : Mesh 𝕜} {mats : Materials 𝕜} {opts : DriverOptions}
    (hF : Discretises (E.fem (Model.make mesh mats) opts) mesh) (hT : Tagged mesh) (hd : DistinctNames mats)
    (hN : ∃ ps, Numbering (Model.make mesh mats).materials ps)
    (h : ∀ x ∈ mats.dielectrics, TagInMesh mesh x.tag → ∃ e ∈ mesh.elems, x.tag ≤ e.attr) :
    ∃ d, (Driver.construct E (Model.make mesh mats) opts).1 = .ok d ∧
      ∀ o, (Model.make mesh mats).determineOpenness = .ok o → ∀ (history : List Query) (q : Query), q ≠ .pulMTLByDomains →
        (q.exec E (afterQueries E history d)).1 ≠ .ub := by
  obtain ⟨ps, hN⟩ := hN
  obtain ⟨d, _, _, _, _, e, -⟩ := construct_spec E (opts := opts) hN (buildable_of hF hT hd h)
  have e' : (Driver.construct E (Model.make mesh mats) opts).1 = .ok d := by rw [e]
  exact ⟨d, e', (C28_in_range E hN.names_nodup e').2⟩

/-- **C110, exact.** Otherwise the constructor writes out of range, before it exports anything: the tag of such a dielectric is then the one of a
boundary element. -/
theorem C110_out_of_range (E : Engine 𝕜) {mesh : Mesh 𝕜} {mats : Materials 𝕜} {opts : DriverOptions}
    (hF : Discretises (E.fem (Model.make mesh mats) opts) mesh) (hT : Tagged mesh) (hd : DistinctNames mats)
    (hN : ∃ ps, Numbering (Model.make mesh mats).materials ps) {x : Dielectric 𝕜} (hx : x ∈ mats.dielectrics)
    (hm : TagInMesh mesh x.tag) (h : ∀ e ∈ mesh.elems, e.attr < x.tag) :
    Driver.construct E (Model.make mesh mats) opts = (.ub, []) ∧ ∃ e ∈ mesh.bdr, e.attr = x.tag := by
  obtain ⟨ps, hN⟩ := hN
  have hb : ∃ e ∈ mesh.bdr, e.attr = x.tag := by
    rcases hm with ⟨e, he, e1⟩ | hm
    · exact absurd e1 (h e he).ne
    · exact hm
  refine ⟨?_, hb⟩
  have hn := kept_names (mesh := mesh) hd
  have hk : x.tag ∈ SMap.keys (permittivityMap (Model.make mesh mats).materials false) :=
    (permittivityMap_keys hn false x.tag).mpr ⟨x, ((kept_tag hd).2.2 x).mpr ⟨hx, hm⟩, rfl⟩
  obtain ⟨y, hy, e1⟩ := List.mem_map.mp hk
  have hu : (E.fem (Model.make mesh mats) opts).permittivity (inputsOf (Model.make mesh mats).materials false).domainPermittivities = .ub := by
    refine permittivity_ub ⟨y, hy, fun a ha => ?_⟩
    obtain ⟨e, he, rfl⟩ := (hF.domains a).mp ha
    rw [e1]
    exact h e he
  have hbd : (E.fem (Model.make mesh mats) opts).bdrAttrs ≠ [] := by
    obtain ⟨e, he⟩ := List.exists_mem_of_ne_nil _ hT.nonempty
    exact List.ne_nil_of_mem ((hF.boundaries _).mpr ⟨e, he, rfl⟩)
  have hk' : AttrToValueMap.getAttributesAsArray (inputsOf (Model.make mesh mats).materials false).dirichletBoundaries ≠ [] := by
    intro h
    exact inputs_dirichlet_ne hN false (List.map_eq_nil_iff.mp h)
  have hp : ∀ a ∈ SMap.keys (inputsOf (Model.make mesh mats).materials false).dirichletBoundaries, 0 < a := by
    intro a ha
    obtain ⟨p, hp, rfl⟩ := (dirichlet_keys hN false a).mp ha
    exact tag_pos hT ((kept_tag hd).1 p hp).2
  obtain ⟨mk, e2, _⟩ := AttrToMarker_ok hbd hk' hp
  have hmake : Solver.make E.analytic (E.fem (Model.make mesh mats) opts) (inputsOf (Model.make mesh mats).materials false)
      (E.raw false (E.fem (Model.make mesh mats) opts)) = .ub := by
    unfold Solver.make
    rw [e2, Outcome.ok_bind, hu]
    rfl
  unfold Driver.construct solveForAllConductors
  rw [hN.check, Logged.lift_ok_bind, buildInputs_ok _ hn, Logged.lift_ok_bind, hmake]
  rfl

/-- **C110, usual declarations.** In particular there are no accesses out of range if the dielectrics that have a tag of the mesh have one of an element. -/
theorem C110_elements (E : Engine 𝕜) {mesh : Mesh 𝕜} {mats : Materials 𝕜} {opts : DriverOptions}
    (hF : Discretises (E.fem (Model.make mesh mats) opts) mesh) (hT : Tagged mesh) (hd : DistinctNames mats)
    (hN : ∃ ps, Numbering (Model.make mesh mats).materials ps)
    (h : ∀ x ∈ mats.dielectrics, TagInMesh mesh x.tag → ∃ e ∈ mesh.elems, e.attr = x.tag) :
    ∃ d, (Driver.construct E (Model.make mesh mats) opts).1 = .ok d :=
  (C110_safe E hF hT hd hN (fun x hx hm => by
    obtain ⟨e, he, e1⟩ := h x hx hm
    exact ⟨e, he, e1.ge⟩)).imp fun _ h => h.1

/-- The discretisation of triangle meshes, at order 1 and with any elements, has the attributes of the mesh. -/
theorem C110_triangles (T : Triangulation 𝕜) : Discretises T.fem T.toMesh ∧
    ∀ (S : Shapes T) (Q : Rule 𝕜), Discretises (T.femWith S Q) T.toMesh := by
  have seg : ∀ {s : Seg 𝕜 T.nv}, s ∈ T.segs → ∃ e ∈ T.toMesh.bdr, e.attr = s.attr := fun hs => ⟨_, List.mem_map_of_mem hs, rfl⟩
  have dm : ∀ a, a ∈ (T.tris.map Tri.attr).dedup ↔ ∃ e ∈ T.toMesh.elems, e.attr = a := by
    intro a
    simp [Triangulation.toMesh]
  have bd : ∀ a, a ∈ (T.segs.map Seg.attr).dedup ↔ ∃ e ∈ T.toMesh.bdr, e.attr = a := by
    intro a
    simp [Triangulation.toMesh]
  refine ⟨⟨dm, bd, ?_, ?_⟩, fun S Q => ⟨dm, bd, ?_, ?_⟩⟩
  · intro b hb
    obtain ⟨s, hs, rfl⟩ := List.mem_map.mp hb
    exact seg hs
  · intro q hq
    obtain ⟨s, hs, hq⟩ := List.mem_flatMap.mp hq
    rcases List.mem_cons.mp hq with rfl | hq
    · exact seg hs
    rcases List.mem_cons.mp hq with rfl | hq
    · exact seg hs
    rw [List.mem_singleton.mp hq]
    exact seg hs
  · intro b hb
    obtain ⟨s, hs, rfl⟩ := List.mem_map.mp hb
    exact seg hs
  · intro q hq
    obtain ⟨s, hs, hq⟩ := List.mem_flatMap.mp hq
    obtain ⟨t, -, hq⟩ := List.mem_flatMap.mp hq
    obtain ⟨r, -, rfl⟩ := List.mem_map.mp hq
    exact seg hs

end Tulip.Props
