import Verif.Props.Bonded
import Verif.Props.TriangleExamples
import Verif.Model.Elements

/-!
# C108: meshes of triangles, an example
-/

namespace Tulip.Props
open Tulip Tulip.Spec Matrix

/-- the mesh with other tags on its boundary -/
def retagMesh {𝕜 : Type} (T : Triangulation 𝕜) (tag : Int → Int) : Triangulation 𝕜 :=
  { T with segs := T.segs.map (fun s => { s with attr := tag s.attr }) }

theorem map_twice {α β γ δ : Type} (f : β → γ) (g : α → β) (f' : δ → γ) (g' : α → δ) (h : ∀ x, f (g x) = f' (g' x)) (l : List α) :
    (l.map g).map f = (l.map g').map f' := by
  rw [List.map_map, List.map_map]
  exact List.map_congr_left fun x _ => h x

theorem flatMap_twice {α β γ δ : Type} (f : β → List γ) (g : α → β) (f' : δ → γ) (g' : α → List δ) (h : ∀ x, f (g x) = (g' x).map f') (l : List α) :
    (l.map g).flatMap f = (l.flatMap g').map f' := by
  induction l with
  | nil => rfl
  | cons a l ih => rw [List.map_cons, List.flatMap_cons, List.flatMap_cons, List.map_append, ih, h]

theorem fem_congr {𝕜 : Type} {n ne nd : Nat} {A D : List Int} {x y : List (Int × List (Fin n))} {node : Fin n → 𝕜 × 𝕜} {dom : List (DomPt 𝕜 n ne nd)}
    {p q : List (BdrPt 𝕜 n nd)} {grad : Matrix (Fin ne) (Fin n) 𝕜} (h : x = y) (h' : p = q) :
    FEM.mk n ne nd A D x node dom p grad = FEM.mk n ne nd A D y node dom q grad := by
  rw [h, h']

/-- Changing the tags of the boundary segments of a mesh of triangles changes the attributes in its discretisation, and nothing else. -/
theorem C108_mesh {𝕜 : Type} [Field 𝕜] (T : Triangulation 𝕜) (tag : Int → Int) : Retagged tag T.fem (retagMesh T tag).fem := by
  have e1 : (retagMesh T tag).fem.bdrElems = T.fem.bdrElems.map (fun b => (tag b.1, b.2)) := by
    refine map_twice _ _ _ _ ?_ T.segs
    exact fun _ => rfl
  have e2 : (retagMesh T tag).fem.bdr = T.fem.bdr.map (fun q => { q with attr := tag q.attr }) := by
    refine flatMap_twice _ _ _ _ ?_ T.segs
    exact fun _ => rfl
  exact fem_congr e1 e2

/-- the same shape functions on the mesh with other tags -/
def retagShapes {𝕜 : Type} [Field 𝕜] {T : Triangulation 𝕜} (S : Shapes T) (tag : Int → Int) : Shapes (retagMesh T tag) :=
  ⟨S.n, S.ne, S.nd, S.N, S.W, S.R, S.onSeg, S.node, S.grad⟩

/-- The same at any order, if shape functions do not depend on the tags (`elements_exist` gives such ones). -/
theorem C108_orders {𝕜 : Type} [Field 𝕜] {T : Triangulation 𝕜} (S : Shapes T) (Q : Rule 𝕜) (tag : Int → Int)
    (hS : ∀ s s' : Seg 𝕜 T.nv, s.a = s'.a → s.b = s'.b → S.onSeg s = S.onSeg s') :
    Retagged tag (T.femWith S Q) ((retagMesh T tag).femWith (retagShapes S tag) Q) := by
  have e1 : ((retagMesh T tag).femWith (retagShapes S tag) Q).bdrElems = (T.femWith S Q).bdrElems.map (fun b => (tag b.1, b.2)) := by
    refine map_twice _ _ _ _ ?_ T.segs
    exact fun s => congrArg (Prod.mk (tag s.attr)) (hS _ _ rfl rfl)
  have e2 : ((retagMesh T tag).femWith (retagShapes S tag) Q).bdr = (T.femWith S Q).bdr.map (fun q => { q with attr := tag q.attr }) := by
    refine flatMap_twice _ _ _ _ ?_ T.segs
    intro s
    refine Eq.trans ?_ (List.map_flatMap ..).symm
    refine List.flatMap_congr fun t _ => ?_
    refine Eq.trans ?_ (List.map_map ..).symm
    rfl
  exact fem_congr e1 e2

/-- a conductor (tag 2) between two plates (tags 1 and 4) -/
def trio : Triangulation ℚ where
  nv := 8
  coord := ![(0, 0), (1, 0), (1, 1), (0, 1), (2, 0), (3, 0), (3, 1), (2, 1)]
  tris := [⟨1, 0, 1, 2⟩, ⟨2, 0, 2, 3⟩, ⟨1, 4, 5, 6⟩, ⟨1, 4, 6, 7⟩]
  segs := [⟨1, 3, 0, 1⟩, ⟨4, 5, 6, 1⟩, ⟨2, 1, 2, 1⟩, ⟨2, 7, 4, 1⟩, ⟨3, 0, 1, 1⟩, ⟨3, 2, 3, 1⟩, ⟨3, 4, 5, 1⟩, ⟨3, 6, 7, 1⟩]

/-- the conductor in the middle is conductor 0 -/
def trioModel : Model ℚ where
  materials := { pecs := [⟨"Conductor_0", 2, 0⟩, ⟨"Conductor_1", 1, 0⟩, ⟨"Conductor_2", 4, 0⟩], dielectrics := [⟨"Dielectric_1", 2, 4⟩] }
  mesh := trio.toMesh

/-- the plates are bonded: both get the tag 1 -/
def bond (a : Int) : Int := if a = 4 then 1 else a

def bondedModel : Model ℚ where
  materials := { pecs := [⟨"Conductor_0", 2, 0⟩, ⟨"Conductor_1", 1, 0⟩], dielectrics := [⟨"Dielectric_1", 2, 4⟩] }
  mesh := (retagMesh trio bond).toMesh

/-- an engine that discretises both meshes -/
noncomputable def bondEngine : Engine ℚ :=
  { chainEngine with disc := fun m _ => if ∃ e ∈ m.bdr, e.attr = 4 then trio.fem else (retagMesh trio bond).fem }

theorem bond_fem : bondEngine.disc trio.toMesh 1 = trio.fem ∧ bondEngine.disc (retagMesh trio bond).toMesh 1 = (retagMesh trio bond).fem := by
  constructor
  · show (if ∃ e ∈ trio.toMesh.bdr, e.attr = 4 then trio.fem else (retagMesh trio bond).fem) = _
    exact if_pos (by decide +kernel)
  · show (if ∃ e ∈ (retagMesh trio bond).toMesh.bdr, e.attr = 4 then trio.fem else (retagMesh trio bond).fem) = _
    exact if_neg (by decide +kernel)

theorem trio_numbering : Numbering trioModel.materials trioModel.materials.pecs where
  all := List.Perm.refl _
  ids := by
    intro i h
    match i, h with
    | 0, _ => show getMaterialIdFromName "Conductor_0" = .ok 0; decide +kernel
    | 1, _ => show getMaterialIdFromName "Conductor_1" = .ok 1; decide +kernel
    | 2, _ => show getMaterialIdFromName "Conductor_2" = .ok 2; decide +kernel
  nonempty := by simp [trioModel]

theorem bonded_numbering : Numbering bondedModel.materials bondedModel.materials.pecs where
  all := List.Perm.refl _
  ids := by
    intro i h
    match i, h with
    | 0, _ => show getMaterialIdFromName "Conductor_0" = .ok 0; decide +kernel
    | 1, _ => show getMaterialIdFromName "Conductor_1" = .ok 1; decide +kernel
  nonempty := by simp [bondedModel]

theorem trio_proper : Proper trio where
  area := by decide +kernel
  segs := by unfold IsSide; decide +kernel
  boundary := List.cons_ne_nil _ _
  triAttrs := by decide +kernel
  segAttrs := by decide +kernel

theorem bond_proper : Proper (retagMesh trio bond) where
  area := by decide +kernel
  segs := by unfold IsSide; decide +kernel
  boundary := List.cons_ne_nil _ _
  triAttrs := by decide +kernel
  segAttrs := by decide +kernel

theorem trio_sensible : Sensible trio trioModel.materials where
  pecs := by decide +kernel
  opens := by intro o ho; cases ho
  dielectrics := by decide +kernel
  names := by decide +kernel
  tags := by decide +kernel
  openNames := by decide +kernel
  permittivities := by decide +kernel

theorem bond_sensible : Sensible (retagMesh trio bond) bondedModel.materials where
  pecs := by decide +kernel
  opens := by intro o ho; cases ho
  dielectrics := by decide +kernel
  names := by decide +kernel
  tags := by decide +kernel
  openNames := by decide +kernel
  permittivities := by decide +kernel

theorem trio_joined : JoinedToConductors trio trioModel.materials := by
  have : ∀ v, ∃ p ∈ trioModel.materials.pecs, OnTag trio p.tag v := by
    unfold OnTag
    decide +kernel
  intro v
  obtain ⟨p, hp, h⟩ := this v
  exact ⟨p, hp, v, h, .refl⟩

theorem bond_joined : JoinedToConductors (retagMesh trio bond) bondedModel.materials := by
  have : ∀ v, ∃ p ∈ bondedModel.materials.pecs, OnTag (retagMesh trio bond) p.tag v := by
    unfold OnTag
    decide +kernel
  intro v
  obtain ⟨p, hp, h⟩ := this v
  exact ⟨p, hp, v, h, .refl⟩

theorem trio_apart : ConductorsApart trio trioModel.materials := by
  unfold ConductorsApart OnTag
  decide +kernel

theorem bond_apart : ConductorsApart (retagMesh trio bond) bondedModel.materials := by
  unfold ConductorsApart OnTag
  decide +kernel

theorem trio_bonded : Bonded bond trioModel.materials bondedModel.materials trioModel.materials.pecs bondedModel.materials.pecs
    (![(0 : Fin 2), (1 : Fin 2), (1 : Fin 2)] : Fin 3 → Fin 2) where
  tags := by
    show ∀ i : Fin 3, _
    decide +kernel
  all := by
    show ∀ k : Fin 2, ∃ i : Fin 3, (![(0 : Fin 2), (1 : Fin 2), (1 : Fin 2)] : Fin 3 → Fin 2) i = k
    decide +kernel
  only := by
    show ∀ (i : Fin 3) (a : Int), _ → ∃ j : Fin 3, _
    intro i a h
    have h4 : a = 4 ∨ a = bond a := by
      unfold bond
      split
      · exact .inl ‹_›
      · exact .inr rfl
    rcases h4 with rfl | h4
    · exact ⟨2, rfl⟩
    · rw [h] at h4
      rcases (by decide : ∀ i : Fin 3, i = 0 ∨ i = 1 ∨ i = 2) i with rfl | rfl | rfl
      · exact ⟨0, h4⟩
      · exact ⟨1, h4⟩
      · exact ⟨1, h4⟩
  distinct := by decide +kernel
  distinct' := by decide +kernel
  opens := rfl
  opens_tag := by intro o ho; cases ho
  dielectrics := rfl

/-- the field without dielectrics with one of the plates at 1 V -/
def trioField (s : ℚ) (l : Bool) : SolverSolution trio.fem where
  phi := fun v => if (if l then v.1 = 0 ∨ v.1 = 3 else v.1 = 5 ∨ v.1 = 6) then 1 else 0
  e := fun k => -∑ i : Fin trio.fem.n, trio.fem.grad k i * (if (if l then i.1 = 0 ∨ i.1 = 3 else i.1 = 5 ∨ i.1 = 6) then 1 else 0)
  d := fun k => s * (if l then [0, 1, 1, 0, 1] else [0, 0, 0, 0, 0, 0, 1, 1, 0, 1]).getD k.1 0

theorem trio_flux : Displacement trio.fem (fun _ => 1) (trioField 1 true).e (trioField 1 true).d ∧
    Displacement trio.fem (fun _ => 1) (trioField (-1) false).e (trioField (-1) false).d := by
  unfold Displacement
  decide +kernel

theorem trio_prescribed (A : Analytic ℚ) {s : ℚ} {l : Bool} (h : Displacement trio.fem (fun _ => 1) (trioField s l).e (trioField s l).d) :
    PrescribedField A trio.fem trioModel.materials true (oneVolt (if l then 1 else 4)) (trioField s l) := by
  have some : ∀ v : Fin trio.nv, ∃ p ∈ trioModel.materials.pecs, OnTag trio p.tag v ∧
      oneVolt (if l then 1 else 4) p.tag = if (if l then v.1 = 0 ∨ v.1 = 3 else v.1 = 5 ∨ v.1 = 6) then (1 : ℚ) else 0 := by
    unfold OnTag oneVolt
    clear h
    revert l
    decide +kernel
  refine ⟨?_, ?_, fun _ => rfl, h⟩
  · intro v c _ hc
    obtain ⟨p, hp, hb, e⟩ := some v
    rw [← hc p hp (onBoundary_iff.mpr hb), e]
    rfl
  · intro v hv
    obtain ⟨p, hp, hb, _⟩ := some v
    exact absurd (onBoundary_iff.mpr hb) (hv p hp)

theorem trio_charges : chargeOn (trioField 1 true) 1 = 1 ∧ chargeOn (trioField 1 true) 4 = 0 ∧
    chargeOn (trioField (-1) false) 1 = 0 ∧ chargeOn (trioField (-1) false) 4 = 1 := by
  decide +kernel

/-- The hypotheses of `C108_generalized` and of `C108_line` hold for the conductor between two plates: with the plates bonded, the matrix is the sum
of the four entries of the plates. -/
example : ∃ (d d' : _) (p p' : PULParameters ℚ) (C : Matrix (Fin 2) (Fin 2) ℚ) (C' : Matrix (Fin 1) (Fin 1) ℚ),
    (Driver.construct bondEngine trioModel order1).1 = .ok d ∧ (Driver.construct bondEngine bondedModel order1).1 = .ok d' ∧
    (Query.pulMTL.exec bondEngine d).1 = .ok (.pul p) ∧ (Query.pulMTL.exec bondEngine d').1 = .ok (.pul p') ∧
    p.C = DMat.ofMatrix C ∧ p'.C = DMat.ofMatrix C' ∧ C' 0 0 = C 0 0 + C 0 1 + (C 1 0 + C 1 1) := by
  have hF : bondEngine.fem trioModel order1 = trio.fem := bond_fem.1
  have hF' : bondEngine.fem bondedModel order1 = (retagMesh trio bond).fem := bond_fem.2
  have ho : OpenAbsorb bondEngine.analytic trio trioModel.materials := by intro s _ ⟨o, ho, _⟩; cases ho
  have ho' : OpenAbsorb bondEngine.analytic (retagMesh trio bond) bondedModel.materials := by intro s _ ⟨o, ho, _⟩; cases ho
  have hB : Buildable (bondEngine.fem trioModel order1) trioModel.materials := by
    rw [hF]; exact triangles_buildable trio_proper trio_sensible
  have hB' : Buildable (bondEngine.fem bondedModel order1) bondedModel.materials := by
    rw [hF']; exact triangles_buildable bond_proper bond_sensible
  have hw : WellPosed bondEngine.analytic (bondEngine.fem trioModel order1) trioModel.materials := by
    rw [hF]; exact (triangles_elliptic trio_proper trio_sensible trio_joined ho).wellPosed
  have hs : Separate (bondEngine.fem trioModel order1) trioModel.materials := by
    rw [hF]; exact triangles_separate trio_apart
  have hR : Retagged bond (bondEngine.fem trioModel order1) (bondEngine.fem bondedModel order1) := by
    rw [hF, hF']; exact C108_mesh trio bond
  have hW : WellDeclared trioModel.materials := ⟨trio_sensible.names, trio_sensible.tags, trio_sensible.openNames⟩
  have hW' : WellDeclared bondedModel.materials := ⟨bond_sensible.names, bond_sensible.tags, bond_sensible.openNames⟩
  obtain ⟨_, _, d, hd, hm⟩ := C79_triangles bondEngine (T := trio) (model := trioModel) (opts := order1) rfl rfl bond_fem.1
    inverseSolver_exact trio_numbering trio_proper trio_sensible trio_joined trio_apart ho
  obtain ⟨_, _, d', hd', hm'⟩ := C79_triangles bondEngine (T := retagMesh trio bond) (model := bondedModel) (opts := order1) rfl rfl bond_fem.2
    inverseSolver_exact bonded_numbering bond_proper bond_sensible bond_joined bond_apart ho'
  obtain ⟨G, hG, -⟩ := hm false .closed rfl (by decide)
  obtain ⟨G0, hG0, -, g0⟩ := hm true .closed rfl (by decide)
  obtain ⟨G', hG', -⟩ := hm' false .closed rfl (by decide)
  obtain ⟨G0', hG0', -⟩ := hm' true .closed rfl (by decide)
  have key := C108_generalized bondEngine trio_numbering bonded_numbering hB hB' hW hW' inverseSolver_exact hw hs trio_bonded hR true hd rfl hd' rfl
    hG0 hG0' (1 : Fin 2) (1 : Fin 2)
  have f : ∃ t u : SolverSolution (bondEngine.fem trioModel order1),
      PrescribedField bondEngine.analytic (bondEngine.fem trioModel order1) trioModel.materials true (oneVolt 1) t ∧
      PrescribedField bondEngine.analytic (bondEngine.fem trioModel order1) trioModel.materials true (oneVolt 4) u ∧
      chargeOn t 1 = 1 ∧ chargeOn t 4 = 0 ∧ chargeOn u 1 = 0 ∧ chargeOn u 4 = 1 := by
    rw [hF]
    exact ⟨_, _, trio_prescribed _ (l := true) trio_flux.1, trio_prescribed _ (l := false) trio_flux.2, trio_charges⟩
  obtain ⟨t, u, ht, hu, c1, c2, c3, c4⟩ := f
  have m11 : G0 (1 : Fin 3) (1 : Fin 3) = 1 := (g0 (1 : Fin 3) (1 : Fin 3) t t ht ht).trans
    ((congrArg (fun x : ℚ => (x + x) / 2) c1).trans (by norm_num : ((1 : ℚ) + 1) / 2 = 1))
  have m22 : G0 (2 : Fin 3) (2 : Fin 3) = 1 := (g0 (2 : Fin 3) (2 : Fin 3) u u hu hu).trans
    ((congrArg (fun x : ℚ => (x + x) / 2) c4).trans (by norm_num : ((1 : ℚ) + 1) / 2 = 1))
  have m12 : G0 (1 : Fin 3) (2 : Fin 3) = 0 := (g0 (1 : Fin 3) (2 : Fin 3) t u ht hu).trans
    ((congrArg₂ (fun x y : ℚ => (x + y) / 2) c2 c3).trans (by norm_num : ((0 : ℚ) + 0) / 2 = 0))
  have m21 : G0 (2 : Fin 3) (1 : Fin 3) = 0 := (g0 (2 : Fin 3) (1 : Fin 3) u t hu ht).trans
    ((congrArg₂ (fun x y : ℚ => (x + y) / 2) c3 c2).trans (by norm_num : ((0 : ℚ) + 0) / 2 = 0))
  have k' : G0' (1 : Fin 2) (1 : Fin 2) = 2 := by
    have e : (∑ i : Fin 3, ∑ j : Fin 3, if (![(0 : Fin 2), (1 : Fin 2), (1 : Fin 2)] : Fin 3 → Fin 2) i = 1 ∧
        (![(0 : Fin 2), (1 : Fin 2), (1 : Fin 2)] : Fin 3 → Fin 2) j = 1 then G0 i j else 0) = G0 (1 : Fin 3) (1 : Fin 3) + G0 (1 : Fin 3) (2 : Fin 3) +
          (G0 (2 : Fin 3) (1 : Fin 3) + G0 (2 : Fin 3) (2 : Fin 3)) := by
      rw [Fin.sum_univ_three]
      simp [Fin.sum_univ_three]
    exact key.trans (e.trans (by rw [m11, m12, m21, m22]; norm_num))
  obtain ⟨p, hp⟩ := (C73_success bondEngine trio_numbering hd rfl (n := 2) hG hG0).mpr ⟨fun h => absurd rfl h, by
    intro v hv0 hz i
    simp only [if_true] at hv0
    have sum : ∀ i : Fin 3, charges G0 v i = G0 i (0 : Fin 3) * v 0 + G0 i (1 : Fin 3) * v 1 + G0 i (2 : Fin 3) * v 2 :=
      fun i => Fin.sum_univ_three (f := fun k => G0 i k * v k)
    have z1 := (sum 1).symm.trans (hz 0)
    have z2 := (sum 2).symm.trans (hz 1)
    rw [hv0, m11, m12] at z1
    rw [hv0, m21, m22] at z2
    rw [hv0]
    match i with
    | 0 => show v 1 = 0; linarith
    | 1 => show v 2 = 0; linarith⟩
  obtain ⟨p', hp'⟩ := (C73_success bondEngine bonded_numbering hd' rfl (n := 1) hG' hG0').mpr ⟨fun h => absurd rfl h, by
    intro v hv0 hz i
    simp only [if_true] at hv0
    have z := (Fin.sum_univ_two (f := fun k => G0' (1 : Fin 2) k * v k)).symm.trans (hz 0)
    rw [hv0, k'] at z
    rw [Fin.fin_one_eq_zero i, hv0]
    show v 1 = 0
    linarith⟩
  obtain ⟨n, n', hn, hn', C, C', e, e', h⟩ := C108_line bondEngine trio_numbering bonded_numbering hB hB' hW hW' inverseSolver_exact hw hs trio_bonded
    (by show ∀ i : Fin 3, _; decide) hR hd rfl hd' rfl hp hp'
  have : n = 2 := by have : 3 = n + 1 := hn; omega
  subst this
  have : n' = 1 := by have : 2 = n' + 1 := hn'; omega
  subst this
  refine ⟨d, d', p, p', C, C', hd, hd', hp, hp', e, e', (h 0 0).trans ?_⟩
  rw [Fin.sum_univ_two, Fin.sum_univ_two, Fin.sum_univ_two]
  rfl

end Tulip.Props
