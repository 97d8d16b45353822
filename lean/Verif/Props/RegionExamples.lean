import Verif.Props.Regions
import Verif.Props.TriangleExamples

/-!
# C88: two lines in one shield, in separate chambers
-/

namespace Tulip.Props
open Tulip Tulip.Spec Matrix

/-- two squares with no common vertex; conductor 0 (tag 1) touches both, conductor 1 (tag 2) the first one and conductor 2
(tag 3) the second one -/
def chambers : Triangulation ℚ where
  nv := 8
  coord := ![(0, 0), (1, 0), (1, 1), (0, 1), (5, 0), (7, 0), (7, 1), (5, 1)]
  tris := [⟨1, 0, 1, 2⟩, ⟨1, 0, 2, 3⟩, ⟨2, 4, 5, 6⟩, ⟨2, 4, 6, 7⟩]
  segs := [⟨4, 0, 1, 1⟩, ⟨2, 1, 2, 1⟩, ⟨4, 2, 3, 1⟩, ⟨1, 3, 0, 1⟩, ⟨4, 4, 5, 2⟩, ⟨3, 5, 6, 2⟩, ⟨4, 6, 7, 2⟩, ⟨1, 7, 4, 2⟩]

def chamberPecs : List (PEC ℚ) := [⟨"Conductor_0", 1, 0⟩, ⟨"Conductor_1", 2, 0⟩, ⟨"Conductor_2", 3, 0⟩]

/-- the second square is filled with a dielectric of relative permittivity `r` -/
def chamberModel (r : ℚ) : Model ℚ where
  materials := { pecs := chamberPecs, dielectrics := [⟨"Dielectric_1", 2, r⟩] }
  mesh := chambers.toMesh

theorem chamber_numbering (r : ℚ) : Numbering (chamberModel r).materials chamberPecs where
  all := List.Perm.refl _
  ids := by
    intro i h
    match i, h with
    | 0, _ => show getMaterialIdFromName "Conductor_0" = .ok 0; decide +kernel
    | 1, _ => show getMaterialIdFromName "Conductor_1" = .ok 1; decide +kernel
    | 2, _ => show getMaterialIdFromName "Conductor_2" = .ok 2; decide +kernel
  nonempty := by simp [chamberPecs]

theorem chambers_proper : Proper chambers where
  area := by decide +kernel
  segs := by unfold IsSide; decide +kernel
  boundary := List.cons_ne_nil _ _
  triAttrs := by decide +kernel
  segAttrs := by decide +kernel

theorem chambers_touch : ∀ v : Fin chambers.nv, ∃ p ∈ chamberPecs, OnTag chambers p.tag v := by
  unfold OnTag
  decide +kernel

theorem chambers_apart : ∀ p ∈ chamberPecs, ∀ q ∈ chamberPecs, p.tag ≠ q.tag →
    ∀ v : Fin chambers.nv, OnTag chambers p.tag v → ¬ OnTag chambers q.tag v := by
  unfold OnTag
  decide +kernel

/-- the chamber of a vertex does not change along triangles -/
theorem chambers_region {v w : Fin chambers.nv} (h : SameRegion chambers v w) : v.1 < 4 ↔ w.1 < 4 := by
  have key : ∀ v w : Fin chambers.nv, Adjacent chambers v w → (v.1 < 4 ↔ w.1 < 4) := by
    unfold Adjacent IsVertex
    decide +kernel
  induction h with
  | refl => rfl
  | tail _ h1 ih => exact ih.trans (key _ _ h1)

theorem chambers_tag2 : ∀ v : Fin chambers.nv, OnTag chambers 2 v → v.1 < 4 := by
  unfold OnTag
  decide +kernel

theorem chambers_tag3 : ∀ v : Fin chambers.nv, OnTag chambers 3 v → ¬ v.1 < 4 := by
  unfold OnTag
  decide +kernel

/-- conductors 1 and 2 touch no common region -/
theorem chambers_shielded : ¬ ShareRegion chambers 2 3 := by
  rintro ⟨v, w, h1, h2, h3⟩
  exact chambers_tag3 w h2 ((chambers_region h3).mp (chambers_tag2 v h1))

theorem chambers_case {r : ℚ} (hr : 0 < r) : TriangleCase (triEngine chambers) chambers (chamberModel r) order1 chamberPecs where
  mesh := rfl
  order := rfl
  disc := rfl
  solver := inverseSolver_exact
  numbering := chamber_numbering r
  proper := chambers_proper
  sensible := {
    pecs := by show ∀ p ∈ chamberPecs, _; decide +kernel
    opens := by intro o ho; cases ho
    dielectrics := by
      intro d hd
      rw [List.mem_singleton.mp hd]
      show (1 : Int) ≤ 2 ∧ ∃ t ∈ chambers.tris, (2 : Int) ≤ t.attr
      decide +kernel
    names := by simp [chamberModel]
    tags := by simp [chamberModel]
    openNames := List.nodup_nil
    permittivities := by
      intro d hd
      rw [List.mem_singleton.mp hd]
      exact hr }
  joined := fun v => by
    obtain ⟨p, hp, h⟩ := chambers_touch v
    exact ⟨p, hp, v, h, .refl⟩
  apart := chambers_apart
  absorb := fun s _ ⟨o, ho, _⟩ => by cases ho

/-- The hypotheses of `C88_shielded` hold for conductors 1 and 2 in their chambers. -/
example : ∃ (d : Driver ((triEngine chambers).fem (chamberModel 4) order1)) (M : Matrix (Fin 3) (Fin 3) ℚ),
    ((Query.generalizedC false).exec (triEngine chambers) d).1 = .ok (.matrix (DMat.ofMatrix M)) ∧ M 1 2 = 0 ∧ M 2 1 = 0 := by
  have h := chambers_case (r := 4) (by norm_num)
  obtain ⟨_, _, d, hd, _⟩ := C79_triangles (triEngine chambers) h.mesh h.order h.disc h.solver h.numbering h.proper h.sensible
    h.joined h.apart h.absorb (opts := order1)
  obtain ⟨M, e, hM⟩ := C88_shielded (triEngine chambers) h hd rfl (by decide) false
  exact ⟨d, M, e, hM (1 : Fin 3) (2 : Fin 3) chambers_shielded,
    hM (2 : Fin 3) (1 : Fin 3) fun ⟨v, w, h1, h2, h3⟩ => chambers_shielded ⟨w, v, h2, h1, sameRegion_symm h3⟩⟩

/-- The hypotheses of `C88_elsewhere` hold for the entry of conductor 1 with itself when the other chamber is filled with
something else. -/
example : ∃ (d : Driver ((triEngine chambers).fem (chamberModel 4) order1))
    (d' : Driver ((triEngine chambers).fem (chamberModel 9) order1)) (M M' : Matrix (Fin 3) (Fin 3) ℚ),
    ((Query.generalizedC false).exec (triEngine chambers) d).1 = .ok (.matrix (DMat.ofMatrix M)) ∧
    ((Query.generalizedC false).exec (triEngine chambers) d').1 = .ok (.matrix (DMat.ofMatrix M')) ∧ M 1 1 = M' 1 1 := by
  have h := chambers_case (r := 4) (by norm_num)
  have h' := chambers_case (r := 9) (by norm_num)
  obtain ⟨_, _, d, hd, _⟩ := C79_triangles (triEngine chambers) h.mesh h.order h.disc h.solver h.numbering h.proper h.sensible
    h.joined h.apart h.absorb (opts := order1)
  obtain ⟨_, _, d', hd', _⟩ := C79_triangles (triEngine chambers) h'.mesh h'.order h'.disc h'.solver h'.numbering h'.proper
    h'.sensible h'.joined h'.apart h'.absorb (opts := order1)
  obtain ⟨M, M', e, e', hM⟩ := C88_elsewhere (triEngine chambers) h h' rfl rfl hd hd' rfl (by decide) false false
  refine ⟨d, d', M, M', e, e', hM (1 : Fin 3) (1 : Fin 3) ?_⟩
  rintro x hx ⟨v, w, h1, h2, h3⟩ _
  have hw := (chambers_region h3).mp (chambers_tag2 v h1)
  have key : ∀ x ∈ chambers.tris, ∀ w : Fin chambers.nv, IsVertex x w → w.1 < 4 →
      declaredEps (chamberModel 4).materials false x.attr = declaredEps (chamberModel 9).materials false x.attr := by
    unfold IsVertex
    decide +kernel
  exact key x hx w h2 hw

/-- the field without dielectrics with conductor 0 at 0, conductor 1 at `x` and conductor 2 at `y` -/
def chamberField (x y : ℚ) : SolverSolution chambers.fem where
  phi := fun v => [0, x, x, 0, 0, y, y, 0].getD v.1 0
  e := fun k => -∑ i : Fin chambers.fem.n, chambers.fem.grad k i * [0, x, x, 0, 0, y, y, 0].getD i.1 0
  d := fun k => if (chambers.edges[k]).1.1 < 4 then across chambers (-x, 0) chambers.edges[k]
    else across chambers (-y / 2, 0) chambers.edges[k]

theorem chamber_flux : Displacement chambers.fem (fun _ => 1) (chamberField 1 0).e (chamberField 1 0).d ∧
    Displacement chambers.fem (fun _ => 1) (chamberField 0 1).e (chamberField 0 1).d := by
  unfold Displacement
  decide +kernel

theorem chamber_charges : chargeOn (chamberField 1 0) 2 = 1 ∧ chargeOn (chamberField 0 1) 3 = 1 / 2 := by
  decide +kernel

theorem chamber_prescribed {r : ℚ} (A : Analytic ℚ) {x y : ℚ}
    (hd : Displacement chambers.fem (fun _ => 1) (chamberField x y).e (chamberField x y).d) {V : Int → ℚ} (h1 : V 1 = 0)
    (h2 : V 2 = x) (h3 : V 3 = y) : PrescribedField A chambers.fem (chamberModel r).materials true V (chamberField x y) := by
  have val : ∀ v : Fin chambers.nv, (∀ p ∈ chamberPecs, OnTag chambers p.tag v → (chamberField x y).phi v = V p.tag) := by
    intro v p hp hv
    have key : ∀ v : Fin chambers.nv, ∀ p ∈ chamberPecs, OnTag chambers p.tag v →
        (p.tag = 1 ∧ v.1 ∈ [0, 3, 4, 7]) ∨ (p.tag = 2 ∧ v.1 ∈ [1, 2]) ∨
          (p.tag = 3 ∧ v.1 ∈ [5, 6]) := by
      unfold OnTag
      decide +kernel
    rcases key v p hp hv with ⟨e, m⟩ | ⟨e, m⟩ | ⟨e, m⟩ <;> rw [e]
    · rw [h1]
      show [0, x, x, 0, 0, y, y, 0].getD v.1 0 = _
      generalize v.1 = w at m
      fin_cases m <;> rfl
    · rw [h2]
      show [0, x, x, 0, 0, y, y, 0].getD v.1 0 = _
      generalize v.1 = w at m
      fin_cases m <;> rfl
    · rw [h3]
      show [0, x, x, 0, 0, y, y, 0].getD v.1 0 = _
      generalize v.1 = w at m
      fin_cases m <;> rfl
  refine ⟨?_, ?_, fun _ => rfl, ?_⟩
  · rintro v c ⟨p, hp, hb⟩ hc
    rw [← hc p hp hb]
    exact val v p hp (onBoundary_iff.mp hb)
  · intro v hv
    obtain ⟨p, hp, h⟩ := chambers_touch v
    exact absurd (onBoundary_iff.mpr h) (hv p hp)
  · exact hd

/-- The hypotheses of `C88_line` hold for the two lines; the groups are conductor 1 and conductor 2. -/
example : ∃ (d : Driver ((triEngine chambers).fem (chamberModel 4) order1)) (p : PULParameters ℚ)
    (C L : Matrix (Fin 2) (Fin 2) ℚ), (Driver.construct (triEngine chambers) (chamberModel 4) order1).1 = .ok d ∧
    (Query.pulMTL.exec (triEngine chambers) d).1 = .ok (.pul p) ∧ p.C = DMat.ofMatrix C ∧ p.L = DMat.ofMatrix L ∧
    C 0 1 = 0 ∧ L 0 1 = 0 := by
  have h := chambers_case (r := 4) (by norm_num)
  obtain ⟨_, _, d, hd, _⟩ := C79_triangles (triEngine chambers) h.mesh h.order h.disc h.solver h.numbering h.proper h.sensible
    h.joined h.apart h.absorb (opts := order1)
  obtain ⟨_, _, _, G, hG, _⟩ := triangle_case (triEngine chambers) h hd rfl (by decide) false rfl
  obtain ⟨_, _, _, G0, hG0, g0⟩ := triangle_case (triEngine chambers) h hd rfl (by decide) true rfl
  obtain ⟨M, e, hM⟩ := C88_shielded (triEngine chambers) h hd rfl (by decide) true
  have hMG := ofMatrix_eq (Answer.matrix.inj (Outcome.ok.inj (e.symm.trans hG0)))
  subst hMG
  have t1 := chamber_prescribed (r := 4) (triEngine chambers).analytic chamber_flux.1 (V := oneVolt 2) rfl rfl rfl
  have t2 := chamber_prescribed (r := 4) (triEngine chambers).analytic chamber_flux.2 (V := oneVolt 3) rfl rfl rfl
  have m11 : M (1 : Fin 3) (1 : Fin 3) = 1 := (g0 (1 : Fin 3) (1 : Fin 3) _ _ t1 t1).trans
    ((congrArg (fun x : ℚ => (x + x) / 2) chamber_charges.1).trans (by norm_num : ((1 : ℚ) + 1) / 2 = 1))
  have m22 : M (2 : Fin 3) (2 : Fin 3) = 1 / 2 := (g0 (2 : Fin 3) (2 : Fin 3) _ _ t2 t2).trans
    ((congrArg (fun x : ℚ => (x + x) / 2) chamber_charges.2).trans (by norm_num : ((1 / 2 : ℚ) + 1 / 2) / 2 = 1 / 2))
  have m12 : M (1 : Fin 3) (2 : Fin 3) = 0 := hM (1 : Fin 3) (2 : Fin 3) chambers_shielded
  have m21 : M (2 : Fin 3) (1 : Fin 3) = 0 :=
    hM (2 : Fin 3) (1 : Fin 3) fun ⟨v, w, h1, h2, h3⟩ => chambers_shielded ⟨w, v, h2, h1, sameRegion_symm h3⟩
  obtain ⟨p, hp⟩ := (C73_success (triEngine chambers) h.numbering hd rfl (n := 2) hG hG0).mpr ⟨fun h => absurd rfl h, by
    intro v hv0 hz i
    simp only [if_true] at hv0
    have sum : ∀ i : Fin 3, charges M v i = M i (0 : Fin 3) * v 0 + M i (1 : Fin 3) * v 1 + M i (2 : Fin 3) * v 2 :=
      fun i => Fin.sum_univ_three (f := fun k => M i k * v k)
    have z1 := (sum 1).symm.trans (hz 0)
    have z2 := (sum 2).symm.trans (hz 1)
    rw [hv0, m11, m12] at z1
    rw [hv0, m21, m22] at z2
    rw [hv0]
    match i with
    | 0 => show v 1 = 0; linarith
    | 1 => show v 2 = 0; linarith⟩
  obtain ⟨C, L, e1, e2, h⟩ := C88_line (triEngine chambers) h rfl hd hp (n := 2) rfl (by decide) (fun i => i = 0) (by
      intro i j hi hj
      subst hi
      match j, hj with
      | 0, hj => exact absurd rfl hj
      | 1, _ => exact chambers_shielded)
  obtain ⟨h1, _, h2, _⟩ := h 0 1 rfl (by decide)
  exact ⟨d, p, C, L, hd, hp, e1, e2, h1, h2⟩

end Tulip.Props
