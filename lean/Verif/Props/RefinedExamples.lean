import Verif.Props.Refined
import Verif.Props.CongruentExamples
import Verif.Props.OrderExamples

/-!
# C98: a refined tray
-/

namespace Tulip.Props
open Tulip Tulip.Spec Matrix MvPolynomial

/-- the tray with a new vertex on a conductor (7), one within a triangle (8) and one between two materials (9) -/
def fineTray : Triangulation ℚ where
  nv := 10
  coord := ![(-2, 0), (-1, 0), (1, 0), (2, 0), (2, 1), (0, 1), (-2, 1), (0, 0), (-1, 2/3), (3/2, 1/2)]
  tris := [⟨3, 0, 1, 6⟩, ⟨2, 1, 5, 8⟩, ⟨2, 5, 6, 8⟩, ⟨2, 6, 1, 8⟩, ⟨2, 1, 7, 5⟩, ⟨2, 7, 2, 5⟩, ⟨2, 2, 9, 5⟩, ⟨2, 9, 4, 5⟩, ⟨1, 2, 3, 9⟩, ⟨1, 3, 4, 9⟩]
  segs := [⟨4, 0, 1, 1⟩, ⟨1, 1, 7, 1⟩, ⟨1, 7, 2, 1⟩, ⟨4, 2, 3, 1⟩, ⟨3, 3, 4, 1⟩, ⟨4, 4, 5, 2⟩, ⟨4, 5, 6, 2⟩, ⟨2, 6, 0, 1⟩]

def fineTrayModel : Model ℚ where
  materials := trayModel.materials
  mesh := fineTray.toMesh

theorem fineTray_proper : Proper fineTray where
  area := by decide +kernel
  segs := by unfold IsSide; decide +kernel
  boundary := List.cons_ne_nil _ _
  triAttrs := by decide +kernel
  segAttrs := by decide +kernel

theorem fineTray_conforming : Conforming fineTray where
  sides := by decide +kernel
  once := by decide +kernel
  boundary := by unfold IsSide; decide +kernel

theorem fineTray_sensible : Sensible fineTray trayModel.materials where
  pecs := by decide +kernel
  opens := by intro o ho; cases ho
  dielectrics := by decide +kernel
  names := by decide +kernel
  tags := by decide +kernel
  openNames := by decide +kernel
  permittivities := by decide +kernel

theorem fineTray_apart : ConductorsApart fineTray trayModel.materials := by unfold ConductorsApart OnTag; decide +kernel

theorem fineTray_joined : JoinedToConductors fineTray trayModel.materials := by
  have one : ∀ v : Fin fineTray.nv, ∃ p ∈ trayModel.materials.pecs, ∃ w, OnTag fineTray p.tag w ∧ (v = w ∨ Adjacent fineTray v w) := by
    unfold OnTag Adjacent IsVertex
    decide +kernel
  intro v
  obtain ⟨p, hp, w, hw, h⟩ := one v
  refine ⟨p, hp, w, hw, ?_⟩
  rcases h with rfl | h
  · exact .refl
  · exact .single h

/-- the old vertices -/
def trayOld : Fin 7 → Fin 10 := ![0, 1, 2, 3, 4, 5, 6]

/-! the parts of the meshes, with numbers instead of names in their types -/
def trayTris : List (Tri 7) := tray.tris
def traySegs : List (Seg ℚ 7) := tray.segs
def trayCoord : Fin 7 → ℚ × ℚ := tray.coord
def fineTris : List (Tri 10) := fineTray.tris
def fineSegs : List (Seg ℚ 10) := fineTray.segs
def fineCoord : Fin 10 → ℚ × ℚ := fineTray.coord

/-- where the triangles come from -/
def trayParent : Tri 10 → Tri 7 := fun t =>
  if t = ⟨3, 0, 1, 6⟩ then ⟨3, 0, 1, 6⟩
  else if t = ⟨2, 1, 5, 8⟩ ∨ t = ⟨2, 5, 6, 8⟩ ∨ t = ⟨2, 6, 1, 8⟩ then ⟨2, 1, 5, 6⟩
  else if t = ⟨2, 1, 7, 5⟩ ∨ t = ⟨2, 7, 2, 5⟩ then ⟨2, 1, 2, 5⟩
  else if t = ⟨2, 2, 9, 5⟩ ∨ t = ⟨2, 9, 4, 5⟩ then ⟨2, 2, 4, 5⟩
  else ⟨1, 2, 3, 4⟩

/-- a test for points on a line -/
def onLine (a b x : ℚ × ℚ) : Bool :=
  (a.1 = b.1 ∧ a.2 = b.2 ∧ x.1 = a.1 ∧ x.2 = a.2) ∨ ((a.1 ≠ b.1 ∨ a.2 ≠ b.2) ∧ (x.1 - a.1) * (b.2 - a.2) = (x.2 - a.2) * (b.1 - a.1))

theorem onLine_of {a b x : ℚ × ℚ} (h : onLine a b x = true) : OnLine a b x := by
  rcases of_decide_eq_true h with ⟨_, _, h3, h4⟩ | ⟨h1 | h1, h2⟩
  · exact ⟨0, Prod.ext (by rw [h3]; ring) (by rw [h4]; ring)⟩
  · have hz : b.1 - a.1 ≠ 0 := sub_ne_zero.mpr h1.symm
    refine ⟨(x.1 - a.1) / (b.1 - a.1), Prod.ext ?_ ?_⟩
    · dsimp only
      field_simp
      ring
    · dsimp only
      field_simp
      linear_combination (-1 : ℚ) * h2
  · have hz : b.2 - a.2 ≠ 0 := sub_ne_zero.mpr h1.symm
    refine ⟨(x.2 - a.2) / (b.2 - a.2), Prod.ext ?_ ?_⟩
    · dsimp only
      field_simp
      linear_combination h2
    · dsimp only
      field_simp
      ring

instance {n : Nat} (t : Tri n) (v : Fin n) : Decidable (IsVertex t v) := by unfold IsVertex; infer_instance

local instance (n : Nat) : OfNat (Fin fineTray.nv) n := inferInstanceAs (OfNat (Fin 10) n)

theorem tray_refined : Refines tray fineTray trayOld trayParent where
  coord := by decide +kernel
  parents := (by decide +kernel : ∀ t ∈ fineTris, trayParent t ∈ trayTris)
  material := (by decide +kernel : ∀ t ∈ fineTris, t.attr = (trayParent t).attr)
  dissected := by
    have line : ∀ {a b : ℚ × ℚ} (v : Fin 10), onLine a b (fineCoord v) = true → ∀ w ∈ [v], OnLine a b (fineCoord w) := fun v h w hw => by
      rw [List.mem_singleton.mp hw]
      exact onLine_of h
    have none : ∀ {a b : ℚ × ℚ}, ∀ w ∈ ([] : List (Fin 10)), OnLine a b (fineCoord w) := fun w hw => by cases hw
    refine List.forall_mem_cons.mpr ⟨?_, List.forall_mem_cons.mpr ⟨?_, List.forall_mem_cons.mpr ⟨?_, List.forall_mem_cons.mpr ⟨?_,
      List.forall_mem_cons.mpr ⟨?_, fun t ht => by cases ht⟩⟩⟩⟩⟩
    · exact ⟨[], [], [], [], none, none, none, by decide +kernel⟩
    · exact ⟨[(1, 8), (5, 8), (6, 8)], [], [], [], none, none, none, by decide +kernel⟩
    · exact ⟨[(5, 7)], [7], [], [], line (a := (-1, 0)) (b := (1, 0)) 7 (by decide +kernel), none, none, by decide +kernel⟩
    · exact ⟨[(5, 9)], [9], [], [], line (a := (1, 0)) (b := (2, 1)) 9 (by decide +kernel), none, none, by decide +kernel⟩
    · exact ⟨[(3, 9)], [], [], [9], none, none, line (a := (2, 1)) (b := (1, 0)) 9 (by decide +kernel), by decide +kernel⟩
  common := by
    have : ∀ t ∈ fineTris, ∀ t' ∈ fineTris, trayParent t ≠ trayParent t' → ∀ v w : Fin 10, IsVertex t v → IsVertex t w → IsVertex t' v → IsVertex t' w →
        ∃ a b : Fin 7, IsVertex (trayParent t) a ∧ IsVertex (trayParent t) b ∧ IsVertex (trayParent t') a ∧ IsVertex (trayParent t') b ∧
          onLine (trayCoord a) (trayCoord b) (fineCoord v) = true ∧ onLine (trayCoord a) (trayCoord b) (fineCoord w) = true := by
      decide +kernel
    intro t ht t' ht' hne v w h1 h2 h3 h4
    obtain ⟨a, b, a1, b1, a2, b2, l1, l2⟩ := this t ht t' ht' hne v w h1 h2 h3 h4
    exact ⟨a, b, a1, b1, a2, b2, onLine_of l1, onLine_of l2⟩
  boundary := by
    have : ∀ s' ∈ fineSegs, ∀ t' ∈ fineTris, (s'.a, s'.b) ∈ t'.sides →
        ∃ s ∈ traySegs, s.attr = s'.attr ∧ (s.a, s.b) ∈ (trayParent t').sides ∧
          onLine (trayCoord s.a) (trayCoord s.b) (fineCoord s'.a) = true ∧ onLine (trayCoord s.a) (trayCoord s.b) (fineCoord s'.b) = true := by
      decide +kernel
    intro s' hs' t' ht' hside
    obtain ⟨s, hs, e, hp, l1, l2⟩ := this s' hs' t' ht' hside
    exact ⟨s, hs, e, hp, onLine_of l1, onLine_of l2⟩

/-- The hypotheses of `C98_refined` hold for the tray and its refinement at any orders, for new solvers. -/
example {p p' : Nat} (hp : 1 ≤ p) (hpp : p ≤ p') : ∃ (Q : Rule ℚ) (S : Shapes tray) (S' : Shapes fineTray) (inp : SolverInputs ℚ)
    (s : Solver (tray.femWith S Q)) (s' : Solver (fineTray.femWith S' Q)), Adequate Q p' ∧ ExactRule Q (2 * p) ∧
    Elements S p ∧ Elements S' p' ∧
    buildSolverInputsFromModel trayModel false = .ok inp ∧ buildSolverInputsFromModel fineTrayModel false = .ok inp ∧
    Reaches noAnalytic inverseSolver inp [] s ∧ Reaches noAnalytic inverseSolver inp [] s' ∧
    ∀ V : Int → ℚ, ∃ (s1 : Solver (tray.femWith S Q)) (s1' : Solver (fineTray.femWith S' Q)) (W W' : ℚ),
      (s.setDirichletConditions (prescribe (trayModel.materials.pecs.map PEC.tag) V)).solve inverseSolver = .ok s1 ∧
      (s'.setDirichletConditions (prescribe (trayModel.materials.pecs.map PEC.tag) V)).solve inverseSolver = .ok s1' ∧
      s1.getTotalEnergy = .ok W ∧ s1'.getTotalEnergy = .ok W' ∧ W' ≤ W := by
  obtain ⟨S, hS, hC⟩ := complete_exist tray_proper tray_conforming (p := p) hp
  obtain ⟨S', hS', hC'⟩ := complete_exist fineTray_proper fineTray_conforming (p := p') (hp.trans hpp)
  obtain ⟨S3, hS3, _⟩ := complete_exist tray_proper tray_conforming (p := 3) (by norm_num)
  obtain ⟨Q, hQ, eQ⟩ := Quadrature.exact_rule_exists (𝕜 := ℚ) p' (2 * p)
  have hN := (tray_case hS3).numbering
  obtain ⟨s, hs⟩ := make_ok (F := tray.femWith S Q) hN (elements_buildable tray_proper tray_sensible)
    noAnalytic false ⟨fun _ => 0, fun _ => 0, fun _ => 0⟩
  obtain ⟨s', hs'⟩ := make_ok (F := fineTray.femWith S' Q) hN (elements_buildable fineTray_proper fineTray_sensible)
    noAnalytic false ⟨fun _ => 0, fun _ => 0, fun _ => 0⟩
  have r : Reaches noAnalytic inverseSolver (inputsOf trayModel.materials false) [] s := ⟨_, s, hs, rfl, fun _ h => by cases h⟩
  have r' : Reaches noAnalytic inverseSolver (inputsOf trayModel.materials false) [] s' := ⟨_, s', hs', rfl, fun _ h => by cases h⟩
  have hin := buildInputs_ok trayModel tray_sensible.names false
  have hin' := buildInputs_ok fineTrayModel tray_sensible.names false
  refine ⟨Q, S, S', _, s, s', hQ, eQ, hS, hS', hin, hin', r, r', fun V => ?_⟩
  obtain ⟨s1, s1', W, W', e1, e2, e3, e4, -, e5, -⟩ := C98_refined inverseSolver_exact inverseSolver_exact (model := trayModel) (model' := fineTrayModel) rfl
    hN hp hpp hS hC hS' hC' (adequate_mono hQ hpp) hQ eQ eQ tray_proper
    fineTray_proper tray_conforming tray_refined tray_sensible tray_joined tray_apart fineTray_sensible fineTray_joined fineTray_apart rfl
    hin hin' r (fun _ => rfl) r' (fun _ => rfl) V
  exact ⟨s1, s1', W, W', e1, e2, e3, e4, e5⟩

end Tulip.Props
