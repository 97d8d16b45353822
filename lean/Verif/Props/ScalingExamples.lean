import Verif.Props.Scaling
import Verif.Props.CongruentExamples

/-!
# C97: the tray, filled with one dielectric, then with another one
-/

namespace Tulip.Props
open Tulip Tulip.Spec Matrix

/-- the tray with the relative permittivity `er` everywhere, declared in three parts -/
def filled (er : ℚ) : Materials ℚ where
  pecs := trayPecs
  dielectrics := [⟨"Dielectric_1", 3, er⟩, ⟨"Dielectric_2", 1, er⟩, ⟨"Dielectric_3", 2, er⟩]

def filledModel (er : ℚ) : Model ℚ where
  materials := filled er
  mesh := tray.toMesh

theorem filled_sensible {er : ℚ} (h : 0 < er) : Sensible tray (filled er) where
  pecs := tray_sensible.pecs
  opens := by intro o ho; cases ho
  dielectrics := by
    intro x hx
    have : x.tag ∈ (filled 1).dielectrics.map Dielectric.tag := by
      have e : (filled 1).dielectrics.map Dielectric.tag = (filled er).dielectrics.map Dielectric.tag := rfl
      rw [e]
      exact List.mem_map_of_mem hx
    revert this
    generalize x.tag = t
    revert t
    decide +kernel
  names := by
    show (["Dielectric_1", "Dielectric_2", "Dielectric_3"] : List String).Nodup
    decide +kernel
  tags := by
    show ([3, 1, 2] : List Int).Nodup
    decide +kernel
  openNames := List.nodup_nil
  permittivities := by
    intro x hx
    simp only [filled, List.mem_cons, List.not_mem_nil, or_false] at hx
    rcases hx with rfl | rfl | rfl <;> exact h

theorem filled_eps {er : ℚ} : ∀ t ∈ tray.tris, declaredEps (filled er) false t.attr = er := by
  intro t ht
  have : t.attr = 3 ∨ t.attr = 1 ∨ t.attr = 2 := by
    revert t
    decide +kernel
  unfold declaredEps
  rcases this with e | e | e <;> rw [e] <;> rfl

/-- The hypotheses of `C97_scaled` and `C97_homogeneous` hold for the filled tray with elements of order 3. -/
example {er k : ℚ} (h : 0 < er) (hk : 0 < k) : ∃ (E : Engine ℚ) (d d' : _), (Driver.construct E (filledModel er) {}).1 = .ok d ∧
    (Driver.construct E (filledModel (k * er)) {}).1 = .ok d' ∧
    (∀ b, ((Query.floatingMatrix b).exec E d').1 = ((Query.floatingMatrix b).exec E d).1) ∧
    ((Query.floatingMatrix false).exec E d).1 = ((Query.floatingMatrix true).exec E d).1 := by
  obtain ⟨S, hS, hC⟩ := complete_exist tray_proper tray_conforming (p := 3) (by norm_num)
  have hj : JoinedToConductors tray (filled er) := tray_joined
  have ha : ConductorsApart tray (filled er) := tray_apart
  have hw : WellPosed (shapesEngine S sexticRule).analytic (tray.femWith S sexticRule) (filled er) :=
    (elements_elliptic hS tray_proper sexticRule_adequate (filled_sensible h) hj (fun s _ ⟨o, ho, _⟩ => by cases ho)).wellPosed
  have hN : Numbering (filled er) trayPecs := ⟨(tray_case hS).numbering.all, (tray_case hS).numbering.ids, (tray_case hS).numbering.nonempty⟩
  have hs := elements_separate (Q := sexticRule) hS ha
  have hB := elements_buildable (S := S) (Q := sexticRule) tray_proper (filled_sensible h)
  have hB' := elements_buildable (S := S) (Q := sexticRule) tray_proper (filled_sensible (mul_pos hk h))
  have W : ∀ {x : ℚ} (_ : 0 < x), WellDeclared (filled x) := fun hx =>
    ⟨(filled_sensible hx).names, (filled_sensible hx).tags, (filled_sensible hx).openNames⟩
  have attr : ∀ q ∈ (tray.femWith S sexticRule).dom, ∃ t ∈ tray.tris, q.attr = t.attr := by
    intro q hq
    obtain ⟨t, ht, hq⟩ := List.mem_flatMap.mp hq
    obtain ⟨r, _, rfl⟩ := List.mem_map.mp hq
    exact ⟨t, ht, rfl⟩
  obtain ⟨d, d', hd, hd', _, f, _⟩ := C97_scaled (shapesEngine S sexticRule) (model := filledModel er) (mats' := filled (k * er)) (opts := {})
    (ps := trayPecs) hN hB hB' (W h) (W (mul_pos hk h)) inverseSolver_exact hw hs rfl rfl rfl (k := k) hk.ne' (by
      intro q hq
      obtain ⟨t, ht, e⟩ := attr q hq
      show declaredEps (filled (k * er)) false q.attr = k * declaredEps (filled er) false q.attr
      rw [e, filled_eps t ht, filled_eps t ht])
  obtain ⟨d1, hd1, _, f1, _⟩ := C97_homogeneous (shapesEngine S sexticRule) (model := filledModel er) (opts := {})
    (ps := trayPecs) hN hB (W h) inverseSolver_exact hw hs rfl (er := er) h.ne' (by
      intro q hq
      obtain ⟨t, ht, e⟩ := attr q hq
      show declaredEps (filled er) false q.attr = er
      rw [e, filled_eps t ht])
  have : d1 = d := Outcome.ok.inj (hd1.symm.trans hd)
  subst this
  exact ⟨_, d1, d', hd, hd', f, f1⟩

end Tulip.Props
