import Verif.Spec.Redeclared
import Verif.Spec.Capacitance
import Verif.Proofs.MatrixQueries
import Verif.Proofs.Prescribed

/-!
# Materials declared in another way
-/

set_option linter.unusedSectionVars false

namespace Tulip
open Spec Matrix

section
variable {𝕜 : Type}

theorem opennessLoop_open {mesh : Mesh 𝕜} : ∀ {os : List OpenBoundary}, Model.opennessLoop mesh os = .ok .open_ →
    ∃ o ∈ os, elementsFormOpenLoops (getElementsWithAttribute mesh o.tag) = .ok false
  | [], h => by cases h
  | o :: os, h => by
    rw [Model.opennessLoop] at h
    cases e : elementsFormOpenLoops (getElementsWithAttribute mesh o.tag) with
    | ok b =>
      rw [e, Outcome.ok_bind] at h
      cases b with
      | false => exact ⟨o, List.mem_cons_self, e⟩
      | true =>
        obtain ⟨o', ho, h'⟩ := opennessLoop_open (os := os) h
        exact ⟨o', List.mem_cons_of_mem _ ho, h'⟩
    | throw _ => rw [e] at h; cases h
    | ub => rw [e] at h; cases h
    | nonfinite => rw [e] at h; cases h

theorem opennessLoop_semiopen {mesh : Mesh 𝕜} : ∀ {os : List OpenBoundary}, Model.opennessLoop mesh os = .ok .semiopen →
    ∀ o ∈ os, elementsFormOpenLoops (getElementsWithAttribute mesh o.tag) = .ok true
  | [], _ => fun _ h => by cases h
  | o :: os, h => by
    rw [Model.opennessLoop] at h
    cases e : elementsFormOpenLoops (getElementsWithAttribute mesh o.tag) with
    | ok b =>
      rw [e, Outcome.ok_bind] at h
      cases b with
      | false => cases h
      | true =>
        intro o' ho
        rcases List.mem_cons.mp ho with rfl | ho
        · exact e
        · exact opennessLoop_semiopen (os := os) h o' ho
    | throw _ => rw [e] at h; cases h
    | ub => rw [e] at h; cases h
    | nonfinite => rw [e] at h; cases h

theorem opennessLoop_not_closed {mesh : Mesh 𝕜} : ∀ {os : List OpenBoundary}, Model.opennessLoop mesh os ≠ .ok .closed
  | [], h => by cases h
  | o :: os, h => by
    rw [Model.opennessLoop] at h
    cases e : elementsFormOpenLoops (getElementsWithAttribute mesh o.tag) with
    | ok b =>
      rw [e, Outcome.ok_bind] at h
      cases b with
      | false => cases h
      | true => exact opennessLoop_not_closed (os := os) h
    | throw _ => rw [e] at h; cases h
    | ub => rw [e] at h; cases h
    | nonfinite => rw [e] at h; cases h

/-- Openness, where it can be determined, depends on the tags of the open boundaries only. -/
theorem openness_redeclared {mesh : Mesh 𝕜} {mats mats' : Materials 𝕜} {g g' : Int} (h : Redeclared mats mats') {o o' : Openness}
    (ho : (⟨mats, mesh, g⟩ : Model 𝕜).determineOpenness = .ok o)
    (ho' : (⟨mats', mesh, g'⟩ : Model 𝕜).determineOpenness = .ok o') : o' = o := by
  have hl : mats'.openBoundaries.length = mats.openBoundaries.length := by
    have := h.opens.length_eq; rwa [List.length_map, List.length_map] at this
  unfold Model.determineOpenness at ho ho'
  simp only at ho ho'
  rw [hl] at ho'
  split at ho
  · next h0 => rw [if_pos h0] at ho'; cases ho; cases ho'; rfl
  · next h0 =>
    rw [if_neg h0] at ho'
    have key : ∀ {a b : Materials 𝕜}, (a.openBoundaries.map OpenBoundary.tag).Perm (b.openBoundaries.map OpenBoundary.tag) →
        Model.opennessLoop mesh a.openBoundaries = .ok .open_ → Model.opennessLoop mesh b.openBoundaries ≠ .ok .semiopen := by
      intro a b hp h1 h2
      obtain ⟨x, hx, e⟩ := opennessLoop_open h1
      obtain ⟨y, hy, e'⟩ := List.mem_map.mp (hp.mem_iff.mp (List.mem_map_of_mem (f := OpenBoundary.tag) hx))
      have := opennessLoop_semiopen h2 y hy
      rw [e', e] at this
      cases this
    cases o with
    | closed => exact absurd ho opennessLoop_not_closed
    | open_ =>
      cases o' with
      | closed => exact absurd ho' opennessLoop_not_closed
      | open_ => rfl
      | semiopen => exact absurd ho' (key h.opens.symm ho)
    | semiopen =>
      cases o' with
      | closed => exact absurd ho' opennessLoop_not_closed
      | open_ => exact absurd ho (key h.opens ho')
      | semiopen => rfl

end

section
variable {𝕜 : Type} [Field 𝕜] {A : Analytic 𝕜} {F : FEM 𝕜} {mats mats' : Materials 𝕜}

theorem declaredEps_redeclared (h : Redeclared mats mats') (hW : WellDeclared mats) (hW' : WellDeclared mats') (b : Bool) :
    declaredEps mats' b = declaredEps mats b := by
  funext a
  cases b with
  | true => rfl
  | false =>
    by_cases ha : ∃ d ∈ mats.dielectrics, d.tag = a
    · obtain ⟨d, hd, rfl⟩ := ha
      obtain ⟨d', hd', e⟩ := List.mem_map.mp (h.dielectrics.mem_iff.mpr
        (List.mem_map_of_mem (f := fun d : Dielectric 𝕜 => (d.tag, d.relativePermittivity)) hd))
      have e1 : d'.tag = d.tag := congrArg Prod.fst e
      have e2 : d'.relativePermittivity = d.relativePermittivity := congrArg Prod.snd e
      rw [declaredEps_of_mem hW hd, ← e1, declaredEps_of_mem hW' hd', e2]
    · rw [declaredEps_of_not_mem (fun d hd e => ha ⟨d, hd, e⟩), declaredEps_of_not_mem]
      intro d' hd' e
      obtain ⟨d, hd, e'⟩ := List.mem_map.mp (h.dielectrics.mem_iff.mp
        (List.mem_map_of_mem (f := fun d : Dielectric 𝕜 => (d.tag, d.relativePermittivity)) hd'))
      exact ha ⟨d, hd, (congrArg Prod.fst e').trans e⟩

theorem weakForm_congr {eps eps' : Int → 𝕜} (he : eps' = eps) {l l' : List Int} (hl : ∀ a, a ∈ l' ↔ a ∈ l) (u : Fin F.n → 𝕜)
    (i : Fin F.n) : weakForm A F eps' l' u i = weakForm A F eps l u i := by
  unfold weakForm
  rw [he]
  congr 3
  exact List.filter_congr fun q _ => by simp only [hl]

/-- The same conductor boundaries. -/
def SameTags (mats mats' : Materials 𝕜) : Prop := ∀ a, (∃ p ∈ mats'.pecs, p.tag = a) ↔ ∃ p ∈ mats.pecs, p.tag = a

theorem SameTags.forall (h : SameTags mats mats') {P : Int → Prop} : (∀ p ∈ mats'.pecs, P p.tag) ↔ ∀ p ∈ mats.pecs, P p.tag := by
  constructor
  · intro k p hp
    obtain ⟨p', hp', e⟩ := (h p.tag).mpr ⟨p, hp, rfl⟩
    rw [← e]; exact k p' hp'
  · intro k p hp
    obtain ⟨p', hp', e⟩ := (h p.tag).mp ⟨p, hp, rfl⟩
    rw [← e]; exact k p' hp'

theorem SameTags.exists (h : SameTags mats mats') {P : Int → Prop} : (∃ p ∈ mats'.pecs, P p.tag) ↔ ∃ p ∈ mats.pecs, P p.tag := by
  constructor
  · rintro ⟨p, hp, k⟩
    obtain ⟨p', hp', e⟩ := (h p.tag).mp ⟨p, hp, rfl⟩
    exact ⟨p', hp', by rw [e]; exact k⟩
  · rintro ⟨p, hp, k⟩
    obtain ⟨p', hp', e⟩ := (h p.tag).mpr ⟨p, hp, rfl⟩
    exact ⟨p', hp', by rw [e]; exact k⟩

theorem field_redeclared (h : Redeclared mats mats') (ht : SameTags mats mats') (hW : WellDeclared mats)
    (hW' : WellDeclared mats') {b : Bool} {V : Int → 𝕜} {t : SolverSolution F} (hf : PrescribedField A F mats' b V t) :
    PrescribedField A F mats b V t where
  values k c hk hc := hf.values k c ((ht.exists (P := fun a => OnBoundary F a k)).mpr hk)
    ((ht.forall (P := fun a => OnBoundary F a k → V a = c)).mpr hc)
  equations k hk := (weakForm_congr (declaredEps_redeclared h hW hW' b) (fun _ => h.opens.mem_iff) _ _).symm.trans
    (hf.equations k ((ht.forall (P := fun a => ¬ OnBoundary F a k)).mpr hk))
  e := hf.e
  d := by rw [← declaredEps_redeclared h hW hW' b]; exact hf.d

theorem wellPosed_redeclared (h : Redeclared mats mats') (ht : SameTags mats mats') (hW : WellDeclared mats)
    (hW' : WellDeclared mats') (hw : WellPosed A F mats) : WellPosed A F mats' where
  unique b u h0 h1 := hw.unique b u (fun k hk => h0 k ((ht.exists (P := fun a => OnBoundary F a k)).mpr hk))
    (fun k hk => (weakForm_congr (declaredEps_redeclared h hW hW' b) (fun _ => h.opens.mem_iff) _ _).symm.trans
      (h1 k (fun hk' => hk ((ht.exists (P := fun a => OnBoundary F a k)).mp hk'))))
  diagonal b k hk h0 := hw.diagonal b k ((ht.exists (P := fun a => OnBoundary F a k)).mp hk)
    ((weakForm_congr (declaredEps_redeclared h hW hW' b) (fun _ => h.opens.mem_iff) _ _).symm.trans h0)
  projection := hw.projection

theorem tag_renumber {n : Nat} {σ : Equiv.Perm (Fin n)} {ps ps' : List (PEC 𝕜)} (h : Reassigned σ ps ps') (i : Fin (n + 1)) :
    (ps'[i.1]'(by rw [h.len']; exact i.2)).tag = (ps[(renumber σ i).1]'(by rw [h.len]; exact (renumber σ i).2)).tag := by
  refine Fin.cases ?_ (fun j => ?_) i
  · exact h.zero
  · exact h.succ j

end
end Tulip
