import Verif.Proofs.DriverReady

/-!
# Queries answered from the generalized matrices, for two drivers side by side
-/

set_option linter.unusedSectionVars false

namespace Tulip
open Spec Matrix

variable {𝕜 : Type} [Field 𝕜] [DecidableEq 𝕜] {F F' : FEM 𝕜} {α β : Type}

/-- Two drivers whose models have the same openness and number of conductors and which give the same generalized
matrices. -/
structure Alike (d : Driver F) (d' : Driver F') : Prop where
  openness : d.model.determineOpenness = d'.model.determineOpenness
  names : d.model.materials.buildNameToAttrMapForPEC.length = d'.model.materials.buildNameToAttrMapForPEC.length
  matrices : ∀ b, (Driver.getGeneralizedCMatrix b d).1 = (Driver.getGeneralizedCMatrix b d').1

theorem Alike.congr {d e : Driver F} {d' e' : Driver F'} (h : Alike d d') (k : e.forget = d.forget)
    (k' : e'.forget = d'.forget) : Alike e e' where
  openness := by rw [forget_model k, forget_model k']; exact h.openness
  names := by rw [forget_model k, forget_model k']; exact h.names
  matrices b := by
    rw [((getGeneralizedCMatrix_clean b).indep _ _ k).1, ((getGeneralizedCMatrix_clean b).indep _ _ k').1]
    exact h.matrices b

/-- The same answer on alike drivers, keeping them. -/
structure Side (x : Act F α) (y : Act F' α) : Prop where
  answer : ∀ d d', Alike d d' → (x d).1 = (y d').1
  left : Keeps x
  right : Keeps y

theorem Side.bind {x : Act F α} {y : Act F' α} {f : α → Act F β} {g : α → Act F' β} (h : Side x y)
    (hf : ∀ a, Side (f a) (g a)) : Side (x >>= f) (y >>= g) where
  answer := by
    intro d d' hd
    have e := h.answer d d' hd
    have l := h.left d
    have r := h.right d'
    rw [bind_def, bind_def]
    rcases hx : x d with ⟨a | _ | _ | _, d1, w⟩ <;> rcases hy : y d' with ⟨a' | _ | _ | _, d1', w'⟩ <;>
      rw [hx] at e l <;> rw [hy] at e r <;> simp only [reduceCtorEq] at e
    · cases e
      exact (hf a).answer d1 d1' (hd.congr l r)
    · exact congrArg _ (Outcome.throw.inj e)
  left := h.left.bind fun a => (hf a).left
  right := h.right.bind fun a => (hf a).right

theorem Side.lift (x : Outcome α) : Side (Act.lift (F := F) x) (Act.lift (F := F') x) :=
  ⟨fun _ _ _ => rfl, Keeps.lift x, Keeps.lift x⟩

theorem Side.pure (x : α) : Side (pure x : Act F α) (pure x : Act F' α) :=
  ⟨fun _ _ _ => rfl, Keeps.pure x, Keeps.pure x⟩

theorem Side.generalized (b : Bool) : Side (F := F) (F' := F') (Driver.getGeneralizedCMatrix b) (Driver.getGeneralizedCMatrix b) :=
  ⟨fun _ _ h => h.matrices b, (getGeneralizedCMatrix_clean b).keeps, (getGeneralizedCMatrix_clean b).keeps⟩

theorem Side.openness {f : Openness → Act F β} {g : Openness → Act F' β} (h : ∀ o, Side (f o) (g o)) :
    Side (Act.read Driver.model >>= fun m => Act.lift m.determineOpenness >>= f)
      (Act.read Driver.model >>= fun m => Act.lift m.determineOpenness >>= g) where
  answer := by
    intro d d' hd
    have h2 := (Side.bind (Side.lift (F := F) (F' := F') d'.model.determineOpenness) h).answer d d' hd
    rw [Act.read_bind, Act.read_bind, hd.openness]
    exact h2
  left := Clean.model.keeps.bind fun m => (Keeps.lift _).bind fun a => (h a).left
  right := Clean.model.keeps.bind fun m => (Keeps.lift _).bind fun a => (h a).right

theorem Side.cMatrix : Side (F := F) (F' := F') Driver.getCMatrix Driver.getCMatrix :=
  (Side.generalized false).bind fun _ => Side.openness fun _ => Side.lift _

theorem Side.lMatrix : Side (F := F) (F' := F') Driver.getLMatrix Driver.getLMatrix :=
  (Side.generalized true).bind fun _ => Side.openness fun _ => (Side.lift _).bind fun _ => Side.lift _

theorem Side.pulMTL {E E' : Engine 𝕜} (he : E.eps0SI = E'.eps0SI) (hm : E.mu0SI = E'.mu0SI) :
    Side (F := F) (F' := F') (Driver.getPULMTL E) (Driver.getPULMTL E') := by
  unfold Driver.getPULMTL Driver.buildPULParametersForModel
  rw [he, hm]
  exact Side.cMatrix.bind fun _ => Side.lMatrix.bind fun _ => Side.pure _

theorem Side.floatingMatrix (b : Bool) : Side (F := F) (F' := F') (Driver.getFloatingPotentialsMatrix b)
    (Driver.getFloatingPotentialsMatrix b) where
  answer := by
    intro d d' hd
    unfold Driver.getFloatingPotentialsMatrix
    rw [Act.read_bind, Act.read_bind, hd.names, hd.openness]
    by_cases hn : d'.model.materials.buildNameToAttrMapForPEC.length = 1
    · rw [if_pos hn, if_pos hn]
      rfl
    · rw [if_neg hn, if_neg hn]
      refine (Side.bind (Side.lift (F := F) (F' := F') d'.model.determineOpenness) fun o => ?_).answer d d' hd
      cases o with
      | closed => exact (Side.generalized b).bind fun _ => (Side.lift _).bind fun _ => Side.lift _
      | open_ => exact (Side.generalized b).bind fun _ => Side.lift _
      | semiopen => exact Side.lift _
  left := (getFloatingPotentialsMatrix_clean b).keeps
  right := (getFloatingPotentialsMatrix_clean b).keeps

theorem Side.floating : Side (F := F) (F' := F') Driver.getFloatingPotentials Driver.getFloatingPotentials :=
  (Side.floatingMatrix false).bind fun _ => (Side.floatingMatrix true).bind fun _ => Side.pure _

variable [LinearOrder 𝕜]

/-- Alike drivers answer alike. -/
theorem Alike.exec {E E' : Engine 𝕜} (he : E.eps0SI = E'.eps0SI) (hm : E.mu0SI = E'.mu0SI) {d : Driver F} {d' : Driver F'}
    (h : Alike d d') {q : Query} (hq : q.FromMatrices) : (q.exec E d).1 = (q.exec E' d').1 := by
  cases hq with
  | generalizedC b => exact ((Side.generalized b).bind fun _ => Side.pure _).answer d d' h
  | cMatrix => exact (Side.cMatrix.bind fun _ => Side.pure _).answer d d' h
  | lMatrix => exact (Side.lMatrix.bind fun _ => Side.pure _).answer d d' h
  | floatingMatrix b => exact ((Side.floatingMatrix b).bind fun _ => Side.pure _).answer d d' h
  | floating => exact (Side.floating.bind fun _ => Side.pure _).answer d d' h
  | pulMTL => exact ((Side.pulMTL he hm).bind fun _ => Side.pure _).answer d d' h

end Tulip

namespace Tulip
open Spec Matrix

variable {𝕜 : Type} [Field 𝕜] [DecidableEq 𝕜] {F F' : FEM 𝕜}

/-- What the generalized matrix is, whatever the openness of the model turns out to be. -/
theorem getGeneralizedCMatrix_answer {b : Bool} {ps : List (PEC 𝕜)} {sols : List (SolverSolution F)} {d : Driver F}
    (h : Ready b ps sols d) : (Driver.getGeneralizedCMatrix b d).1 = (d.model.determineOpenness >>= fun o =>
      if ps.length = 1 ∧ o = .closed then
        .throw (.runtimeError "The number of conductors must be at least 2 for closed problems.")
      else .ok (DMat.ofMatrix (symPart (rawCharges ps sols h.len)))) := by
  cases ho : d.model.determineOpenness with
  | ok o =>
    rw [Outcome.ok_bind]
    split
    · next hc => rw [getGeneralizedCMatrix_single h ho hc]
    · next hc =>
      obtain ⟨d', e, _⟩ := getGeneralizedCMatrix_spec h ho hc
      rw [e]
  | throw e =>
    unfold Driver.getGeneralizedCMatrix
    rw [Act.read_bind, h.numbering.idMap, Act.lift_ok_bind, ho]
    rfl
  | ub =>
    unfold Driver.getGeneralizedCMatrix
    rw [Act.read_bind, h.numbering.idMap, Act.lift_ok_bind, ho]
    rfl
  | nonfinite =>
    unfold Driver.getGeneralizedCMatrix
    rw [Act.read_bind, h.numbering.idMap, Act.lift_ok_bind, ho]
    rfl

theorem ofMatrix_congr {n m : Nat} (h : n = m) {A : Matrix (Fin n) (Fin n) 𝕜} {B : Matrix (Fin m) (Fin m) 𝕜}
    (e : ∀ i j (hi : i < n) (hj : j < n), A ⟨i, hi⟩ ⟨j, hj⟩ = B ⟨i, h ▸ hi⟩ ⟨j, h ▸ hj⟩) :
    DMat.ofMatrix A = DMat.ofMatrix B := by
  subst h
  congr 1
  ext i j
  exact e i.1 j.1 i.2 j.2

/-- Drivers with the same openness and the same charges in the stored fields are alike. -/
theorem alike_of_charges {ps ps' : List (PEC 𝕜)} (hl : ps'.length = ps.length) {d : Driver F} {d' : Driver F'}
    (ho : d.model.determineOpenness = d'.model.determineOpenness)
    (h : ∀ b, ∃ (sols : List (SolverSolution F)) (sols' : List (SolverSolution F')) (hr : Ready b ps sols d)
      (hr' : Ready b ps' sols' d'), ∀ i j (hi : i < ps.length) (hj : j < ps.length),
        chargeOn (sols'[i]'(by rw [hr'.len, hl]; exact hi)) (ps'[j]'(by rw [hl]; exact hj)).tag =
          chargeOn (sols[i]'(by rw [hr.len]; exact hi)) ps[j].tag) : Alike d d' where
  openness := ho
  names := by
    obtain ⟨sols, sols', hr, hr', _⟩ := h true
    rw [(pecMap_perm hr.numbering.names_nodup).length_eq, List.length_map, (pecMap_perm hr'.numbering.names_nodup).length_eq,
      List.length_map, ← hr.numbering.all.length_eq, ← hr'.numbering.all.length_eq, hl]
  matrices := by
    intro b
    obtain ⟨sols, sols', hr, hr', e⟩ := h b
    rw [getGeneralizedCMatrix_answer hr, getGeneralizedCMatrix_answer hr', ho,
      ofMatrix_congr hl.symm (A := symPart (rawCharges ps sols hr.len)) (B := symPart (rawCharges ps' sols' hr'.len)),
      ← hl]
    intro i j hi hj
    unfold symPart rawCharges
    simp only [Matrix.of_apply]
    have e1 := e i j hi hj
    have e2 := e j i hj hi
    simp only [Fin.getElem_fin]
    rw [← e1, ← e2]

end Tulip
