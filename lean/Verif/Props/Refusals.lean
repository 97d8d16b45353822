import Verif.Spec.Refusals
import Verif.Props.PUL
import Verif.Props.Signs

/-!
# C99: requests that the kind of problem does not support
-/

namespace Tulip.Props
open Tulip Tulip.Spec Matrix

variable {𝕜 : Type} [Field 𝕜] [DecidableEq 𝕜] [LinearOrder 𝕜]

/-- Returned, or a singular matrix. -/
def Settled {α : Type} (x : Outcome α) : Prop := (∃ a, x = .ok a) ∨ x = .nonfinite ∨ x = .throw .mfemVerify

theorem settled_bind {α β : Type} {x : Outcome α} (h : Settled x) {f : α → Outcome β} (hf : ∀ a, x = .ok a → Settled (f a)) :
    Settled (x >>= f) := by
  rcases h with ⟨a, rfl⟩ | rfl | rfl
  · exact hf a rfl
  · exact .inr (.inl rfl)
  · exact .inr (.inr rfl)

theorem settled_reduce {n : Nat} (G : Matrix (Fin n) (Fin n) 𝕜) (h : n ≠ 0) (o : Openness) :
    Settled (getCFromGeneralizedC (DMat.ofMatrix G) o) := by
  obtain ⟨m, rfl⟩ := Nat.exists_eq_succ_of_ne_zero h
  by_cases hz : o ≠ .closed → 0 < m → ∑ i, ∑ j, G i j ≠ 0
  · obtain ⟨C, e⟩ := (reduce_iff G o).mpr hz
    exact .inl ⟨_, e⟩
  · push Not at hz
    obtain ⟨h1, h2, h3⟩ := hz
    exact .inr (.inl ((C33_open G o h1).2 h3 h2))

theorem settled_invert {n : Nat} (G : Matrix (Fin n) (Fin n) 𝕜) (h : n ≠ 0) (o : Openness) {M : DMat 𝕜}
    (hM : getCFromGeneralizedC (DMat.ofMatrix G) o = .ok M) : Settled M.invert := by
  obtain ⟨m, rfl⟩ := Nat.exists_eq_succ_of_ne_zero h
  obtain ⟨B, rfl⟩ := (getC_ne_ub G o).2 M hM
  rw [invert_ofMatrix]
  split
  · exact .inr (.inr rfl)
  · exact .inl ⟨_, rfl⟩

theorem settled_floats {n : Nat} (G : Matrix (Fin n) (Fin n) 𝕜) : Settled (floatingFromC (DMat.ofMatrix G)) := by
  by_cases h : ∀ i, ∃! v, Spec.FloatingPotentials G i v
  · obtain ⟨R, e, _⟩ := (C36_floating G).1 h
    exact .inl ⟨_, e⟩
  · exact .inr (.inl ((C36_floating G).2 (not_forall.mp h)))

theorem settled_floating {n : Nat} (G : Matrix (Fin n) (Fin n) 𝕜) (h : n ≠ 0) (o : Openness) {M : DMat 𝕜}
    (hM : getCFromGeneralizedC (DMat.ofMatrix G) o = .ok M) : Settled (floatingFromC M) := by
  obtain ⟨m, rfl⟩ := Nat.exists_eq_succ_of_ne_zero h
  obtain ⟨B, rfl⟩ := (getC_ne_ub G o).2 M hM
  exact settled_floats B

theorem settled_pair {F : FEM 𝕜} {α β γ : Type} {x : Act F α} {y : Act F β} (hx : Clean x) (hy : Clean y) (f : α → β → γ)
    {d : Driver F} (h1 : Settled (x d).1) (h2 : Settled (y d).1) :
    Settled ((x >>= fun a => y >>= fun b => pure (f a b)) d).1 := by
  rw [bind_def]
  have hk := hx.keeps d
  rcases e : x d with ⟨oc, d', w⟩
  rw [e] at h1 hk
  cases oc with
  | ok C =>
    simp only
    rw [bind_def]
    have hi := (hy.indep d' d hk).1
    rcases e' : y d' with ⟨ol, d'', w'⟩
    rw [e'] at hi
    rw [← hi] at h2
    cases ol with
    | ok L => exact .inl ⟨_, rfl⟩
    | _ => simpa [Settled] using h2
  | _ => simpa [Settled] using h1

/-- **C99.** Every request that the kind of problem does not support is refused with its error, nothing is written and
the driver is not changed; every other request for matrices returns, unless a matrix is singular (a division by zero or the
error of MFEM), and never runs into undefined behaviour or another error. -/
theorem C99_refusals (E : Engine 𝕜) {model : Model 𝕜} {opts : DriverOptions} {ps : List (PEC 𝕜)}
    (hN : Numbering model.materials ps) {d : Driver (E.fem model opts)}
    (hd : (Driver.construct E model opts).1 = .ok d) {o : Openness} (ho : model.determineOpenness = .ok o) (q : Query) :
    (∀ msg, refusal o ps.length q = some msg → q.exec E d = (.throw (.runtimeError msg), d, [])) ∧
    (refusal o ps.length q = none → q.FromMatrices →
      (∃ a, (q.exec E d).1 = .ok a) ∨ (q.exec E d).1 = .nonfinite ∨ (q.exec E d).1 = .throw .mfemVerify) := by
  have ho' : d.model.determineOpenness = .ok o := by rw [(construct_opts hd).2]; exact ho
  obtain ⟨se, hre⟩ := construct_ready_of E hN hd false
  obtain ⟨sm, hrm⟩ := construct_ready_of E hN hd true
  have hlen : d.model.materials.buildNameToAttrMapForPEC.length = ps.length := by
    rw [(pecMap_perm hre.numbering.names_nodup).length_eq, List.length_map, hre.numbering.all.length_eq]
  have single : o = .closed ∧ ps.length = 1 → ∀ b, Driver.getGeneralizedCMatrix b d = (.throw (.runtimeError
        "The number of conductors must be at least 2 for closed problems."), d, []) := by
    rintro ⟨h1, h2⟩ b
    cases b
    · exact getGeneralizedCMatrix_single hre ho' ⟨h2, h1⟩
    · exact getGeneralizedCMatrix_single hrm ho' ⟨h2, h1⟩
  have singleC : o = .closed ∧ ps.length = 1 → Driver.getPULMTL E d = (.throw (.runtimeError
        "The number of conductors must be at least 2 for closed problems."), d, []) := by
    intro h
    exact Act.bind_throw (Act.bind_throw (single h false))
  have floatM : o = .semiopen ∧ ps.length ≠ 1 → ∀ b, Driver.getFloatingPotentialsMatrix b d = (.throw (.runtimeError
        "Floating potentials not implemented for this kind of openness."), d, []) := by
    rintro ⟨rfl, h2⟩ b
    unfold Driver.getFloatingPotentialsMatrix
    rw [Act.read_bind, if_neg (by omega), ho', Act.lift_ok_bind]
    rfl
  constructor
  · intro msg hm
    cases q with
    | generalizedC b =>
      obtain ⟨h, e⟩ := Option.ite_none_right_eq_some.mp hm
      cases e
      exact Act.bind_throw (single h b)
    | cMatrix =>
      obtain ⟨h, e⟩ := Option.ite_none_right_eq_some.mp hm
      cases e
      exact Act.bind_throw (Act.bind_throw (single h false))
    | lMatrix =>
      obtain ⟨h, e⟩ := Option.ite_none_right_eq_some.mp hm
      cases e
      exact Act.bind_throw (Act.bind_throw (single h true))
    | pulMTL =>
      obtain ⟨h, e⟩ := Option.ite_none_right_eq_some.mp hm
      cases e
      exact Act.bind_throw (singleC h)
    | floatingMatrix b =>
      obtain ⟨h, e⟩ := Option.ite_none_right_eq_some.mp hm
      cases e
      exact Act.bind_throw (floatM h b)
    | floating =>
      obtain ⟨h, e⟩ := Option.ite_none_right_eq_some.mp hm
      cases e
      exact Act.bind_throw (Act.bind_throw (floatM h false))
    | pulMTLByDomains =>
      obtain ⟨h, e⟩ := Option.ite_none_left_eq_some.mp hm
      cases e
      refine Act.bind_throw ?_
      have hb : buildDomains d.model = .throw notClosedErr := by
        unfold buildDomains
        rw [ho', Outcome.ok_bind, if_pos h]
      unfold Driver.getPULMTLByDomains
      rw [Act.read_bind, Act.read_bind, hb]
      rfl
    | inCell =>
      obtain ⟨h, e⟩ := Option.ite_none_left_eq_some.mp hm
      cases e
      refine Act.bind_throw ?_
      unfold Driver.getInCellPotentials
      rw [Act.read_bind, ho', Act.lift_ok_bind, if_pos h]
      rfl
    | run =>
      have e : refusal o ps.length .run = if o = .semiopen then some "Openness of the model is not supported."
        else if o = .closed ∧ ps.length = 1 then
          some "The number of conductors must be at least 2 for closed problems." else none := rfl
      rw [e] at hm
      refine Act.bind_throw ?_
      unfold Driver.run
      rw [Act.read_bind, ho', Act.lift_ok_bind]
      split at hm
      · rename_i h
        subst h
        cases hm
        rfl
      · obtain ⟨h, e⟩ := Option.ite_none_right_eq_some.mp hm
        cases e
        obtain ⟨rfl, h2⟩ := h
        exact Act.bind_throw (singleC ⟨rfl, h2⟩)
    | setExportFolder f => cases hm
  · intro hm hq
    have hcl : (q = .cMatrix ∨ q = .lMatrix ∨ q = .pulMTL ∨ ∃ b, q = .generalizedC b) → ¬ (ps.length = 1 ∧ o = .closed) := by
      rintro (rfl | rfl | rfl | ⟨b, rfl⟩) ⟨h1, h2⟩ <;>
        exact absurd (hm.symm.trans (if_pos ⟨h2, h1⟩)) (by simp)
    have hne : ps.length ≠ 0 := fun h => hN.nonempty (List.length_eq_zero_iff.mp h)
    have sC : ¬ (ps.length = 1 ∧ o = .closed) → Settled (Driver.getCMatrix d).1 := by
      intro h
      rw [getCMatrix_eq hre ho' h]
      exact settled_reduce _ hne o
    have sL : ¬ (ps.length = 1 ∧ o = .closed) → Settled (Driver.getLMatrix d).1 := by
      intro h
      rw [getLMatrix_eq hrm ho' h]
      exact settled_bind (settled_reduce _ hne o) fun M hM => settled_invert _ hne o hM
    have sF : ¬ (o = .semiopen ∧ ps.length ≠ 1) → ∀ b, Settled (Driver.getFloatingPotentialsMatrix b d).1 := by
      intro h b
      unfold Driver.getFloatingPotentialsMatrix
      rw [Act.read_bind]
      by_cases h1 : ps.length = 1
      · rw [if_pos (by omega)]
        exact .inl ⟨_, rfl⟩
      rw [if_neg (by omega), ho', Act.lift_ok_bind]
      obtain ⟨sols, hr⟩ := construct_ready_of E hN hd b
      obtain ⟨d', e1, hf⟩ := getGeneralizedCMatrix_spec hr ho' (fun hc => h1 hc.1)
      cases o with
      | closed =>
        dsimp only
        rw [Act.bind_ok e1, show ∀ (x : Outcome (DMat 𝕜)) (f : DMat 𝕜 → Outcome (DMat 𝕜)),
          ((Act.lift x >>= fun C => Act.lift (f C)) d').1 = (x >>= f) from fun x f => by
            rcases x with _ | _ | _ | _ <;> rfl]
        exact settled_bind (settled_reduce _ hne .closed) fun M hM => settled_floating _ hne .closed hM
      | open_ =>
        dsimp only
        rw [Act.bind_ok e1]
        exact settled_floats _
      | semiopen => exact absurd ⟨rfl, h1⟩ h
    cases hq with
    | generalizedC b =>
      obtain ⟨M, e, _⟩ := (C31_generalized E hN hd ho b).2 (hcl (by simp))
      exact .inl ⟨_, e⟩
    | cMatrix =>
      rw [show ((Query.cMatrix).exec E d).1 = ((Driver.getCMatrix d).1 >>= fun p => .ok (.matrix p)) from map_fst _ _ d]
      exact settled_bind (sC (hcl (by simp))) fun a _ => .inl ⟨_, rfl⟩
    | lMatrix =>
      rw [show ((Query.lMatrix).exec E d).1 = ((Driver.getLMatrix d).1 >>= fun p => .ok (.matrix p)) from map_fst _ _ d]
      exact settled_bind (sL (hcl (by simp))) fun a _ => .inl ⟨_, rfl⟩
    | pulMTL =>
      rw [show ((Query.pulMTL).exec E d).1 = ((Driver.getPULMTL E d).1 >>= fun p => .ok (.pul p)) from map_fst _ _ d]
      exact settled_bind (settled_pair getCMatrix_clean getLMatrix_clean _ (sC (hcl (by simp))) (sL (hcl (by simp))))
        fun a _ => .inl ⟨_, rfl⟩
    | floatingMatrix b =>
      rw [show ((Query.floatingMatrix b).exec E d).1 = ((Driver.getFloatingPotentialsMatrix b d).1 >>= fun p => .ok (.matrix p))
        from map_fst _ _ d]
      refine settled_bind (sF ?_ b) fun a _ => .inl ⟨_, rfl⟩
      intro h
      exact absurd (hm.symm.trans (if_pos h)) (by simp)
    | floating =>
      rw [show ((Query.floating).exec E d).1 = ((Driver.getFloatingPotentials d).1 >>= fun p => .ok (.floating p))
        from map_fst _ _ d]
      have h : ¬ (o = .semiopen ∧ ps.length ≠ 1) := fun h => absurd (hm.symm.trans (if_pos h)) (by simp)
      exact settled_bind (settled_pair (getFloatingPotentialsMatrix_clean false) (getFloatingPotentialsMatrix_clean true) _
        (sF h false) (sF h true)) fun a _ => .inl ⟨_, rfl⟩

/-- **C99, the solver.** A center of charge needs exactly one open boundary. -/
theorem C99_center {F : FEM 𝕜} (A : Analytic 𝕜) (s : Solver F) (h : s.params.openBoundaries.length ≠ 1) :
    s.getCenterOfCharge A = .throw (.runtimeError "Not implemented for closed problems.") := by
  unfold Solver.getCenterOfCharge
  match e : s.params.openBoundaries with
  | [_] => rw [e] at h; exact absurd rfl h
  | [] => rfl
  | _ :: _ :: _ => rfl

/-- The solver `buildSolver` gives `pair`: no open boundaries. -/
example : ({ twoSolver with params := { twoSolver.params with openBoundaries := [] } } : Solver _).getCenterOfCharge coords =
    .throw (.runtimeError "Not implemented for closed problems.") := C99_center coords _ (by decide)

/-- `pair` is closed: in-cell parameters are refused, matrices are not. -/
example : ∃ d : Driver (chainEngine.fem pair {}), (Driver.construct chainEngine pair {}).1 = .ok d ∧
    Query.inCell.exec chainEngine d =
      (.throw (.runtimeError "In cell parameters can only be computed for open problems."), d, []) ∧
    ((∃ a, (Query.pulMTL.exec chainEngine d).1 = .ok a) ∨ (Query.pulMTL.exec chainEngine d).1 = .nonfinite ∨
      (Query.pulMTL.exec chainEngine d).1 = .throw .mfemVerify) := by
  obtain ⟨d, _, hd, _⟩ := pair_parameters {}
  exact ⟨d, hd, (C99_refusals chainEngine pair_numbering hd pair_closed .inCell).1 _ (by decide +kernel),
    (C99_refusals chainEngine pair_numbering hd pair_closed .pulMTL).2 (by decide +kernel) .pulMTL⟩

/-- `wires` with one segment of open boundary -/
def halfOpen : Model ℚ := { wires with mesh := { wires.mesh with bdr := [⟨3, [0, 1], 1⟩] } }

theorem halfOpen_semiopen : halfOpen.determineOpenness = .ok .semiopen := by
  have hb : closedLoopsBuild (𝕜 := ℚ) [⟨3, [0, 1], 1⟩] DGraph.empty [] =
      .ok (DGraph.run [.addEdge 0 1], [(0, ⟨3, [0, 1], 1⟩)]) := by decide +kernel
  have hc : (DGraph.run [.addEdge 0 1]).findCycles = some [] := findCyclesFuel_sound (k := 20) (by decide)
  have he : getElementsWithAttribute halfOpen.mesh 3 = [⟨3, [0, 1], 1⟩] := by decide +kernel
  show (do let b ← elementsFormOpenLoops (getElementsWithAttribute halfOpen.mesh 3)
           if !b then Outcome.ok Openness.open_ else Model.opennessLoop halfOpen.mesh []) = _
  rw [he]
  unfold elementsFormOpenLoops determineClosedLoops
  rw [hb]
  simp only [Outcome.ok_bind, hc]
  decide +kernel

/-- `halfOpen` is semiopen: floating potentials, domains, in-cell parameters and `run` are refused. -/
example : ∃ d : Driver (lineEngine.fem halfOpen {}), (Driver.construct lineEngine halfOpen {}).1 = .ok d ∧
    Query.floating.exec lineEngine d =
      (.throw (.runtimeError "Floating potentials not implemented for this kind of openness."), d, []) ∧
    Query.pulMTLByDomains.exec lineEngine d =
      (.throw (.runtimeError "Domains can only be determined for closed problems."), d, []) ∧
    Query.inCell.exec lineEngine d =
      (.throw (.runtimeError "In cell parameters can only be computed for open problems."), d, []) ∧
    Query.run.exec lineEngine d = (.throw (.runtimeError "Openness of the model is not supported."), d, []) := by
  have hN : Numbering halfOpen.materials _ := wires_numbering
  obtain ⟨d, hd, _⟩ := (C27_accepts lineEngine halfOpen {} (by decide +kernel) hN.readable).2 ⟨_, hN⟩ (wires_buildable {})
  have ho := halfOpen_semiopen
  exact ⟨d, hd, (C99_refusals lineEngine hN hd ho .floating).1 _ (by decide +kernel),
    (C99_refusals lineEngine hN hd ho .pulMTLByDomains).1 _ (by decide +kernel),
    (C99_refusals lineEngine hN hd ho .inCell).1 _ (by decide +kernel),
    (C99_refusals lineEngine hN hd ho .run).1 _ (by decide +kernel)⟩

/-- `pair` without its second conductor -/
def single : Model ℚ := { pair with materials := { pair.materials with pecs := [⟨"Conductor_0", 1, 0⟩] } }

theorem single_numbering : Numbering single.materials [⟨"Conductor_0", 1, 0⟩] where
  all := List.Perm.refl _
  ids := by
    intro i h
    match i, h with
    | 0, _ => show getMaterialIdFromName "Conductor_0" = .ok 0; decide +kernel
  nonempty := List.cons_ne_nil _ _

/-- A closed model with one conductor: matrices and `run` are refused. -/
example : ∃ d : Driver (chainEngine.fem single {}), (Driver.construct chainEngine single {}).1 = .ok d ∧
    Query.pulMTL.exec chainEngine d =
      (.throw (.runtimeError "The number of conductors must be at least 2 for closed problems."), d, []) ∧
    Query.run.exec chainEngine d =
      (.throw (.runtimeError "The number of conductors must be at least 2 for closed problems."), d, []) := by
  have hB : Buildable (chainEngine.fem single {}) single.materials := { pair_buildable {} with pecs := by decide +kernel }
  obtain ⟨d, hd, _⟩ := (C27_accepts chainEngine single {} (by decide +kernel) single_numbering.readable).2
    ⟨_, single_numbering⟩ hB
  have ho : single.determineOpenness = .ok .closed := by decide +kernel
  exact ⟨d, hd, (C99_refusals chainEngine single_numbering hd ho .pulMTL).1 _ (by decide +kernel),
    (C99_refusals chainEngine single_numbering hd ho .run).1 _ (by decide +kernel)⟩

end Tulip.Props
