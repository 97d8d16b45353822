import Verif.Props.Similar
import Verif.Props.Uniqueness
import Verif.Proofs.Redeclared

/-!
# C76: the order and the names in which materials are declared
-/

set_option linter.unusedSectionVars false

namespace Tulip.Props
open Tulip Tulip.Spec Matrix

section
variable {𝕜 : Type} [Field 𝕜] [DecidableEq 𝕜] [LinearOrder 𝕜] [IsStrictOrderedRing 𝕜]

theorem ofMatrix_entries {a b : Nat} {A : Matrix (Fin a) (Fin a) 𝕜} {B : Matrix (Fin b) (Fin b) 𝕜}
    (h : DMat.ofMatrix A = DMat.ofMatrix B) (l : a = b) (i j : Fin b) : B i j = A (i.cast l.symm) (j.cast l.symm) := by
  subst l
  rw [ofMatrix_eq h]
  rfl

theorem inv_submatrix {n : Nat} (A : Matrix (Fin n) (Fin n) 𝕜) (σ : Equiv.Perm (Fin n)) :
    (A.submatrix σ σ)⁻¹ = A⁻¹.submatrix σ σ := Matrix.inv_submatrix_equiv A σ σ

theorem getC_renumbered {n : Nat} {G : Matrix (Fin (n + 1)) (Fin (n + 1)) 𝕜} {o : Openness} {C : Matrix (Fin n) (Fin n) 𝕜}
    (h : getCFromGeneralizedC (DMat.ofMatrix G) o = .ok (DMat.ofMatrix C)) (σ : Equiv.Perm (Fin n)) :
    getCFromGeneralizedC (DMat.ofMatrix (Spec.renumbered σ G)) o = .ok (DMat.ofMatrix (C.submatrix σ σ)) := by
  rcases Nat.eq_zero_or_pos n with rfl | hn
  · have e : Spec.renumbered σ G = G := by
      ext i j
      rw [show i = 0 from Fin.fin_one_eq_zero i, show j = 0 from Fin.fin_one_eq_zero j]
      rfl
    rw [e, h, Subsingleton.elim (C.submatrix σ σ) C]
  · exact ((C34_reduction G o).1 C hn h).2.2.2 σ

theorem sameTags_of {mats mats' : Materials 𝕜} {ps ps' : List (PEC 𝕜)} (hN : Numbering mats ps) (hN' : Numbering mats' ps')
    {n : Nat} {σ : Equiv.Perm (Fin n)} (h : Reassigned σ ps ps') : SameTags mats mats' := by
  intro a
  constructor
  · rintro ⟨p, hp, rfl⟩
    obtain ⟨i, hi, rfl⟩ := List.mem_iff_getElem.mp (hN'.all.mem_iff.mpr hp)
    have := tag_renumber h ⟨i, by rw [← h.len']; exact hi⟩
    exact ⟨_, hN.all.mem_iff.mp (List.getElem_mem _), this.symm⟩
  · rintro ⟨p, hp, rfl⟩
    obtain ⟨i, hi, rfl⟩ := List.mem_iff_getElem.mp (hN.all.mem_iff.mpr hp)
    rcases i with _ | i
    · exact ⟨_, hN'.all.mem_iff.mp (List.getElem_mem (n := 0) (by rw [h.len']; omega)), h.zero⟩
    · have hi' : i < n := by rw [h.len] at hi; omega
      have := h.succ (σ.symm ⟨i, hi'⟩)
      simp only [Equiv.apply_symm_apply] at this
      exact ⟨_, hN'.all.mem_iff.mp (List.getElem_mem _), this⟩

/-- **C76**: the order in which materials are declared, the names of dielectrics and open boundaries and the choice of the
ground do not matter, and the numbers of the conductors other than 0 are only labels: when they are exchanged, the rows
and columns of the results are exchanged in the same way. -/
theorem C76_redeclared (E : Engine 𝕜) {model : Model 𝕜} {mats' : Materials 𝕜} {ground' : Int} {opts : DriverOptions}
    {ps ps' : List (PEC 𝕜)} {n : Nat} {σ : Equiv.Perm (Fin n)}
    (hN : Numbering model.materials ps) (hN' : Numbering mats' ps')
    (hB : Buildable (E.fem model opts) model.materials) (hB' : Buildable (E.fem model opts) mats')
    (hW : WellDeclared model.materials) (hW' : WellDeclared mats') (hP : ExactSolver E.pcg)
    (hw : WellPosed E.analytic (E.fem model opts) model.materials) (hs : Separate (E.fem model opts) model.materials)
    (hr : Redeclared model.materials mats') (hσ : Reassigned σ ps ps') {o o' : Openness}
    (ho : model.determineOpenness = .ok o)
    (ho' : (⟨mats', model.mesh, ground'⟩ : Model 𝕜).determineOpenness = .ok o')
    {d : Driver (E.fem model opts)} {d' : Driver (E.fem (⟨mats', model.mesh, ground'⟩ : Model 𝕜) opts)}
    (hd : (Driver.construct E model opts).1 = .ok d)
    (hd' : (Driver.construct E (⟨mats', model.mesh, ground'⟩ : Model 𝕜) opts).1 = .ok d') :
    (∀ (b : Bool) (M : Matrix (Fin (n + 1)) (Fin (n + 1)) 𝕜),
      ((Query.generalizedC b).exec E d).1 = .ok (.matrix (DMat.ofMatrix M)) →
      ((Query.generalizedC b).exec E d').1 = .ok (.matrix (DMat.ofMatrix (Spec.renumbered σ M)))) ∧
    (∀ p, (Query.pulMTL.exec E d).1 = .ok (.pul p) → ∃ (C L : Matrix (Fin n) (Fin n) 𝕜) (p' : PULParameters 𝕜),
      p.C = DMat.ofMatrix C ∧ p.L = DMat.ofMatrix L ∧ (Query.pulMTL.exec E d').1 = .ok (.pul p') ∧
      p'.C = DMat.ofMatrix (C.submatrix σ σ) ∧ p'.L = DMat.ofMatrix (L.submatrix σ σ)) ∧
    (σ = 1 → ∀ q : Query, q.FromMatrices → (q.exec E d').1 = (q.exec E d).1) := by
  have ht := sameTags_of hN hN' hσ
  have hw' := wellPosed_redeclared hr ht hW hW' hw
  have hoo : o' = o := openness_redeclared (g := model.groundConductorId) (mesh := model.mesh) hr ho ho'
  subst hoo
  have fields : ∀ b, ∃ (sols : List (SolverSolution (E.fem model opts)))
      (sols' : List (SolverSolution (E.fem (⟨mats', model.mesh, ground'⟩ : Model 𝕜) opts))) (hr : Ready b ps sols d)
      (hr' : Ready b ps' sols' d'), ∀ i j : Fin (n + 1),
        chargeOn (sols'[i.1]'(by rw [hr'.len, hσ.len']; exact i.2)) (ps'[j.1]'(by rw [hσ.len']; exact j.2)).tag =
          chargeOn (sols[(renumber σ i).1]'(by rw [hr.len, hσ.len]; exact (renumber σ i).2))
            (ps[(renumber σ j).1]'(by rw [hσ.len]; exact (renumber σ j).2)).tag := by
    intro b
    obtain ⟨sols, hl, h⟩ := construct_fields E hN hB hW hP hw hd b
    obtain ⟨sols', hl', h'⟩ := construct_fields E (model := ⟨mats', model.mesh, ground'⟩) hN' hB' hW' hP hw' hd' b
    refine ⟨sols, sols', hl, hl', ?_⟩
    intro i j
    have hi : i.1 < ps'.length := by rw [hσ.len']; exact i.2
    have hi' : i.1 < sols'.length := by rw [hl'.len]; exact hi
    have hk : (renumber σ i).1 < ps.length := by rw [hσ.len]; exact (renumber σ i).2
    have hk' : (renumber σ i).1 < sols.length := by rw [hl.len]; exact hk
    have f := h _ hk hk'
    have f' := field_redeclared hr ht hW hW' (h' i.1 hi hi')
    rw [tag_renumber hσ i] at f'
    rw [tag_renumber hσ j]
    exact congrArg (fun t => chargeOn t _) (f'.unique hw hs f)
  have gen : ∀ (b : Bool) (M : Matrix (Fin (n + 1)) (Fin (n + 1)) 𝕜),
      ((Query.generalizedC b).exec E d).1 = .ok (.matrix (DMat.ofMatrix M)) →
      ((Query.generalizedC b).exec E d').1 = .ok (.matrix (DMat.ofMatrix (Spec.renumbered σ M))) := by
    intro b M hM
    obtain ⟨sols, sols', hl, hl', e⟩ := fields b
    have e1 : d.model.determineOpenness = .ok o' := by rw [(construct_opts hd).2]; exact ho
    have e2 : d'.model.determineOpenness = .ok o' := by rw [(construct_opts hd').2]; exact ho'
    by_cases hc : ps.length = 1 ∧ o' = .closed
    · have k := (C31_generalized E hN hd ho b).1 hc
      rw [hM] at k
      cases k
    · obtain ⟨d1, k1, _⟩ := getGeneralizedCMatrix_spec hl e1 hc
      obtain ⟨d2, k2, _⟩ := getGeneralizedCMatrix_spec hl' e2 (by rw [hσ.len', ← hσ.len]; exact hc)
      rw [exec_generalizedC, k1] at hM
      rw [exec_generalizedC, k2]
      have m1 : DMat.ofMatrix (symPart (rawCharges ps sols hl.len)) = DMat.ofMatrix M :=
        Answer.matrix.inj (Outcome.ok.inj hM)
      have m2 : DMat.ofMatrix (symPart (rawCharges ps' sols' hl'.len)) = DMat.ofMatrix (Spec.renumbered σ M) := by
        have l : ps.length = n + 1 := hσ.len
        have k : ∀ i j : Fin (n + 1), M i j = symPart (rawCharges ps sols hl.len) (i.cast l.symm) (j.cast l.symm) := by
          exact ofMatrix_entries m1 l
        refine ofMatrix_congr hσ.len' fun i j hi hj => ?_
        unfold Spec.renumbered
        rw [Matrix.submatrix_apply, k]
        have a1 := e ⟨i, by rw [← hσ.len']; exact hi⟩ ⟨j, by rw [← hσ.len']; exact hj⟩
        have a2 := e ⟨j, by rw [← hσ.len']; exact hj⟩ ⟨i, by rw [← hσ.len']; exact hi⟩
        unfold symPart rawCharges
        simp only [Matrix.of_apply, Fin.getElem_fin, Fin.val_cast]
        rw [← a1, ← a2]
      show Outcome.ok (Answer.matrix _) = _
      rw [m2]
  refine ⟨gen, ?_, ?_⟩
  · intro p hp
    obtain ⟨m, G, G0, C, C0, hm, g1, g2, hC, hC0, h1, _, hdet, h2, _⟩ := C35_inductance E hN hd ho hp
    have : m = n := by have := hσ.len; omega
    subst this
    have hdet' : (C0.submatrix σ σ).det ≠ 0 := by rw [Matrix.det_submatrix_equiv_self]; exact hdet
    obtain ⟨p', k, k1, k2⟩ := pul_of_matrices E (model := ⟨mats', model.mesh, ground'⟩) hN' hd' ho' (gen _ _ g1) (gen _ _ g2)
      (getC_renumbered hC σ) (getC_renumbered hC0 σ) hdet'
    refine ⟨_, _, p', h1, h2, k, k1, ?_⟩
    rw [k2, inv_submatrix]
    rfl
  · rintro rfl q hq
    have one : ∀ i : Fin (n + 1), renumber 1 i = i := by
      intro i
      refine Fin.cases rfl (fun j => rfl) i
    refine (Alike.exec rfl rfl (alike_of_charges (ps := ps) (ps' := ps') (hσ.len'.trans hσ.len.symm) ?_ fun b => ?_) hq).symm
    · rw [(construct_opts hd).2, (construct_opts hd').2, ho, ho']
    · obtain ⟨sols, sols', hl, hl', e⟩ := fields b
      refine ⟨sols, sols', hl, hl', ?_⟩
      intro i j hi hj
      have := e ⟨i, by rw [← hσ.len]; exact hi⟩ ⟨j, by rw [← hσ.len]; exact hj⟩
      simp only [one] at this
      exact this

end

/-! ## Example: three conductors -/

/-- three conductors on the line -/
def three : Model ℚ where
  materials := {
    pecs := [⟨"Conductor_0", 1, 1⟩, ⟨"Conductor_1", 2, 1⟩, ⟨"Conductor_2", 3, 1⟩]
    dielectrics := [⟨"Vacuum_0", 1, 1⟩, ⟨"Dielectric_1", 2, 2⟩] }
  mesh := ⟨[⟨1, [0, 1, 2], 2⟩, ⟨2, [1, 2, 3], 1⟩], [⟨1, [0, 1], 1⟩, ⟨2, [1, 2], 1⟩, ⟨3, [2, 0], 1⟩], fun i => (i, i * i)⟩

/-- the conductors of `three` by number -/
def threePs : List (PEC ℚ) := [⟨"Conductor_0", 1, 1⟩, ⟨"Conductor_1", 2, 1⟩, ⟨"Conductor_2", 3, 1⟩]

/-- conductors 1 and 2 exchanged, everything declared in another order, dielectrics under other names -/
def threeOther : Materials ℚ where
  pecs := [⟨"Conductor_1", 3, 1⟩, ⟨"Conductor_2", 2, 1⟩, ⟨"Conductor_0", 1, 1⟩]
  dielectrics := [⟨"Dielectric_7", 2, 2⟩, ⟨"Air", 1, 1⟩]

/-- their conductors by number -/
def threeOtherPs : List (PEC ℚ) := [⟨"Conductor_0", 1, 1⟩, ⟨"Conductor_1", 3, 1⟩, ⟨"Conductor_2", 2, 1⟩]

theorem three_numbering : Numbering three.materials threePs where
  all := List.Perm.refl _
  ids := by
    intro i h
    match i, h with
    | 0, _ => show getMaterialIdFromName "Conductor_0" = .ok 0; decide +kernel
    | 1, _ => show getMaterialIdFromName "Conductor_1" = .ok 1; decide +kernel
    | 2, _ => show getMaterialIdFromName "Conductor_2" = .ok 2; decide +kernel
  nonempty := by simp [threePs]

theorem threeOther_numbering : Numbering threeOther threeOtherPs where
  all := by decide +kernel
  ids := by
    intro i h
    match i, h with
    | 0, _ => show getMaterialIdFromName "Conductor_0" = .ok 0; decide +kernel
    | 1, _ => show getMaterialIdFromName "Conductor_1" = .ok 1; decide +kernel
    | 2, _ => show getMaterialIdFromName "Conductor_2" = .ok 2; decide +kernel
  nonempty := by simp [threeOtherPs]

theorem three_elliptic : Elliptic lineAnalytic line three.materials where
  weights := wires_elliptic.weights
  permittivities := by decide +kernel
  opens := by
    rintro q _ ⟨o, ho, _⟩
    cases ho
  nodes := by
    rintro k ⟨p, _, hk⟩
    rcases (line_on _ _).mp hk with ⟨_, rfl⟩ | ⟨_, rfl⟩ | ⟨_, rfl⟩
    · exact ⟨_, List.mem_cons_self, by decide +kernel⟩
    · exact ⟨_, List.mem_cons_of_mem _ List.mem_cons_self, by decide +kernel⟩
    · exact ⟨_, List.mem_cons_of_mem _ (List.mem_cons_of_mem _ List.mem_cons_self), by decide +kernel⟩
  potentials := fun u h0 hg => wires_elliptic.potentials u (fun k hk => h0 k (by
    obtain ⟨p, hp, hk⟩ := hk
    have : ∀ p ∈ wires.materials.pecs, ∃ p' ∈ three.materials.pecs, p'.tag = p.tag := by decide +kernel
    obtain ⟨p', hp', e⟩ := this p hp
    exact ⟨p', hp', by rw [e]; exact hk⟩)) hg
  fluxes := wires_elliptic.fluxes

/-- `three` and `threeOther` meet the hypotheses, with the exchange of the two conductors. -/
example (opts : DriverOptions) : Numbering three.materials threePs ∧ Numbering threeOther threeOtherPs ∧
    Buildable (lineEngine.fem three opts) three.materials ∧ Buildable (lineEngine.fem three opts) threeOther ∧
    WellDeclared three.materials ∧ WellDeclared threeOther ∧ ExactSolver lineEngine.pcg ∧
    WellPosed lineEngine.analytic (lineEngine.fem three opts) three.materials ∧
    Separate (lineEngine.fem three opts) three.materials ∧ Redeclared three.materials threeOther ∧
    Reassigned (Equiv.swap (0 : Fin 2) 1) threePs threeOtherPs ∧
    three.determineOpenness = .ok .closed ∧ (⟨threeOther, three.mesh, 2⟩ : Model ℚ).determineOpenness = .ok .closed := by
  refine ⟨three_numbering, threeOther_numbering, ?_, ?_, ⟨by decide +kernel, by decide +kernel, by decide +kernel⟩,
    ⟨by decide +kernel, by decide +kernel, by decide +kernel⟩, inverseSolver_exact, three_elliptic.wellPosed, ?_,
    ⟨List.Perm.refl _, by decide +kernel⟩, ⟨rfl, rfl, rfl, ?_⟩, by decide +kernel, by decide +kernel⟩
  · exact ⟨line_valid, List.cons_ne_nil _ _, show ∀ q ∈ line.bdr, 1 ≤ q.attr by decide +kernel, by decide +kernel,
      by decide +kernel, by decide +kernel, show ∀ d ∈ three.materials.dielectrics, 1 ≤ d.tag ∧ ∃ a ∈ line.domAttrs, d.tag ≤ a by
        decide +kernel⟩
  · exact ⟨line_valid, List.cons_ne_nil _ _, show ∀ q ∈ line.bdr, 1 ≤ q.attr by decide +kernel, by decide +kernel,
      by decide +kernel, by decide +kernel, show ∀ d ∈ threeOther.dielectrics, 1 ≤ d.tag ∧ ∃ a ∈ line.domAttrs, d.tag ≤ a by
        decide +kernel⟩
  · intro p _ q _ k hp hq
    rcases (line_on _ _).mp hp with ⟨e, e'⟩ | ⟨e, e'⟩ | ⟨e, e'⟩
    all_goals rcases (line_on _ _).mp hq with ⟨f, f'⟩ | ⟨f, f'⟩ | ⟨f, f'⟩
    all_goals first | exact e.trans f.symm | (have h := e'.symm.trans f'; cases h)
  · intro i
    fin_cases i <;> rfl

end Tulip.Props
