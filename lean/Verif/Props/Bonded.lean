import Verif.Props.PUL
import Verif.Proofs.Bonded

/-!
# C108: bonded conductors
-/

set_option linter.unusedSectionVars false

namespace Tulip.Props
open Tulip Tulip.Spec Matrix

variable {𝕜 : Type} [Field 𝕜]

/-- **C108, fields.** The field of bonded conductors is that of the separate ones with the potentials of their groups, and the charge of each
is the sum of the charges of its parts. -/
theorem C108_fields {F F' : FEM 𝕜} {mats mats' : Materials 𝕜} {A : Analytic 𝕜} {b : Bool} {tag : Int → Int} {ps ps' : List (PEC 𝕜)}
    {group : Fin ps.length → Fin ps'.length} (hN : Numbering mats ps) (hN' : Numbering mats' ps') (hb : Bonded tag mats mats' ps ps' group)
    (hF : Retagged tag F F') (hs : Separate F mats) {V : Int → 𝕜} {t' : SolverSolution F'} (h : PrescribedField A F' mats' b V t') :
    ∃ t : SolverSolution F, HEq t.phi t'.phi ∧ PrescribedField A F mats b (fun a => V (tag a)) t ∧
      ∀ k : Fin ps'.length, chargeOn t' ps'[k].tag = ∑ j : Fin ps.length, if group j = k then chargeOn t ps[j].tag else 0 := by
  unfold Retagged at hF
  generalize F'.bdrAttrs = attrs at hF
  subst hF
  exact ⟨⟨t'.phi, t'.e, t'.d⟩, HEq.rfl, bonded_field hN hN' hb hs h, bonded_charge hb t'⟩

theorem bonded_posed {F F' : FEM 𝕜} {mats mats' : Materials 𝕜} {A : Analytic 𝕜} {tag : Int → Int} {ps ps' : List (PEC 𝕜)}
    {group : Fin ps.length → Fin ps'.length} (hN : Numbering mats ps) (hN' : Numbering mats' ps') (hb : Bonded tag mats mats' ps ps' group)
    (hF : Retagged tag F F') (hw : WellPosed A F mats) : WellPosed A F' mats' := by
  unfold Retagged at hF
  generalize F'.bdrAttrs = attrs at hF
  subst hF
  exact bonded_wellPosed hN hN' hb attrs hw

variable [DecidableEq 𝕜] [LinearOrder 𝕜]

/-- **C108.** Entries of the generalized capacitance matrix of bonded conductors are the sums of the entries of their parts. -/
theorem C108_generalized (E : Engine 𝕜) {model model' : Model 𝕜} {opts opts' : DriverOptions} {ps ps' : List (PEC 𝕜)}
    (hN : Numbering model.materials ps) (hN' : Numbering model'.materials ps')
    (hB : Buildable (E.fem model opts) model.materials) (hB' : Buildable (E.fem model' opts') model'.materials)
    (hW : WellDeclared model.materials) (hW' : WellDeclared model'.materials) (hP : ExactSolver E.pcg)
    (hw : WellPosed E.analytic (E.fem model opts) model.materials) (hs : Separate (E.fem model opts) model.materials)
    {tag : Int → Int} {group : Fin ps.length → Fin ps'.length} (hb : Bonded tag model.materials model'.materials ps ps' group)
    (hF : Retagged tag (E.fem model opts) (E.fem model' opts')) (b : Bool)
    {d : Driver (E.fem model opts)} (hd : (Driver.construct E model opts).1 = .ok d) {o : Openness} (ho : model.determineOpenness = .ok o)
    {d' : Driver (E.fem model' opts')} (hd' : (Driver.construct E model' opts').1 = .ok d') {o' : Openness} (ho' : model'.determineOpenness = .ok o')
    {G : Matrix (Fin ps.length) (Fin ps.length) 𝕜} (hG : ((Query.generalizedC b).exec E d).1 = .ok (.matrix (DMat.ofMatrix G)))
    {G' : Matrix (Fin ps'.length) (Fin ps'.length) 𝕜} (hG' : ((Query.generalizedC b).exec E d').1 = .ok (.matrix (DMat.ofMatrix G')))
    (k l : Fin ps'.length) : G' k l = ∑ i, ∑ j, if group i = k ∧ group j = l then G i j else 0 := by
  obtain ⟨sols, hlen, hst, hf⟩ := C29_excitation E hN hB d hd b
  obtain ⟨sols', hlen', hst', hf'⟩ := C29_excitation E hN' hB' d' hd' b
  have hw' := bonded_posed hN hN' hb hF hw
  have hu : ∀ j : Fin ps.length, PrescribedField E.analytic (E.fem model opts) model.materials b (oneVolt ps[j].tag)
      (sols[j.1]'(by omega)) := fun j => (hf j.1 j.2 (by omega)).2 hW hP hw
  have hu' : ∀ j : Fin ps'.length, PrescribedField E.analytic (E.fem model' opts') model'.materials b (oneVolt ps'[j].tag)
      (sols'[j.1]'(by omega)) := fun j => (hf' j.1 j.2 (by omega)).2 hW' hP hw'
  have hstored : ∀ j : Fin ps.length, (Driver.problem b d).solutions[j.1]? = some (some (sols[j.1]'(by omega))) := by
    intro j
    rw [hst, List.getElem?_map, List.getElem?_eq_getElem (by omega)]
    rfl
  have hstored' : ∀ j : Fin ps'.length, (Driver.problem b d').solutions[j.1]? = some (some (sols'[j.1]'(by omega))) := by
    intro j
    rw [hst', List.getElem?_map, List.getElem?_eq_getElem (by omega)]
    rfl
  have hval : ∀ i j : Fin ps.length, G i j = (chargeOn (sols[i.1]'(by omega)) ps[j].tag + chargeOn (sols[j.1]'(by omega)) ps[i].tag) / 2 := by
    obtain ⟨c1, c2⟩ := C31_generalized E hN hd ho b
    obtain ⟨M, e, -, hM⟩ := c2 (fun hc => by have e := c1 hc; rw [hG] at e; cases e)
    rw [hG] at e
    have := ofMatrix_eq (Answer.matrix.inj (Outcome.ok.inj e))
    subst this
    exact fun i j => hM i j _ _ (hstored i) (hstored j)
  have hval' : ∀ i j : Fin ps'.length, G' i j = (chargeOn (sols'[i.1]'(by omega)) ps'[j].tag + chargeOn (sols'[j.1]'(by omega)) ps'[i].tag) / 2 := by
    obtain ⟨c1, c2⟩ := C31_generalized E hN' hd' ho' b
    obtain ⟨M, e, -, hM⟩ := c2 (fun hc => by have e := c1 hc; rw [hG'] at e; cases e)
    rw [hG'] at e
    have := ofMatrix_eq (Answer.matrix.inj (Outcome.ok.inj e))
    subst this
    exact fun i j => hM i j _ _ (hstored' i) (hstored' j)
  have inj' : ∀ {i j : Fin ps'.length}, ps'[i].tag = ps'[j].tag → i = j := fun {i j} h =>
    Fin.ext ((List.Nodup.getElem_inj_iff hb.distinct' (i := i.1) (j := j.1) (hi := by simp) (hj := by simp)).mp (by simpa using h))
  have hone : ∀ (k : Fin ps'.length) (i : Fin ps.length), oneVolt ps'[k].tag (tag ps[i].tag) = if group i = k then (1 : 𝕜) else 0 := by
    intro k i
    unfold oneVolt
    rw [hb.tags i]
    by_cases h : group i = k
    · rw [if_pos h, if_pos (by simp only [h])]
    · rw [if_neg h, if_neg fun e => h (inj' e)]
  have hch : ∀ k l : Fin ps'.length, chargeOn (sols'[k.1]'(by omega)) ps'[l].tag =
      ∑ i : Fin ps.length, ∑ j : Fin ps.length, if group i = k ∧ group j = l then chargeOn (sols[i.1]'(by omega)) ps[j].tag else 0 := by
    intro k l
    obtain ⟨t, -, ht, hc⟩ := C108_fields hN hN' hb hF hs (hu' k)
    rw [hc l, Finset.sum_comm]
    refine Finset.sum_congr rfl fun j _ => ?_
    rw [ht.eq_superposed hw hs hN hb.distinct hu]
    unfold chargeOn
    rw [← flux_neg_one, flux_superposed]
    simp only [flux_neg_one, hone]
    by_cases h : group j = l
    · rw [if_pos h]
      refine Finset.sum_congr rfl fun i _ => ?_
      by_cases h' : group i = k
      · rw [if_pos h', if_pos ⟨h', h⟩, one_mul]
      · rw [if_neg h', if_neg fun e => h' e.1, zero_mul]
    · rw [if_neg h]
      refine (Finset.sum_eq_zero fun i _ => ?_).symm
      rw [if_neg fun e => h e.2]
  rw [hval', hch, hch l k, Finset.sum_comm (f := fun i j => if group i = l ∧ group j = k then _ else 0), ← Finset.sum_add_distrib, Finset.sum_div]
  refine Finset.sum_congr rfl fun i _ => ?_
  rw [← Finset.sum_add_distrib, Finset.sum_div]
  refine Finset.sum_congr rfl fun j _ => ?_
  rw [hval]
  by_cases h : group i = k ∧ group j = l
  · rw [if_pos h, if_pos h.symm, if_pos h]
  · rw [if_neg h, if_neg fun e => h e.symm, if_neg h, zero_add, zero_div]

/-- **C108, lines.** In closed models, the capacitance matrix of the line with bonded conductors has the sums of the entries of the parts of each;
conductors bonded to conductor 0 are left out. -/
theorem C108_line (E : Engine 𝕜) {model model' : Model 𝕜} {opts opts' : DriverOptions} {ps ps' : List (PEC 𝕜)}
    (hN : Numbering model.materials ps) (hN' : Numbering model'.materials ps')
    (hB : Buildable (E.fem model opts) model.materials) (hB' : Buildable (E.fem model' opts') model'.materials)
    (hW : WellDeclared model.materials) (hW' : WellDeclared model'.materials) (hP : ExactSolver E.pcg)
    (hw : WellPosed E.analytic (E.fem model opts) model.materials) (hs : Separate (E.fem model opts) model.materials)
    {tag : Int → Int} {group : Fin ps.length → Fin ps'.length} (hb : Bonded tag model.materials model'.materials ps ps' group)
    (h0 : ∀ i, i.1 = 0 → (group i).1 = 0)
    (hF : Retagged tag (E.fem model opts) (E.fem model' opts'))
    {d : Driver (E.fem model opts)} (hd : (Driver.construct E model opts).1 = .ok d) (ho : model.determineOpenness = .ok .closed)
    {d' : Driver (E.fem model' opts')} (hd' : (Driver.construct E model' opts').1 = .ok d') (ho' : model'.determineOpenness = .ok .closed)
    {p p' : PULParameters 𝕜} (hp : (Query.pulMTL.exec E d).1 = .ok (.pul p)) (hp' : (Query.pulMTL.exec E d').1 = .ok (.pul p')) :
    ∃ (n n' : Nat) (hn : ps.length = n + 1) (hn' : ps'.length = n' + 1) (C : Matrix (Fin n) (Fin n) 𝕜) (C' : Matrix (Fin n') (Fin n') 𝕜),
      p.C = DMat.ofMatrix C ∧ p'.C = DMat.ofMatrix C' ∧
      ∀ k l : Fin n', C' k l = ∑ i : Fin n, ∑ j : Fin n,
        if group (i.succ.cast hn.symm) = k.succ.cast hn'.symm ∧ group (j.succ.cast hn.symm) = l.succ.cast hn'.symm then C i j else 0 := by
  obtain ⟨n, G, -, C, -, hn, hG, -, hC, -, eC, -⟩ := C35_inductance E hN hd ho hp
  obtain ⟨n', G', -, C', -, hn', hG', -, hC', -, eC', -⟩ := C35_inductance E hN' hd' ho' hp'
  refine ⟨n, n', hn, hn', E.eps0SI • C, E.eps0SI • C', eC, eC', fun k l => ?_⟩
  have c1 : ∀ i j, C i j = G i.succ j.succ := by
    obtain ⟨C1, e1, e2, -⟩ := C32_closed G
    rw [hC] at e1
    have := ofMatrix_eq (Outcome.ok.inj e1)
    subst this
    exact e2
  have c1' : ∀ i j, C' i j = G' i.succ j.succ := by
    obtain ⟨C1, e1, e2, -⟩ := C32_closed G'
    rw [hC'] at e1
    have := ofMatrix_eq (Outcome.ok.inj e1)
    subst this
    exact e2
  rw [ofMatrix_cast hn G] at hG
  rw [ofMatrix_cast hn' G'] at hG'
  have key := C108_generalized E hN hN' hB hB' hW hW' hP hw hs hb hF false hd ho hd' ho' hG hG' (k.succ.cast hn'.symm) (l.succ.cast hn'.symm)
  simp only [Matrix.of_apply, Matrix.submatrix_apply] at key
  rw [Matrix.smul_apply, c1', smul_eq_mul]
  refine (congrArg (E.eps0SI * ·) key).trans ?_
  have z : ∀ m : Fin n', group ((0 : Fin (n + 1)).cast hn.symm) ≠ m.succ.cast hn'.symm := by
    intro m e
    have h1 := h0 ((0 : Fin (n + 1)).cast hn.symm) rfl
    rw [e] at h1
    simp at h1
  have split : ∀ f : Fin ps.length → 𝕜, f ((0 : Fin (n + 1)).cast hn.symm) = 0 → ∑ i, f i = ∑ i : Fin n, f (i.succ.cast hn.symm) := by
    intro f hf
    rw [← Fintype.sum_equiv (finCongr hn.symm) (fun i => f (i.cast hn.symm)) f (fun _ => rfl), Fin.sum_univ_succ, hf, zero_add]
  rw [split _ (Finset.sum_eq_zero fun j _ => if_neg fun e => z k e.1), Finset.mul_sum]
  refine Finset.sum_congr rfl fun i _ => ?_
  rw [split _ (if_neg fun e => z l e.2), Finset.mul_sum]
  refine Finset.sum_congr rfl fun j _ => ?_
  rw [mul_ite, mul_zero, Matrix.smul_apply, c1, smul_eq_mul]
  rfl

end Tulip.Props
