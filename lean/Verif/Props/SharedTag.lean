import Verif.Props.PUL

/-!
# C106: conductors that share a tag
-/

set_option linter.unusedSectionVars false

namespace Tulip.Props
open Tulip Tulip.Spec Matrix

variable {𝕜 : Type} [Field 𝕜] [DecidableEq 𝕜] [LinearOrder 𝕜]

/-- Rows of the generalized capacitance matrix of conductors with the same tag are equal. -/
theorem C106_rows (E : Engine 𝕜) {model : Model 𝕜} {opts : DriverOptions}
    {ps : List (PEC 𝕜)} (hN : Numbering model.materials ps) (hB : Buildable (E.fem model opts) model.materials)
    (hW : WellDeclared model.materials) (hP : ExactSolver E.pcg)
    (hw : WellPosed E.analytic (E.fem model opts) model.materials)
    (hs : Separate (E.fem model opts) model.materials) (b : Bool)
    {d : Driver (E.fem model opts)} (hd : (Driver.construct E model opts).1 = .ok d) {o : Openness}
    (ho : model.determineOpenness = .ok o) {n : Nat} (hn : ps.length = n + 1)
    {G : Matrix (Fin (n + 1)) (Fin (n + 1)) 𝕜}
    (hG : ((Query.generalizedC b).exec E d).1 = .ok (.matrix (DMat.ofMatrix G))) {i j : Fin (n + 1)}
    (hij : (ps[i.1]'(by omega)).tag = (ps[j.1]'(by omega)).tag) (k : Fin (n + 1)) :
    G i k = G j k ∧ G k i = G k j := by
  obtain ⟨sols, hlen, hst, hf⟩ := C29_excitation E hN hB d hd b
  have hu : ∀ j : Fin ps.length, PrescribedField E.analytic (E.fem model opts) model.materials b (oneVolt ps[j].tag)
      (sols[j.1]'(by omega)) := fun j => (hf j.1 j.2 (by omega)).2 hW hP hw
  obtain ⟨c1, c2⟩ := C31_generalized E hN hd ho b
  have hc : ¬ (ps.length = 1 ∧ o = .closed) := by
    intro hc
    have e := c1 hc
    rw [hG] at e
    cases e
  obtain ⟨M, e, hsym, hM⟩ := c2 hc
  rw [hG, ofMatrix_cast hn.symm M] at e
  have hGM := ofMatrix_eq (Answer.matrix.inj (Outcome.ok.inj e))
  have hstored : ∀ j : Fin ps.length, (Driver.problem b d).solutions[j.1]? = some (some (sols[j.1]'(by omega))) := by
    intro j
    rw [hst, List.getElem?_map, List.getElem?_eq_getElem (by omega)]
    rfl
  have key : ∀ i j k : Fin ps.length, ps[i].tag = ps[j].tag → M i k = M j k := by
    intro i j k hij
    have h := hu i
    rw [hij] at h
    have hsame := Spec.PrescribedField.unique hw hs h (hu j)
    rw [hM i k _ _ (hstored i) (hstored k), hM j k _ _ (hstored j) (hstored k), hsame, hij]
  have key' := key (i.cast hn.symm) (j.cast hn.symm) (k.cast hn.symm) hij
  subst hGM
  refine ⟨key', ?_⟩
  show M (k.cast hn.symm) (i.cast hn.symm) = M (k.cast hn.symm) (j.cast hn.symm)
  rw [← hsym.apply, key', hsym.apply]

/-- **C106.** No per-unit-length parameters are given for a model in which two conductors share a tag (in a closed
model: two conductors other than conductor 0). -/
theorem C106_shared [IsStrictOrderedRing 𝕜] (E : Engine 𝕜) {model : Model 𝕜} {opts : DriverOptions}
    {ps : List (PEC 𝕜)} (hN : Numbering model.materials ps) (hB : Buildable (E.fem model opts) model.materials)
    (hW : WellDeclared model.materials) (hP : ExactSolver E.pcg)
    (hw : WellPosed E.analytic (E.fem model opts) model.materials)
    (hs : Separate (E.fem model opts) model.materials)
    {d : Driver (E.fem model opts)} (hd : (Driver.construct E model opts).1 = .ok d) {o : Openness}
    (ho : model.determineOpenness = .ok o) {i j : Fin ps.length} (hne : i ≠ j) (hij : ps[i].tag = ps[j].tag)
    (h0 : o = .closed → 0 < i.1 ∧ 0 < j.1) :
    ¬ ∃ p, (Query.pulMTL.exec E d).1 = .ok (.pul p) := by
  intro hp
  obtain ⟨p, hp'⟩ := hp
  obtain ⟨n, G, G0, C, C0, hn, hG, hG0, _⟩ := C35_inductance E hN hd ho hp'
  obtain ⟨_, hv⟩ := (C73_success E hN hd ho hG hG0).mp ⟨p, hp'⟩
  have hrow := fun k => (C106_rows E hN hB hW hP hw hs true hd ho hn hG0 (i := i.cast hn) (j := j.cast hn) hij k).2
  have hne' : i.cast hn ≠ j.cast hn := fun h => hne (Fin.cast_injective hn h)
  have h0' : o = .closed → i.cast hn ≠ 0 ∧ j.cast hn ≠ 0 := by
    intro h
    obtain ⟨h1, h2⟩ := h0 h
    constructor
    · intro e
      have := congrArg Fin.val e
      simp at this
      omega
    · intro e
      have := congrArg Fin.val e
      simp at this
      omega
  generalize i.cast hn = i' at hrow hne' h0'
  generalize j.cast hn = j' at hrow hne' h0'
  have hz : ∀ k, charges G0 (Pi.single i' 1 - Pi.single j' 1) k = 0 := by
    intro k
    show G0.mulVec (Pi.single i' 1 - Pi.single j' 1) k = 0
    rw [mulVec_sub, Pi.sub_apply, mulVec_single_one, mulVec_single_one]
    exact sub_eq_zero.mpr (hrow k)
  have heq := hv (Pi.single i' 1 - Pi.single j' 1) (by
    split
    · next h =>
      obtain ⟨h1, h2⟩ := h0' h
      rw [Pi.sub_apply, Pi.single_eq_of_ne h1.symm, Pi.single_eq_of_ne h2.symm, sub_self]
    · exact Finset.sum_eq_zero (fun k _ => hz k)) (fun k => hz k.succ)
  have hall : ∀ k, (Pi.single i' 1 - Pi.single j' 1 : Fin (n + 1) → 𝕜) k =
      (Pi.single i' 1 - Pi.single j' 1 : Fin (n + 1) → 𝕜) 0 := fun k => Fin.cases rfl heq k
  have e := (hall i').trans (hall j').symm
  rw [Pi.sub_apply, Pi.sub_apply, Pi.single_eq_same, Pi.single_eq_same, Pi.single_eq_of_ne hne',
    Pi.single_eq_of_ne hne'.symm] at e
  have : (2 : 𝕜) = 0 := by linear_combination e
  exact two_ne_zero this

/-! ## Examples -/

/-- `wires` with a third conductor on the tag of the second -/
def twins : Model ℚ :=
  { wires with materials := { wires.materials with
      pecs := [⟨"Conductor_2", 2, 1⟩, ⟨"Conductor_1", 2, 1⟩, ⟨"Shield_0", 1, 1⟩] } }

/-- the conductors of `twins` by number -/
def twinsPs : List (PEC ℚ) := [⟨"Shield_0", 1, 1⟩, ⟨"Conductor_1", 2, 1⟩, ⟨"Conductor_2", 2, 1⟩]

theorem twins_numbering : Numbering twins.materials twinsPs where
  all := by decide +kernel
  ids := by
    intro i h
    match i, h with
    | 0, _ => show getMaterialIdFromName "Shield_0" = .ok 0; decide +kernel
    | 1, _ => show getMaterialIdFromName "Conductor_1" = .ok 1; decide +kernel
    | 2, _ => show getMaterialIdFromName "Conductor_2" = .ok 2; decide +kernel
  nonempty := by simp [twinsPs]

theorem twins_buildable (opts : DriverOptions) : Buildable (lineEngine.fem twins opts) twins.materials where
  bdr := line_valid
  bdrAttrs := List.cons_ne_nil _ _
  points := show ∀ q ∈ line.bdr, 1 ≤ q.attr by decide +kernel
  pecs := by decide +kernel
  opens := by decide +kernel
  names := by decide +kernel
  dielectrics := (wires_buildable opts).dielectrics

theorem twins_tags (a : Int) : (∃ p ∈ twins.materials.pecs, p.tag = a) ↔ ∃ p ∈ wires.materials.pecs, p.tag = a := by
  constructor
  · rintro ⟨p, hp, rfl⟩
    rcases List.mem_cons.mp hp with rfl | hp
    · exact ⟨_, List.mem_cons_self, rfl⟩
    · exact ⟨p, hp, rfl⟩
  · rintro ⟨p, hp, rfl⟩
    exact ⟨p, List.mem_cons_of_mem _ hp, rfl⟩

theorem twins_fixed (k : Fin 4) : (∃ p ∈ twins.materials.pecs, OnBoundary line p.tag k) ↔
    ∃ p ∈ wires.materials.pecs, OnBoundary line p.tag k := by
  constructor
  · rintro ⟨p, hp, h⟩
    obtain ⟨q, hq, e⟩ := (twins_tags p.tag).mp ⟨p, hp, rfl⟩
    exact ⟨q, hq, by rw [e]; exact h⟩
  · rintro ⟨p, hp, h⟩
    exact ⟨p, List.mem_cons_of_mem _ hp, h⟩

theorem twins_posed : WellPosed lineAnalytic line twins.materials where
  unique := fun b u h1 h2 => wires_posed.unique b u (fun k hk => h1 k ((twins_fixed k).mpr hk))
    (fun k hk => h2 k (fun h => hk ((twins_fixed k).mp h)))
  diagonal := fun b k hk => wires_posed.diagonal b k ((twins_fixed k).mp hk)
  projection := wires_posed.projection

theorem twins_separate : Separate line twins.materials := by
  intro p hp q hq k h1 h2
  obtain ⟨p', hp', e⟩ := (twins_tags p.tag).mp ⟨p, hp, rfl⟩
  obtain ⟨q', hq', f⟩ := (twins_tags q.tag).mp ⟨q, hq, rfl⟩
  rw [← e] at h1 ⊢
  rw [← f] at h2 ⊢
  exact wires_separate p' hp' q' hq' k h1 h2

/-- The model is accepted, its generalized capacitances are computed, but no per-unit-length parameters; for `wires`,
without the third conductor, there are (`wires_parameters`). -/
example (opts : DriverOptions) : ∃ d, (Driver.construct lineEngine twins opts).1 = .ok d ∧
    (∃ G, ((Query.generalizedC true).exec lineEngine d).1 = .ok (.matrix G)) ∧
    ¬ ∃ p, (Query.pulMTL.exec lineEngine d).1 = .ok (.pul p) := by
  obtain ⟨d, hd, _⟩ := (C27_accepts lineEngine twins opts (by decide +kernel)
    twins_numbering.readable).2 ⟨_, twins_numbering⟩ (twins_buildable opts)
  have ho : twins.determineOpenness = .ok .open_ := wires_open
  obtain ⟨M, hM, _⟩ := (C31_generalized lineEngine twins_numbering hd ho true).2 (by rintro ⟨h, _⟩; cases h)
  exact ⟨d, hd, ⟨_, hM⟩, C106_shared lineEngine twins_numbering (twins_buildable opts)
    ⟨wires_declared.names, wires_declared.tags, wires_declared.opens⟩ inverseSolver_exact twins_posed twins_separate hd ho
    (i := ⟨1, by decide⟩) (j := ⟨2, by decide⟩) (by decide) rfl (fun h => by cases h)⟩

end Tulip.Props
