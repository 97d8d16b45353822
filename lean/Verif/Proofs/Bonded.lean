import Verif.Spec.Bonded
import Verif.Proofs.Prescribed
import Verif.Proofs.Renumber

/-!
# Fields of bonded conductors
-/

set_option linter.unusedSectionVars false

namespace Tulip
open Matrix Spec

variable {𝕜 : Type} [Field 𝕜] {F F' : FEM 𝕜} {mats mats' : Materials 𝕜} {A : Analytic 𝕜} {b : Bool} {tag : Int → Int} {ps ps' : List (PEC 𝕜)}
  {group : Fin ps.length → Fin ps'.length}

/-- the discretisation with other attributes -/
abbrev FEM.retag (F : FEM 𝕜) (tag : Int → Int) (attrs : List Int) : FEM 𝕜 :=
  { F with
    bdrAttrs := attrs
    bdrElems := F.bdrElems.map (fun b => (tag b.1, b.2))
    bdr := F.bdr.map (fun q => { q with attr := tag q.attr }) }

theorem onBoundary_retag {attrs : List Int} {a : Int} {k : Fin F.n} : OnBoundary (F.retag tag attrs) a k ↔ ∃ x, tag x = a ∧ OnBoundary F x k := by
  constructor
  · rintro ⟨e, he, h1, h2⟩
    obtain ⟨e', he', rfl⟩ := List.mem_map.mp he
    exact ⟨e'.1, h1, e', he', rfl, h2⟩
  · rintro ⟨x, rfl, e, he, rfl, h2⟩
    exact ⟨_, List.mem_map_of_mem he, rfl, h2⟩

/-- the degrees of freedom on conductors are the same -/
theorem bonded_nodes (hN : Numbering mats ps) (hN' : Numbering mats' ps') (hb : Bonded tag mats mats' ps ps' group) {attrs : List Int} {k : Fin F.n} :
    (∃ p ∈ mats'.pecs, OnBoundary (F.retag tag attrs) p.tag k) ↔ ∃ p ∈ mats.pecs, OnBoundary F p.tag k := by
  constructor
  · rintro ⟨p, hp, h⟩
    obtain ⟨x, hx, ho⟩ := onBoundary_retag.mp h
    obtain ⟨j, hj, rfl⟩ := List.mem_iff_getElem.mp (hN'.all.mem_iff.mpr hp)
    obtain ⟨i, hi⟩ := hb.all ⟨j, hj⟩
    obtain ⟨l, rfl⟩ := hb.only i x (by rw [hb.tags i, hx]; simp only [hi, Fin.getElem_fin])
    exact ⟨_, hN.all.mem_iff.mp (List.getElem_mem l.2), ho⟩
  · rintro ⟨p, hp, h⟩
    obtain ⟨i, hi, rfl⟩ := List.mem_iff_getElem.mp (hN.all.mem_iff.mpr hp)
    exact ⟨_, hN'.all.mem_iff.mp (List.getElem_mem (group ⟨i, hi⟩).2), onBoundary_retag.mpr ⟨_, hb.tags ⟨i, hi⟩, h⟩⟩

theorem bonded_weakForm (hb : Bonded tag mats mats' ps ps' group) (attrs : List Int) (eps : Int → 𝕜) (u : Fin F.n → 𝕜) (k : Fin F.n) :
    weakForm A (F.retag tag attrs) eps (mats'.openBoundaries.map OpenBoundary.tag) u k = weakForm A F eps (mats.openBoundaries.map OpenBoundary.tag) u k := by
  unfold weakForm
  rw [hb.opens]
  congr 1
  show (((F.bdr.map (fun q => { q with attr := tag q.attr })).filter _).map _).sum = _
  rw [List.filter_map, List.map_map]
  have : ∀ q : BdrPt 𝕜 F.n F.nd, (tag q.attr ∈ mats.openBoundaries.map OpenBoundary.tag) ↔ q.attr ∈ mats.openBoundaries.map OpenBoundary.tag := by
    intro q
    simp only [List.mem_map]
    constructor
    · rintro ⟨o, ho, e⟩
      exact ⟨o, ho, ((hb.opens_tag o ho _).mp e.symm).symm⟩
    · rintro ⟨o, ho, e⟩
      exact ⟨o, ho, ((hb.opens_tag o ho _).mpr e.symm).symm⟩
  have e : ((fun q : BdrPt 𝕜 F.n F.nd => decide (q.attr ∈ mats.openBoundaries.map OpenBoundary.tag)) ∘ fun q => { q with attr := tag q.attr }) =
      fun q : BdrPt 𝕜 F.n F.nd => decide (q.attr ∈ mats.openBoundaries.map OpenBoundary.tag) := by
    funext q
    exact decide_eq_decide.mpr (this q)
  erw [e]
  rfl

theorem bonded_eps (hb : Bonded tag mats mats' ps ps' group) (b : Bool) : declaredEps mats' b = declaredEps mats b := by
  funext a
  unfold declaredEps
  rw [hb.dielectrics]

theorem bonded_wellPosed (hN : Numbering mats ps) (hN' : Numbering mats' ps') (hb : Bonded tag mats mats' ps ps' group) (attrs : List Int)
    (hw : WellPosed A F mats) : WellPosed A (F.retag tag attrs) mats' where
  unique b u h1 h2 := by
    refine hw.unique b u (fun k hk => h1 k ((bonded_nodes hN hN' hb).mpr hk)) fun k hk => ?_
    have := h2 k fun h => hk ((bonded_nodes hN hN' hb).mp h)
    rwa [bonded_eps hb, bonded_weakForm hb] at this
  diagonal b k hk := by
    rw [bonded_eps hb, bonded_weakForm hb]
    exact hw.diagonal b k ((bonded_nodes hN hN' hb).mp hk)
  projection := hw.projection

theorem bonded_field (hN : Numbering mats ps) (hN' : Numbering mats' ps') (hb : Bonded tag mats mats' ps ps' group) {attrs : List Int}
    (hs : Separate F mats) {V : Int → 𝕜} {t : SolverSolution (F.retag tag attrs)} (h : PrescribedField A (F.retag tag attrs) mats' b V t) :
    PrescribedField A F mats b (V ∘ tag) ⟨t.phi, t.e, t.d⟩ where
  values k c hk hc := by
    refine h.values k c ((bonded_nodes hN hN' hb).mpr hk) fun p' hp' ho => ?_
    obtain ⟨x, hx, ho'⟩ := onBoundary_retag.mp ho
    obtain ⟨j, hj, rfl⟩ := List.mem_iff_getElem.mp (hN'.all.mem_iff.mpr hp')
    obtain ⟨i, hi⟩ := hb.all ⟨j, hj⟩
    obtain ⟨l, rfl⟩ := hb.only i x (by rw [hb.tags i, hx]; simp only [hi, Fin.getElem_fin])
    rw [← hc _ (hN.all.mem_iff.mp (List.getElem_mem l.2)) ho', Function.comp_apply]
    exact congrArg V hx.symm
  equations k hk := by
    have := h.equations k fun p' hp' ho => by
      obtain ⟨p, hp, ho'⟩ := (bonded_nodes hN hN' hb).mp ⟨p', hp', ho⟩
      exact hk p hp ho'
    rwa [bonded_eps hb, bonded_weakForm hb] at this
  e := h.e
  d := by
    have := h.d
    rw [bonded_eps hb] at this
    exact this

/-- the charge of a bonded conductor is that of its parts -/
theorem bonded_charge (hb : Bonded tag mats mats' ps ps' group) {attrs : List Int} (t : SolverSolution (F.retag tag attrs)) (k : Fin ps'.length) :
    chargeOn t ps'[k].tag = ∑ j : Fin ps.length, if group j = k then chargeOn (F := F) ⟨t.phi, t.e, t.d⟩ ps[j].tag else 0 := by
  have inj : ∀ {i j : Fin ps.length}, ps[i].tag = ps[j].tag → i = j := fun {i j} h =>
    Fin.ext ((List.Nodup.getElem_inj_iff hb.distinct (i := i.1) (j := j.1) (hi := by simp) (hj := by simp)).mp (by simpa using h))
  have inj' : ∀ {i j : Fin ps'.length}, ps'[i].tag = ps'[j].tag → i = j := fun {i j} h =>
    Fin.ext ((List.Nodup.getElem_inj_iff hb.distinct' (i := i.1) (j := j.1) (hi := by simp) (hj := by simp)).mp (by simpa using h))
  unfold chargeOn outwardFlux
  simp only [sum_filter_map]
  have key : ∀ l : List (BdrPt 𝕜 F.n F.nd), (l.map ((fun q : BdrPt 𝕜 F.n F.nd => if decide (q.attr = ps'[k].tag) = true then scalarAt q.fl t.d else 0) ∘
      fun q => { q with attr := tag q.attr })).sum =
      ∑ j : Fin ps.length, if group j = k then (l.map (fun q => if decide (q.attr = ps[j].tag) = true then scalarAt q.fl t.d else 0)).sum else 0 := by
    intro l
    induction l with
    | nil => simp
    | cons q l ih =>
      rw [List.map_cons, List.sum_cons, ih]
      simp only [List.map_cons, List.sum_cons]
      have h1 : ∑ j : Fin ps.length, (if group j = k then (if decide (q.attr = ps[j].tag) = true then scalarAt q.fl t.d else 0) else 0) =
          if tag q.attr = ps'[k].tag then scalarAt q.fl t.d else 0 := by
        by_cases h : tag q.attr = ps'[k].tag
        · obtain ⟨i, hi⟩ := hb.all k
          obtain ⟨j, hj⟩ := hb.only i q.attr (by rw [hb.tags i, h]; simp only [hi])
          have hg : group j = k := inj' (by rw [← hb.tags j, ← hj, h])
          rw [if_pos h, Finset.sum_eq_single j]
          · rw [if_pos hg, if_pos (by simpa using hj)]
          · intro l _ hl
            rw [if_neg (c := decide _ = true), ite_self]
            simp only [decide_eq_true_eq]
            intro e
            exact hl (inj (e.symm.trans hj))
          · exact fun h => absurd (Finset.mem_univ _) h
        · rw [if_neg h]
          refine Finset.sum_eq_zero fun j _ => ?_
          by_cases hg : group j = k
          · rw [if_pos hg, if_neg]
            simp only [decide_eq_true_eq]
            intro e
            exact h (by rw [e, hb.tags j]; simp only [hg])
          · rw [if_neg hg]
      simp only [Function.comp_apply, decide_eq_true_eq]
      simp only [decide_eq_true_eq] at h1
      rw [← h1, ← Finset.sum_add_distrib]
      refine Finset.sum_congr rfl fun j _ => ?_
      by_cases hg : group j = k
      · simp only [if_pos hg]
      · simp only [if_neg hg, add_zero]
  have h0 : ((F.retag tag attrs).bdr.map (fun q => if decide (q.attr = ps'[k].tag) = true then scalarAt q.fl t.d else 0)).sum = _ :=
    (congrArg List.sum List.map_map).trans (key F.bdr)
  rw [h0]
  rw [← Finset.sum_neg_distrib]
  refine Finset.sum_congr rfl fun j _ => ?_
  split
  · rfl
  · exact neg_zero

end Tulip
