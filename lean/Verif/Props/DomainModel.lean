import Verif.Props.Model
import Verif.Props.Domain

/-!
# C25: the model of one domain
-/

namespace Tulip.Props
open Tulip Tulip.Spec
variable {𝕜 : Type _}

theorem side_eq (a b : Int) : faceKey a b = side a b := by
  unfold faceKey side
  by_cases h : a ≤ b
  · rw [if_pos h, min_eq_left h, max_eq_right h]
  · rw [if_neg h, min_eq_right (not_le.mp h).le, max_eq_left (not_le.mp h).le]

theorem sidesOf_eq : (elemFaces : Elem 𝕜 → _) = sidesOf := by
  funext e
  unfold elemFaces sidesOf
  rw [← List.map_uncurry_zip_eq_zipWith]
  have : e.verts.tail ++ e.verts.head?.toList = e.verts.rotate 1 := by
    cases e.verts with
    | nil => rfl
    | cons a t => simp
  rw [this]
  refine List.map_congr_left (fun p _ => side_eq _ _)

theorem liesOn_eq (b : Elem 𝕜) (f : Int × Int) : LiesOn b f ↔ bdrFace b = f := by
  unfold LiesOn bdrFace
  rw [side_eq]

theorem backup_find (l : List (Elem 𝕜)) : ∀ (n : Nat) (m : SMap Nat Int), SMap.Sorted m →
    (∀ i, n ≤ i → m.find? i = none) →
    SMap.Sorted ((l.zipIdx n).foldl (fun m p => SMap.emplace m p.2 p.1.attr) m) ∧
    ∀ i, ((l.zipIdx n).foldl (fun m p => SMap.emplace m p.2 p.1.attr) m).find? i =
      if i < n then m.find? i else (l[i - n]?).map (·.attr) := by
  induction l with
  | nil =>
    intro n m hm hn
    refine ⟨hm, fun i => ?_⟩
    by_cases h : i < n
    · simp [h]
    · simp [h, hn i (by omega)]
  | cons a t ih =>
    intro n m hm hn
    simp only [List.zipIdx_cons, List.foldl_cons]
    have hm' : SMap.Sorted (m.emplace n a.attr) := hm.emplace _ _
    obtain ⟨h1, h2⟩ := ih (n + 1) _ hm' (by
      intro i hi
      rw [SMap.find?_emplace hm, if_neg (by omega)]
      exact hn i (by omega))
    refine ⟨h1, fun i => ?_⟩
    rw [h2, SMap.find?_emplace hm]
    rcases Nat.lt_trichotomy i n with h | h | h
    · rw [if_pos (by omega), if_neg (by omega), if_pos h]
    · subst h
      simp [hn i (le_refl _)]
    · rw [if_neg (by omega), if_neg (by omega)]
      have : i - n = (i - (n + 1)) + 1 := by omega
      rw [this, List.getElem?_cons_succ]

theorem subElemsLoop_spec {backup : SMap Nat Int} (l : List (Elem 𝕜 × Nat)) (attrs : Nat → Int)
    (h : ∀ p ∈ l, backup.find? p.2 = some (attrs p.2)) :
    subElemsLoop backup l = .ok (l.map (fun p => { p.1 with attr := attrs p.2 })) := by
  induction l with
  | nil => rfl
  | cons a t ih =>
    obtain ⟨e, i⟩ := a
    have ha := h (e, i) (by simp)
    simp only at ha
    simp only [subElemsLoop, ha, Outcome.ofOption, ih (fun p hp => h p (by simp [hp]))]
    rfl

theorem restoreLoop_spec {backup : SMap Nat Int} (l : List (Elem 𝕜 × Nat)) (attrs : Nat → Int)
    (h : ∀ p ∈ l, backup.find? p.2 = some (attrs p.2)) :
    restoreLoop backup l = .ok (l.map (fun p => { p.1 with attr := attrs p.2 })) := by
  induction l with
  | nil => rfl
  | cons a t ih =>
    obtain ⟨e, i⟩ := a
    have ha := h (e, i) (by simp)
    simp only at ha
    simp only [restoreLoop, ha, Outcome.ofOption, ih (fun p hp => h p (by simp [hp]))]
    rfl

theorem subBdrLoop_spec (gb : List (Elem 𝕜)) (fs : List (Int × Int)) :
    ((∀ f ∈ fs, ∃ g ∈ gb, LiesOn g f) →
      ∃ l, subBdrLoop gb fs = .ok l ∧ List.Forall₂ (BdrFits gb) fs l) ∧
    ((∃ f ∈ fs, ∀ g ∈ gb, ¬ LiesOn g f) → subBdrLoop gb fs = .ub) := by
  simp only [liesOn_eq]
  induction fs with
  | nil => exact ⟨fun _ => ⟨[], rfl, .nil⟩, by simp⟩
  | cons f t ih =>
    cases hf : gb.find? (fun b => decide (bdrFace b = f)) with
    | none =>
      rw [List.find?_eq_none] at hf
      constructor
      · intro h
        obtain ⟨g, hg, he⟩ := h f (by simp)
        exact absurd (by simpa using he) (hf g hg)
      · intro _
        have hf' : gb.find? (fun b => decide (bdrFace b = f)) = none := by
          rw [List.find?_eq_none]; exact hf
        simp only [subBdrLoop, hf']
    | some g =>
      have hgm := List.mem_of_find?_eq_some hf
      have hgf : bdrFace g = f := by simpa using List.find?_some hf
      constructor
      · intro h
        obtain ⟨l, hl, hfa⟩ := ih.1 (fun f' hf' => h f' (by simp [hf']))
        refine ⟨_, ?_, .cons (b := { attr := g.attr, verts := [f.1, f.2], vol := g.vol })
          ⟨rfl, g, hgm, (liesOn_eq _ _).mpr hgf, rfl⟩ hfa⟩
        simp only [subBdrLoop, hf, hl]
        rfl
      · rintro ⟨f', hf', hno⟩
        rcases List.mem_cons.mp hf' with rfl | hf'
        · exact absurd hgf (hno g hgm)
        · simp only [subBdrLoop, hf, ih.2 ⟨f', hf', hno⟩]
          rfl

/-- **C25.** `buildModelForDomain` for any mesh, materials and domain: if every face exposed by the elements
of the domain carries a boundary element of the global mesh, it returns; the global mesh is then unchanged;
the new mesh has exactly the elements of the domain, in order and with their own attributes; its boundary
elements are exactly the exposed faces, each with the attribute of a global boundary element on that face;
the materials kept are exactly those whose tag is in the new mesh; the ground is the domain's. If some
exposed face carries no boundary element the behaviour is undefined. -/
theorem C25_domain_model (gm : Mesh 𝕜) (mats : Materials 𝕜) (hd : DistinctNames mats) (d : Domain) :
    ((∀ f ∈ exposedSides (elemsAt gm.elems d.elems), ∃ b ∈ gm.bdr, LiesOn b f) →
      ∃ model, buildModelForDomain gm mats d = .ok (model, gm) ∧
        model.mesh.elems = elemsAt gm.elems d.elems ∧ model.mesh.coord = gm.coord ∧
        List.Forall₂ (BdrFits gm.bdr) (exposedSides (elemsAt gm.elems d.elems)) model.mesh.bdr ∧
        model.materials.pecs = mats.pecs.filter (fun x => TagInMesh model.mesh x.tag) ∧
        model.materials.openBoundaries = mats.openBoundaries.filter (fun x => TagInMesh model.mesh x.tag) ∧
        model.materials.dielectrics = mats.dielectrics.filter (fun x => TagInMesh model.mesh x.tag) ∧
        model.groundConductorId = d.ground) ∧
    ((∃ f ∈ exposedSides (elemsAt gm.elems d.elems), ∀ b ∈ gm.bdr, ¬ LiesOn b f) →
      buildModelForDomain gm mats d = .ub) := by
  obtain ⟨hbs, hb⟩ := backup_find gm.elems 0 [] List.Pairwise.nil (by simp)
  simp only [Nat.not_lt_zero, if_false, Nat.sub_zero] at hb
  set backup := gm.elems.zipIdx.foldl (fun m p => SMap.emplace m p.2 p.1.attr) [] with hbk
  set at1 : Nat → Int := fun e => if d.elems.contains e then 1 else 2 with hat1
  set mesh1 : Mesh 𝕜 := { gm with elems := setAttrs gm.elems at1 } with hmesh1
  have hbk' : ∀ (i : Nat) (e : Elem 𝕜), gm.elems[i]? = some e → backup.find? i = some e.attr := by
    intro i e he; rw [hb, he]; rfl
  let orig : Nat → Int := fun i => ((gm.elems[i]?).map (·.attr)).getD 0
  have horig : ∀ i, i < gm.elems.length → backup.find? i = some (orig i) := by
    intro i hi
    rw [hb]; simp [orig, hi]
  -- zipIdx of setAttrs
  have hzip : ∀ n, (setAttrs gm.elems at1).zipIdx n =
      gm.elems.zipIdx.map (fun p => (({ p.1 with attr := at1 p.2 } : Elem 𝕜), p.2 + n)) := by
    intro n
    apply List.ext_getElem?
    intro i
    simp only [setAttrs, List.getElem?_zipIdx, List.getElem?_map]
    cases gm.elems[i]? <;> simp [Nat.add_comm]
  have hzip0 := hzip 0
  simp only [Nat.add_zero] at hzip0
  have hmemz : ∀ p ∈ gm.elems.zipIdx, gm.elems[p.2]? = some p.1 := by
    intro p hp
    have := List.mem_zipIdx_iff_getElem?.mp hp
    exact this
  have hsel : mesh1.elems.zipIdx.filter (fun p => decide (p.1.attr = 1)) =
      (gm.elems.zipIdx.filter (fun p => decide (p.2 ∈ d.elems))).map
        (fun p => (({ p.1 with attr := 1 } : Elem 𝕜), p.2)) := by
    show (setAttrs gm.elems at1).zipIdx.filter _ = _
    rw [hzip0, List.filter_map]
    have hcond : ((fun p : Elem 𝕜 × Nat => decide (p.1.attr = 1)) ∘
        fun p : Elem 𝕜 × Nat => (({ p.1 with attr := at1 p.2 } : Elem 𝕜), p.2)) =
        fun p => decide (p.2 ∈ d.elems) := by
      funext p
      simp only [Function.comp_apply, hat1]
      by_cases hpm : p.2 ∈ d.elems <;> simp [hpm]
    rw [hcond]
    apply List.map_congr_left
    intro p hp
    have hpm : p.2 ∈ d.elems := by simpa using (List.mem_filter.mp hp).2
    simp [hat1, hpm]
  have hfaces : (mesh1.elems.zipIdx.filter (fun p => decide (p.1.attr = 1))).flatMap
      (fun p => elemFaces p.1) = (elemsAt gm.elems d.elems).flatMap elemFaces := by
    rw [hsel]
    simp only [List.flatMap_map, elemsAt]
    rfl
  have hexp : (createFromDomain mesh1).bdrFaces = exposedSides (elemsAt gm.elems d.elems) := by
    simp only [createFromDomain, exposedSides]
    rw [hfaces, sidesOf_eq]
  have hsub : subElemsLoop backup
      ((createFromDomain mesh1).elems.zip (createFromDomain mesh1).parentElementIDMap) =
      .ok (elemsAt gm.elems d.elems) := by
    have hz : (createFromDomain mesh1).elems.zip (createFromDomain mesh1).parentElementIDMap =
        (gm.elems.zipIdx.filter (fun p => decide (p.2 ∈ d.elems))).map
        (fun p => (({ p.1 with attr := 1 } : Elem 𝕜), p.2)) := by
      simp only [createFromDomain]
      rw [hsel]
      simp only [List.map_map, List.zip_map']
      rfl
    rw [hz, subElemsLoop_spec _ orig]
    · rw [List.map_map]
      congr 1
      apply List.map_congr_left
      intro p hp
      have := hmemz p (List.mem_filter.mp hp).1
      simp [orig, this]
    · intro p hp
      rw [List.mem_map] at hp
      obtain ⟨q, hq, rfl⟩ := hp
      have := hmemz q (List.mem_filter.mp hq).1
      exact horig _ (List.getElem?_eq_some_iff.mp this).1
  have hres : restoreLoop backup mesh1.elems.zipIdx = .ok gm.elems := by
    show restoreLoop backup (setAttrs gm.elems at1).zipIdx = _
    rw [hzip0, restoreLoop_spec _ orig]
    · rw [List.map_map]
      congr 1
      apply List.ext_getElem?
      intro i
      simp only [List.getElem?_map, List.getElem?_zipIdx]
      cases hi : gm.elems[i]? with
      | none => rfl
      | some e => simp [orig, hi]
    · intro p hp
      rw [List.mem_map] at hp
      obtain ⟨q, hq, rfl⟩ := hp
      exact horig _ (List.getElem?_eq_some_iff.mp (hmemz q hq)).1
  constructor
  · intro hf
    obtain ⟨bs, hbs1, hbs2⟩ := (subBdrLoop_spec gm.bdr (exposedSides (elemsAt gm.elems d.elems))).1 hf
    have hfl := C11_filter { elems := elemsAt gm.elems d.elems, bdr := bs, coord := gm.coord } mats hd
    refine ⟨{ Model.make { elems := elemsAt gm.elems d.elems, bdr := bs, coord := gm.coord } mats with
      groundConductorId := d.ground }, ?_, rfl, rfl, hbs2, hfl.1, hfl.2.1, hfl.2.2.1, rfl⟩
    unfold buildModelForDomain
    simp only [← hbk, ← hat1, ← hmesh1, hsub, hexp]
    have : mesh1.bdr = gm.bdr := rfl
    rw [this, hbs1]
    have hres' : restoreLoop backup (setAttrs gm.elems at1).zipIdx = .ok gm.elems := hres
    simp only [Outcome.ok_bind, hmesh1, hres']
  · intro hf
    have hub := (subBdrLoop_spec gm.bdr (exposedSides (elemsAt gm.elems d.elems))).2 hf
    unfold buildModelForDomain
    simp only [← hbk, ← hat1, ← hmesh1, hsub, hexp]
    have : mesh1.bdr = gm.bdr := rfl
    rw [this, hub]
    rfl

/-- a case that returns: the second domain of the two-triangle mesh -/
example : ∀ f ∈ exposedSides (elemsAt (twoTriangles [[0, 1, 2], [3, 4, 5]]).mesh.elems [1]),
    ∃ b ∈ (twoTriangles [[0, 1, 2], [3, 4, 5]]).mesh.bdr, bdrFace b = f := by decide

end Tulip.Props
