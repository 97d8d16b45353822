import Verif.Spec.Materials
import Mathlib.Data.List.Nodup

namespace Tulip
open Spec

namespace SMap
variable {K V : Type _} [LinearOrder K]

theorem sorted_insertRange {m n : SMap K V} (hm : m.Sorted) :
    (n.foldl (fun r kv => r.emplace kv.1 kv.2) m).Sorted := by
  induction n generalizing m with
  | nil => exact hm
  | cons a t ih => exact ih (hm.emplace a.1 a.2)

theorem find?_insertRange {m n : SMap K V} (hm : m.Sorted) (k : K) :
    (n.foldl (fun r kv => r.emplace kv.1 kv.2) m).find? k = (m.find? k).or (n.find? k) := by
  induction n generalizing m with
  | nil => simp
  | cons a t ih =>
    obtain ⟨k', v⟩ := a
    rw [List.foldl_cons, ih (hm.emplace _ _), find?_emplace hm, find?_cons]
    by_cases h : k' = k
    · subst h
      simp only [if_true]
      cases m.find? k' <;> simp
    · simp [h]

end SMap

theorem find?_setAll_nodup {α : Type _} (f : α → String) (g : α → Int) (xs : List α)
    (hnd : (xs.map f).Nodup) (k : String) (v : Int) :
    (SMap.setAll ([] : SMap String Int) f g xs).find? k = some v ↔ (k, v) ∈ xs.map (fun x => (f x, g x)) := by
  rw [SMap.find?_setAll SMap.Sorted.nil]
  simp only [SMap.find?_nil, Option.or_none, Option.map_eq_some_iff]
  constructor
  · rintro ⟨a, ha, rfl⟩
    have hm := List.mem_of_getLast? ha
    simp only [List.mem_filter, decide_eq_true_eq] at hm
    exact List.mem_map.mpr ⟨a, hm.1, by rw [hm.2]⟩
  · intro h
    obtain ⟨x, hx, e⟩ := List.mem_map.mp h
    have e1 : f x = k := congrArg Prod.fst e
    have e2 : g x = v := congrArg Prod.snd e
    have hmem : x ∈ xs.filter (fun x => decide (f x = k)) := by simp [hx, e1]
    cases hl : (xs.filter (fun x => decide (f x = k))).getLast? with
    | none => rw [List.getLast?_eq_none_iff.mp hl] at hmem; simp at hmem
    | some y =>
      have hy := List.mem_of_getLast? hl
      simp only [List.mem_filter, decide_eq_true_eq] at hy
      have : y = x := List.inj_on_of_nodup_map hnd hy.1 hx (by rw [hy.2, e1])
      exact ⟨y, rfl, by rw [this, e2]⟩

namespace Materials
variable {𝕜 : Type _}

theorem buildNameToAttrMap_find? (m : Materials 𝕜) (k : String) :
    m.buildNameToAttrMap.find? k =
      ((m.buildNameToAttrMapForPEC.find? k).or (m.buildNameToAttrMapForOpenBoundary.find? k)).or
        (m.buildNameToAttrMapForDielectric.find? k) := by
  unfold buildNameToAttrMap insertRange
  have h1 : m.buildNameToAttrMapForPEC.Sorted := SMap.Sorted.nil.setAll _ _ _
  rw [SMap.find?_insertRange (SMap.sorted_insertRange h1), SMap.find?_insertRange h1]

theorem buildNameToAttrMap_sorted (m : Materials 𝕜) : m.buildNameToAttrMap.Sorted :=
  SMap.sorted_insertRange (SMap.sorted_insertRange (SMap.Sorted.nil.setAll _ _ _))

theorem mem_declared_of_distinct {m : Materials 𝕜} (hd : DistinctNames m) (k : String) (v : Int) :
    m.buildNameToAttrMap.find? k = some v ↔ (k, v) ∈ declared m := by
  unfold DistinctNames declared at hd
  simp only [List.map_append, List.map_map] at hd
  rw [List.nodup_append, List.nodup_append] at hd
  obtain ⟨⟨n1, n2, d12⟩, n3, d123⟩ := hd
  rw [buildNameToAttrMap_find?]
  have e1 := find?_setAll_nodup PEC.name PEC.tag m.pecs n1 k v
  have e2 := find?_setAll_nodup OpenBoundary.name OpenBoundary.tag m.openBoundaries n2 k v
  have e3 := find?_setAll_nodup Dielectric.name Dielectric.tag m.dielectrics n3 k v
  have k1 : ∀ w, m.buildNameToAttrMapForPEC.find? k = some w → k ∈ m.pecs.map PEC.name := by
    intro w hw
    obtain ⟨x, hx, e⟩ := List.mem_map.mp ((find?_setAll_nodup _ _ _ n1 k w).mp hw)
    exact List.mem_map.mpr ⟨x, hx, congrArg Prod.fst e⟩
  have k2 : ∀ w, m.buildNameToAttrMapForOpenBoundary.find? k = some w →
      k ∈ m.openBoundaries.map OpenBoundary.name := by
    intro w hw
    obtain ⟨x, hx, e⟩ := List.mem_map.mp ((find?_setAll_nodup _ _ _ n2 k w).mp hw)
    exact List.mem_map.mpr ⟨x, hx, congrArg Prod.fst e⟩
  have k3 : ∀ w, m.buildNameToAttrMapForDielectric.find? k = some w →
      k ∈ m.dielectrics.map Dielectric.name := by
    intro w hw
    obtain ⟨x, hx, e⟩ := List.mem_map.mp ((find?_setAll_nodup _ _ _ n3 k w).mp hw)
    exact List.mem_map.mpr ⟨x, hx, congrArg Prod.fst e⟩
  unfold declared
  rw [List.mem_append, List.mem_append, ← e1, ← e2, ← e3]
  change _ ↔ (m.buildNameToAttrMapForPEC.find? k = some v ∨
    m.buildNameToAttrMapForOpenBoundary.find? k = some v) ∨
    m.buildNameToAttrMapForDielectric.find? k = some v
  cases h1 : m.buildNameToAttrMapForPEC.find? k with
  | some a =>
    have q2 : m.buildNameToAttrMapForOpenBoundary.find? k ≠ some v := by
      intro h; exact d12 k (k1 a h1) k (k2 v h) rfl
    have q3 : m.buildNameToAttrMapForDielectric.find? k ≠ some v := by
      intro h; exact d123 k (List.mem_append.mpr (Or.inl (k1 a h1))) k (k3 v h) rfl
    simp [q2, q3]
  | none =>
    cases h2 : m.buildNameToAttrMapForOpenBoundary.find? k with
    | some a =>
      have q3 : m.buildNameToAttrMapForDielectric.find? k ≠ some v := by
        intro h; exact d123 k (List.mem_append.mpr (Or.inr (k2 a h2))) k (k3 v h) rfl
      simp [q3]
    | none => simp

end Materials

variable {𝕜 : Type _}

theorem presentLoop_spec (elems : List (Elem 𝕜)) (all : NameToAttrMap) :
    ∀ (res : NameToAttrMap), res.Sorted →
      (presentLoop elems all res).Sorted ∧
      ∀ k, k ∈ (presentLoop elems all res).keys ↔
        k ∈ res.keys ∨ ∃ v, (k, v) ∈ all ∧ ∃ e ∈ elems, e.attr = v := by
  unfold presentLoop
  induction all with
  | nil => intro res hres; simp [hres]
  | cons a t ih =>
    intro res hres
    obtain ⟨ka, va⟩ := a
    rw [List.foldl_cons]
    by_cases h : (elems.any (fun e => decide (e.attr = va))) = true
    · simp only [h, if_true]
      obtain ⟨s, m⟩ := ih (res.emplace ka va) (hres.emplace _ _)
      refine ⟨s, ?_⟩
      intro k
      rw [m k]
      have hk : k ∈ (res.emplace ka va).keys ↔ k ∈ res.keys ∨ k = ka := by
        rw [← SMap.find?_isSome_iff, ← SMap.find?_isSome_iff, SMap.find?_emplace hres]
        by_cases e : ka = k
        · subst e; simp
        · simp [e, Ne.symm e]
      simp only [List.any_eq_true, decide_eq_true_eq] at h
      rw [hk]
      simp only [List.mem_cons, Prod.mk.injEq]
      constructor
      · rintro ((h1 | rfl) | ⟨v, hv, he⟩)
        · exact Or.inl h1
        · exact Or.inr ⟨va, Or.inl ⟨rfl, rfl⟩, h⟩
        · exact Or.inr ⟨v, Or.inr hv, he⟩
      · rintro (h1 | ⟨v, ⟨rfl, rfl⟩ | hv, he⟩)
        · exact Or.inl (Or.inl h1)
        · exact Or.inl (Or.inr rfl)
        · exact Or.inr ⟨v, hv, he⟩
    · simp only [h]
      obtain ⟨s, m⟩ := ih res hres
      refine ⟨s, ?_⟩
      intro k
      rw [if_neg (by simp), m k]
      simp only [List.any_eq_true, decide_eq_true_eq] at h
      simp only [List.mem_cons, Prod.mk.injEq]
      constructor
      · rintro (h1 | ⟨v, hv, he⟩)
        · exact Or.inl h1
        · exact Or.inr ⟨v, Or.inr hv, he⟩
      · rintro (h1 | ⟨v, ⟨rfl, rfl⟩ | hv, he⟩)
        · exact Or.inl h1
        · exact absurd he h
        · exact Or.inr ⟨v, hv, he⟩

/-- What the filter keeps: names mapped (by the merged name map) to a tag in the mesh. -/
theorem filter_contains (m : Materials 𝕜) (mesh : Mesh 𝕜) (k : String) :
    (presentLoop mesh.elems m.buildNameToAttrMap
      (presentLoop mesh.bdr m.buildNameToAttrMap [])).contains k = true ↔
    ∃ v, m.buildNameToAttrMap.find? k = some v ∧ TagInMesh mesh v := by
  have hs := m.buildNameToAttrMap_sorted
  obtain ⟨s1, m1⟩ := presentLoop_spec mesh.bdr m.buildNameToAttrMap [] SMap.Sorted.nil
  obtain ⟨s2, m2⟩ := presentLoop_spec mesh.elems m.buildNameToAttrMap _ s1
  rw [SMap.contains_iff, m2, m1]
  simp only [SMap.find?_eq_some_iff hs, TagInMesh, SMap.keys, List.map_nil, List.not_mem_nil,
    false_or]
  constructor
  · rintro (⟨v, h1, h2⟩ | ⟨v, h1, h2⟩)
    · exact ⟨v, h1, Or.inr h2⟩
    · exact ⟨v, h1, Or.inl h2⟩
  · rintro ⟨v, h1, h2 | h2⟩
    · exact Or.inr ⟨v, h1, h2⟩
    · exact Or.inl ⟨v, h1, h2⟩

theorem filter_contains_distinct {m : Materials 𝕜} (hd : DistinctNames m) (mesh : Mesh 𝕜)
    {k : String} {v : Int} (hk : (k, v) ∈ declared m) :
    (presentLoop mesh.elems m.buildNameToAttrMap
      (presentLoop mesh.bdr m.buildNameToAttrMap [])).contains k = true ↔ TagInMesh mesh v := by
  rw [filter_contains]
  have := (Materials.mem_declared_of_distinct hd k v).mpr hk
  rw [this]
  simp

theorem isFirst_find? {α : Type _} {P : α → Prop} [DecidablePred P] {l : List α} {x : α} :
    l.find? (fun y => P y) = some x ↔ IsFirst P l x := by
  rw [List.find?_eq_some_iff_append]
  simp only [decide_eq_true_eq, Bool.not_eq_true', decide_eq_false_iff_not]
  constructor
  · rintro ⟨h, as, bs, e, h2⟩; exact ⟨as, bs, e, h, h2⟩
  · rintro ⟨as, bs, e, h, h2⟩; exact ⟨h, as, bs, e, h2⟩

theorem getByIdLoop_ok {α : Type _} {name : α → String} {id : Int} {l : List α} {x : α} :
    Materials.getByIdLoop name id l = .ok x ↔
      ∃ pre post, l = pre ++ x :: post ∧ getMaterialIdFromName (name x) = .ok id ∧
        ∀ y ∈ pre, ∃ i, getMaterialIdFromName (name y) = .ok i ∧ i ≠ id := by
  induction l with
  | nil => simp [Materials.getByIdLoop]
  | cons a t ih =>
    rw [Materials.getByIdLoop, Outcome.bind_eq_ok]
    constructor
    · rintro ⟨i, hi, h⟩
      by_cases e : i = id
      · rw [if_pos e] at h
        have := Outcome.ok.inj h
        subst this
        exact ⟨[], t, rfl, by rw [hi, e], by simp⟩
      · rw [if_neg e] at h
        obtain ⟨pre, post, rfl, h1, h2⟩ := ih.mp h
        refine ⟨a :: pre, post, rfl, h1, ?_⟩
        intro y hy
        rcases List.mem_cons.mp hy with rfl | hy
        · exact ⟨i, hi, e⟩
        · exact h2 y hy
    · rintro ⟨pre, post, e, h1, h2⟩
      cases pre with
      | nil =>
        obtain ⟨rfl, rfl⟩ := List.cons.inj e
        exact ⟨id, h1, by simp⟩
      | cons b pre =>
        obtain ⟨rfl, rfl⟩ := List.cons.inj e
        obtain ⟨i, hi, hne⟩ := h2 a (by simp)
        refine ⟨i, hi, ?_⟩
        rw [if_neg hne]
        exact ih.mpr ⟨pre, post, rfl, h1, fun y hy => h2 y (by simp [hy])⟩

end Tulip
