import Verif.Spec.Loops
import Verif.Proofs.Cycles
import Mathlib.Dynamics.FixedPoints.Basic
import Mathlib.Data.List.Nodup

/-!
# Closed loops of boundary segments
-/

namespace Tulip
open Spec

/-! ## A terminating evaluator for concrete graphs -/

/-- `tiernanLoop` with a step budget, only used to evaluate concrete examples. -/
def tiernanFuel (adj : Nat → List Nat) (root : Nat) : Nat → List Nat → (Nat → List Nat) →
    List (List Nat) → Option (List (List Nat))
  | 0, _, _, _ => none
  | k + 1, rp, closed, out =>
    match extendPath adj root rp closed with
    | some v => tiernanFuel adj root k (v :: rp) closed out
    | none =>
      let out' := if canWrapPath adj root rp && decide (2 ≤ rp.length) then out ++ [rp.reverse] else out
      match rp with
      | last :: prev :: rest =>
        tiernanFuel adj root k (prev :: rest)
          (upd (upd closed last []) prev ((upd closed last []) prev ++ [last])) out'
      | _ => some out'

theorem tiernanFuel_sound (adj : Nat → List Nat) (root : Nat) (k : Nat) :
    ∀ rp closed out r, tiernanFuel adj root k rp closed out = some r →
      tiernanLoop adj root rp closed out = some r := by
  induction k with
  | zero => intro rp closed out r h; simp [tiernanFuel] at h
  | succ k ih =>
    intro rp closed out r h
    rw [tiernanLoop]
    rw [tiernanFuel] at h
    cases he : extendPath adj root rp closed with
    | some v =>
      rw [he] at h
      exact ih _ _ _ _ h
    | none =>
      rw [he] at h
      simp only at h ⊢
      rcases rp with _ | ⟨a, _ | ⟨b, t⟩⟩
      · exact h
      · exact h
      · exact ih _ _ _ _ h

def findCyclesFuel (g : DGraph) (k : Nat) : Option (List (List Int)) :=
  ((List.range g.verts.length).foldl (fun acc v => do
    let out ← acc
    let cs ← tiernanFuel g.outTargets v k [v] (fun _ => []) []
    pure (out ++ cs)) (some [])).map (fun cs => cs.map (fun p => p.map g.idOf))

theorem findCyclesFuel_sound {g : DGraph} {k : Nat} {r : List (List Int)}
    (h : findCyclesFuel g k = some r) : g.findCycles = some r := by
  have key : ∀ (vs : List Nat) (acc res : List (List Nat)),
      vs.foldl (fun acc v => do
        let out ← acc
        let cs ← tiernanFuel g.outTargets v k [v] (fun _ => []) []
        pure (out ++ cs)) (some acc) = some res →
      vs.foldl (fun acc v => do
        let out ← acc
        let cs ← tiernanLoop g.outTargets v [v] (fun _ => []) []
        pure (out ++ cs)) (some acc) = some res := by
    intro vs
    induction vs with
    | nil => intro acc res h; exact h
    | cons v t ih =>
      intro acc res h
      rw [List.foldl_cons] at h ⊢
      cases hf : tiernanFuel g.outTargets v k [v] (fun _ => []) [] with
      | none =>
        rw [hf] at h
        have hnone : ∀ (t : List Nat), List.foldl (fun (acc : Option (List (List Nat))) v => do
            let out ← acc
            let cs ← tiernanFuel g.outTargets v k [v] (fun _ => []) []
            pure (out ++ cs)) none t = none := by
          intro t
          induction t with
          | nil => rfl
          | cons a t ih => rw [List.foldl_cons]; exact ih
        exact absurd ((hnone t).symm.trans h) (by simp)
      | some cs =>
        rw [hf] at h
        rw [tiernanFuel_sound _ _ _ _ _ _ _ hf]
        exact ih _ _ h
  unfold findCyclesFuel at h
  unfold DGraph.findCycles tiernanAllCycles
  rw [Option.map_eq_some_iff] at h ⊢
  obtain ⟨res, h1, h2⟩ := h
  exact ⟨res, key _ _ _ h1, h2⟩

/-! ## The two loops of `determineClosedLoops` -/

variable {𝕜 : Type _}

theorem closedLoopsBuild_spec (es : List (Elem 𝕜)) (hp : ProperSegments es) :
    ∀ (g : DGraph) (m : SMap Int (Elem 𝕜)), g.WF →
    ∃ g', closedLoopsBuild es g m =
        .ok (g', m.setAll (fun e => (ends e).1) (fun e => e) es) ∧ g'.WF ∧
      g'.getEdgesAsPairs = g.getEdgesAsPairs ++ es.map ends := by
  induction es with
  | nil => intro g m hg; exact ⟨g, rfl, hg, by simp⟩
  | cons e t ih =>
    intro g m hg
    obtain ⟨a, b, hv, hab⟩ := hp e (by simp)
    have hends : ends e = (a, b) := by simp [ends, hv]
    obtain ⟨g', h1, h2, h3⟩ := ih (fun x hx => hp x (by simp [hx])) (g.addEdge a b).1
      (m.set a e) (DGraph.addEdge_wf hg a b)
    refine ⟨g', ?_, h2, ?_⟩
    · rw [closedLoopsBuild, hv]
      have hs := DGraph.addEdge_snd g a b
      rw [if_neg hab] at hs
      generalize hr : g.addEdge a b = r at hs h1
      obtain ⟨g1, o⟩ := r
      simp only at hs h1
      subst hs
      simp only [hr]
      rw [h1]
      simp [SMap.setAll, hends]
    · rw [h3, DGraph.addEdge_pairs hg hab]
      simp [hends]

theorem closedLoopsCollect_length (m : SMap Int (Elem 𝕜)) (vs : List Int)
    (h : ∀ v ∈ vs, v ∈ m.keys) : ∃ ls, closedLoopsCollect m vs = .ok ls ∧ ls.length = vs.length := by
  induction vs with
  | nil => exact ⟨[], rfl, rfl⟩
  | cons v t ih =>
    obtain ⟨ls, h1, h2⟩ := ih (fun x hx => h x (by simp [hx]))
    have hv := SMap.find?_isSome_iff.mpr (h v (by simp))
    obtain ⟨e, he⟩ := Option.isSome_iff_exists.mp hv
    refine ⟨e :: ls, ?_, by simp [h2]⟩
    rw [closedLoopsCollect, he, h1]
    rfl

/-- The graph `determineClosedLoops` builds has the segments as edges, and the number of entries it
returns is the total length of the cycles. -/
theorem determineClosedLoops_spec (es : List (Elem 𝕜)) (hp : ProperSegments es) :
    ∃ g : DGraph, g.WF ∧ g.getEdgesAsPairs = es.map ends ∧
      ∃ cs, g.findCycles = some cs ∧
        ∃ ls, determineClosedLoops es = .ok ls ∧ ls.length = cs.flatten.length := by
  obtain ⟨g, h1, h2, h3⟩ := closedLoopsBuild_spec es hp DGraph.empty [] DGraph.wf_empty
  have h3' : g.getEdgesAsPairs = es.map ends := by
    rw [h3]; simp [DGraph.empty, DGraph.getEdgesAsPairs]
  obtain ⟨cs, h4, _, h5⟩ := h2.findCycles_spec
  refine ⟨g, h2, h3', cs, h4, ?_⟩
  have hk : ∀ v ∈ cs.flatten, v ∈
      (SMap.setAll ([] : SMap Int (Elem 𝕜)) (fun e => (ends e).1) (fun e => e) es).keys := by
    intro v hv
    obtain ⟨c, hc, hvc⟩ := List.mem_flatten.mp hv
    have hcyc := ((h5 c).mp hc).1
    obtain ⟨i, hi, rfl⟩ := List.getElem_of_mem hvc
    have hi' : i < (cyclicPairs c).length := by rw [DGraph.cyclicPairs_length]; exact hi
    have hm := hcyc.edges _ (List.getElem_mem hi')
    rw [h3'] at hm
    obtain ⟨e, he, hee⟩ := List.mem_map.mp hm
    rw [SMap.keys_setAll_mem SMap.Sorted.nil]
    refine Or.inr ⟨e, he, ?_⟩
    rw [hee]
    simp [cyclicPairs_eq_zip_rotate]
  obtain ⟨ls, h6, h7⟩ := closedLoopsCollect_length _ _ hk
  refine ⟨ls, ?_, h7⟩
  unfold determineClosedLoops
  rw [h1]
  simp only [Outcome.ok_bind, h4]
  exact h6

/-! ## Functional graphs -/

/-- Successors on a cycle. -/
theorem elemCycle_succ {E : List (Int × Int)} {c : List Int} (h : ElemCycle E c) {i : Nat}
    (hi : i < c.length) : (c[i], c[(i + 1) % c.length]'(Nat.mod_lt _ (by omega))) ∈ E := by
  have := DGraph.cyclicPairs_getElem? c i hi
  have hm := h.edges _ (List.mem_of_getElem? this)
  have hlt : (i + 1) % c.length < c.length := Nat.mod_lt _ (by omega)
  simpa [List.getD, List.getElem?_eq_getElem hi, List.getElem?_eq_getElem hlt] using hm

/-- In a functional graph two elementary cycles with the same first vertex are equal. -/
theorem elemCycle_eq_of_head {E : List (Int × Int)}
    (hf : ∀ a b b', (a, b) ∈ E → (a, b') ∈ E → b = b') {x : Int} {s t : List Int}
    (hc : ElemCycle E (x :: s)) (hd : ElemCycle E (x :: t)) : x :: s = x :: t := by
  -- agreement of positions
  have agree : ∀ {s t : List Int}, ElemCycle E (x :: s) → ElemCycle E (x :: t) → ∀ i,
      (h1 : i < (x :: s).length) → (h2 : i < (x :: t).length) → (x :: s)[i] = (x :: t)[i] := by
    intro s t hc hd i
    induction i with
    | zero => intro _ _; rfl
    | succ i ih =>
      intro h1 h2
      have e := ih (by omega) (by omega)
      have m1 := elemCycle_succ hc (i := i) (by omega)
      have m2 := elemCycle_succ hd (i := i) (by omega)
      rw [e] at m1
      have := hf _ _ _ m1 m2
      simpa only [Nat.mod_eq_of_lt h1, Nat.mod_eq_of_lt h2] using this
  have le : ∀ {s t : List Int}, ElemCycle E (x :: s) → ElemCycle E (x :: t) →
      (x :: t).length ≤ (x :: s).length := by
    intro s t hc hd
    by_contra hlt
    have hlt' : (x :: s).length < (x :: t).length := by omega
    have hpos : 0 < (x :: s).length := by simp
    have m1 := elemCycle_succ hc (i := (x :: s).length - 1) (by omega)
    have m2 := elemCycle_succ hd (i := (x :: s).length - 1) (by omega)
    have e := agree hc hd ((x :: s).length - 1) (by omega) (by omega)
    rw [e] at m1
    have h3 := hf _ _ _ m1 m2
    have e1 : ((x :: s).length - 1 + 1) % (x :: s).length = 0 := by
      rw [Nat.sub_add_cancel hpos, Nat.mod_self]
    have e2 : ((x :: s).length - 1 + 1) % (x :: t).length = (x :: s).length := by
      rw [Nat.sub_add_cancel hpos, Nat.mod_eq_of_lt hlt']
    have h4 : (x :: t)[0]'(by simp) = (x :: t)[(x :: s).length]'hlt' := by
      have : (x :: s)[0]'(by simp) = (x :: t)[0]'(by simp) := rfl
      rw [← this]
      simpa only [e1, e2] using h3
    have := (List.Nodup.getElem_inj_iff hd.nodup).mp h4
    simp at this
  have hlen : (x :: s).length = (x :: t).length := le_antisymm (le hd hc) (le hc hd)
  exact List.ext_getElem hlen (fun i h1 h2 => agree hc hd i h1 h2)

/-- Rotation of a list to a given member. -/
theorem exists_rotate_head {c : List Int} {x : Int} (hx : x ∈ c) : ∃ k s, c.rotate k = x :: s := by
  obtain ⟨i, hi, rfl⟩ := List.getElem_of_mem hx
  have hpos : 0 < c.length := by omega
  have h2 : (c.rotate i).head? = some c[i] := by
    rw [List.head?_eq_getElem?, List.getElem?_rotate hpos]
    simp [Nat.mod_eq_of_lt hi]
  cases hr : c.rotate i with
  | nil => rw [hr] at h2; simp at h2
  | cons a t => rw [hr] at h2; simp at h2; subst h2; exact ⟨i, t, hr⟩

theorem isRotated_of_common {E : List (Int × Int)}
    (hf : ∀ a b b', (a, b) ∈ E → (a, b') ∈ E → b = b') {c d : List Int} (hc : ElemCycle E c)
    (hd : ElemCycle E d) {x : Int} (hxc : x ∈ c) (hxd : x ∈ d) : c ~r d := by
  obtain ⟨k, s, h1⟩ := exists_rotate_head hxc
  obtain ⟨l, t, h2⟩ := exists_rotate_head hxd
  have hc' := ElemCycle.rotate hc k
  have hd' := ElemCycle.rotate hd l
  rw [h1] at hc'
  rw [h2] at hd'
  have e := elemCycle_eq_of_head hf hc' hd'
  have r1 : c ~r x :: s := ⟨k, h1⟩
  have r2 : d ~r x :: t := ⟨l, h2⟩
  rw [e] at r1
  exact r1.trans r2.symm

/-- With unique starts, the total length of the cycles is the number of segments iff each segment is on
a cycle. -/
theorem closedLoops_count (es : List (Elem 𝕜)) (hu : UniqueStarts es)
    {g : DGraph} (hg : g.WF) (hE : g.getEdgesAsPairs = es.map ends) {cs : List (List Int)}
    (hcs : g.findCycles = some cs) :
    cs.flatten.length = es.length ↔ ∀ e ∈ es, OnClosedLoop es e := by
  obtain ⟨cs', h1, hnd, hm⟩ := hg.findCycles_spec
  rw [hcs] at h1
  have := Option.some.inj h1
  subst this
  rw [hE] at hm
  have hf : ∀ a b b', (a, b) ∈ es.map ends → (a, b') ∈ es.map ends → b = b' := by
    intro a b b' h1 h2
    obtain ⟨e1, m1, q1⟩ := List.mem_map.mp h1
    obtain ⟨e2, m2, q2⟩ := List.mem_map.mp h2
    have : e1 = e2 := List.inj_on_of_nodup_map hu m1 m2 (by rw [q1, q2])
    rw [← this, q1] at q2
    exact congrArg Prod.snd q2
  have hcyc : ∀ c ∈ cs, ElemCycle (es.map ends) c := fun c hc => ((hm c).mp hc).1
  have hdisj : ∀ c ∈ cs, ∀ d ∈ cs, ∀ x, x ∈ c → x ∈ d → c = d := by
    intro c hc d hd x hxc hxd
    have hr := isRotated_of_common hf (hcyc c hc) (hcyc d hd) hxc hxd
    have hE' : ElemCycle g.getEdgesAsPairs d := by rw [hE]; exact hcyc d hd
    obtain ⟨w, _, hw⟩ := hg.findCycles_unique hcs hE'
    rw [hw c ⟨hc, hr⟩, hw d ⟨hd, List.IsRotated.refl _⟩]
  have hfl : cs.flatten.Nodup := by
    rw [List.nodup_flatten]
    refine ⟨fun c hc => (hcyc c hc).nodup, ?_⟩
    refine List.Pairwise.imp_of_mem ?_ hnd
    intro c d hc hd hne x hxc hxd
    exact hne (hdisj c hc d hd x hxc hxd)
  have hstart : ∀ c, ElemCycle (es.map ends) c → ∀ v ∈ c, ∃ e ∈ es, (ends e).1 = v ∧
      ends e ∈ cyclicPairs c := by
    intro c hc v hv
    obtain ⟨i, hi, rfl⟩ := List.getElem_of_mem hv
    have hi' : i < (cyclicPairs c).length := by rw [DGraph.cyclicPairs_length]; exact hi
    have hmem := List.getElem_mem hi'
    obtain ⟨e, he, hee⟩ := List.mem_map.mp (hc.edges _ hmem)
    refine ⟨e, he, ?_, by rw [hee]; exact hmem⟩
    rw [hee]
    simp [cyclicPairs_eq_zip_rotate]
  have hsub : cs.flatten ⊆ es.map (fun e => (ends e).1) := by
    intro v hv
    obtain ⟨c, hc, hvc⟩ := List.mem_flatten.mp hv
    obtain ⟨e, he, h, _⟩ := hstart c (hcyc c hc) v hvc
    exact List.mem_map.mpr ⟨e, he, h⟩
  have hsp : cs.flatten.Subperm (es.map (fun e => (ends e).1)) := List.subperm_of_subset hfl hsub
  constructor
  · intro hlen e he
    have hperm := hsp.perm_of_length_le (by simp [hlen])
    have : (ends e).1 ∈ cs.flatten := hperm.mem_iff.mpr (List.mem_map.mpr ⟨e, he, rfl⟩)
    obtain ⟨c, hc, hvc⟩ := List.mem_flatten.mp this
    obtain ⟨e', he', h1, h2⟩ := hstart c (hcyc c hc) _ hvc
    have : e' = e := List.inj_on_of_nodup_map hu he' he h1
    subst this
    exact ⟨c, hcyc c hc, h2⟩
  · intro hall
    have hsub2 : es.map (fun e => (ends e).1) ⊆ cs.flatten := by
      intro v hv
      obtain ⟨e, he, rfl⟩ := List.mem_map.mp hv
      obtain ⟨c, hc, hec⟩ := hall e he
      have hE' : ElemCycle g.getEdgesAsPairs c := by rw [hE]; exact hc
      obtain ⟨d, ⟨hd, hr⟩, _⟩ := hg.findCycles_unique hcs hE'
      exact List.mem_flatten.mpr ⟨d, hd, hr.mem_iff.mpr (mem_of_mem_cyclicPairs hec).1⟩
    have h2 := (List.subperm_of_subset hu hsub2).length_le
    have h1 := hsp.length_le
    simp only [List.length_map] at h1 h2
    omega

end Tulip
