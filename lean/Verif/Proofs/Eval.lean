import Verif.Model.Domain

/-!
# Evaluating `split` on concrete graphs

`dfsLoop` is defined by well-founded recursion, which the kernel does not unfold; these fuelled copies let
concrete cases be evaluated by `decide`. They are used for examples and counterexamples only.
-/

namespace Tulip

def dfsFuel (adj : Nat → List Nat) (n c : Nat) : Nat → (Nat → Option Nat) → List (List Nat) →
    Option (Nat → Option Nat)
  | 0, _, _ => none
  | k + 1, comp, stack =>
    match stack with
    | [] => some comp
    | [] :: st => dfsFuel adj n c k comp st
    | (v :: rest) :: st =>
      if comp v = none ∧ v < n then dfsFuel adj n c k (upd comp v (some c)) (adj v :: rest :: st)
      else dfsFuel adj n c k comp (rest :: st)

theorem dfsFuel_eq {adj : Nat → List Nat} {n c : Nat} : ∀ (k : Nat) (comp stack r),
    dfsFuel adj n c k comp stack = some r → dfsLoop adj n c comp stack = r := by
  intro k
  induction k with
  | zero => intro comp stack r h; simp [dfsFuel] at h
  | succ k ih =>
    intro comp stack r h
    match stack with
    | [] => rw [dfsLoop]; simpa [dfsFuel] using h
    | [] :: st => rw [dfsLoop]; exact ih _ _ _ (by simpa [dfsFuel] using h)
    | (v :: rest) :: st =>
      rw [dfsLoop]
      simp only [dfsFuel] at h
      by_cases hc : comp v = none ∧ v < n
      · rw [if_pos hc] at h ⊢; exact ih _ _ _ h
      · rw [if_neg hc] at h ⊢; exact ih _ _ _ h

def ccStep (adj : Nat → List Nat) (n k : Nat) (s : Option ((Nat → Option Nat) × Nat)) (v : Nat) :
    Option ((Nat → Option Nat) × Nat) :=
  s.bind (fun s => if s.1 v = none then
    (dfsFuel adj n s.2 k (upd s.1 v (some s.2)) [adj v]).map (fun c => (c, s.2 + 1)) else some s)

theorem ccFuel_eq {adj : Nat → List Nat} {n k : Nat} (l : List Nat) :
    ∀ (s : Option ((Nat → Option Nat) × Nat)) r, l.foldl (ccStep adj n k) s = some r →
      ∃ s0, s = some s0 ∧ l.foldl (fun s v =>
        if s.1 v = none then (dfsLoop adj n s.2 (upd s.1 v (some s.2)) [adj v], s.2 + 1) else s) s0 = r := by
  induction l with
  | nil => intro s r h; exact ⟨r, h, rfl⟩
  | cons a t ih =>
    intro s r h
    obtain ⟨s1, h1, h2⟩ := ih _ _ h
    cases s with
    | none => simp [ccStep] at h1
    | some s0 =>
      refine ⟨s0, rfl, ?_⟩
      simp only [List.foldl_cons]
      simp only [ccStep, Option.bind_some] at h1
      by_cases hc : s0.1 a = none
      · rw [if_pos hc] at h1 ⊢
        cases hd : dfsFuel adj n s0.2 k (upd s0.1 a (some s0.2)) [adj a] with
        | none => rw [hd] at h1; simp at h1
        | some c =>
          rw [hd] at h1
          rw [dfsFuel_eq _ _ _ _ hd]
          simp only [Option.map_some, Option.some.injEq] at h1
          rw [h1]; exact h2
      · rw [if_neg hc] at h1 ⊢
        cases h1; exact h2

def DGraph.splitFuel (k : Nat) (g : DGraph) : Option (List DGraph) :=
  if g.verts.length = 0 then some []
  else
    ((List.range g.verts.length).foldl (ccStep g.outTargets g.verts.length k)
      (some (fun _ => none, 0))).map (fun cc =>
        if cc.2 = 1 then [g] else (List.range cc.2).map (g.splitPart cc.1))

theorem DGraph.splitFuel_eq {k : Nat} {g : DGraph} {l : List DGraph} (h : g.splitFuel k = some l) :
    g.split = l := by
  unfold DGraph.splitFuel at h
  unfold DGraph.split
  by_cases h0 : g.verts.length = 0
  · rw [if_pos h0] at h ⊢; cases h; rfl
  · rw [if_neg h0] at h ⊢
    rw [Option.map_eq_some_iff] at h
    obtain ⟨cc, h1, h2⟩ := h
    obtain ⟨s0, hs, h3⟩ := ccFuel_eq _ _ _ h1
    cases hs
    have : connectedComponents g.outTargets g.verts.length = cc := h3
    rw [this]; exact h2

variable {𝕜 : Type _}

/-- `buildDomains` with fuelled `split`. -/
def buildDomainsFuel (k : Nat) (model : Model 𝕜) : Option (Outcome IdToDomain) :=
  match model.determineOpenness with
  | .ok .closed =>
    match buildMeshGraph model.mesh with
    | .ok g => (g.splitFuel k).map (fun parts => do
        let res ← domainsLoop model parts 0 []
        let res := setGround0 res
        let tree ← domainTree res
        groundLoop tree.getEdgesAsPairs res)
    | _ => none
  | _ => none

theorem buildDomainsFuel_eq {k : Nat} {m : Model 𝕜} {r : Outcome IdToDomain}
    (h : buildDomainsFuel k m = some r) : buildDomains m = r := by
  cases ho : m.determineOpenness with
  | ok o =>
    cases o with
    | closed =>
      cases hg : buildMeshGraph m.mesh with
      | ok g =>
        simp only [buildDomainsFuel, ho, hg, Option.map_eq_some_iff] at h
        obtain ⟨parts, h1, h2⟩ := h
        rw [← h2, ← DGraph.splitFuel_eq h1]
        simp only [buildDomains, ho, hg]
        rfl
      | _ => simp [buildDomainsFuel, ho, hg] at h
    | _ => simp [buildDomainsFuel, ho] at h
  | _ => simp [buildDomainsFuel, ho] at h

end Tulip
