import Verif.Proofs.FieldFiles

/-!
# Names of field files
-/

set_option linter.unusedSectionVars false

namespace Tulip
open Spec

/-- A suffix that starts with an underscore does not change the number read from a name with an underscore. -/
theorem id_append {n s : String} {i : Int} (hu : '_' ∈ n.toList) (hs : ∀ c, s.toList.head? = some c → c.isDigit = false)
    (h : getMaterialIdFromName n = .ok i) : getMaterialIdFromName (n ++ s) = .ok i := by
  unfold getMaterialIdFromName at h ⊢
  have h1 : afterUnderscore (n ++ s).toList = afterUnderscore n.toList ++ s.toList := by
    rw [String.toList_append]
    generalize n.toList = l at hu
    unfold afterUnderscore
    rcases hd : l.dropWhile (fun c => decide (c ≠ '_')) with _ | ⟨c, t⟩
    · have hall : ∀ l : List Char, '_' ∈ l → l.dropWhile (fun c => decide (c ≠ '_')) ≠ [] := by
        intro l
        induction l with
        | nil => intro h; cases h
        | cons x y ih =>
          intro h
          by_cases hx : x = '_'
          · simp [List.dropWhile_cons, hx]
          · rw [List.dropWhile_cons_of_pos (by simp [hx])]
            exact ih ((List.mem_cons.mp h).resolve_left (fun e => hx e.symm))
      exact absurd hd (hall l hu)
    · rw [List.dropWhile_append, hd]
      simp
  rw [h1]
  revert h
  generalize afterUnderscore n.toList = l
  unfold readInt
  rcases hd : l.dropWhile isSpaceC with _ | ⟨c, t⟩
  · intro h; cases h
  · rw [List.dropWhile_append, hd]
    simp only [List.isEmpty_cons, Bool.false_eq_true, if_false, List.cons_append]
    intro h
    have ht : ∀ r : List Char, (r ++ s.toList).takeWhile Char.isDigit = r.takeWhile Char.isDigit := by
      intro r
      induction r with
      | nil =>
        rcases hsl : s.toList with _ | ⟨x, y⟩
        · rfl
        · rw [List.nil_append, List.takeWhile_cons_of_neg (by simp [hs x (by rw [hsl]; rfl)])]
          rfl
      | cons x y ih => rw [List.cons_append, List.takeWhile_cons, List.takeWhile_cons, ih]
    rw [← h]
    have hif : (if c = '-' ∨ c = '+' then t ++ s.toList else c :: (t ++ s.toList)) =
        (if c = '-' ∨ c = '+' then t else c :: t) ++ s.toList := by
      split <;> rfl
    rw [hif, ht]

section
variable {𝕜 : Type}

/-- Files with the same path hold fields for the same viewer, under the same name with suffix. -/
theorem fieldPath_inj {o : DriverOptions} {v v' : Viewer} {n n' : String} {b b' : Bool}
    (h : fieldPath o v n b = fieldPath o v' n' b') :
    v = v' ∧ n ++ (if b then "_no_dielectrics" else "") = n' ++ (if b' then "_no_dielectrics" else "") := by
  unfold fieldPath at h
  have h := congrArg String.toList h
  simp only [String.toList_append, List.append_assoc] at h
  have h := List.append_cancel_left h
  cases v <;> cases v'
  · refine ⟨rfl, ?_⟩
    apply String.toList_inj.mp
    simp only [String.toList_append]
    exact List.append_cancel_left h
  · simp at h
  · simp at h
  · refine ⟨rfl, ?_⟩
    apply String.toList_inj.mp
    simp only [String.toList_append]
    exact List.append_cancel_left h

theorem mem_export {F : FEM 𝕜} {o : DriverOptions} {t : SolverSolution F} {n : String} {b : Bool} {e : Event 𝕜} :
    e ∈ exportFieldSolutions o t n b ↔ ∃ v, enabled o v = true ∧ e = .field v (fieldPath o v n b) F t := by
  unfold exportFieldSolutions fieldPath
  constructor
  · intro h
    rcases List.mem_append.mp h with h | h
    · split at h
      · next he =>
        refine ⟨.paraView, he, ?_⟩
        rw [List.mem_singleton.mp h]
        cases b <;> simp only [Bool.false_eq_true, if_true, if_false, String.append_assoc, String.append_empty] <;> rfl
      · cases h
    · split at h
      · next he =>
        refine ⟨.visIt, he, ?_⟩
        rw [List.mem_singleton.mp h]
        cases b <;> simp only [Bool.false_eq_true, if_true, if_false, String.append_assoc, String.append_empty] <;> rfl
      · cases h
  · rintro ⟨v, he, rfl⟩
    cases v with
    | paraView =>
      have he' : o.exportParaViewSolution = true := he
      refine List.mem_append_left _ ?_
      rw [if_pos he', List.mem_singleton]
      cases b <;> simp only [Bool.false_eq_true, if_true, if_false, String.append_assoc, String.append_empty] <;> rfl
    | visIt =>
      have he'' : o.exportVisItSolution = true := he
      refine List.mem_append_right _ ?_
      rw [if_pos he'', List.mem_singleton]
      cases b <;> simp only [Bool.false_eq_true, if_true, if_false, String.append_assoc, String.append_empty] <;> rfl

variable {mats : Materials 𝕜} {ps : List (PEC 𝕜)}

theorem append_inj_right {a b s : String} (h : a ++ s = b ++ s) : a = b := by
  have h := congrArg String.toList h
  simp only [String.toList_append] at h
  exact String.toList_inj.mp (List.append_cancel_right h)

/-- No two conductors share a file. -/
theorem stored_distinct (hN : Numbering mats ps) (hu : ∀ p ∈ mats.pecs, '_' ∈ p.name.toList) {i j : Fin ps.length}
    {b c : Bool} (h : ps[i].name ++ (if b then "_no_dielectrics" else "") = ps[j].name ++ (if c then "_no_dielectrics" else "")) :
    i = j ∧ b = c := by
  have hi : getMaterialIdFromName (ps[i].name ++ (if b then "_no_dielectrics" else "")) = .ok (i.1 : Int) := by
    refine id_append (hu _ (hN.all.mem_iff.mp (List.getElem_mem i.2))) ?_ (hN.ids i.1 i.2)
    cases b <;> (intro c hc; revert hc; decide +revert) 
  have hj : getMaterialIdFromName (ps[j].name ++ (if c then "_no_dielectrics" else "")) = .ok (j.1 : Int) := by
    refine id_append (hu _ (hN.all.mem_iff.mp (List.getElem_mem j.2))) ?_ (hN.ids j.1 j.2)
    cases c <;> (intro c hc; revert hc; decide +revert)
  rw [h, hj] at hi
  have hij : i = j := by
    have := Outcome.ok.inj hi
    ext
    omega
  subst hij
  refine ⟨rfl, ?_⟩
  have h := congrArg (fun s => s.toList.length) h
  simp only [String.toList_append, List.length_append] at h
  cases b <;> cases c
  · rfl
  · simp at h
  · simp at h
  · rfl

/-- No file of a floating problem is that of a conductor. -/
theorem floating_distinct (hN : Numbering mats ps) (hu : ∀ p ∈ mats.pecs, '_' ∈ p.name.toList) {i j : Fin ps.length}
    {b c : Bool} (h : ps[i].name ++ (if b then "_no_dielectrics" else "") =
      ps[j].name ++ "_prescribed_and_others_floating" ++ (if c then "_no_dielectrics" else "")) : False := by
  have hi : getMaterialIdFromName (ps[i].name ++ (if b then "_no_dielectrics" else "")) = .ok (i.1 : Int) := by
    refine id_append (hu _ (hN.all.mem_iff.mp (List.getElem_mem i.2))) ?_ (hN.ids i.1 i.2)
    cases b <;> (intro c hc; revert hc; decide +revert) 
  have hj : getMaterialIdFromName (ps[j].name ++ ("_prescribed_and_others_floating" ++ (if c then "_no_dielectrics" else ""))) = .ok (j.1 : Int) := by
    refine id_append (hu _ (hN.all.mem_iff.mp (List.getElem_mem j.2))) ?_ (hN.ids j.1 j.2)
    cases c <;> (intro c hc; revert hc; decide +revert)
  rw [h, String.append_assoc, hj] at hi
  have hij : i = j := by
    have := Outcome.ok.inj hi
    ext
    omega
  subst hij
  have h := congrArg (fun s => s.toList.length) h
  simp only [String.toList_append, List.length_append] at h
  cases b <;> cases c <;> simp at h <;> omega

end
end Tulip
