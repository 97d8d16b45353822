import Verif.Proofs.FieldPaths

/-!
# Field files in changing folders
-/

set_option linter.unusedSectionVars false

namespace Tulip
open Spec Matrix

/-- What is behind the last slash. -/
theorem split_last_slash {a b x y : List Char} (hx : '/' ∉ x) (hy : '/' ∉ y) (h : a ++ '/' :: x = b ++ '/' :: y) :
    a = b ∧ x = y := by
  have h' := congrArg List.reverse h
  simp only [List.reverse_append, List.reverse_cons, List.append_assoc, List.singleton_append] at h'
  have key : ∀ (x y a b : List Char), '/' ∉ x → '/' ∉ y → x ++ '/' :: a = y ++ '/' :: b → x = y ∧ a = b := by
    intro x
    induction x with
    | nil =>
      intro y a b _ hy h
      cases y with
      | nil => simpa using h
      | cons c y =>
        simp only [List.nil_append, List.cons_append, List.cons.injEq] at h
        exact absurd (List.mem_cons_self ..) (h.1 ▸ hy)
    | cons c x ih =>
      intro y a b hx hy h
      cases y with
      | nil =>
        simp only [List.nil_append, List.cons_append, List.cons.injEq] at h
        exact absurd (List.mem_cons_self ..) (h.1 ▸ hx)
      | cons e y =>
        simp only [List.cons_append, List.cons.injEq] at h
        obtain ⟨h1, h2⟩ := ih y a b (fun hc => hx (List.mem_cons_of_mem _ hc)) (fun hc => hy (List.mem_cons_of_mem _ hc)) h.2
        exact ⟨by rw [h.1, h1], h2⟩
  obtain ⟨h1, h2⟩ := key _ _ _ _ (by simpa using hx) (by simpa using hy) h'
  exact ⟨List.reverse_injective h2, List.reverse_injective h1⟩

/-- The folder does not help two names to the same file. -/
theorem fieldPath_inj_folder {o o' : DriverOptions} {v v' : Viewer} {n n' : String} {b b' : Bool} (hn : '/' ∉ n.toList)
    (hn' : '/' ∉ n'.toList) (h : fieldPath o v n b = fieldPath o' v' n' b') :
    v = v' ∧ o.exportFolder = o'.exportFolder ∧
      n ++ (if b then "_no_dielectrics" else "") = n' ++ (if b' then "_no_dielectrics" else "") := by
  have hform : ∀ (o : DriverOptions) (v : Viewer) (n : String) (b : Bool), (fieldPath o v n b).toList =
      (o.exportFolder.toList ++ '/' :: (match v with | .paraView => "ParaView" | .visIt => "VisIt").toList) ++
        '/' :: (n ++ (if b then "_no_dielectrics" else "")).toList := by
    intro o v n b
    unfold fieldPath
    cases v <;> simp [String.toList_append]
  have hs : ∀ (m : String) (c : Bool), '/' ∉ m.toList → '/' ∉ (m ++ (if c then "_no_dielectrics" else "")).toList := by
    intro m c hm
    rw [String.toList_append, List.mem_append]
    rintro (h | h)
    · exact hm h
    · revert h
      cases c <;> decide
  have h := congrArg String.toList h
  rw [hform, hform] at h
  obtain ⟨h1, h2⟩ := split_last_slash (hs n b hn) (hs n' b' hn') h
  obtain ⟨h3, h4⟩ := split_last_slash (by cases v <;> decide) (by cases v' <;> decide) h1
  refine ⟨?_, String.toList_inj.mp h3, String.toList_inj.mp h2⟩
  cases v <;> cases v' <;> first | rfl | (exact absurd h4 (by decide))

section
variable {𝕜 : Type} [Field 𝕜] [DecidableEq 𝕜] [LinearOrder 𝕜] {F : FEM 𝕜}

/-- What histories with changes of the folder write. -/
theorem written_folders (E : Engine 𝕜) : ∀ (qs : List Query) {d0 d : Driver F} (g : String),
    d.forget = (d0.setExportFolder g).forget → (∀ q ∈ qs, q ≠ .pulMTLByDomains) →
    ∀ e ∈ written E qs d, ∃ f, AnyFile (d0.setExportFolder f) e
  | [], _, _, _, _, _, e, he => by cases he
  | q :: qs, d0, d, g, hd, hq, e, he => by
    have h1 := hq q (List.mem_cons_self ..)
    have ht : ∀ q ∈ qs, q ≠ .pulMTLByDomains := fun q' h => hq q' (List.mem_cons_of_mem _ h)
    rcases List.mem_append.mp he with he | he
    · exact ⟨g, exec_writes E q h1 d hd e he⟩
    · by_cases hs : ∃ f, q = .setExportFolder f
      · obtain ⟨f, rfl⟩ := hs
        refine written_folders E qs (d0 := d0) f ?_ ht e he
        exact congrArg (fun x : Driver F => x.setExportFolder f) hd
      · exact written_folders E qs (d0 := d0) g (((exec_clean E q (fun f h => hs ⟨f, h⟩)).keeps d).trans hd) ht e he

end
end Tulip
