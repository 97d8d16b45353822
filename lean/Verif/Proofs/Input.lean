import Verif.Spec.Input
import Verif.Proofs.Parser

namespace Tulip
open Spec

variable {𝕜 : Type _}

/-- Name and tag of a material of any class. -/
def anyName : AnyMaterial 𝕜 → String × Int
  | .pec m => (m.name, m.tag)
  | .openBoundary m => (m.name, m.tag)
  | .dielectric m => (m.name, m.tag)

theorem declared_collect : ∀ ds : List (AnyMaterial 𝕜), (declared (collect ds)).Perm (ds.map anyName)
  | [] => List.Perm.refl _
  | d :: ds => by
    have ih := declared_collect ds
    rw [List.map_cons]
    unfold declared collect at *
    cases d with
    | pec m =>
      simp only [List.filterMap_cons, List.map_cons, List.cons_append]
      exact ih.cons _
    | openBoundary m =>
      simp only [List.filterMap_cons, List.map_cons, List.append_assoc, List.cons_append] at ih ⊢
      exact List.perm_middle.trans (ih.cons _)
    | dielectric m =>
      simp only [List.filterMap_cons, List.map_cons] at ih ⊢
      exact List.perm_middle.trans (ih.cons _)

theorem denotes_name [Field 𝕜] [LinearOrder 𝕜] {name : String} {v : Json 𝕜} {d : AnyMaterial 𝕜} (h : Denotes name v d) :
    (anyName d).1 = name := by
  cases h <;> rfl

theorem collect_distinct [Field 𝕜] [LinearOrder 𝕜] {es : List (String × Json 𝕜)} {ds : List (AnyMaterial 𝕜)}
    (hu : UniqueKeys es) (h : List.Forall₂ (fun kv d => Denotes kv.1 kv.2 d) es ds) : DistinctNames (collect ds) := by
  have e : (ds.map anyName).map Prod.fst = es.map Prod.fst := by
    clear hu
    induction h with
    | nil => rfl
    | cons h _ ih => simp only [List.map_cons, denotes_name h, ih]
  unfold DistinctNames
  refine (((declared_collect ds).map _).nodup_iff).mpr ?_
  rw [e]
  exact hu

end Tulip
