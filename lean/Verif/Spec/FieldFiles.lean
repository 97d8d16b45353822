import Verif.Spec.Driver

/-!
# Specification vocabulary: what the field files hold
-/

namespace Tulip.Spec
variable {𝕜 : Type}

/-- The name of the file with one field for one viewer. -/
def fieldPath (opts : DriverOptions) (v : Viewer) (name : String) (ignoreDielectrics : Bool) : String :=
  opts.exportFolder ++ (match v with | .paraView => "/ParaView/" | .visIt => "/VisIt/") ++ name ++
    (if ignoreDielectrics then "_no_dielectrics" else "")

/-- Whether the options ask for files for a viewer. -/
def enabled (opts : DriverOptions) : Viewer → Bool
  | .paraView => opts.exportParaViewSolution
  | .visIt => opts.exportVisItSolution

/-- What the field file with this name holds after everything in the list has been written, in this order: what was
written to it last. -/
def fieldAt (path : String) : List (Event 𝕜) → Option (Viewer × (F : FEM 𝕜) × SolverSolution F)
  | [] => none
  | .field v p F t :: evs => (fieldAt path evs).orElse (fun _ => if p = path then some (v, ⟨F, t⟩) else none)
  | _ :: evs => fieldAt path evs

/-- Everything written by a sequence of queries, whether they succeed or throw. -/
noncomputable def written [Field 𝕜] [DecidableEq 𝕜] [LinearOrder 𝕜] (E : Engine 𝕜) {F : FEM 𝕜} :
    List Query → Driver F → List (Event 𝕜)
  | [], _ => []
  | q :: qs, d => (q.exec E d).2.2 ++ written E qs (q.exec E d).2.1

end Tulip.Spec
