import Verif.Spec.Driver

/-!
# Which requests a driver refuses (C99)
-/

namespace Tulip.Spec
open Tulip

/-- The error a driver answers with, by the kind of problem and the number of conductors; `none` where the request is
supported. -/
def refusal (o : Openness) (n : Nat) : Query → Option String
  | .generalizedC _ | .cMatrix | .lMatrix | .pulMTL =>
    if o = .closed ∧ n = 1 then some "The number of conductors must be at least 2 for closed problems." else none
  | .floatingMatrix _ | .floating =>
    if o = .semiopen ∧ n ≠ 1 then some "Floating potentials not implemented for this kind of openness." else none
  | .pulMTLByDomains => if o = .closed then none else some "Domains can only be determined for closed problems."
  | .inCell => if o = .open_ then none else some "In cell parameters can only be computed for open problems."
  | .run =>
    if o = .semiopen then some "Openness of the model is not supported."
    else if o = .closed ∧ n = 1 then some "The number of conductors must be at least 2 for closed problems." else none
  | .setExportFolder _ => none

end Tulip.Spec
