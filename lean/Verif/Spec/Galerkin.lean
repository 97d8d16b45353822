import Verif.Spec.Spaces
import Verif.Spec.Driver

/-!
# Specification of the discrete field without shape functions
-/

namespace Tulip.Spec
open MvPolynomial
variable {𝕜 : Type} [Field 𝕜]

/-- Integral of a polynomial over the reference triangle, as a fraction of the area, by the rule. -/
noncomputable def triIntegral (Q : Rule 𝕜) (P : MvPolynomial (Fin 2) 𝕜) : 𝕜 :=
  (Q.tri.map (fun r => r.1 * eval ![r.2.1, r.2.2] P)).sum

variable (T : Triangulation 𝕜)

/-- Integral of `eps` times the scalar product of two fields, polynomials in each triangle. -/
noncomputable def fieldProduct (Q : Rule 𝕜) (eps : Int → 𝕜) (F G : Tri T.nv → MvPolynomial (Fin 2) 𝕜 × MvPolynomial (Fin 2) 𝕜) : 𝕜 :=
  (T.tris.map (fun t => T.det t / 2 * eps t.attr * triIntegral Q ((F t).1 * (G t).1 + (F t).2 * (G t).2))).sum

/-- Integral of the absorbing coefficient times two functions over the boundaries `opens`. -/
noncomputable def absorbed (A : Analytic 𝕜) (Q : Rule 𝕜) (opens : List Int) (P R : Tri T.nv → MvPolynomial (Fin 2) 𝕜) : 𝕜 :=
  ((T.segs.filter (fun s => s.attr ∈ opens)).map (fun s => ((T.behind s).toList.map (fun t =>
    (Q.seg.map (fun r => s.len * r.1 *
      A.abc ((1 - r.2) * (T.coord s.a).1 + r.2 * (T.coord s.b).1, (1 - r.2) * (T.coord s.a).2 + r.2 * (T.coord s.b).2) *
      (eval (Triangulation.onSide t s.a s.b (1 - r.2) r.2) (P t) * eval (Triangulation.onSide t s.a s.b (1 - r.2) r.2) (R t)))).sum)).sum)).sum

/-- The function has this value on all boundary segments with this attribute. -/
def ConstantOn (P : Tri T.nv → MvPolynomial (Fin 2) 𝕜) (tag : Int) (c : 𝕜) : Prop :=
  ∀ s ∈ T.segs, s.attr = tag → ∀ t ∈ T.tris, (s.a, s.b) ∈ t.sides → ∀ x y : 𝕜, x + y = 1 →
    eval (Triangulation.onSide t s.a s.b x y) (P t) = c

/-- The discrete field of order `p` with the conductors at the potentials `V`: among the continuous piecewise
polynomials of order `p` with these values on the conductors, `P` is the one orthogonal to all those that vanish on the
conductors; `D` is the projection of `-eps grad P` on the Raviart-Thomas fields of the order. -/
structure GalerkinField (A : Analytic 𝕜) (Q : Rule 𝕜) (p : Nat) (mats : Materials 𝕜) (ignoreDielectrics : Bool) (V : Int → 𝕜)
    (P : Tri T.nv → MvPolynomial (Fin 2) 𝕜) (D : Tri T.nv → MvPolynomial (Fin 2) 𝕜 × MvPolynomial (Fin 2) 𝕜) : Prop where
  potential : PiecewisePolynomial T p P
  conductors : ∀ c ∈ mats.pecs, ConstantOn T P c.tag (V c.tag)
  equations : ∀ R, PiecewisePolynomial T p R → (∀ c ∈ mats.pecs, ConstantOn T R c.tag 0) →
    fieldProduct T Q (declaredEps mats ignoreDielectrics) (fun t => T.gradient t (R t)) (fun t => T.gradient t (P t)) +
      absorbed T A Q (mats.openBoundaries.map OpenBoundary.tag) R P = 0
  displacement : RaviartThomas T p D
  projection : ∀ G, RaviartThomas T p G → fieldProduct T Q (fun _ => 1) G D =
    -fieldProduct T Q (declaredEps mats ignoreDielectrics) G (fun t => T.gradient t (P t))

/-- Engines with the same functions and physical constants (that may discretise differently). -/
structure SameLaws (E E' : Engine 𝕜) : Prop where
  analytic : E'.analytic = E.analytic
  eps0 : E'.eps0SI = E.eps0SI
  mu0 : E'.mu0SI = E.mu0SI

/-- Two rules give polynomials of degree at most `m` the same integrals. -/
structure SameIntegrals (Q Q' : Rule 𝕜) (m : Nat) : Prop where
  tri : ∀ j k, j + k ≤ m →
    (Q'.tri.map (fun r => r.1 * (r.2.1 ^ j * r.2.2 ^ k))).sum = (Q.tri.map (fun r => r.1 * (r.2.1 ^ j * r.2.2 ^ k))).sum
  seg : ∀ j, j ≤ m → (Q'.seg.map (fun r => r.1 * r.2 ^ j)).sum = (Q.seg.map (fun r => r.1 * r.2 ^ j)).sum

end Tulip.Spec
