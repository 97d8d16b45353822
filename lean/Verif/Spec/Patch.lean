import Verif.Spec.Elements

/-!
# Specification of fields that elements reproduce exactly
-/

namespace Tulip.Spec
variable {𝕜 : Type} [Field 𝕜]

/-- A potential that is linear in each triangle (with values `f` at the vertices), constant on each conductor (`V`), with
the same `eps` times gradient `g` in all triangles, whose normal component fulfils the condition on open boundaries and
vanishes on boundaries that are neither conductors nor open: an exact solution of the equations of electrostatics, with
D = -g. -/
structure UniformField [LE 𝕜] (A : Analytic 𝕜) (T : Triangulation 𝕜) (mats : Materials 𝕜) (eps : Int → 𝕜) (V : Int → 𝕜)
    (f : Fin T.nv → 𝕜) (g : 𝕜 × 𝕜) : Prop where
  slope : ∀ t ∈ T.tris, ∀ v w, IsVertex t v → IsVertex t w →
    eps t.attr * (f w - f v) = g.1 * ((T.coord w).1 - (T.coord v).1) + g.2 * ((T.coord w).2 - (T.coord v).2)
  conductors : ∀ s ∈ T.segs, ∀ p ∈ mats.pecs, s.attr = p.tag → f s.a = V p.tag ∧ f s.b = V p.tag
  free : ∀ s ∈ T.segs, (∀ p ∈ mats.pecs, s.attr ≠ p.tag) → (∀ o ∈ mats.openBoundaries, s.attr ≠ o.tag) →
    g.1 * ((T.coord s.b).2 - (T.coord s.a).2) - g.2 * ((T.coord s.b).1 - (T.coord s.a).1) = 0
  /-- the outward normal component of `g` is `-abc` times the potential, everywhere on the segment -/
  opens : ∀ s ∈ T.segs, (∀ p ∈ mats.pecs, s.attr ≠ p.tag) → (∃ o ∈ mats.openBoundaries, s.attr = o.tag) →
    ∀ x y : 𝕜, 0 ≤ x → 0 ≤ y → x + y = 1 →
      g.1 * ((T.coord s.b).2 - (T.coord s.a).2) - g.2 * ((T.coord s.b).1 - (T.coord s.a).1) =
        -(s.len * (A.abc (x * (T.coord s.a).1 + y * (T.coord s.b).1, x * (T.coord s.a).2 + y * (T.coord s.b).2) *
          (x * f s.a + y * f s.b)))

/-- Flux of the vector `g` through the boundary `tag`, out of the domain (which is on the left of its segments). -/
def fluxThrough (T : Triangulation 𝕜) (g : 𝕜 × 𝕜) (tag : Int) : 𝕜 :=
  ((T.segs.filter (fun s => s.attr = tag)).map (fun s =>
    g.1 * ((T.coord s.b).2 - (T.coord s.a).2) - g.2 * ((T.coord s.b).1 - (T.coord s.a).1))).sum

end Tulip.Spec
