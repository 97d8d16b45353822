import Verif.Spec.Galerkin

/-!
# Specification of refined meshes
-/

namespace Tulip.Spec
variable {𝕜 : Type} [Field 𝕜]

/-- The way from `v` over the vertices `l` to `w`, step by step. -/
def steps {n : Nat} : Fin n → List (Fin n) → Fin n → List (Fin n × Fin n)
  | v, [], w => [(v, w)]
  | v, x :: l, w => (v, x) :: steps x l w

/-- The point `x` lies on the line through the points `a` and `b`. -/
def OnLine (a b x : 𝕜 × 𝕜) : Prop := ∃ s : 𝕜, x = ((1 - s) * a.1 + s * b.1, (1 - s) * a.2 + s * b.2)

/-- The triangles `parts` of the mesh `T'` are the parts of a triangle `t` of the mesh `T`: their sides are those of `t`, cut
into pieces at some vertices on them, and others that belong to two parts, one on each side. -/
def Dissected (T T' : Triangulation 𝕜) (old : Fin T.nv → Fin T'.nv) (t : Tri T.nv) (parts : List (Tri T'.nv)) : Prop :=
  ∃ (inner : List (Fin T'.nv × Fin T'.nv)) (p q r : List (Fin T'.nv)),
    (∀ v ∈ p, OnLine (T.coord t.a) (T.coord t.b) (T'.coord v)) ∧
    (∀ v ∈ q, OnLine (T.coord t.b) (T.coord t.c) (T'.coord v)) ∧
    (∀ v ∈ r, OnLine (T.coord t.c) (T.coord t.a) (T'.coord v)) ∧
    (parts.flatMap Tri.sides).Perm (inner ++ inner.map Prod.swap ++
      (steps (old t.a) p (old t.b) ++ steps (old t.b) q (old t.c) ++ steps (old t.c) r (old t.a)))

/-- The mesh `T'` is a refinement of the mesh `T`: `old` are the vertices of `T`, `parent` tells of which triangle of `T` a
triangle of `T'` is a part. Parts of different triangles have nothing in common but what these have in common (a vertex
or a side); boundary segments are parts of boundary segments. -/
structure Refines (T T' : Triangulation 𝕜) (old : Fin T.nv → Fin T'.nv) (parent : Tri T'.nv → Tri T.nv) : Prop where
  coord : ∀ v, T'.coord (old v) = T.coord v
  parents : ∀ t' ∈ T'.tris, parent t' ∈ T.tris
  material : ∀ t' ∈ T'.tris, t'.attr = (parent t').attr
  dissected : ∀ t ∈ T.tris, Dissected T T' old t (T'.tris.filter (fun t' => parent t' = t))
  common : ∀ t ∈ T'.tris, ∀ t' ∈ T'.tris, parent t ≠ parent t' → ∀ v w, IsVertex t v → IsVertex t w → IsVertex t' v → IsVertex t' w →
    ∃ a b, IsVertex (parent t) a ∧ IsVertex (parent t) b ∧ IsVertex (parent t') a ∧ IsVertex (parent t') b ∧
      OnLine (T.coord a) (T.coord b) (T'.coord v) ∧ OnLine (T.coord a) (T.coord b) (T'.coord w)
  boundary : ∀ s' ∈ T'.segs, ∀ t' ∈ T'.tris, (s'.a, s'.b) ∈ t'.sides →
    ∃ s ∈ T.segs, s.attr = s'.attr ∧ (s.a, s.b) ∈ (parent t').sides ∧
      OnLine (T.coord s.a) (T.coord s.b) (T'.coord s'.a) ∧ OnLine (T.coord s.a) (T.coord s.b) (T'.coord s'.b)

/-- The point of the plane with these coordinates in the triangle `t`. -/
noncomputable def position (T : Triangulation 𝕜) (t : Tri T.nv) (x : Fin 2 → 𝕜) : 𝕜 × 𝕜 :=
  (MvPolynomial.eval x (linearOn t (fun v => (T.coord v).1)), MvPolynomial.eval x (linearOn t (fun v => (T.coord v).2)))

/-- The function `P'` on the mesh `T'` has the same values as the function `P` on the mesh `T`, of which `T'` is a refinement. -/
def SameFunction (T T' : Triangulation 𝕜) (parent : Tri T'.nv → Tri T.nv) (P : Tri T.nv → MvPolynomial (Fin 2) 𝕜)
    (P' : Tri T'.nv → MvPolynomial (Fin 2) 𝕜) : Prop :=
  ∀ t' ∈ T'.tris, ∀ x x' : Fin 2 → 𝕜, position T' t' x' = position T (parent t') x →
    MvPolynomial.eval x' (P' t') = MvPolynomial.eval x (P (parent t'))

end Tulip.Spec
