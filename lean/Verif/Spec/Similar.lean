import Verif.Spec.Driver

/-!
# Specification vocabulary: moving, turning and scaling a model
-/

namespace Tulip.Spec
variable {𝕜 : Type} [Field 𝕜]

/-- A change of position, orientation and unit of length: turn by the angle with cosine `cos` and sine `sin`, scale by
`scale`, move by `shift`. -/
structure Similarity (𝕜 : Type) [Field 𝕜] where
  scale : 𝕜
  cos : 𝕜
  sin : 𝕜
  shift : 𝕜 × 𝕜
  scale_ne : scale ≠ 0
  unit : cos * cos + sin * sin = 1

variable (g : Similarity 𝕜)

/-- Turning a vector. -/
def Similarity.turn (v : 𝕜 × 𝕜) : 𝕜 × 𝕜 := (g.cos * v.1 - g.sin * v.2, g.sin * v.1 + g.cos * v.2)

/-- Where a point goes. -/
def Similarity.point (p : 𝕜 × 𝕜) : 𝕜 × 𝕜 :=
  (g.scale * (g.turn p).1 + g.shift.1, g.scale * (g.turn p).2 + g.shift.2)

/-- Values of basis functions that transform like a gradient (also those of Nedelec and Raviart-Thomas elements in the
plane): turned, and divided by the scale. -/
def Similarity.field (v : 𝕜 × 𝕜) : 𝕜 × 𝕜 := ((g.turn v).1 / g.scale, (g.turn v).2 / g.scale)

/-- The moved mesh: points move, areas and lengths scale, attributes and connectivity stay. -/
def movedMesh (m : Mesh 𝕜) : Mesh 𝕜 where
  elems := m.elems.map (fun e => { e with vol := g.scale * g.scale * e.vol })
  bdr := m.bdr.map (fun e => { e with vol := g.scale * e.vol })
  coord := fun v => g.point (m.coord v)

/-- The discretisation of the moved mesh: weights scale like areas and lengths, the values of the nodal basis, the
fluxes through boundary elements and the discrete gradient stay, vector-valued basis functions are turned. -/
def movedFEM (F : FEM 𝕜) : FEM 𝕜 where
  n := F.n
  ne := F.ne
  nd := F.nd
  bdrAttrs := F.bdrAttrs
  domAttrs := F.domAttrs
  bdrElems := F.bdrElems
  node := fun k => g.point (F.node k)
  dom := F.dom.map (fun q => { attr := q.attr, w := g.scale * g.scale * q.w, N := q.N, gradN := fun k => g.field (q.gradN k),
                               W := fun k => g.field (q.W k), R := fun k => g.field (q.R k) })
  bdr := F.bdr.map (fun q => { attr := q.attr, w := g.scale * q.w, pos := g.point q.pos, N := q.N, fl := q.fl })
  grad := F.grad

/-- The moved model: its materials are the same but for the areas of the conductors. -/
def movedModel (model : Model 𝕜) : Model 𝕜 where
  materials := { model.materials with
    pecs := model.materials.pecs.map (fun p => { p with area := g.scale * g.scale * p.area }) }
  mesh := movedMesh g model.mesh
  groundConductorId := model.groundConductorId

/-- The coefficient of the absorbing boundary condition changes like an inverse length on the open boundaries. -/
def AbsorbsAlike (A : Analytic 𝕜) (F : FEM 𝕜) (mats : Materials 𝕜) : Prop :=
  ∀ q ∈ F.bdr, q.attr ∈ mats.openBoundaries.map OpenBoundary.tag → g.scale * A.abc (g.point q.pos) = A.abc q.pos

end Tulip.Spec
