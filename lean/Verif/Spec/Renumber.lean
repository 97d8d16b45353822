import Verif.Spec.Triangles
import Verif.Spec.Loops
import Mathlib.Data.List.Cycle

/-!
# Specification vocabulary: the same mesh with other numbers

Vertices may be numbered differently, elements and segments listed in another order, and the vertices of an element
listed from another starting point.
-/

namespace Tulip.Spec
variable {𝕜 : Type}

/-- The number of a vertex of some element or segment. -/
def IsMeshVertex (m : Mesh 𝕜) (v : Int) : Prop := ∃ e ∈ m.elems ++ m.bdr, v ∈ e.verts

/-- `m'` is the mesh `m` with the vertices renamed by `name`: elements and segments may come in another order, the
vertices of an element may be listed from another one on (same cycle). Segments keep their direction. -/
structure RenamedMesh (name : Int → Int) (m m' : Mesh 𝕜) : Prop where
  different : ∀ v w, IsMeshVertex m v → IsMeshVertex m w → name v = name w → v = w
  elems : (m'.elems.map (fun e => (e.attr, (e.verts : Cycle Int), e.vol))).Perm
    (m.elems.map (fun e => (e.attr, (e.verts.map name : Cycle Int), e.vol)))
  bdr : m'.bdr.Perm (m.bdr.map (fun e => { e with verts := e.verts.map name }))
  coord : ∀ v, IsMeshVertex m v → m'.coord (name v) = m.coord v

variable [Field 𝕜]

/-- How the degrees of freedom of two discretisations correspond. Basis functions of edges and fluxes may point the
other way: their signs are 1 or -1. -/
structure Renaming (F F' : FEM 𝕜) where
  node : Fin F.n ≃ Fin F'.n
  edge : Fin F.ne ≃ Fin F'.ne
  flux : Fin F.nd ≃ Fin F'.nd
  edgeSign : Fin F.ne → 𝕜
  fluxSign : Fin F.nd → 𝕜

/-- `F'` is the discretisation `F` with other numbers: the same quadrature points in some order, at which corresponding
basis functions have the same values, up to the direction of edges. -/
structure SameDiscretisation {F F' : FEM 𝕜} (r : Renaming F F') : Prop where
  edgeSign : ∀ k, r.edgeSign k = 1 ∨ r.edgeSign k = -1
  fluxSign : ∀ k, r.fluxSign k = 1 ∨ r.fluxSign k = -1
  bdrAttrs : ∀ a, a ∈ F'.bdrAttrs ↔ a ∈ F.bdrAttrs
  domAttrs : ∀ a, a ∈ F'.domAttrs ↔ a ∈ F.domAttrs
  bdrElems : (F'.bdrElems.map (fun b => (b.1, (b.2 : Multiset (Fin F'.n))))).Perm
    (F.bdrElems.map (fun b => (b.1, (b.2.map r.node : Multiset (Fin F'.n)))))
  node : ∀ k, F'.node (r.node k) = F.node k
  dom : (F'.dom.map (fun q => (q.attr, q.w, fun k => q.N (r.node k), fun k => q.gradN (r.node k),
      fun k => q.W (r.edge k), fun k => q.R (r.flux k)))).Perm
    (F.dom.map (fun q => (q.attr, q.w, q.N, q.gradN, fun k => r.edgeSign k • q.W k, fun k => r.fluxSign k • q.R k)))
  bdr : (F'.bdr.map (fun q => (q.attr, q.w, q.pos, fun k => q.N (r.node k), fun k => q.fl (r.flux k)))).Perm
    (F.bdr.map (fun q => (q.attr, q.w, q.pos, q.N, fun k => r.fluxSign k * q.fl k)))
  grad : ∀ k i, F'.grad (r.edge k) (r.node i) = r.edgeSign k * F.grad k i

/-- `T'` is the mesh of triangles `T` with the vertices renumbered by `number`: triangles and segments may come in
another order, the vertices of a triangle may be listed from another one on. Segments keep their direction. -/
structure Renumbered (T T' : Triangulation 𝕜) (number : Fin T.nv ≃ Fin T'.nv) : Prop where
  coord : ∀ v, T'.coord (number v) = T.coord v
  tris : (T'.tris.map (fun t => (t.attr, ([t.a, t.b, t.c] : Cycle (Fin T'.nv))))).Perm
    (T.tris.map (fun t => (t.attr, ([number t.a, number t.b, number t.c] : Cycle (Fin T'.nv)))))
  segs : (T'.segs.map (fun s => (s.attr, s.a, s.b, s.len))).Perm
    (T.segs.map (fun s => (s.attr, number s.a, number s.b, s.len)))

end Tulip.Spec
