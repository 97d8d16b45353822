import Verif.Spec.Driver

/-!
# Specification of bonded conductors
-/

namespace Tulip.Spec
variable {𝕜 : Type} [Field 𝕜]

/-- `F'` is the discretisation `F` with other attributes of the boundary elements: `tag a` in place of `a`. -/
def Retagged (tag : Int → Int) (F F' : FEM 𝕜) : Prop :=
  F' = { F with
    bdrAttrs := F'.bdrAttrs
    bdrElems := F.bdrElems.map (fun b => (tag b.1, b.2))
    bdr := F.bdr.map (fun q => { q with attr := tag q.attr }) }

/-- The conductors `ps` are bonded: number `i` becomes part of the conductor number `group i` in `ps'`, whose tag its surface
gets. Every conductor in `ps'` is made of some in `ps` and of nothing else; all tags are distinct; dielectrics and open boundaries stay. -/
structure Bonded (tag : Int → Int) (mats mats' : Materials 𝕜) (ps ps' : List (PEC 𝕜)) (group : Fin ps.length → Fin ps'.length) : Prop where
  tags : ∀ i, tag ps[i].tag = ps'[group i].tag
  all : ∀ k, ∃ i, group i = k
  only : ∀ (i : Fin ps.length) (a : Int), tag a = tag ps[i].tag → ∃ j : Fin ps.length, a = ps[j].tag
  distinct : (ps.map PEC.tag).Nodup
  distinct' : (ps'.map PEC.tag).Nodup
  opens : mats'.openBoundaries.map OpenBoundary.tag = mats.openBoundaries.map OpenBoundary.tag
  opens_tag : ∀ o ∈ mats.openBoundaries, ∀ a, tag a = o.tag ↔ a = o.tag
  dielectrics : mats'.dielectrics = mats.dielectrics

end Tulip.Spec
