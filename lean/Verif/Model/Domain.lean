import Verif.Model.Mesh

/-!
# Domains (src/Domain.h, src/Domain.cpp)

`assert`s are no-ops (release build).
-/

namespace Tulip

/-- `struct Domain` (Domain.h:8-24). -/
structure Domain where
  ground : Int := -1
  conductorIds : SSet Int := []
  elems : SSet Nat := []
  bdrElems : SSet Nat := []
  deriving DecidableEq, Repr

/-- `Domain::IdToDomain` (Domain.h:11). -/
abbrev IdToDomain := SMap Int Domain

variable {𝕜 : Type _}

/-- Loop of `buildMeshGraph` (Domain.cpp:10-17). -/
def buildMeshGraphLoop : List (Elem 𝕜) → DGraph → Outcome DGraph
  | [], g => .ok g
  | e :: es, g =>
    match g.addClosedPath e.verts with
    | (_, some err) => .throw err
    | (g', none) => buildMeshGraphLoop es g'

/-- `buildMeshGraph` (Domain.cpp:7-20). -/
def buildMeshGraph (mesh : Mesh 𝕜) : Outcome DGraph := buildMeshGraphLoop mesh.elems DGraph.empty

/-- `std::set_intersection` of two sets into a set. -/
def setIntersection (s t : SSet Int) : SSet Int := s.filter (fun x => t.contains x)

/-- `getBdrElemsInDomain` (Domain.cpp:22-53). -/
def getBdrElemsInDomain (tag : Int) (verticesInDomain : SSet Int) (mesh : Mesh 𝕜) : SSet Nat :=
  mesh.bdr.zipIdx.foldl (fun res p =>
    if p.1.attr ≠ tag then res
    else if (setIntersection verticesInDomain (SSet.ofList p.1.verts)).length < 2 then res
    else SSet.insert res p.2) []

/-- Element loop of `buildDomains` (Domain.cpp:115-124). -/
def domainElems (mesh : Mesh 𝕜) (vsInDomain : SSet Int) : SSet Nat :=
  mesh.elems.zipIdx.foldl (fun res p =>
    if p.1.verts.all (fun i => vsInDomain.contains i) then SSet.insert res p.2 else res) []

/-- Conductor loop of `buildDomains` (Domain.cpp:127-133). -/
def domainConductorsLoop (mesh : Mesh 𝕜) (vsInDomain : SSet Int) :
    List (PEC 𝕜) → Domain → Outcome Domain
  | [], d => .ok d
  | pec :: ps, d =>
    let bdrElems := getBdrElemsInDomain pec.tag vsInDomain mesh
    if bdrElems.isEmpty then domainConductorsLoop mesh vsInDomain ps d
    else do
      let id ← getMaterialIdFromName pec.name
      domainConductorsLoop mesh vsInDomain ps
        { d with conductorIds := SSet.insert d.conductorIds id
                 bdrElems := SSet.insertAll d.bdrElems bdrElems }

/-- Loop over the components (Domain.cpp:108-137). -/
def domainsLoop (model : Model 𝕜) : List DGraph → Int → IdToDomain → Outcome IdToDomain
  | [], _, res => .ok res
  | g :: gs, id, res => do
    let vs := g.getVertices
    let d ← domainConductorsLoop model.mesh vs model.materials.pecs
      { elems := domainElems model.mesh vs }
    domainsLoop model gs (id + 1) (res.set id d)

/-! ## `DomainTree` -/

/-- Domain.cpp:58-69: the loop with `foundOnce`. -/
def checkConductor0 : IdToDomain → Bool → Outcome Bool
  | [], found => .ok found
  | (_, d) :: t, found =>
    if d.conductorIds.contains 0 then
      if found then .throw (.runtimeError "Conductor 0 must be only in a single domain.")
      else checkConductor0 t true
    else checkConductor0 t found

/-- `std::multimap::emplace`: after the entries with the same key. -/
def mmEmplace (m : List (Int × Int)) (k v : Int) : List (Int × Int) :=
  match m with
  | [] => [(k, v)]
  | (k', v') :: t => if k < k' then (k, v) :: (k', v') :: t else (k', v') :: mmEmplace t k v

/-- Domain.cpp:74-80: vertices and the multimap conductor → domain. -/
def treeVertices : IdToDomain → DGraph → List (Int × Int) → DGraph × List (Int × Int)
  | [], g, m => (g, m)
  | (domId, d) :: t, g, m =>
    treeVertices t (g.addVertex domId) (d.conductorIds.foldl (fun m c => mmEmplace m c domId) m)

/-- Domain.cpp:82-93: the loop with `prevCondId`, `prevDomId`. -/
def treeEdges : List (Int × Int) → Int → Int → DGraph → Outcome DGraph
  | [], _, _, g => .ok g
  | (cId, dId) :: t, prevC, prevD, g =>
    if cId = prevC then
      match g.addEdge prevD dId with
      | (_, some err) => .throw err
      | (g', none) => treeEdges t prevC prevD g'
    else treeEdges t cId dId (g.addVertex dId)

/-- Constructor `DomainTree(domains)` (Domain.cpp:55-97). -/
def domainTree (domains : IdToDomain) : Outcome DGraph := do
  let found ← checkConductor0 domains false
  if !found then .throw (.runtimeError "Conductor 0 is not present")
  else
    let gm := treeVertices domains DGraph.empty []
    treeEdges gm.2 (-1) (-1) gm.1

/-! ## `buildDomains` -/

/-- Domain.cpp:140-144. -/
def setGround0 (res : IdToDomain) : IdToDomain :=
  res.map (fun p => (p.1, if p.2.conductorIds.contains 0 then { p.2 with ground := 0 } else p.2))

/-- `res[id]`: `operator[]` inserts a default domain if missing. -/
def domainAt (res : IdToDomain) (id : Int) : Domain × IdToDomain :=
  match res.find? id with
  | some d => (d, res)
  | none => ({}, res.set id {})

/-- Loop of Domain.cpp:145-156; dereferencing `begin()` of an empty set is undefined. -/
def groundLoop : List (Int × Int) → IdToDomain → Outcome IdToDomain
  | [], res => .ok res
  | (a, b) :: es, res =>
    let (d1, res) := domainAt res a
    let (d2, res) := domainAt res b
    match setIntersection d1.conductorIds d2.conductorIds with
    | [] => .ub
    | c :: _ => groundLoop es (res.set b { d2 with ground := c })

/-- message of Domain.cpp:102 -/
def notClosedErr : Err := .runtimeError "Domains can only be determined for closed problems."

/-- `Domain::buildDomains` (Domain.cpp:99-163). -/
def buildDomains (model : Model 𝕜) : Outcome IdToDomain := do
  let o ← model.determineOpenness
  if o ≠ .closed then .throw notClosedErr
  else
    let g ← buildMeshGraph model.mesh
    let res ← domainsLoop model g.split 0 []
    let res := setGround0 res
    let tree ← domainTree res
    groundLoop tree.getEdgesAsPairs res

/-! ## `buildModelForDomain` -/

/-- A face (2D: edge) as an unordered pair of vertices. -/
def faceKey (a b : Int) : Int × Int := (min a b, max a b)

/-- The faces of a 2D element. -/
def elemFaces (e : Elem 𝕜) : List (Int × Int) :=
  (e.verts.zip (e.verts.tail ++ e.verts.head?.toList)).map (fun p => faceKey p.1 p.2)

/-- The face of a boundary segment. -/
def bdrFace (e : Elem 𝕜) : Int × Int := faceKey (e.verts.getD 0 0) (e.verts.getD 1 0)

/-- `SubMesh::CreateFromDomain(mesh, {1})` (MFEM): the elements with attribute 1, in order, with the map
to parent elements; boundary = faces with a single adjacent element. Simplifications: vertices keep the
numbers of the parent; the boundary faces are enumerated in order of occurrence. -/
structure SubMesh (𝕜 : Type _) where
  elems : List (Elem 𝕜)
  parentElementIDMap : List Nat
  bdrFaces : List (Int × Int)

/-- see `SubMesh` -/
def createFromDomain (mesh : Mesh 𝕜) : SubMesh 𝕜 :=
  let sel := mesh.elems.zipIdx.filter (fun p => p.1.attr = 1)
  let faces := sel.flatMap (fun p => elemFaces p.1)
  { elems := sel.map Prod.fst
    parentElementIDMap := sel.map Prod.snd
    bdrFaces := faces.filter (fun f => faces.count f = 1) }

/-- Set the attributes of all elements from a list. -/
def setAttrs (es : List (Elem 𝕜)) (f : Nat → Int) : List (Elem 𝕜) :=
  es.zipIdx.map (fun p => { p.1 with attr := f p.2 })

/-- Domain.cpp:193-198: attributes of the elements of the sub-mesh. -/
def subElemsLoop (backup : SMap Nat Int) : List (Elem 𝕜 × Nat) → Outcome (List (Elem 𝕜))
  | [] => .ok []
  | (e, parent) :: t => do
    let a ← .ofOption .outOfRange (backup.find? parent)
    let rest ← subElemsLoop backup t
    .ok ({ e with attr := a } :: rest)

/-- Domain.cpp:203-212: `faceToBdrElem[...]` is −1 for a face without boundary element, and
`GetBdrAttribute(-1)` is out of range. -/
def subBdrLoop (globalBdr : List (Elem 𝕜)) : List (Int × Int) → Outcome (List (Elem 𝕜))
  | [] => .ok []
  | f :: t =>
    match globalBdr.find? (fun b => bdrFace b = f) with
    | none => .ub
    | some b => do
      let rest ← subBdrLoop globalBdr t
      .ok ({ attr := b.attr, verts := [f.1, f.2], vol := b.vol } :: rest)

/-- Domain.cpp:216-219: restoring the attributes. -/
def restoreLoop (backup : SMap Nat Int) : List (Elem 𝕜 × Nat) → Outcome (List (Elem 𝕜))
  | [] => .ok []
  | (e, i) :: t => do
    let a ← .ofOption .outOfRange (backup.find? i)
    let rest ← restoreLoop backup t
    .ok ({ e with attr := a } :: rest)

/-- `Domain::buildModelForDomain` (Domain.cpp:165-227): returns the new model and the state of the global
mesh after the call. -/
def buildModelForDomain (globalMesh : Mesh 𝕜) (materials : Materials 𝕜) (domain : Domain) :
    Outcome (Model 𝕜 × Mesh 𝕜) := do
  let backup : SMap Nat Int :=
    globalMesh.elems.zipIdx.foldl (fun m p => SMap.emplace m p.2 p.1.attr) []
  let mesh1 : Mesh 𝕜 := { globalMesh with
    elems := setAttrs globalMesh.elems (fun e => if domain.elems.contains e then 1 else 2) }
  let sub := createFromDomain mesh1
  let subElems ← subElemsLoop backup (sub.elems.zip sub.parentElementIDMap)
  let subBdr ← subBdrLoop mesh1.bdr sub.bdrFaces
  let restored ← restoreLoop backup mesh1.elems.zipIdx
  let res := Model.make { elems := subElems, bdr := subBdr, coord := globalMesh.coord } materials
  .ok ({ res with groundConductorId := domain.ground }, { mesh1 with elems := restored })

end Tulip
