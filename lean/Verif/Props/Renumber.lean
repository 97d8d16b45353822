import Verif.Props.Twin
import Verif.Proofs.Relabel
import Verif.Proofs.RenumberDriver
import Verif.Proofs.RenumberTriangles
import Verif.Props.Cycles
import Verif.Props.TriangleExamples

/-!
# C85, C86: the numbers of vertices and elements
-/

set_option linter.unusedSectionVars false

namespace Tulip.Props
open Tulip Tulip.Spec Matrix

/-- **C85, cycles.** If the edges of one graph are those of another under other names, the elementary cycles found are
the same under these names, whatever the order in which edges and vertices were added: only the order of the cycles and
their first vertices may differ. -/
theorem C85_cycles (ops ops' : List GraphOp) (name : Int → Int)
    (hn : ∀ v w, (∃ e ∈ (DGraph.run ops).getEdgesAsPairs, v = e.1 ∨ v = e.2) →
      (∃ e ∈ (DGraph.run ops).getEdgesAsPairs, w = e.1 ∨ w = e.2) → name v = name w → v = w)
    (hE : ∀ e, e ∈ (DGraph.run ops').getEdgesAsPairs ↔
      ∃ e0 ∈ (DGraph.run ops).getEdgesAsPairs, e = (name e0.1, name e0.2)) :
    ∃ cs cs', (DGraph.run ops).findCycles = some cs ∧ (DGraph.run ops').findCycles = some cs' ∧
      (cs'.map (fun c : List Int => (c : Cycle Int))).Perm (cs.map (fun c : List Int => (c.map name : Cycle Int))) := by
  obtain ⟨cs, e, _⟩ := C07_findCycles ops
  obtain ⟨cs', e', _⟩ := C07_findCycles ops'
  exact ⟨cs, cs', e, e', cycles_renamed (DGraph.run_wf ops) (DGraph.run_wf ops') name hn hE e e'⟩

/-- Two triangles that share an edge, with other names and the edges added in another order. -/
example :
    let ops : List GraphOp := [.addEdge 1 2, .addEdge 2 3, .addEdge 3 1, .addEdge 3 4, .addEdge 4 2]
    let ops' : List GraphOp := [.addVertex 99, .addEdge 40 20, .addEdge 30 10, .addEdge 10 20, .addEdge 30 40, .addEdge 20 30]
    (∀ v w, (∃ e ∈ (DGraph.run ops).getEdgesAsPairs, v = e.1 ∨ v = e.2) →
      (∃ e ∈ (DGraph.run ops).getEdgesAsPairs, w = e.1 ∨ w = e.2) → v * 10 = w * 10 → v = w) ∧
    (∀ e, e ∈ (DGraph.run ops').getEdgesAsPairs ↔ ∃ e0 ∈ (DGraph.run ops).getEdgesAsPairs, e = (e0.1 * 10, e0.2 * 10)) ∧
    (DGraph.run ops).findCycles = some [[1, 2, 3], [2, 3, 4]] ∧
    (DGraph.run ops').findCycles = some [[40, 20, 30], [20, 30, 10]] := by
  refine ⟨fun v w _ _ h => by omega, ?_, findCyclesFuel_sound (k := 40) (by decide +kernel),
    findCyclesFuel_sound (k := 40) (by decide +kernel)⟩
  intro e
  have hp : (DGraph.run [.addVertex 99, .addEdge 40 20, .addEdge 30 10, .addEdge 10 20, .addEdge 30 40, .addEdge 20 30]).getEdgesAsPairs.Perm
    ((DGraph.run [.addEdge 1 2, .addEdge 2 3, .addEdge 3 1, .addEdge 3 4, .addEdge 4 2]).getEdgesAsPairs.map
      (fun e0 => (e0.1 * 10, e0.2 * 10))) := by decide +kernel
  refine hp.mem_iff.trans (List.mem_map.trans ?_)
  simp only [eq_comm]

section
variable {𝕜 : Type} [Field 𝕜] [DecidableEq 𝕜] [LinearOrder 𝕜]

/-- **C86, discretisations.** If the discretisations of two meshes differ only in the numbers (and the directions) of
their degrees of freedom, and the meshes in names and order, then all queries but the one by domains answer the same
after any histories of queries, and into the same folder write the same JSON files. -/
theorem C86_discretisation (E : Engine 𝕜) {model model' : Model 𝕜} {opts opts' : DriverOptions} {ps : List (PEC 𝕜)}
    (hN : Numbering model.materials ps) (hB : Buildable (E.fem model opts) model.materials)
    (hW : WellDeclared model.materials) (hP : ExactSolver E.pcg)
    (hw : WellPosed E.analytic (E.fem model opts) model.materials) (hs : Separate (E.fem model opts) model.materials)
    {name : Int → Int} (hm : RenamedMesh name model.mesh model'.mesh) (h2 : ∀ e ∈ model.mesh.bdr, e.verts.length = 2)
    (hM : model'.materials = model.materials) {r : Renaming (E.fem model opts) (E.fem model' opts')}
    (hr : SameDiscretisation r) (ho : opts'.multipolarExpansionOrder = opts.multipolarExpansionOrder) :
    ∃ d d', (Driver.construct E model opts).1 = .ok d ∧ (Driver.construct E model' opts').1 = .ok d' ∧
      ∀ (history history' : List Query) (q : Query), q ≠ .pulMTLByDomains →
        (q.exec E (afterQueries E history' d')).1 = (q.exec E (afterQueries E history d)).1 ∧
        (folderAfter history' opts'.exportFolder = folderAfter history opts.exportFolder →
          jsonFiles (q.exec E (afterQueries E history' d')).2.2 = jsonFiles (q.exec E (afterQueries E history d)).2.2) :=
  same_answers ⟨rfl, rfl, rfl⟩ hN hB (buildable_renamed hr hB) hW hP hP hw (wellPosed_renamed hr hw) hs (w := True)
    ⟨hM, determineOpenness_renamed hm h2 (by rw [hM]), getAreaOfMaterial_renamed hm hM, getBoundingBoxOfMaterial_renamed hm hM,
      fun _ => trivial⟩
    hr.faithful (fun _ _ _ ht => ⟨_, field_renamed hr ht, rfl⟩) ho

/-- **C85, models.** Openness, areas and bounding boxes do not depend on the names of the vertices, the order of
elements and segments, and the vertex from which the vertices of an element are listed. -/
theorem C85_model {model model' : Model 𝕜} {name : Int → Int} (hm : RenamedMesh name model.mesh model'.mesh)
    (h2 : ∀ e ∈ model.mesh.bdr, e.verts.length = 2) (hM : model'.materials = model.materials) :
    model'.determineOpenness = model.determineOpenness ∧
    (∀ n, model'.getAreaOfMaterial n = model.getAreaOfMaterial n) ∧
    ∀ n, model'.getBoundingBoxOfMaterial n = model.getBoundingBoxOfMaterial n :=
  ⟨determineOpenness_renamed hm h2 (by rw [hM]), getAreaOfMaterial_renamed hm hM, getBoundingBoxOfMaterial_renamed hm hM⟩

/-- **C86.** On a mesh of triangles at order 1 (with the hypotheses of C79), no number matters: with the vertices
renumbered, triangles and boundary segments listed in any other order and triangles from any other of their vertices,
all queries but the one by domains answer the same after any histories of queries, and into the same folder write the
same JSON files. -/
theorem C86_triangles [IsStrictOrderedRing 𝕜] (E : Engine 𝕜) {T T' : Triangulation 𝕜} {number : Fin T.nv ≃ Fin T'.nv}
    (hr : Renumbered T T' number) {model model' : Model 𝕜} {opts opts' : DriverOptions} {ps : List (PEC 𝕜)}
    (hm : model.mesh = T.toMesh) (hm' : model'.mesh = T'.toMesh) (hM : model'.materials = model.materials)
    (h1 : opts.solverOptions.order = 1) (h1' : opts'.solverOptions.order = 1)
    (ho : opts'.multipolarExpansionOrder = opts.multipolarExpansionOrder)
    (hE : E.disc T.toMesh 1 = T.fem) (hE' : E.disc T'.toMesh 1 = T'.fem) (hP : ExactSolver E.pcg)
    (hN : Numbering model.materials ps) (hT : Proper T)
    (hS : Sensible T model.materials) (hj : JoinedToConductors T model.materials)
    (ha : ConductorsApart T model.materials) (hopen : OpenAbsorb E.analytic T model.materials) :
    ∃ d d', (Driver.construct E model opts).1 = .ok d ∧ (Driver.construct E model' opts').1 = .ok d' ∧
      ∀ (history history' : List Query) (q : Query), q ≠ .pulMTLByDomains →
        (q.exec E (afterQueries E history' d')).1 = (q.exec E (afterQueries E history d)).1 ∧
        (folderAfter history' opts'.exportFolder = folderAfter history opts.exportFolder →
          jsonFiles (q.exec E (afterQueries E history' d')).2.2 = jsonFiles (q.exec E (afterQueries E history d)).2.2) := by
  have hF : E.fem model opts = T.fem := by
    unfold Engine.fem
    rw [hm, h1, hE]
  have hF' : E.fem model' opts' = T'.fem := by
    unfold Engine.fem
    rw [hm', h1', hE']
  have hB : Buildable (E.fem model opts) model.materials := by rw [hF]; exact triangles_buildable hT hS
  have he : Elliptic E.analytic (E.fem model opts) model.materials := by rw [hF]; exact triangles_elliptic hT hS hj hopen
  have hs : Separate (E.fem model opts) model.materials := by rw [hF]; exact triangles_separate ha
  have hW : WellDeclared model.materials := ⟨hS.names, hS.tags, hS.openNames⟩
  have hd : ∃ r : Renaming (E.fem model opts) (E.fem model' opts'), SameDiscretisation r := by
    rw [hF, hF']
    exact ⟨_, renumbered_discretisation hr hT.det_ne⟩
  obtain ⟨r, hr'⟩ := hd
  refine C86_discretisation E hN hB hW hP he.wellPosed hs (name := nameOf number) ?_ ?_ hM hr' ho
  · rw [hm, hm']
    exact renumbered_mesh hr hT.det_ne
  · intro e hb
    rw [hm] at hb
    obtain ⟨s, _, rfl⟩ := List.mem_map.mp hb
    rfl

end

/-! ## The plate capacitor with other numbers -/

/-- `plates` with the vertices numbered backwards, triangles and segments in another order, some triangles turned -/
def platesBack : Triangulation ℚ where
  nv := 7
  coord := ![(3/2, 1/2), (0, 2), (1, 2), (3, 2), (3, 0), (1, 0), (0, 0)]
  tris := [⟨2, 0, 2, 5⟩, ⟨1, 2, 1, 6⟩, ⟨2, 5, 4, 0⟩, ⟨2, 0, 4, 3⟩, ⟨2, 3, 2, 0⟩, ⟨1, 5, 2, 6⟩]
  segs := [⟨1, 1, 6, 2⟩, ⟨3, 5, 4, 2⟩, ⟨2, 4, 3, 2⟩, ⟨3, 6, 5, 1⟩, ⟨3, 3, 2, 2⟩, ⟨3, 2, 1, 1⟩]

theorem platesBack_renumbered : Renumbered plates platesBack (Fin.revPerm : Equiv.Perm (Fin 7)) where
  coord := by
    show ∀ v : Fin 7, (![(3/2, 1/2), (0, 2), (1, 2), (3, 2), (3, 0), (1, 0), (0, 0)] : Fin 7 → ℚ × ℚ) (Fin.rev v) =
      (![(0, 0), (1, 0), (3, 0), (3, 2), (1, 2), (0, 2), (3/2, 1/2)] : Fin 7 → ℚ × ℚ) v
    decide +kernel
  tris := by decide +kernel
  segs := by decide +kernel

/-- an engine that discretises both meshes -/
noncomputable def bothEngine : Engine ℚ :=
  { chainEngine with disc := fun m _ => if m.coord 0 = (0, 0) then plates.fem else platesBack.fem }

theorem both_fem : bothEngine.disc plates.toMesh 1 = plates.fem ∧ bothEngine.disc platesBack.toMesh 1 = platesBack.fem := by
  constructor
  · show (if plates.toMesh.coord 0 = (0, 0) then plates.fem else platesBack.fem) = _
    exact if_pos (by decide +kernel)
  · show (if platesBack.toMesh.coord 0 = (0, 0) then plates.fem else platesBack.fem) = _
    exact if_neg (by decide +kernel)

/-- The hypotheses hold. -/
example : ∃ d d', (Driver.construct bothEngine plateModel order1).1 = .ok d ∧
    (Driver.construct bothEngine { plateModel with mesh := platesBack.toMesh } order1).1 = .ok d' ∧
    ∀ (history history' : List Query) (q : Query), q ≠ .pulMTLByDomains →
      (q.exec bothEngine (afterQueries bothEngine history' d')).1 = (q.exec bothEngine (afterQueries bothEngine history d)).1 := by
  obtain ⟨d, d', e, e', h⟩ := C86_triangles bothEngine platesBack_renumbered (model := plateModel)
    (model' := { plateModel with mesh := platesBack.toMesh }) (opts := order1) (opts' := order1) rfl rfl rfl rfl rfl rfl
    both_fem.1 both_fem.2 inverseSolver_exact plate_numbering plates_proper
    plates_sensible
    (plates_joined (p0 := ⟨"Conductor_0", 1, 0⟩) (p1 := ⟨"Conductor_1", 2, 0⟩) (by decide +kernel) (by decide +kernel)
      plates_parallel plates_conforming plates_proper (by unfold IsVertex; decide +kernel))
    (plates_apart (p0 := ⟨"Conductor_0", 1, 0⟩) (p1 := ⟨"Conductor_1", 2, 0⟩) (by decide +kernel) plates_parallel
      (by norm_num)) (by intro s _ ⟨o, ho, _⟩; cases ho)
  exact ⟨d, d', e, e', fun history history' q hq => (h history history' q hq).1⟩

end Tulip.Props
