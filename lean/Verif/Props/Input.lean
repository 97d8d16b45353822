import Verif.Proofs.Input
import Verif.Props.Program
import Verif.Props.Materials
import Verif.Props.Passive

/-!
# C78: from the input file to the model
-/

namespace Tulip.Props
open Tulip Tulip.Spec

section
variable {𝕜 : Type _} [Field 𝕜] [LinearOrder 𝕜] [IsStrictOrderedRing 𝕜] [FloorRing 𝕜]

theorem at_obj_iff {fs : List (String × Json 𝕜)} (h : UniqueKeys fs) {k : String} {v : Json 𝕜} :
    (Json.obj fs).at_ k = .ok v ↔ (k, v) ∈ fs := by
  show Outcome.ofOption .json (SMap.find? fs k) = .ok v ↔ _
  rw [← find?_iff_mem_of_unique h]
  cases SMap.find? fs k <;> simp [Outcome.ofOption]

theorem at_obj_throw {fs : List (String × Json 𝕜)} (h : UniqueKeys fs) {k : String} (hn : ∀ v, (k, v) ∉ fs) :
    (Json.obj fs).at_ k = .throw .json := by
  show Outcome.ofOption .json (SMap.find? fs k) = _
  rw [(find?_none_iff h).mpr hn]
  rfl

theorem model_described {load : List Char → Outcome (Mesh 𝕜)} {f : List Char} {doc : List (String × Json 𝕜)}
    {meshAt : List (List Char) → Outcome (Mesh 𝕜)} {folder : List (List Char)}
    (hl : ∀ g, load (meshFilename f g) = meshAt (folder ++ components g))
    (hr : RegularInput doc) {m : Model 𝕜} :
    readModel load f (.obj doc) = .ok m ↔ DescribesModel meshAt folder doc m := by
  unfold readModel DescribesModel
  simp only [Outcome.bind_eq_ok]
  constructor
  · rintro ⟨j, hj, gj, hg, g, hgs, mesh, hm, mj, hmj, mats, hmats, e⟩
    have hj := (at_obj_iff hr.keys).mp hj
    cases j with
    | obj ms =>
      have hum := hr.model ms hj
      have hg := (at_obj_iff hum).mp hg
      have hgs := getString_iff.mp hgs
      subst hgs
      have hmj := (at_obj_iff hum).mp hmj
      obtain ⟨es, rfl, hu, hes⟩ := hr.materials ms mj hj hmj
      obtain ⟨ds, hds, rfl⟩ := C13_materials_only es (fun kv h fs e => (hes kv h fs e).1) (fun kv h fs e => (hes kv h fs e).2) _ hmats
      have hc := C11_filter mesh (collect ds) (collect_distinct hu hds)
      cases e
      exact ⟨ms, g, es, ds, hj, hg, hmj, hds, (hl _).symm.trans hm, hc.1, hc.2.1, hc.2.2.1, rfl⟩
    | _ => simp [Json.at_] at hg
  · rintro ⟨ms, g, es, ds, hj, hg, hmj, hds, hm, h1, h2, h3, h4⟩
    have hum := hr.model ms hj
    obtain ⟨es', e, hu, hes⟩ := hr.materials ms _ hj hmj
    cases e
    refine ⟨_, (at_obj_iff hr.keys).mpr hj, _, (at_obj_iff hum).mpr hg, g, rfl, m.mesh, (hl _).trans hm, _, (at_obj_iff hum).mpr hmj,
      collect ds, (C13_materials es (fun kv h fs e => (hes kv h fs e).1) (fun kv h fs e => (hes kv h fs e).2)).1 ds hds, ?_⟩
    have hc := C11_filter m.mesh (collect ds) (collect_distinct hu hds)
    obtain ⟨⟨p, o, d⟩, mesh, g0⟩ := m
    simp only at h1 h2 h3 h4 hc
    rw [← h1, ← h2, ← h3] at hc
    subst h4
    have e : ∀ M : Model 𝕜, M.materials.pecs = p → M.materials.openBoundaries = o → M.materials.dielectrics = d →
        M.mesh = mesh → M.groundConductorId = 0 → M = ⟨⟨p, o, d⟩, mesh, 0⟩ := by
      rintro ⟨⟨_, _, _⟩, _, _⟩ rfl rfl rfl rfl rfl
      rfl
    exact congrArg Outcome.ok (e _ hc.1 hc.2.1 hc.2.2.1 rfl rfl)

theorem options_described {doc : List (String × Json 𝕜)} (hr : RegularInput doc) {o : DriverOptions} :
    readDriverOptions (.obj doc) = .ok o ↔ DescribesOptions doc o := by
  constructor
  · intro h
    have : ∃ v, (Json.obj doc).at_ "analysis" = .ok v := by
      unfold readDriverOptions at h
      obtain ⟨v, hv, _⟩ := Outcome.bind_eq_ok.mp h
      exact ⟨v, hv⟩
    obtain ⟨v, hv⟩ := this
    have hv := (at_obj_iff hr.keys).mp hv
    obtain ⟨a, rfl, hu, hl⟩ := hr.analysis v hv
    exact ⟨a, hv, ((C14_options_partial doc a hr.keys hv hu hl).1 o).mp h⟩
  · rintro ⟨a, hv, h⟩
    obtain ⟨a', e, hu, hl⟩ := hr.analysis _ hv
    cases e
    exact ((C14_options_partial doc a hr.keys hv hu hl).1 o).mpr h

theorem mesh_location (cwd : List (List Char)) {f : List Char} (hrel : f.head? ≠ some '/') {name : List Char}
    (hf : f = name ∨ ∃ dir, f = dir ++ '/' :: name) (hn : '/' ∉ name) (h1 : name ≠ []) (h2 : name ≠ ['.'])
    (g : List Char) : locate cwd (meshFilename f g) = (locate cwd f).dropLast ++ components g := by
  rcases hf with rfl | ⟨dir, rfl⟩
  · rw [(C15_mesh_path_partial cwd [] f g hn).2]
    unfold locate
    rw [if_neg hrel, (components_dropLast [] f hn h1 h2).2, List.dropLast_concat]
  · have hne : dir ≠ [] := by
      rintro rfl
      exact hrel rfl
    have hd : dir.head? ≠ some '/' := by
      cases dir with
      | nil => simp
      | cons c t => exact hrel
    rw [(C15_mesh_path_partial cwd dir name g hn).1 hd hne]
    unfold locate
    rw [if_neg hrel, if_neg hd, (components_dropLast dir name hn h1 h2).1, ← List.append_assoc, List.dropLast_concat]

/-- **C78, input.** Reading an input file of the documented shape (given by a relative path) succeeds exactly when the
file describes a model and options, and gives these; otherwise it throws (if loading a mesh either succeeds or throws).
Files and meshes are found by their location. -/
theorem C78_input (files : List (List Char) → Option (Option (Json 𝕜))) (meshAt : List (List Char) → Outcome (Mesh 𝕜))
    (cwd : List (List Char)) {f name : List Char} (hrel : f.head? ≠ some '/')
    (hf : f = name ∨ ∃ dir, f = dir ++ '/' :: name) (hn : '/' ∉ name) (h1 : name ≠ []) (h2 : name ≠ ['.'])
    {doc : List (String × Json 𝕜)} (hc : files (locate cwd f) = some (some (.obj doc))) (hr : RegularInput doc) :
    (∀ m o, loadInputs (fun p => files (locate cwd p)) (fun p => meshAt (locate cwd p)) f = .ok (m, o) ↔
      DescribesModel meshAt (locate cwd f).dropLast doc m ∧ DescribesOptions doc o) ∧
    ((∀ path, (∃ mesh, meshAt path = .ok mesh) ∨ ∃ e, meshAt path = .throw e) →
      (∀ m o, ¬ (DescribesModel meshAt (locate cwd f).dropLast doc m ∧ DescribesOptions doc o)) →
      ∃ e, loadInputs (fun p => files (locate cwd p)) (fun p => meshAt (locate cwd p)) f = .throw e) := by
  obtain ⟨load, hload⟩ : ∃ load : List Char → Outcome (Mesh 𝕜), load = fun p => meshAt (locate cwd p) := ⟨_, rfl⟩
  rw [← hload]
  have hmesh : ∀ g, load (meshFilename f g) = meshAt ((locate cwd f).dropLast ++ components g) := by
    intro g
    rw [hload, ← mesh_location cwd hrel hf hn h1 h2 g]
  have hj : readJSON (fun p => files (locate cwd p)) f = .ok (.obj doc) := by unfold readJSON; simp only [hc]
  have main : ∀ m o, loadInputs (fun p => files (locate cwd p)) load f = .ok (m, o) ↔
      DescribesModel meshAt (locate cwd f).dropLast doc m ∧ DescribesOptions doc o := by
    intro m o
    unfold loadInputs
    rw [hj, Outcome.ok_bind, ← model_described hmesh hr, ← options_described hr]
    simp only [Outcome.bind_eq_ok]
    constructor
    · rintro ⟨m', h1, o', h2, e⟩
      cases e
      exact ⟨h1, h2⟩
    · rintro ⟨h1, h2⟩
      exact ⟨m, h1, o, h2, rfl⟩
  refine ⟨main, fun hl hno => ?_⟩
  have hM : (∃ m, readModel load f (.obj doc) = .ok m) ∨ ∃ e, readModel load f (.obj doc) = .throw e := by
    unfold readModel
    by_cases h : ∃ v, ("model", v) ∈ doc
    · obtain ⟨j, hj⟩ := h
      rw [(at_obj_iff hr.keys).mpr hj, Outcome.ok_bind]
      cases j with
      | obj ms =>
        have hum := hr.model ms hj
        by_cases h : ∃ v, ("gmshFile", v) ∈ ms
        · obtain ⟨g, hg⟩ := h
          rw [(at_obj_iff hum).mpr hg, Outcome.ok_bind]
          cases g with
          | str g =>
            rw [show (Json.str g : Json 𝕜).getString = .ok g from rfl, Outcome.ok_bind]
            rcases hl ((locate cwd f).dropLast ++ components g.toList) with ⟨mesh, hm⟩ | ⟨e, hm⟩ <;> rw [← hmesh] at hm
            · rw [hm, Outcome.ok_bind]
              by_cases h : ∃ v, ("materials", v) ∈ ms
              · obtain ⟨v, hv⟩ := h
                rw [(at_obj_iff hum).mpr hv, Outcome.ok_bind]
                obtain ⟨es, rfl, hu, hes⟩ := hr.materials ms v hj hv
                have hc := C13_materials es (fun kv h fs e => (hes kv h fs e).1) (fun kv h fs e => (hes kv h fs e).2)
                by_cases hall : ∀ kv ∈ es, ∃ d, Denotes kv.1 kv.2 d
                · have : ∃ ds, List.Forall₂ (fun (kv : String × Json 𝕜) d => Denotes kv.1 kv.2 d) es ds := by
                    clear hc hes hu hv
                    induction es with
                    | nil => exact ⟨[], .nil⟩
                    | cons a t ih =>
                      obtain ⟨d, hd⟩ := hall a (by simp)
                      obtain ⟨ds, hds⟩ := ih (fun kv h => hall kv (List.mem_cons_of_mem _ h))
                      exact ⟨d :: ds, .cons hd hds⟩
                  obtain ⟨ds, hds⟩ := this
                  rw [hc.1 ds hds]
                  exact Or.inl ⟨_, rfl⟩
                · simp only [not_forall] at hall
                  obtain ⟨kv, hm, hkv⟩ := hall
                  obtain ⟨e, he⟩ := hc.2 ⟨kv, hm, hkv⟩
                  rw [he]
                  exact Or.inr ⟨e, rfl⟩
              · rw [at_obj_throw hum (by simpa using h)]
                exact Or.inr ⟨_, rfl⟩
            · rw [hm]; exact Or.inr ⟨e, rfl⟩
          | _ => exact Or.inr ⟨_, rfl⟩
        · rw [at_obj_throw hum (by simpa using h)]
          exact Or.inr ⟨_, rfl⟩
      | _ => exact Or.inr ⟨_, rfl⟩
    · rw [at_obj_throw hr.keys (by simpa using h)]
      exact Or.inr ⟨_, rfl⟩
  have hO : (∃ o, readDriverOptions (.obj doc) = .ok o) ∨ ∃ e, readDriverOptions (.obj doc) = .throw e := by
    by_cases h : ∃ v, ("analysis", v) ∈ doc
    · obtain ⟨v, hv⟩ := h
      obtain ⟨a, rfl, hu, hla⟩ := hr.analysis v hv
      by_cases h : ∃ o, readDriverOptions (.obj doc) = .ok o
      · exact Or.inl h
      · exact Or.inr ((C14_options_partial doc a hr.keys hv hu hla).2 (by simpa using h))
    · refine Or.inr ⟨.json, ?_⟩
      unfold readDriverOptions
      rw [at_obj_throw hr.keys (by simpa using h)]
      rfl
  unfold loadInputs
  rw [hj, Outcome.ok_bind]
  rcases hM with ⟨m, hm⟩ | ⟨e, he⟩
  · rw [hm, Outcome.ok_bind]
    rcases hO with ⟨o, ho⟩ | ⟨e, he⟩
    · exact absurd ⟨(model_described hmesh hr).mp hm, (options_described hr).mp ho⟩ (hno m o)
    · rw [he]; exact ⟨e, rfl⟩
  · rw [he]; exact ⟨e, rfl⟩

end

section
variable {𝕜 : Type} [Field 𝕜] [DecidableEq 𝕜] [LinearOrder 𝕜] [IsStrictOrderedRing 𝕜] [FloorRing 𝕜]

theorem ofMatrix_inj {n m : Nat} {A B : Matrix (Fin n) (Fin m) 𝕜} (h : DMat.ofMatrix A = DMat.ofMatrix B) : A = B := by
  unfold DMat.ofMatrix at h
  injection h with _ _ h

/-- **C78, the program.** Run on the input file (given by a relative path) of a closed line with at least two conductors,
with a mesh in one piece, positive weights and permittivities, an exact linear solver and fluxes of D that agree with the
discrete equations, the program succeeds and writes one JSON file, `pulmtln.out.json` next to the input file. Read back,
it holds symmetric positive definite matrices `C` and `L` that give the charges per unit length of conductors 1..n from
their voltages to conductor 0, and mu0 times these voltages from the charges in the absence of dielectrics. -/
theorem C78_program (E : Engine 𝕜) (files : List (List Char) → Option (Option (Json 𝕜)))
    (meshAt : List (List Char) → Outcome (Mesh 𝕜)) (cwd : List (List Char)) {f name : List Char}
    (hrel : f.head? ≠ some '/') (hf : f = name ∨ ∃ dir, f = dir ++ '/' :: name) (hn : '/' ∉ name) (h1 : name ≠ [])
    (h2 : name ≠ ['.']) {doc : List (String × Json 𝕜)} (hdoc : files (locate cwd f) = some (some (.obj doc)))
    (hr : RegularInput doc) {model : Model 𝕜} {opts : DriverOptions}
    (hm : DescribesModel meshAt (locate cwd f).dropLast doc model) (hopt : DescribesOptions doc opts)
    {ps : List (PEC 𝕜)} (hN : Numbering model.materials ps) (h3 : 2 ≤ ps.length) (ht : (ps.map PEC.tag).Nodup)
    (hcl : model.determineOpenness = .ok .closed) (hB : Buildable (E.fem model opts) model.materials)
    (hW : WellDeclared model.materials) (hP : ExactSolver E.pcg)
    (he : Elliptic E.analytic (E.fem model opts) model.materials) (hs : Separate (E.fem model opts) model.materials)
    (hc : Conservative E.analytic (E.fem model opts) model.materials) (h1p : OnePiece (E.fem model opts) model.materials)
    (heps : 0 < E.eps0SI) (hmu : 0 < E.mu0SI) :
    ∃ (n : Nat) (hn : ps.length = n + 1) (path : String) (j : Json 𝕜) (p : PULParameters 𝕜) (C L : Matrix (Fin n) (Fin n) 𝕜),
      (mainProgram E (fun p => files (locate cwd p)) (fun p => meshAt (locate cwd p)) ⟨false, some f⟩).1 = .ok ⟨⟩ ∧
      jsonFiles (mainProgram E (fun p => files (locate cwd p)) (fun p => meshAt (locate cwd p)) ⟨false, some f⟩).2 =
        [(path, j)] ∧
      locate cwd path.toList = (locate cwd f).dropLast ++ ["pulmtln.out.json".toList] ∧
      PULParameters.ofJSON j = .ok p ∧ p.C = DMat.ofMatrix C ∧ p.L = DMat.ofMatrix L ∧ PD C ∧ PD L ∧
      (∀ (V : Int → 𝕜) (t : SolverSolution (E.fem model opts)),
        PrescribedField E.analytic (E.fem model opts) model.materials false V t → V (ps[0]'(by omega)).tag = 0 →
        ∀ i : Fin n, E.eps0SI * chargeOn t (ps[i.1 + 1]'(by omega)).tag =
          ∑ j : Fin n, C i j * V (ps[j.1 + 1]'(by omega)).tag) ∧
      (∀ (V : Int → 𝕜) (t : SolverSolution (E.fem model opts)),
        PrescribedField E.analytic (E.fem model opts) model.materials true V t → V (ps[0]'(by omega)).tag = 0 →
        ∀ i : Fin n, E.mu0SI * V (ps[i.1 + 1]'(by omega)).tag =
          ∑ j : Fin n, L i j * chargeOn t (ps[j.1 + 1]'(by omega)).tag) ∧
      j = p.toJSON := by
  have hl := ((C78_input files meshAt cwd hrel hf hn h1 h2 hdoc hr).1 model opts).mpr ⟨hm, hopt⟩
  obtain ⟨d, _, _, _, _, ed, _, _, _⟩ := construct_spec E hN hB
  have hd : (Driver.construct E model opts).1 = .ok d := by rw [ed]
  obtain ⟨n, p, C, L, en, hp, eC, eL, pC, pL⟩ := (C77_passive E hN hB hW hP he ht hs hc hd hcl (by omega)).2 h1p
    (fun h => absurd rfl h) heps hmu
  have htm : (model.materials.pecs.map PEC.tag).Nodup := (hN.all.map _).nodup_iff.mp ht
  obtain ⟨n', en', C', L', eC', eL', k1, k2⟩ := C72_parameters E hN hB hW hP he.wellPosed ht hs
    (fun b => reciprocity_of_conservative hs hc htm b) hd hcl hp
  have e : n = n' := by omega
  subst e
  have e := ofMatrix_inj (eC'.symm.trans eC)
  subst e
  have e := ofMatrix_inj (eL'.symm.trans eL)
  subst e
  obtain ⟨ok, path, hj, hloc⟩ := ((C64_results_partial E (fun p => files (locate cwd p)) (fun p => meshAt (locate cwd p))
    cwd hrel hf hn h1 h2).1 model opts d hl hd).1 hcl p hp
  obtain ⟨q, hq, _, qC, qL⟩ := C42_round_trip p
  have hpos : 0 < n := by omega
  have hqp : q = p := by
    have a := qC (by rw [eC]; exact hpos) (by rw [eC]; exact hpos)
    have b := qL (by rw [eL]; exact hpos) (by rw [eL]; exact hpos)
    cases p; cases q
    simp only at a b
    rw [a, b]
  subst hqp
  have op : ∀ (V : Int → 𝕜) (t : SolverSolution (E.fem model opts)), V (ps[0]'(by omega)).tag = 0 →
      Operated .closed ps V t := by
    intro V t h0
    unfold Operated
    rw [if_pos rfl]
    intro q hq
    rw [List.getElem?_eq_getElem (by omega)] at hq
    cases hq
    exact h0
  refine ⟨n, en, path, _, q, _, _, ok, hj, hloc, hq, eC, eL, pC, pL, ?_, ?_, rfl⟩
  · intro V t hV h0 i
    refine (k1 V t hV (op V t h0) i).trans (Finset.sum_congr rfl fun j _ => ?_)
    rw [h0, sub_zero]
  · intro V t hV h0 i
    refine Eq.trans ?_ (k2 V t hV (op V t h0) i)
    rw [h0, sub_zero]

end

/-! ### Example -/

/-- the members of `pairDoc` -/
def pairFields : List (String × Json ℚ) := match pairDoc with
  | .obj fs => fs
  | _ => []

/-- a disk holding the input file `home/cases/pair.json` -/
def pairFiles : List (List Char) → Option (Option (Json ℚ)) := fun l =>
  if l = ["home".toList, "cases".toList, "pair.json".toList] then some (some pairDoc) else none

/-- a disk holding the mesh `home/cases/pair.msh` -/
def pairMeshAt : List (List Char) → Outcome (Mesh ℚ) := fun l =>
  if l = ["home".toList, "cases".toList, "pair.msh".toList] then .ok pair.mesh else .throw .mfemVerify

theorem pair_regular : RegularInput pairFields where
  keys := by unfold UniqueKeys; decide +kernel
  model := by
    intro ms h
    simp [pairFields, pairDoc] at h
    subst h
    unfold UniqueKeys
    decide +kernel
  materials := by
    intro ms v h hv
    simp [pairFields, pairDoc] at h
    subst h
    simp at hv
    subst hv
    refine ⟨_, rfl, by unfold UniqueKeys; decide +kernel, ?_⟩
    intro kv hkv es he
    simp only [List.mem_cons, List.not_mem_nil, or_false] at hkv
    rcases hkv with rfl | rfl | rfl <;>
      (cases he; refine ⟨by unfold UniqueKeys; decide +kernel, fun t ht => ?_⟩; simp at ht; subst ht; simp [TooLarge])
  analysis := by
    intro v hv
    simp [pairFields, pairDoc] at hv
    subst hv
    exact ⟨_, rfl, by unfold UniqueKeys; decide +kernel, by intro t ht; simp at ht⟩

theorem chain_onePiece : OnePiece chain pair.materials where
  constant := by
    intro u hg
    have sum : ∀ f : Fin chain.n → ℚ, ∑ k, f k = f (0 : Fin 3) + f (1 : Fin 3) + f (2 : Fin 3) :=
      fun f => Fin.sum_univ_three f
    have h1 := congrArg Prod.fst (hg _ List.mem_cons_self)
    have h2 := congrArg Prod.fst (hg _ (List.mem_cons_of_mem _ List.mem_cons_self))
    simp only [vectorAt, sum] at h1 h2
    simp at h1 h2
    have k : ∀ k : Fin 3, u k = u (0 : Fin 3) := by
      intro k
      fin_cases k
      · rfl
      · show u (1 : Fin 3) = u (0 : Fin 3)
        linarith
      · show u (2 : Fin 3) = u (0 : Fin 3)
        linarith
    exact fun i j => (k i).trans (k j).symm
  nodes := by
    intro p hp
    rcases List.mem_cons.mp hp with rfl | hp
    · exact ⟨(2 : Fin 3), (chain_on 2 2).mpr (by decide)⟩
    · rw [List.mem_singleton.mp hp]
      exact ⟨(0 : Fin 3), (chain_on 1 0).mpr (by decide)⟩

theorem pair_described : DescribesModel pairMeshAt (locate ["home".toList] "cases/pair.json".toList).dropLast pairFields pair ∧
    DescribesOptions pairFields { exportFolder := "elsewhere" } := by
  have hl : locate ["home".toList] "cases/pair.json".toList = ["home".toList, "cases".toList, "pair.json".toList] := by
    decide +kernel
  have hfile : pairFiles (locate ["home".toList] "cases/pair.json".toList) = some (some (.obj pairFields)) := by
    rw [hl]; rfl
  have hin := (C78_input pairFiles pairMeshAt ["home".toList] (f := "cases/pair.json".toList) (name := "pair.json".toList)
    (by decide +kernel) (Or.inr ⟨"cases".toList, by decide +kernel⟩) (by decide +kernel) (by decide +kernel)
    (by decide +kernel) hfile pair_regular).1 pair { exportFolder := "elsewhere" }
  have hload : loadInputs (fun p => pairFiles (locate ["home".toList] p)) (fun p => pairMeshAt (locate ["home".toList] p))
      "cases/pair.json".toList = .ok (pair, { exportFolder := "elsewhere" }) := by
    refine Eq.trans ?_ (pair_loads "cases/pair.json".toList)
    unfold loadInputs
    have e1 : readJSON (fun p => pairFiles (locate ["home".toList] p)) "cases/pair.json".toList = .ok pairDoc := by
      unfold readJSON
      simp only [hfile]
      rfl
    have e2 : readJSON (pairFs "cases/pair.json".toList) "cases/pair.json".toList = .ok pairDoc := by
      unfold readJSON pairFs
      rw [if_pos rfl]
    rw [e1, e2, Outcome.ok_bind, Outcome.ok_bind]
    congr 1
  exact hin.mp hload

/-- The hypotheses of both parts are met by the file `cases/pair.json` read from `home`. -/
example : ∃ (n : Nat) (path : String) (j : Json ℚ) (p : PULParameters ℚ) (C L : Matrix (Fin n) (Fin n) ℚ), 2 = n + 1 ∧
    jsonFiles (mainProgram chainEngine (fun p => pairFiles (locate ["home".toList] p))
      (fun p => pairMeshAt (locate ["home".toList] p)) ⟨false, some "cases/pair.json".toList⟩).2 = [(path, j)] ∧
    locate ["home".toList] path.toList = ["home".toList, "cases".toList, "pulmtln.out.json".toList] ∧
    PULParameters.ofJSON j = .ok p ∧ p.C = DMat.ofMatrix C ∧ p.L = DMat.ofMatrix L ∧ PD C ∧ PD L := by
  have hl : locate ["home".toList] "cases/pair.json".toList = ["home".toList, "cases".toList, "pair.json".toList] := by
    decide +kernel
  have hfile : pairFiles (locate ["home".toList] "cases/pair.json".toList) = some (some (.obj pairFields)) := by
    rw [hl]; rfl
  obtain ⟨hm, ho⟩ := pair_described
  obtain ⟨n, en, path, j, p, C, L, _, h1, h2, h3, h4, h5, h6, h7, _⟩ := C78_program chainEngine pairFiles pairMeshAt
    ["home".toList] (f := "cases/pair.json".toList) (name := "pair.json".toList)
    (by decide +kernel) (Or.inr ⟨"cases".toList, by decide +kernel⟩) (by decide +kernel) (by decide +kernel)
    (by decide +kernel) hfile pair_regular hm ho pair_numbering (by decide +kernel) (by decide +kernel) pair_closed
    (pair_buildable _) pair_declared inverseSolver_exact pair_elliptic pair_separate pair_conservative chain_onePiece
    (by decide +kernel) (by decide +kernel)
  exact ⟨n, path, j, p, C, L, en, h1, h2.trans (by rw [hl]; rfl), h3, h4, h5, h6, h7⟩

end Tulip.Props
