import Verif.Props.Plates
import Verif.Props.ClosedCharge

/-!
# C79-C81: a plate capacitor and a square coaxial line
-/

namespace Tulip.Props
open Tulip Tulip.Spec Matrix

/-- an engine with first-order elements on this mesh -/
noncomputable def triEngine (T : Triangulation ℚ) : Engine ℚ := { chainEngine with disc := fun _ _ => T.fem }

def order1 : DriverOptions := { solverOptions := { order := 1 } }

/-- two layers between plates at x = 0 and x = 3: 1 and 2 wide, 2 high; the second one divided unevenly -/
def plates : Triangulation ℚ where
  nv := 7
  coord := ![(0, 0), (1, 0), (3, 0), (3, 2), (1, 2), (0, 2), (3/2, 1/2)]
  tris := [⟨1, 0, 1, 4⟩, ⟨1, 0, 4, 5⟩, ⟨2, 1, 2, 6⟩, ⟨2, 2, 3, 6⟩, ⟨2, 3, 4, 6⟩, ⟨2, 4, 1, 6⟩]
  segs := [⟨3, 0, 1, 1⟩, ⟨3, 1, 2, 2⟩, ⟨2, 2, 3, 2⟩, ⟨3, 3, 4, 2⟩, ⟨3, 4, 5, 1⟩, ⟨1, 5, 0, 2⟩]

/-- relative permittivity 4 in the first layer and 1/2 in the second -/
def plateModel : Model ℚ where
  materials := { pecs := [⟨"Conductor_1", 2, 0⟩, ⟨"Conductor_0", 1, 0⟩], dielectrics := [⟨"Dielectric_1", 1, 4⟩, ⟨"Dielectric_2", 2, 1/2⟩] }
  mesh := plates.toMesh

def pecsOf (a b : Int) : List (PEC ℚ) := [⟨"Conductor_0", a, 0⟩, ⟨"Conductor_1", b, 0⟩]

theorem ids_of (a b : Int) : ∀ i (h : i < (pecsOf a b).length), getMaterialIdFromName (pecsOf a b)[i].name = .ok (i : Int) := by
  intro i h
  match i, h with
  | 0, _ => show getMaterialIdFromName "Conductor_0" = .ok 0; decide +kernel
  | 1, _ => show getMaterialIdFromName "Conductor_1" = .ok 1; decide +kernel

theorem plate_numbering : Numbering plateModel.materials (pecsOf 1 2) where
  all := List.Perm.swap _ _ _
  ids := ids_of 1 2
  nonempty := by simp [pecsOf]

theorem plates_proper : Proper plates where
  area := by decide +kernel
  segs := by unfold IsSide; decide +kernel
  boundary := List.cons_ne_nil _ _
  triAttrs := by decide +kernel
  segAttrs := by decide +kernel

theorem plates_conforming : Conforming plates where
  sides := by decide +kernel
  once := by decide +kernel
  boundary := by unfold IsSide; decide +kernel

theorem plates_measured : Measured plates := by unfold Measured; decide +kernel

theorem plates_sensible : Sensible plates plateModel.materials where
  pecs := by decide +kernel
  opens := by intro o ho; cases ho
  dielectrics := by decide +kernel
  names := by decide +kernel
  tags := by decide +kernel
  openNames := by decide +kernel
  permittivities := by decide +kernel

theorem plates_parallel : ParallelPlates plates 1 2 0 3 where
  left := by decide +kernel
  right := by decide +kernel
  free := by decide +kernel
  exists_ := by decide +kernel

/-- electrical distance from the left plate -/
def plateDepth (x : ℚ) : ℚ := if x ≤ 1 then x / 4 else 1 / 4 + (x - 1) * 2

theorem plates_depth : ElectricalDepth plates (declaredEps plateModel.materials false) 0 plateDepth := by
  refine ⟨by decide +kernel, ?_⟩
  unfold IsVertex
  decide +kernel

/-- The hypotheses of `C80_plates` (and of `C79_triangles`) hold for the capacitor: `C = eps0 * 8/17`, `L = mu0 * 3/2`. -/
example : ∃ d p, (Driver.construct (triEngine plates) plateModel order1).1 = .ok d ∧
    (Query.pulMTL.exec (triEngine plates) d).1 = .ok (.pul p) ∧
    p.C = DMat.ofMatrix !![1 / 7 * (8 / 17)] ∧ p.L = DMat.ofMatrix !![5 * (3 / 2)] := by
  obtain ⟨d, p, h1, h2, h3, h4⟩ := C80_plates (triEngine plates) (model := plateModel) (opts := order1) rfl rfl rfl
    inverseSolver_exact plate_numbering plates_proper plates_conforming plates_measured
    (by unfold IsVertex; decide +kernel) plates_sensible rfl plates_parallel plates_depth
  refine ⟨d, p, h1, h2, ?_, ?_⟩
  · rw [h3]
    have : boundaryLength plates 2 / plateDepth 3 = 8 / 17 := by decide +kernel
    exact congrArg (fun x => DMat.ofMatrix !![(1 / 7 : ℚ) * x]) this
  · rw [h4]
    have : ((3 : ℚ) - 0) / boundaryLength plates 2 = 3 / 2 := by decide +kernel
    exact congrArg (fun x => DMat.ofMatrix !![(5 : ℚ) * x]) this

/-! ## A square conductor in a square shield -/

/-- sides 1 and 3, eight triangles; every boundary segment belongs to one of the conductors -/
def coax : Triangulation ℚ where
  nv := 8
  coord := ![(0, 0), (3, 0), (3, 3), (0, 3), (1, 1), (2, 1), (2, 2), (1, 2)]
  tris := [⟨1, 0, 1, 4⟩, ⟨1, 1, 5, 4⟩, ⟨1, 1, 2, 5⟩, ⟨1, 2, 6, 5⟩, ⟨1, 2, 3, 6⟩, ⟨1, 3, 7, 6⟩, ⟨1, 3, 0, 7⟩, ⟨1, 0, 4, 7⟩]
  segs := [⟨1, 0, 1, 3⟩, ⟨1, 1, 2, 3⟩, ⟨1, 2, 3, 3⟩, ⟨1, 3, 0, 3⟩, ⟨2, 4, 7, 1⟩, ⟨2, 7, 6, 1⟩, ⟨2, 6, 5, 1⟩, ⟨2, 5, 4, 1⟩]

/-- the conductors with these tags as number 0 and 1 -/
def coaxModel (a b : Int) : Model ℚ where
  materials := { pecs := pecsOf a b }
  mesh := coax.toMesh

theorem coax_numbering (a b : Int) : Numbering (coaxModel a b).materials (pecsOf a b) :=
  ⟨List.Perm.refl _, ids_of a b, by simp [pecsOf]⟩

theorem coax_proper : Proper coax where
  area := by decide +kernel
  segs := by unfold IsSide; decide +kernel
  boundary := List.cons_ne_nil _ _
  triAttrs := by decide +kernel
  segAttrs := by decide +kernel

theorem coax_conforming : Conforming coax where
  sides := by decide +kernel
  once := by decide +kernel
  boundary := by unfold IsSide; decide +kernel

theorem coax_measured : Measured coax := by unfold Measured; decide +kernel

/-- coefficients of D, with the shield at 1 V -/
def coaxFlux : Fin coax.fem.nd → ℚ := fun k => [-159/58, -19/58, 34/29, -159/58, -7/58, -19/58, 34/29, -159/58, -7/58, -19/58,
  34/29, 159/58, -7/58, -7/58, 19/58, 34/29].getD k.1 0

/-- the field with the shield at `x` and the other conductor at `y` -/
def coaxField (x y : ℚ) : SolverSolution coax.fem where
  phi := fun v => y + (x - y) * (if v.1 < 4 then 1 else 0)
  e := fun k => -∑ i : Fin coax.fem.n, coax.fem.grad k i * (y + (x - y) * (if i.1 < 4 then 1 else 0))
  d := fun k => (x - y) * coaxFlux k

theorem coax_flux : Displacement coax.fem (fun _ => 1) (coaxField 1 0).e (coaxField 1 0).d ∧
    Displacement coax.fem (fun _ => 1) (coaxField 0 1).e (coaxField 0 1).d := by
  unfold Displacement
  decide +kernel

theorem coax_tags : ∀ v : Fin coax.nv, OnTag coax (if v.1 < 4 then 1 else 2) v := by
  unfold OnTag
  decide +kernel

theorem coax_off : ∀ v : Fin coax.nv, ¬ OnTag coax (if v.1 < 4 then 2 else 1) v := by
  unfold OnTag
  decide +kernel

/-- either numbering -/
def Both (a b : Int) : Prop := (a = 1 ∧ b = 2) ∨ (a = 2 ∧ b = 1)

theorem coax_pecs {a b : Int} (h : Both a b) :
    (∃ p ∈ (coaxModel a b).materials.pecs, p.tag = 1) ∧ (∃ p ∈ (coaxModel a b).materials.pecs, p.tag = 2) ∧
    ∀ p ∈ (coaxModel a b).materials.pecs, p.tag = 1 ∨ p.tag = 2 := by
  rcases h with ⟨rfl, rfl⟩ | ⟨rfl, rfl⟩ <;> decide +kernel

theorem coax_prescribed {a b : Int} (h : Both a b) (A : Analytic ℚ) (i : Bool) {x y : ℚ}
    (hd : Displacement coax.fem (fun _ => 1) (coaxField x y).e (coaxField x y).d) {V : Int → ℚ} (h1 : V 1 = x) (h2 : V 2 = y) :
    PrescribedField A coax.fem (coaxModel a b).materials i V (coaxField x y) := by
  obtain ⟨⟨p1, m1, e1⟩, ⟨p2, m2, e2⟩, _⟩ := coax_pecs h
  have some : ∀ v : Fin coax.nv, ∃ p ∈ (coaxModel a b).materials.pecs, OnBoundary coax.fem p.tag v ∧
      p.tag = if v.1 < 4 then 1 else 2 := by
    intro v
    have := coax_tags v
    by_cases hv : v.1 < 4
    · rw [if_pos hv] at this
      exact ⟨p1, m1, by rw [e1]; exact onBoundary_iff.mpr this, by rw [if_pos hv, e1]⟩
    · rw [if_neg hv] at this
      exact ⟨p2, m2, by rw [e2]; exact onBoundary_iff.mpr this, by rw [if_neg hv, e2]⟩
  refine ⟨?_, ?_, fun _ => rfl, ?_⟩
  · intro v c _ hc
    obtain ⟨p, hp, hb, e⟩ := some v
    rw [← hc p hp hb, e]
    show y + (x - y) * (if v.1 < 4 then 1 else 0) = _
    split
    · rw [h1]
      ring
    · rw [h2]
      ring
  · intro v hv
    obtain ⟨p, hp, hb, _⟩ := some v
    exact absurd hb (hv p hp)
  · have he : declaredEps (coaxModel a b).materials i = fun _ => 1 := by
      funext tag
      cases i <;> rfl
    rw [he]
    exact hd

theorem coax_sensible {a b : Int} (h : Both a b) : Sensible coax (coaxModel a b).materials where
  pecs := by
    intro p hp
    rcases (coax_pecs h).2.2 p hp with e | e <;> rw [e] <;> decide
  opens := by intro o ho; cases ho
  dielectrics := by intro d hd; cases hd
  names := List.nodup_nil
  tags := List.nodup_nil
  openNames := List.nodup_nil
  permittivities := by intro d hd; cases hd

theorem coax_joined {a b : Int} (h : Both a b) : JoinedToConductors coax (coaxModel a b).materials := by
  intro v
  obtain ⟨⟨p1, m1, e1⟩, ⟨p2, m2, e2⟩, _⟩ := coax_pecs h
  have := coax_tags v
  by_cases hv : v.1 < 4
  · rw [if_pos hv] at this
    exact ⟨p1, m1, v, by rw [e1]; exact this, .refl⟩
  · rw [if_neg hv] at this
    exact ⟨p2, m2, v, by rw [e2]; exact this, .refl⟩

theorem coax_apart {a b : Int} (h : Both a b) : ConductorsApart coax (coaxModel a b).materials := by
  intro p hp q hq hne v h1 h2
  have ho := coax_off v
  have key : (p.tag = 1 ∧ q.tag = 2) ∨ (p.tag = 2 ∧ q.tag = 1) := by
    rcases (coax_pecs h).2.2 p hp with e | e <;> rcases (coax_pecs h).2.2 q hq with f | f <;>
      simp [e, f] at hne ⊢
  have hon : OnTag coax 1 v ∧ OnTag coax 2 v := by
    rcases key with ⟨e, f⟩ | ⟨e, f⟩
    · rw [e] at h1
      rw [f] at h2
      exact ⟨h1, h2⟩
    · rw [e] at h1
      rw [f] at h2
      exact ⟨h2, h1⟩
  by_cases hv : v.1 < 4
  · rw [if_pos hv] at ho
    exact ho hon.2
  · rw [if_neg hv] at ho
    exact ho hon.1

theorem coax_charges : chargeOn (coaxField 1 0) 1 = 318 / 29 ∧ chargeOn (coaxField 1 0) 2 = -38 / 29 ∧
    chargeOn (coaxField 0 1) 1 = -318 / 29 ∧ chargeOn (coaxField 0 1) 2 = 38 / 29 := by
  decide +kernel

/-- **C81, refuted.** Although the mesh of the square coaxial line is a conforming mesh of triangles and its boundary
consists of the two conductors, the charges of the conductors do not add up to zero, the generalized capacitance matrix
is not positive semidefinite, and the per-unit-length capacitance depends on which conductor is number 0. -/
theorem C81_refuted : ∃ E : Engine ℚ, E.disc coax.toMesh 1 = coax.fem ∧ ExactSolver E.pcg ∧
    Proper coax ∧ Conforming coax ∧ Measured coax ∧ (∀ s ∈ coax.segs, s.attr = 1 ∨ s.attr = 2) ∧
    (∃ d, (Driver.construct E (coaxModel 1 2) order1).1 = .ok d ∧
      (∀ t : SolverSolution (E.fem (coaxModel 1 2) order1),
        PrescribedField E.analytic (E.fem (coaxModel 1 2) order1) (coaxModel 1 2).materials false (oneVolt 1) t →
        chargeOn t 1 + chargeOn t 2 = 280 / 29) ∧
      (∃ G : Matrix (Fin 2) (Fin 2) ℚ, ((Query.generalizedC false).exec E d).1 = .ok (.matrix (DMat.ofMatrix G)) ∧
        G = !![318 / 29, -178 / 29; -178 / 29, 38 / 29] ∧ ¬ PSD G) ∧
      ∃ p, (Query.pulMTL.exec E d).1 = .ok (.pul p) ∧ p.C = DMat.ofMatrix !![E.eps0SI * (38 / 29)]) ∧
    (∃ d p, (Driver.construct E (coaxModel 2 1) order1).1 = .ok d ∧ (Query.pulMTL.exec E d).1 = .ok (.pul p) ∧
      p.C = DMat.ofMatrix !![E.eps0SI * (318 / 29)]) := by
  obtain ⟨c11, c12, c21, c22⟩ := coax_charges
  have field : ∀ {a b : Int} (h : Both a b) (i : Bool),
      PrescribedField (triEngine coax).analytic coax.fem (coaxModel a b).materials i (oneVolt 1) (coaxField 1 0) ∧
      PrescribedField (triEngine coax).analytic coax.fem (coaxModel a b).materials i (oneVolt 2) (coaxField 0 1) :=
    fun h i => ⟨coax_prescribed h _ i coax_flux.1 rfl rfl, coax_prescribed h _ i coax_flux.2 rfl rfl⟩
  have ho : ∀ a b, OpenAbsorb (triEngine coax).analytic coax (coaxModel a b).materials :=
    fun a b s _ ⟨o, ho, _⟩ => by cases ho
  have hB : ∀ {a b}, Both a b → Buildable coax.fem (coaxModel a b).materials :=
    fun h => triangles_buildable coax_proper (coax_sensible h)
  have hw : ∀ {a b}, Both a b → WellPosed (triEngine coax).analytic coax.fem (coaxModel a b).materials :=
    fun h => (triangles_elliptic coax_proper (coax_sensible h) (coax_joined h) (ho _ _)).wellPosed
  have hs : ∀ {a b}, Both a b → Separate coax.fem (coaxModel a b).materials :=
    fun h => triangles_separate (coax_apart h)
  have hW : ∀ {a b}, Both a b → WellDeclared (coaxModel a b).materials :=
    fun h => ⟨(coax_sensible h).names, (coax_sensible h).tags, (coax_sensible h).openNames⟩
  have b12 : Both 1 2 := Or.inl ⟨rfl, rfl⟩
  have b21 : Both 2 1 := Or.inr ⟨rfl, rfl⟩
  refine ⟨triEngine coax, rfl, inverseSolver_exact, coax_proper, coax_conforming, coax_measured, by decide +kernel, ?_, ?_⟩
  · obtain ⟨_, _, d, hd, hm⟩ := C79_triangles (triEngine coax) (T := coax) (model := coaxModel 1 2) (opts := order1) rfl rfl rfl
      inverseSolver_exact (coax_numbering 1 2) coax_proper (coax_sensible b12) (coax_joined b12) (coax_apart b12) (ho _ _)
    refine ⟨d, hd, ?_, ?_, ?_⟩
    · intro t ht
      have := Spec.PrescribedField.unique (hw b12) (hs b12) ht (field b12 false).1
      rw [this]
      exact (congrArg₂ (· + ·) c11 c12).trans (by norm_num)
    · obtain ⟨M, e, _, hM⟩ := hm false .closed rfl (by decide)
      have hM' : (M : Matrix (Fin 2) (Fin 2) ℚ) = !![318 / 29, -178 / 29; -178 / 29, 38 / 29] := by
        ext i j
        fin_cases i <;> fin_cases j
        · exact (hM (0 : Fin 2) (0 : Fin 2) _ _ (field b12 false).1 (field b12 false).1).trans
            ((congrArg₂ (fun x y : ℚ => (x + y) / 2) c11 c11).trans
              (by norm_num : ((318 / 29 : ℚ) + 318 / 29) / 2 = 318 / 29))
        · exact (hM (0 : Fin 2) (1 : Fin 2) _ _ (field b12 false).1 (field b12 false).2).trans
            ((congrArg₂ (fun x y : ℚ => (x + y) / 2) c12 c21).trans
              (by norm_num : ((-38 / 29 : ℚ) + -318 / 29) / 2 = -178 / 29))
        · exact (hM (1 : Fin 2) (0 : Fin 2) _ _ (field b12 false).2 (field b12 false).1).trans
            ((congrArg₂ (fun x y : ℚ => (x + y) / 2) c21 c12).trans
              (by norm_num : ((-318 / 29 : ℚ) + -38 / 29) / 2 = -178 / 29))
        · exact (hM (1 : Fin 2) (1 : Fin 2) _ _ (field b12 false).2 (field b12 false).2).trans
            ((congrArg₂ (fun x y : ℚ => (x + y) / 2) c22 c22).trans
              (by norm_num : ((38 / 29 : ℚ) + 38 / 29) / 2 = 38 / 29))
      refine ⟨M, e, hM', ?_⟩
      rintro ⟨_, hp⟩
      have := hp ![(1 : ℚ), 2]
      rw [hM'] at this
      norm_num [Matrix.mulVec, dotProduct, Fin.sum_univ_two] at this
    · obtain ⟨p, hp, hC, _⟩ := closed_pair (triEngine coax) (coax_numbering 1 2) (hB b12) (hW b12) inverseSolver_exact (hw b12)
        (hs b12) rfl hd (field b12 false).2 (field b12 true).2 (fun h => by have := c22.symm.trans h; norm_num at this)
      exact ⟨p, hp, hC.trans (congrArg (fun x => DMat.ofMatrix !![(triEngine coax).eps0SI * x]) c22)⟩
  · obtain ⟨_, _, d, hd, _⟩ := C79_triangles (triEngine coax) (T := coax) (model := coaxModel 2 1) (opts := order1) rfl rfl rfl
      inverseSolver_exact (coax_numbering 2 1) coax_proper (coax_sensible b21) (coax_joined b21) (coax_apart b21) (ho _ _)
    obtain ⟨p, hp, hC, _⟩ := closed_pair (triEngine coax) (coax_numbering 2 1) (hB b21) (hW b21) inverseSolver_exact (hw b21)
      (hs b21) rfl hd (field b21 false).1 (field b21 true).1 (fun h => by have := c11.symm.trans h; norm_num at this)
    exact ⟨d, p, hd, hp, hC.trans (congrArg (fun x => DMat.ofMatrix !![(triEngine coax).eps0SI * x]) c11)⟩

/-- The hypotheses of `C81_closed_partial` hold for the square coaxial line. -/
example : Numbering (coaxModel 1 2).materials (pecsOf 1 2) ∧ Buildable coax.fem (coaxModel 1 2).materials ∧
    WellDeclared (coaxModel 1 2).materials ∧ ExactSolver (triEngine coax).pcg ∧
    WellPosed (triEngine coax).analytic coax.fem (coaxModel 1 2).materials ∧ ((pecsOf 1 2).map PEC.tag).Nodup ∧
    Separate coax.fem (coaxModel 1 2).materials ∧ RepresentsConstants coax.fem :=
  have h : Both 1 2 := Or.inl ⟨rfl, rfl⟩
  ⟨coax_numbering 1 2, triangles_buildable coax_proper (coax_sensible h), ⟨List.nodup_nil, List.nodup_nil, List.nodup_nil⟩,
    inverseSolver_exact, (triangles_elliptic coax_proper (coax_sensible h) (coax_joined h)
      (fun s _ ⟨o, ho, _⟩ => by cases ho)).wellPosed, by decide, triangles_separate (coax_apart h),
    (C79_elements coax_proper).1⟩

end Tulip.Props
