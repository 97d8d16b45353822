import Verif.Proofs.Transfer

/-!
# Renumbered discretisations as corresponding ones
-/

set_option linter.unusedSectionVars false

namespace Tulip
open Spec Matrix

variable {𝕜 : Type} [Field 𝕜] {F F' : FEM 𝕜} {r : Renaming F F'}

/-! ## Integrals -/

theorem flux_renamed (h : SameDiscretisation r) (sel : Int → Bool) (w : 𝕜 × 𝕜 → 𝕜) (D : Fin F'.nd → 𝕜) :
    F'.flux sel w D = F.flux sel w (fun k => r.fluxSign k * D (r.flux k)) := by
  rw [flux_eq, flux_eq]
  refine Eq.trans ?_ ((h.bdr_sum sel (fun _ _ p _ f => w p * ∑ k, f k * D (r.flux k))).trans ?_)
  · refine congrArg List.sum (List.map_congr_left fun q _ => ?_)
    unfold pointFlux
    rw [← Equiv.sum_comp r.flux]
  · refine congrArg List.sum (List.map_congr_left fun q _ => ?_)
    unfold pointFlux
    congr 1
    exact Finset.sum_congr rfl fun k _ => by ring

theorem domInt_renamed (h : SameDiscretisation r) (a : Int) (u : Fin F'.n → 𝕜) :
    F'.domInt a u = F.domInt a (fun k => u (r.node k)) := by
  rw [domInt_eq, domInt_eq]
  refine Eq.trans ?_ (h.dom_sum (fun b => decide (b = a)) (fun _ w N _ _ _ => w * ∑ k, N k * u (r.node k)))
  refine congrArg List.sum (List.map_congr_left fun q _ => ?_)
  unfold domValue
  rw [← Equiv.sum_comp r.node]

theorem bdrInt_renamed (h : SameDiscretisation r) (a : Int) (u : Fin F'.n → 𝕜) :
    F'.bdrInt a u = F.bdrInt a (fun k => u (r.node k)) := by
  rw [bdrInt_eq, bdrInt_eq]
  refine Eq.trans ?_ (h.bdr_sum (fun b => decide (b = a)) (fun _ w _ N _ => w * ∑ k, N k * u (r.node k)))
  refine congrArg List.sum (List.map_congr_left fun q _ => ?_)
  unfold bdrValue
  rw [← Equiv.sum_comp r.node]

/-- Renumbering coefficients. -/
def Spec.Renaming.transfer (r : Renaming F F') : Transfer F F' where
  phi := { toFun := fun u k => u (r.node k), map_add' := fun _ _ => rfl, map_smul' := fun _ _ => rfl }
  d :=
    { toFun := fun D k => r.fluxSign k * D (r.flux k)
      map_add' := fun _ _ => by funext k; exact mul_add _ _ _
      map_smul' := fun _ _ => by funext k; exact mul_left_comm _ _ _ }

theorem Spec.SameDiscretisation.faithful (h : SameDiscretisation r) : Faithful r.transfer True where
  one := rfl
  flux _ _ _ := flux_renamed h _ _ _
  weighted _ _ _ _ := flux_renamed h _ _ _
  domInt _ _ := domInt_renamed h _ _
  bdrInt _ _ := bdrInt_renamed h _ _

end Tulip
