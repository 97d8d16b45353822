import Verif.Proofs.SolverState
import Mathlib.Algebra.BigOperators.Group.List.Lemmas
import Mathlib.Tactic.Ring

/-!
# Fluxes and averages as sums over quadrature points
-/

namespace Tulip
open Matrix Spec
variable {𝕜 : Type _} [Field 𝕜] {F : FEM 𝕜}

/-- Flux of `D` at a boundary quadrature point. -/
def pointFlux {n d : Nat} (q : BdrPt 𝕜 n d) (D : Fin d → 𝕜) : 𝕜 := ∑ k, q.fl k * D k

/-- Value of `u` at a boundary quadrature point. -/
def bdrValue {n d : Nat} (q : BdrPt 𝕜 n d) (u : Fin n → 𝕜) : 𝕜 := ∑ k, q.N k * u k

/-- Value of `u` at a domain quadrature point. -/
def domValue {n e d : Nat} (q : DomPt 𝕜 n e d) (u : Fin n → 𝕜) : 𝕜 := ∑ k, q.N k * u k

theorem sum_list_sum {ι α : Type _} [Fintype ι] (l : List α) (g : α → ι → 𝕜) (v : ι → 𝕜) :
    ∑ k, (l.map (fun q => g q k)).sum * v k = (l.map (fun q => ∑ k, g q k * v k)).sum := by
  induction l with
  | nil => simp
  | cons q l ih =>
    simp only [List.map_cons, List.sum_cons, add_mul, Finset.sum_add_distrib, ih]

theorem flux_eq (sel : Int → Bool) (w : 𝕜 × 𝕜 → 𝕜) (D : Fin F.nd → 𝕜) :
    F.flux sel w D = ((F.bdr.filter (fun q => sel q.attr)).map (fun q => w q.pos * pointFlux q D)).sum := by
  unfold FEM.flux
  rw [sum_list_sum _ (fun (q : BdrPt 𝕜 F.n F.nd) k => w q.pos * q.fl k)]
  congr 1
  apply List.map_congr_left
  intro q _
  unfold pointFlux
  rw [Finset.mul_sum]
  exact Finset.sum_congr rfl (fun k _ => by ring)

theorem domInt_eq (a : Int) (u : Fin F.n → 𝕜) :
    F.domInt a u = ((F.dom.filter (fun q => q.attr = a)).map (fun q => q.w * domValue q u)).sum := by
  unfold FEM.domInt
  rw [sum_list_sum _ (fun (q : DomPt 𝕜 F.n F.ne F.nd) k => q.w * q.N k)]
  congr 1
  apply List.map_congr_left
  intro q _
  unfold domValue
  rw [Finset.mul_sum]
  exact Finset.sum_congr rfl (fun k _ => by ring)

theorem bdrInt_eq (a : Int) (u : Fin F.n → 𝕜) :
    F.bdrInt a u = ((F.bdr.filter (fun q => q.attr = a)).map (fun q => q.w * bdrValue q u)).sum := by
  unfold FEM.bdrInt
  rw [sum_list_sum _ (fun (q : BdrPt 𝕜 F.n F.nd) k => q.w * q.N k)]
  congr 1
  apply List.map_congr_left
  intro q _
  unfold bdrValue
  rw [Finset.mul_sum]
  exact Finset.sum_congr rfl (fun k _ => by ring)

/-- Splitting a sum by attribute. -/
theorem sum_by_attr {α : Type _} (attr : α → Int) (f : α → 𝕜) (l : List α) : ∀ (as : List Int), as.Nodup →
    ((l.filter (fun q => as.contains (attr q))).map f).sum =
      (as.map (fun a => ((l.filter (fun q => attr q = a)).map f).sum)).sum := by
  intro as hnd
  induction l with
  | nil =>
    simp
  | cons q l ih =>
    by_cases hq : attr q ∈ as
    · have h1 : as.contains (attr q) = true := by simpa using hq
      rw [List.filter_cons_of_pos (by simpa using hq), List.map_cons, List.sum_cons, ih]
      have : ∀ a, (((q :: l).filter (fun q => attr q = a)).map f).sum =
          (if a = attr q then f q else 0) + ((l.filter (fun q => attr q = a)).map f).sum := by
        intro a
        by_cases ha : attr q = a
        · rw [List.filter_cons_of_pos (by simpa using ha)]; simp [ha]
        · rw [List.filter_cons_of_neg (by simpa using ha)]
          rw [if_neg (fun h => ha h.symm), zero_add]
      simp only [this]
      rw [List.sum_map_add]
      congr 1
      have : ∀ bs : List Int, bs.Nodup → attr q ∈ bs →
          (bs.map (fun a => if a = attr q then f q else 0)).sum = f q := by
        intro bs
        induction bs with
        | nil => intro _ h; cases h
        | cons b bs ihb =>
          intro hn hm
          rw [List.nodup_cons] at hn
          simp only [List.map_cons, List.sum_cons]
          by_cases hb : b = attr q
          · rw [if_pos hb]
            have hz : (bs.map (fun a => if a = attr q then f q else 0)).sum = 0 := by
              apply List.sum_eq_zero
              intro x hx
              obtain ⟨c, hc, rfl⟩ := List.mem_map.mp hx
              rw [if_neg]; rintro rfl; exact hn.1 (hb ▸ hc)
            rw [hz, add_zero]
          · rw [if_neg hb, zero_add]
            exact ihb hn.2 ((List.mem_cons.mp hm).resolve_left (fun h => hb h.symm))
      exact (this as hnd hq).symm
    · rw [List.filter_cons_of_neg (by simpa using hq), ih]
      congr 1
      apply List.map_congr_left
      intro a ha
      rw [List.filter_cons_of_neg]
      simp only [decide_eq_true_eq]
      rintro rfl; exact hq ha

theorem foldl_add_eq_sum {α : Type _} (f : α → 𝕜) (l : List α) (x : 𝕜) :
    l.foldl (fun q b => q + f b) x = x + (l.map f).sum := by
  induction l generalizing x with
  | nil => simp
  | cons a l ih => simp only [List.foldl_cons, ih, List.map_cons, List.sum_cons]; ring

theorem pointFlux_comb {n d : Nat} (q : BdrPt 𝕜 n d) (D1 D2 : Fin d → 𝕜) (α β : 𝕜) :
    pointFlux q (fun k => α * D1 k + β * D2 k) = α * pointFlux q D1 + β * pointFlux q D2 := by
  unfold pointFlux
  rw [Finset.mul_sum, Finset.mul_sum, ← Finset.sum_add_distrib]
  exact Finset.sum_congr rfl (fun k _ => by ring)

theorem flux_comb (sel : Int → Bool) (w : 𝕜 × 𝕜 → 𝕜) (D1 D2 : Fin F.nd → 𝕜) (α β : 𝕜) :
    F.flux sel w (fun k => α * D1 k + β * D2 k) = α * F.flux sel w D1 + β * F.flux sel w D2 := by
  unfold FEM.flux
  rw [Finset.mul_sum, Finset.mul_sum, ← Finset.sum_add_distrib]
  exact Finset.sum_congr rfl (fun k _ => by ring)

theorem flux_zero (sel : Int → Bool) (w : 𝕜 × 𝕜 → 𝕜) : F.flux sel w (fun _ => 0) = 0 := by
  unfold FEM.flux; simp

end Tulip
