import Verif.Proofs.Polar
import Mathlib.Data.List.FinRange
import Mathlib.Data.Fintype.Perm

/-! The list permanent is Mathlib's `Matrix.permanent`. -/
namespace Verif
open Equiv

variable {ι : Type*} {K : Type*} [CommRing K]

theorem picks_ofFn {α : Type*} {n : ℕ} (C : Fin n → α) :
    picks (List.ofFn C) = List.ofFn fun p : Fin n => (C p, (List.ofFn C).eraseIdx p) := by
  rw [picks_eq]
  apply List.ext_getElem <;> simp

theorem lperm_ofFn {n : ℕ} (R : Fin n → ι) (C : Fin n → ι → K) :
    lperm (List.ofFn R) (List.ofFn C) = ∑ σ : Perm (Fin n), ∏ a, C (σ a) (R a) := by
  induction n with
  | zero => simp [lperm]
  | succ n ih =>
    rw [List.ofFn_succ (f := R), lperm, picks_ofFn, List.map_ofFn, List.sum_ofFn,
      ← (Equiv.Perm.decomposeFin (n := n)).symm.sum_comp, Fintype.sum_prod_type]
    refine Finset.sum_congr rfl fun p _ => ?_
    simp only [Function.comp]
    have hperm : ((List.ofFn C).eraseIdx p).Perm
        (List.ofFn fun b : Fin n => C (swap 0 p b.succ)) := by
      have h1 : ((C p) :: (List.ofFn C).eraseIdx p).Perm (List.ofFn C) := by
        have : (C p, (List.ofFn C).eraseIdx p) ∈ picks (List.ofFn C) := by
          rw [picks_ofFn, List.mem_ofFn]; exact ⟨p, rfl⟩
        exact picks_perm this
      have h2 : (List.ofFn (C ∘ swap 0 p)).Perm (List.ofFn C) := Equiv.Perm.ofFn_comp_perm _ _
      rw [List.ofFn_succ] at h2
      simp only [Function.comp, swap_apply_left] at h2
      exact (h1.trans h2.symm).cons_inv
    rw [lperm_perm_cols hperm, ih, Finset.mul_sum]
    refine Finset.sum_congr rfl fun e _ => ?_
    rw [Fin.prod_univ_succ]
    simp [Equiv.Perm.decomposeFin_symm_apply_succ]

theorem lperm_eq_permanent {n : ℕ} (R : Fin n → ι) (C : Fin n → ι → K) :
    lperm (List.ofFn R) (List.ofFn C) = Matrix.permanent (Matrix.of fun a b => C b (R a)) := by
  rw [lperm_ofFn, ← Matrix.permanent_transpose]
  rfl

end Verif
