import Verif.Proofs.RootStability
import Verif.Model.MatrixDistance
import Mathlib.LinearAlgebra.Matrix.ToLinearEquiv

/-! Helper lemmas: singular values of nearby matrices. -/
namespace Verif

open Finset Matrix

variable {m : ℕ}

/-- A vector outside the last rows of one matrix and the first rows of another. -/
theorem exists_between (P Q : Matrix (Fin m) (Fin m) ℂ) (i : Fin m) :
    ∃ x : Fin m → ℂ, x ≠ 0 ∧ (∀ j, i < j → (P *ᵥ x) j = 0) ∧ ∀ j, j < i → (Q *ᵥ x) j = 0 := by
  set N : Matrix (Fin m) (Fin m) ℂ := fun j => if i < j then P j else if j < i then Q j else 0 with hN
  have hdet : N.det = 0 := det_eq_zero_of_row_eq_zero i fun j => by simp [hN]
  obtain ⟨x, hx, h0⟩ := exists_mulVec_eq_zero_iff.mpr hdet
  refine ⟨x, hx, fun j hj => ?_, fun j hj => ?_⟩
  · have := congrFun h0 j
    simpa [hN, mulVec, hj] using this
  · have := congrFun h0 j
    simpa [hN, mulVec, hj, hj.not_gt] using this

/-- Weyl's inequality for singular values. -/
theorem weyl {A B : Matrix (Fin m) (Fin m) ℂ} {dA dB : Svd m} (hA : IsSvd A dA) (hB : IsSvd B dB) {c : ℝ}
    (h : ∀ x, nrm ((A - B) *ᵥ x) ≤ c * nrm x) (i : Fin m) : dA.s i ≤ dB.s i + c := by
  obtain ⟨x, hx, h1, h2⟩ := exists_between dA.U dB.U i
  have e1 : dA.s i * nrm x ≤ nrm (A *ᵥ x) := by
    rw [hA.product, ← mulVec_mulVec, ← mulVec_mulVec, nrm_unitary hA.unitaryV, ← nrm_unitary hA.unitaryU x]
    refine (sq_le_sq₀ (mul_nonneg (hA.nonneg i) (nrm_nonneg _)) (nrm_nonneg _)).mp ?_
    rw [mul_pow, nrm_sq, nrm_sq, mul_sum]
    refine sum_le_sum fun j _ => ?_
    rw [mulVec_diagonal, Complex.normSq_mul, Complex.normSq_ofReal, ← sq]
    rcases lt_or_ge i j with hj | hj
    · simp [h1 j hj]
    · exact mul_le_mul_of_nonneg_right (pow_le_pow_left₀ (hA.nonneg i) (hA.descending j i hj) 2) (Complex.normSq_nonneg _)
  have e2 : nrm (B *ᵥ x) ≤ dB.s i * nrm x := by
    rw [hB.product, ← mulVec_mulVec, ← mulVec_mulVec, nrm_unitary hB.unitaryV, ← nrm_unitary hB.unitaryU x]
    refine nrm_le (hB.nonneg i) ?_
    rw [mul_sum]
    refine sum_le_sum fun j _ => ?_
    rw [mulVec_diagonal, Complex.normSq_mul, Complex.normSq_ofReal, ← sq]
    rcases lt_or_ge j i with hj | hj
    · simp [h2 j hj]
    · exact mul_le_mul_of_nonneg_right (pow_le_pow_left₀ (hB.nonneg j) (hB.descending i j hj) 2) (Complex.normSq_nonneg _)
  have e3 := nrm_add (B *ᵥ x) ((A - B) *ᵥ x)
  rw [← add_mulVec, add_sub_cancel] at e3
  have e4 : 0 < nrm x := by
    rcases (nrm_nonneg x).eq_or_lt with h0 | h0
    · refine absurd (funext fun j => ?_) hx
      have := entry_le_nrm x j
      rw [← h0] at this
      exact norm_le_zero_iff.mp this
    · exact h0
  have e5 := h x
  exact le_of_mul_le_mul_right (by linarith) e4

theorem weyl_abs {A B : Matrix (Fin m) (Fin m) ℂ} {dA dB : Svd m} (hA : IsSvd A dA) (hB : IsSvd B dB) {c : ℝ}
    (h : ∀ x, nrm ((A - B) *ᵥ x) ≤ c * nrm x) (i : Fin m) : |dA.s i - dB.s i| ≤ c := by
  have h1 := weyl hA hB h i
  have h2 := weyl hB hA (c := c) (fun x => by
    rw [show B - A = -(A - B) by rw [neg_sub], neg_mulVec, ← zero_sub, nrm_sub_comm, sub_zero]; exact h x) i
  rw [abs_le]
  constructor <;> linarith

/-- The distance of the library bounds the action on vectors. -/
theorem nrm_distance (A B : Matrix (Fin m) (Fin m) ℂ) (x : Fin m → ℂ) : nrm ((A - B) *ᵥ x) ≤ matrixDistance A B * nrm x := by
  refine nrm_le (Real.sqrt_nonneg _) ?_
  rw [matrixDistance, Real.sq_sqrt (by positivity), sum_mul]
  refine sum_le_sum fun i _ => ?_
  rw [Complex.normSq_eq_norm_sq, mulVec, dotProduct]
  have e1 : ‖∑ j, (A - B) i j * x j‖ ≤ ∑ j, ‖(A - B) i j‖ * ‖x j‖ :=
    (norm_sum_le _ _).trans (le_of_eq (sum_congr rfl fun j _ => norm_mul _ _))
  refine (pow_le_pow_left₀ (norm_nonneg _) e1 2).trans ((sum_mul_sq_le_sq_mul_sq _ _ _).trans (le_of_eq ?_))
  congr 1
  exact sum_congr rfl fun j _ => (Complex.normSq_eq_norm_sq _).symm

end Verif
