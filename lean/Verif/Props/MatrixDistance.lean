import Verif.Model.MatrixDistance
import Mathlib.Analysis.InnerProductSpace.PiL2
import Mathlib.Analysis.Matrix.Hermitian
import Mathlib.LinearAlgebra.UnitaryGroup

/-! C73: the distance between matrices. -/
namespace Verif

open Matrix

variable {a b c : ℕ}

/-- A matrix as a vector of a Euclidean space. -/
noncomputable def flatten (A : Matrix (Fin a) (Fin b) ℂ) : EuclideanSpace ℂ (Fin a × Fin b) :=
  WithLp.toLp 2 fun p => A p.1 p.2

theorem matrixDistance_eq (A B : Matrix (Fin a) (Fin b) ℂ) :
    matrixDistance A B = dist (flatten A) (flatten B) := by
  rw [dist_eq_norm, EuclideanSpace.norm_eq, matrixDistance, Fintype.sum_prod_type]
  rfl

/-- C73: the distance is a metric on the matrices of each shape. -/
theorem C73_metric (A B C : Matrix (Fin a) (Fin b) ℂ) :
    0 ≤ matrixDistance A B ∧ (matrixDistance A B = 0 ↔ A = B) ∧
    matrixDistance A B = matrixDistance B A ∧
    matrixDistance A C ≤ matrixDistance A B + matrixDistance B C := by
  simp only [matrixDistance_eq]
  refine ⟨dist_nonneg, ?_, dist_comm _ _, dist_triangle _ _ _⟩
  rw [dist_eq_zero]
  constructor
  · intro h
    ext i j
    exact congrFun (congrArg (fun v => v.ofLp) h) (i, j)
  · rintro rfl; rfl

/-- C73: no entry of the matrices differs by more than the distance. -/
theorem C73_entries (A B : Matrix (Fin a) (Fin b) ℂ) (i : Fin a) (j : Fin b) :
    ‖A i j - B i j‖ ≤ matrixDistance A B := by
  refine Real.le_sqrt_of_sq_le ?_
  calc ‖A i j - B i j‖ ^ 2 ≤ ∑ j, ‖(A - B) i j‖ ^ 2 :=
        Finset.single_le_sum (f := fun j => ‖(A - B) i j‖ ^ 2) (fun _ _ => by positivity)
          (Finset.mem_univ j)
    _ ≤ _ := Finset.single_le_sum (f := fun i => ∑ j, ‖(A - B) i j‖ ^ 2)
          (fun _ _ => Finset.sum_nonneg fun _ _ => by positivity) (Finset.mem_univ i)

theorem distance_trace (A B : Matrix (Fin a) (Fin b) ℂ) :
    ((∑ i, ∑ j, ‖(A - B) i j‖ ^ 2 : ℝ) : ℂ) = ((A - B)ᴴ * (A - B)).trace := by
  rw [Matrix.trace, Finset.sum_comm]
  push_cast
  refine Finset.sum_congr rfl fun j _ => ?_
  rw [Matrix.diag_apply, Matrix.mul_apply]
  refine Finset.sum_congr rfl fun i _ => ?_
  rw [Matrix.conjTranspose_apply, ← Complex.conj_mul']
  rfl

/-- C73, the value: the squared distance is the trace of `(A - B)ᴴ (A - B)`. -/
theorem C73_value (A B : Matrix (Fin a) (Fin b) ℂ) :
    0 ≤ matrixDistance A B ∧ ((matrixDistance A B ^ 2 : ℝ) : ℂ) = ((A - B)ᴴ * (A - B)).trace := by
  refine ⟨Real.sqrt_nonneg _, ?_⟩
  rw [← distance_trace, matrixDistance, Real.sq_sqrt]
  exact Finset.sum_nonneg fun _ _ => Finset.sum_nonneg fun _ _ => by positivity

/-- C73: multiplying both matrices by a unitary from the left, or from the right, does not change
the distance. -/
theorem C73_unitary (A B : Matrix (Fin a) (Fin b) ℂ) (V : Matrix (Fin c) (Fin a) ℂ)
    (W : Matrix (Fin b) (Fin c) ℂ) (hV : Vᴴ * V = 1) (hW : W * Wᴴ = 1) :
    matrixDistance (V * A) (V * B) = matrixDistance A B ∧
    matrixDistance (A * W) (B * W) = matrixDistance A B := by
  constructor <;> unfold matrixDistance <;> congr 1 <;> apply Complex.ofReal_injective <;>
    rw [distance_trace, distance_trace]
  · rw [← Matrix.mul_sub, Matrix.conjTranspose_mul, Matrix.mul_assoc, ← Matrix.mul_assoc Vᴴ, hV,
      Matrix.one_mul]
  · rw [← Matrix.sub_mul, Matrix.conjTranspose_mul, Matrix.trace_mul_comm, Matrix.mul_assoc,
      ← Matrix.mul_assoc W, hW, Matrix.one_mul, Matrix.trace_mul_comm]

example : matrixDistance !![(1 : ℂ), 2; 3, 4] !![1, 2; 0, 0] = 5 := by
  simp [matrixDistance]
  norm_num [Real.sqrt_eq_iff_mul_self_eq]

end Verif
