import Mathlib.Analysis.Complex.Basic
import Mathlib.Analysis.Real.Sqrt
import Mathlib.Data.Matrix.Diagonal

/-! Model of `count_distance_between_matrices`. -/
namespace Verif

/-- `count_distance_between_matrices`, quantum_computations_utilities.py:82-92: `linalg.norm` of a
two-dimensional array is the square root of the sum of the squared absolute values.  As the
docstring demands, the two matrices have the same shape (no broadcasting). -/
noncomputable def matrixDistance {a b : ℕ} (A B : Matrix (Fin a) (Fin b) ℂ) : ℝ :=
  Real.sqrt (∑ i, ∑ j, ‖(A - B) i j‖ ^ 2)

end Verif
