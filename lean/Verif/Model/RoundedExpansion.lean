import Verif.Model.RoundedUniformBobs

/-!
The expanded interferometer of `boson_sampling_utilities.py` in floating-point arithmetic. `d` holds the factors of the
singular value decomposition as computed by LAPACK.
-/
namespace Verif

variable (R : Rounding) (C : ComplexArith)

/-- `_compute_loss_transfer_matrix_expansion`, boson_sampling_utilities.py:264-284, as computed; `sqrt` is correctly
rounded. -/
noncomputable def lossExpansionF {m : ℕ} (t : Fin m → ℝ) : Matrix (Fin m) (Fin m) ℂ :=
  let losses : Fin m → ℝ := fun i => R.rnd (1 - t i)
  let losses : Fin m → ℝ := fun i => if losses i < 0 then 0 else losses i
  Matrix.diagonal fun i => ((R.rnd (Real.sqrt (losses i)) : ℝ) : ℂ)

/-- `numpy.block` of four square arrays. -/
noncomputable def blockArray {m : ℕ} (a b c d : Matrix (Fin m) (Fin m) ℂ) : Matrix (Fin (m + m)) (Fin (m + m)) ℂ :=
  (Matrix.fromBlocks a b c d).reindex finSumFinEquiv finSumFinEquiv

/-- `prepare_interferometer_matrix_in_expanded_space`, boson_sampling_utilities.py:287-342, as computed. -/
noncomputable def expandedMatrixF {m : ℕ} (d : Svd m) : Matrix (Fin (m + m)) (Fin (m + m)) ℂ :=
  let expandedV := blockArray d.V 0 0 1
  let expandedU := blockArray d.U 0 0 1
  let t : Fin m → ℝ := fun i => R.rnd (d.s i ^ 2)
  let ext := lossExpansionF R t
  let S : Matrix (Fin m) (Fin m) ℂ := Matrix.diagonal fun i => (d.s i : ℂ)
  matMulR C (matMulR C expandedV (blockArray S ext ext S)) expandedU

end Verif
