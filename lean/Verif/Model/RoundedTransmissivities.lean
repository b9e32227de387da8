import Verif.Model.Rounded
import Verif.Model.Networks
import Verif.Spec.ComplexFloats

/-!
The transmissivities of a network and the distance between matrices in floating-point arithmetic. `d` holds the factors of the
singular value decomposition as computed by LAPACK.
-/
namespace Verif

variable (R : Rounding) (C : ComplexArith)

/-- `get_modes_transmissivity_values_from_matrix`, boson_sampling_utilities.py:240-261, as computed. -/
noncomputable def transmissivitiesF {m : ℕ} (d : Svd m) : List ℝ :=
  (List.ofFn d.s).reverse.map fun x => R.rnd (x ^ 2)

/-- `x.dot(x)` of a real array, from left to right. -/
noncomputable def dotSelfR (x : List ℝ) : ℝ := sumR R (x.map fun v => R.rnd (v ^ 2))

/-- `count_distance_between_matrices`, quantum_computations_utilities.py:82-92, as computed: `linalg.norm` of a complex array
takes the dot products of the real and of the imaginary parts, adds them and takes the square root. -/
noncomputable def matrixDistanceF {a b : ℕ} (A B : Matrix (Fin a) (Fin b) ℂ) : ℝ :=
  let x : List ℂ := (List.ofFn fun i => List.ofFn fun j => C.sub (A i j) (B i j)).flatten
  R.rnd (Real.sqrt (R.rnd (dotSelfR R (x.map fun z => z.re) + dotSelfR R (x.map fun z => z.im))))

end Verif
