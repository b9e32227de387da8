import Verif.Model.QuantumUtilities
import Verif.Spec.Floats

/-!
Model of the error bound and of the sample number of `theboss/quantum_computations_utilities.py` in
floating-point arithmetic. The library functions `log` and `pow(·, 2)` are parameters: IEEE 754 does not
prescribe their rounding. `sqrt` is rounded correctly. Integers are converted to floats by rounding.
-/
namespace Verif

variable (R : Rounding)

/-- `count_tv_distance_error_bound_of_experiment_results`, quantum_computations_utilities.py:95-127, for
a positive number of samples. -/
noncomputable def tvErrorBoundR (logR : ℝ → ℝ) (outcomesNumber samplesNumber : ℕ)
    (errorProbability : ℝ) : ℝ :=
  let bound := -logR errorProbability
  let bound := R.rnd (bound + R.rnd (R.rnd outcomesNumber * logR 2))
  let bound := R.rnd (bound / R.rnd (2 * samplesNumber : ℕ))
  R.rnd (Real.sqrt bound)

/-- `compute_minimal_number_of_samples_for_desired_accuracy`,
quantum_computations_utilities.py:147-156. -/
noncomputable def minimalSamplesR (logR sqR : ℝ → ℝ) (outcomesNumber : ℕ)
    (errorProbability expectedDistance : ℝ) : ℤ :=
  let n := -logR errorProbability
  let n := R.rnd (n + R.rnd (logR 2 * R.rnd outcomesNumber))
  let n := R.rnd (n / R.rnd (2 * sqR expectedDistance))
  pyInt n + 1

end Verif
