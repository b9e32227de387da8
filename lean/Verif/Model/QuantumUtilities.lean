import Verif.Py
import Mathlib.Algebra.Order.Field.Basic
import Mathlib.Data.List.Dedup
import Mathlib.Data.Nat.Sqrt
import Mathlib.Analysis.SpecialFunctions.Log.Basic
import Mathlib.Analysis.SpecialFunctions.Complex.Log
import Mathlib.Analysis.Real.Sqrt
import Mathlib.Analysis.Complex.Basic
import Mathlib.Data.Matrix.Diagonal

/-!
Model of `theboss/quantum_computations_utilities.py` and of the matrix generators
`generate_qft_matrix_for_first_m_modes` / `generate_random_phases_matrix_for_first_m_modes` of
`theboss/boson_sampling_utilities/boson_sampling_utilities.py`.

Simplifications: floating-point numbers are exact (a linearly ordered field, ℝ or ℂ); a numpy
`n × n` array is a function on `Fin n × Fin n`.
-/
namespace Verif

section Tvd

variable {R : Type} [Field R] [LinearOrder R]

/-- A Python dictionary as the list of its items in insertion order (keys distinct);
`defaultdict(lambda: 0)` lookup, quantum_computations_utilities.py:46-51. -/
def dictGetZero {κ : Type} [DecidableEq κ] (d : List (κ × R)) (k : κ) : R :=
  match d with
  | [] => 0
  | (k', v) :: rest => if k' = k then v else dictGetZero rest k

/-- `count_total_variation_distance_dicts`, quantum_computations_utilities.py:25-54. The iteration
order of the `set` of keys is left open: `setOrder` lists the set of the given elements. -/
def countTvdDicts {κ : Type} [DecidableEq κ] (setOrder : List κ → List κ)
    (d1 d2 : List (κ × R)) : R :=
  let keys := setOrder (d1.map Prod.fst ++ d2.map Prod.fst)
  1 / 2 * (keys.map fun key => |dictGetZero d1 key - dictGetZero d2 key|).sum

/-- `count_total_variation_distance`, quantum_computations_utilities.py:57-79. -/
def countTvd (d1 d2 : List R) : Py R :=
  if d1.length ≠ d2.length then .error .assertionError
  else do
    let total ← (List.range d1.length).foldlM (fun (acc : R) i => do
      let a ← pyGetN d1 i
      let b ← pyGetN d2 i
      pure (acc + |a - b|)) 0
    pure (total / 2)

end Tvd

/-- `count_tv_distance_error_bound_of_experiment_results`, quantum_computations_utilities.py:95-127
(numpy's `log` and `sqrt` on positive arguments; `samples_number > 0`). -/
noncomputable def tvErrorBound (outcomesNumber samplesNumber : ℕ) (errorProbability : ℝ) : ℝ :=
  let bound := -Real.log errorProbability
  let bound := bound + outcomesNumber * Real.log 2
  let bound := bound / (2 * samplesNumber)
  Real.sqrt bound

/-- Python's `int(x)` on a finite float: truncation towards zero. -/
noncomputable def pyInt (x : ℝ) : ℤ := if 0 ≤ x then ⌊x⌋ else ⌈x⌉

/-- `compute_minimal_number_of_samples_for_desired_accuracy`,
quantum_computations_utilities.py:147-156. -/
noncomputable def minimalSamples (outcomesNumber : ℕ) (errorProbability expectedDistance : ℝ) : ℤ :=
  let n := -Real.log errorProbability
  let n := n + Real.log 2 * outcomesNumber
  let n := n / (2 * expectedDistance ^ 2)
  pyInt n + 1

/-- `while number % i == 0: prime_factors.append(i); number = number / i`,
quantum_computations_utilities.py:133-135 and 138-140, on the pair (factors, number). The
division happens only when `i` divides the number; `/` returns a float, which is the exact quotient
for numbers up to `2 ^ 53` (larger ones may be rounded in Python). -/
def divideOut (fuel i : ℕ) (s : List ℕ × ℕ) : Py (List ℕ × ℕ) :=
  pyWhile fuel (fun s => pure (s.2 % i == 0)) (fun s => pure (s.1 ++ [i], s.2 / i)) s

/-- `range(3, bound + 1, 2)`. -/
def oddRange (bound : ℕ) : List ℕ := (List.range ((bound - 1) / 2)).map fun k => 3 + 2 * k

/-- `get_prime_factors`, quantum_computations_utilities.py:130-144, on non-negative integers
(`int(sqrt(number))` is the exact integer square root). -/
def getPrimeFactors (fuel number : ℕ) : Py (List ℕ) := do
  let s ← divideOut fuel 2 ([], number)
  let s ← (oddRange (Nat.sqrt s.2)).foldlM (fun s i => divideOut fuel i s) s
  pure (s.1 ++ [s.2])

/-- `horizontal_range = tile(range(n), n).reshape(n, n)`, quantum_computations_utilities.py:173. -/
def horizontalRange (n : ℕ) : Matrix (Fin n) (Fin n) ℕ := Matrix.of fun _ j => (j : ℕ)

/-- `compute_qft_matrix`, quantum_computations_utilities.py:159-178. -/
noncomputable def computeQft (n : ℕ) : Matrix (Fin n) (Fin n) ℂ :=
  let omega : ℂ := Complex.exp (2 * Complex.I * Real.pi / n)
  let vertical := (horizontalRange n).transpose
  let full : Matrix (Fin n) (Fin n) ℕ := Matrix.of fun i j => horizontalRange n i j * vertical i j
  Matrix.of fun i j => omega ^ full i j / (Real.sqrt n : ℂ)

/-- `a[0:m, 0:m] = b` for a `b` of the shape of the slice. -/
def setCorner {M m : ℕ} (a : Matrix (Fin M) (Fin M) ℂ) (b : Matrix (Fin m) (Fin m) ℂ) :
    Matrix (Fin M) (Fin M) ℂ := Matrix.of fun i j =>
  if h : i.1 < m ∧ j.1 < m then b ⟨i, h.1⟩ ⟨j, h.2⟩ else a i j

/-- `generate_qft_matrix_for_first_m_modes`, boson_sampling_utilities.py:505-521. Assigning an
`m × m` array to the smaller slice `[0:m, 0:m]` of an `M × M` array raises `ValueError` (the
1 × 1 array broadcasts into the empty slice). -/
noncomputable def generateQft (m M : ℕ) : Py (Matrix (Fin M) (Fin M) ℂ) :=
  let small := computeQft m
  let qft : Matrix (Fin M) (Fin M) ℂ := 1
  if m ≤ M ∨ (m = 1 ∧ M = 0) then .ok (setCorner qft small) else .error .valueError

/-- `generate_random_phases_matrix_for_first_m_modes`, boson_sampling_utilities.py:524-542, for the
numbers `r` returned by `rand(m)`. -/
noncomputable def generatePhases (m M : ℕ) (r : Fin m → ℝ) : Py (Matrix (Fin M) (Fin M) ℂ) :=
  let phases : Fin M → ℂ := fun i =>
    if h : i.1 < m then Complex.exp (Complex.I * 2 * Real.pi * r ⟨i, h⟩) else 1
  if m ≤ M ∨ (m = 1 ∧ M = 0) then .ok (Matrix.diagonal phases)
  else .error .valueError

end Verif
