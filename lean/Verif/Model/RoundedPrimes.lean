import Verif.Model.QuantumUtilities
import Verif.Spec.Floats

/-!
`get_prime_factors` of `theboss/quantum_computations_utilities.py` with Python's numbers: the
argument is an integer of any size, `/` gives a float, and `int(sqrt(number))` is computed by numpy
in floating-point arithmetic. `R` is the rounding of the machine; overflow (an even number of
`2 ^ 1025` or more) is left out.
-/
namespace Verif

/-- A Python number: an `int` (non-negative here) or a `float`. -/
inductive PyNumber where
  | int (n : ℕ)
  | float (x : ℝ)

/-- The value of a number. -/
noncomputable def PyNumber.val : PyNumber → ℝ
  | .int n => n
  | .float x => x

open Classical in
/-- `number % i == 0`, quantum_computations_utilities.py:133 and 138, for an integer `i > 0`. On
floats the integer is converted to a float and the remainder (C's `fmod`) is exact. -/
noncomputable def pyDivides (R : Rounding) (i : ℕ) : PyNumber → Bool
  | .int n => n % i == 0
  | .float x => decide (x - ⌊x / R.rnd i⌋ * R.rnd i = 0)

/-- `number / i`, quantum_computations_utilities.py:135 and 140: the correctly rounded quotient, also
for two integers; the integer divisor of a float is converted to a float first. -/
noncomputable def pyTrueDiv (R : Rounding) (i : ℕ) : PyNumber → PyNumber
  | .int n => .float (R.rnd (n / i))
  | .float x => .float (R.rnd (x / R.rnd i))

/-- `int(sqrt(number))` with numpy's `sqrt`, quantum_computations_utilities.py:137: an `int` below
`2 ^ 64` is converted to a float; larger ones become an array of objects, on which `sqrt` raises
`TypeError`. -/
noncomputable def pyIntSqrt (R : Rounding) : PyNumber → Py ℕ
  | .int n => if n < 2 ^ 64 then .ok ⌊R.rnd (Real.sqrt (R.rnd n))⌋₊ else .error .typeError
  | .float x => .ok ⌊R.rnd (Real.sqrt x)⌋₊

/-- `while number % i == 0: prime_factors.append(i); number = number / i`,
quantum_computations_utilities.py:133-135 and 138-140, on the pair (factors, number). -/
noncomputable def divideOutR (R : Rounding) (fuel i : ℕ) (s : List ℕ × PyNumber) :
    Py (List ℕ × PyNumber) :=
  pyWhile fuel (fun s => pure (pyDivides R i s.2)) (fun s => pure (s.1 ++ [i], pyTrueDiv R i s.2)) s

/-- `get_prime_factors`, quantum_computations_utilities.py:130-144, on non-negative integers: the
integers appended by the loops and the number appended at the end. -/
noncomputable def getPrimeFactorsR (R : Rounding) (fuel number : ℕ) : Py (List ℕ × PyNumber) := do
  let s ← divideOutR R fuel 2 ([], .int number)
  let b ← pyIntSqrt R s.2
  (oddRange b).foldlM (fun s i => divideOutR R fuel i s) s

/-- The values in the returned list. -/
noncomputable def factorValues (r : List ℕ × PyNumber) : List ℝ := r.1.map (fun p : ℕ => (p : ℝ)) ++ [r.2.val]

end Verif
