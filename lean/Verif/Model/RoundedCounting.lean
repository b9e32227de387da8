import Verif.Spec.Floats
import Mathlib.Algebra.Order.Floor.Ring
import Mathlib.Algebra.Order.Archimedean.Real.Basic

/-!
The counting functions of `boson_sampling_utilities.py` in floating-point arithmetic: `factorial`
and `binom` are those of `scipy.special`, which compute with floats and return floats.
-/
namespace Verif

/-- `scipy.special.factorial(n)` (external): scipy's `Gamma(n + 1)`. For `n ≤ 32` it multiplies
`n, n - 1, …, 2` in this order, rounding each product; beyond it uses Stirling's formula, which is
left open (`stirling`). -/
noncomputable def factorialR (R : Rounding) (stirling : ℕ → ℝ) (n : ℕ) : ℝ :=
  if n ≤ 32 then (List.range (n - 1)).foldl (fun z i => R.rnd (z * ((n - i : ℕ) : ℝ))) 1
  else stirling n

/-- `a // b` of two positive `float64` (external, numpy's `npy_divmod`): the remainder `fmod(a, b)`
is exact, the quotient `(a - mod) / b` is computed in floats and then snapped to the nearest
integer. -/
noncomputable def floorDivR (R : Rounding) (a b : ℝ) : ℝ :=
  let mod := a - b * (⌊a / b⌋ : ℝ)
  let div := R.rnd (R.rnd (a - mod) / b)
  let floordiv : ℝ := (⌊div⌋ : ℝ)
  if R.rnd (div - floordiv) > 1 / 2 then R.rnd (floordiv + 1) else floordiv

/-- `compute_number_of_states_of_given_type`, boson_sampling_utilities.py:444-475, with the floats
of `scipy.special.factorial`. `vals` is the iteration order of `set(state_type)`. -/
noncomputable def computeNumberOfStatesOfGivenTypeR (R : Rounding) (stirling : ℕ → ℝ)
    (vals stateType : List ℕ) : ℝ :=
  let counts := vals.map fun v => stateType.count v
  counts.foldl (fun acc c => floorDivR R acc (factorialR R stirling c))
    (factorialR R stirling stateType.length)

/-- `round(x)` of a float: the nearest integer, the even one for halves. -/
noncomputable def pyRound (x : ℝ) : ℤ :=
  let f := ⌊x⌋
  if x - f < 1 / 2 then f
  else if 1 / 2 < x - f then f + 1
  else if f % 2 = 0 then f
  else f + 1

/-- One turn of the loop of `binom`: `num *= i + n - kx; den *= i`, and `num /= den; den = 1` when
`num` exceeds `1e50`. -/
noncomputable def binomStepR (R : Rounding) (n kx : ℕ) (st : ℝ × ℝ) (i : ℕ) : ℝ × ℝ :=
  let num := R.rnd (st.1 * R.rnd (R.rnd ((i : ℝ) + n) - kx))
  let den := R.rnd (st.2 * i)
  if |num| > R.rnd (10 ^ 50) then (R.rnd (num / den), 1) else (num, den)

/-- `scipy.special.binom(n, k)` (external) for integers `0 ≤ k ≤ n`: the symmetry, the product
formula when fewer than 20 factors are left, otherwise a formula with the beta function, which is
left open (`beta`). -/
noncomputable def binomR (R : Rounding) (beta : ℕ → ℕ → ℝ) (n k : ℕ) : ℝ :=
  let kx := if n < 2 * k ∧ 0 < n then n - k else k
  if kx < 20 then
    let st := (List.range' 1 kx).foldl (binomStepR R n kx) (1, 1)
    R.rnd (st.1 / st.2)
  else beta n k

/-- `bosonic_space_dimension`, boson_sampling_utilities.py:206-237, with the floats of
`scipy.special.binom`; `m ≥ 1`. -/
noncomputable def bosonicSpaceDimensionR (R : Rounding) (beta : ℕ → ℕ → ℝ) (n m : ℕ)
    (losses : Bool := false) : ℤ :=
  let dimension := pyRound (binomR R beta (n + m - 1) n)
  if !losses then dimension
  else (List.range n).foldl (fun d i => d + pyRound (binomR R beta (i + m - 1) i)) dimension

end Verif
