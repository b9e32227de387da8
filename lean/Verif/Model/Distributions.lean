import Verif.Model.Permanents
import Verif.Model.Multiplicity

/-!
Model of the exact distribution calculators
(`theboss/distribution_calculators/bs_distribution_calculator_with_fixed_losses.py` and
`bs_exact_distribution_with_uniform_losses.py`).

The numbers are those of a field `K` (amplitudes, `complex128`) and a field `R` (probabilities,
`float64`), in exact arithmetic; `nsq` is `abs(·) ** 2`.  The permanent calculator object is a
function `perm` from the matrix and the states set on it to the returned permanent: the code sets
all three before every `compute_permanent()`, and by C19 a calculator has no other state.  C75 proves
that this agrees with a model in which the object is shared and mutable.
-/
namespace Verif

variable {K R : Type} [Field K] [Field R] [DecidableEq R]

/-- `BosonSamplingExperimentConfiguration`, bs_distribution_calculator_interface.py:11-27 (the
network simulation strategy and the hierarchy level are not used by the exact calculators). -/
structure ExpConfig (K R : Type) where
  matrix : List (List K)
  initialState : List Nat
  initialNumber : Nat
  modes : Nat
  lost : Int
  left : Nat
  eta : R

/-- `x / y` for floats: division by zero gives `inf` or `nan` (or `ZeroDivisionError` for Python
floats); the model reports all of them as `zeroDivisionError`. -/
def floatDiv (x y : R) : Py R :=
  if y = 0 then .error .zeroDivisionError else .ok (x / y)

/-- `__compute_probability_of_outcome_state_for_indistinguishable_photons`,
bs_distribution_calculator_with_fixed_losses.py:108-151.  `sum(lossy_input)` after the loop reads
the loop variable, which is unbound (`UnboundLocalError`, a `NameError`) if there was no lossy
input. -/
def probabilityForIndistinguishable (nsq : K → R) (perm : CalcCfg K → Py K)
    (hash : List Nat → Int) (c : ExpConfig K R) (outcome : List Nat) : Py R := do
  let lossyInputs ← generateLossyNParticleInputStates hash c.initialState c.left
  let (p, lossyInput) ← lossyInputs.foldlM
    (fun (st : R × Option (List Nat)) lossyInput => do
      let mult ← lossyInputMultiplicity c.initialState lossyInput
      let x ← perm ⟨c.matrix, lossyInput, outcome⟩
      let sub ← lossyInput.foldlM (fun (sub : R) (o : Nat) => floatDiv sub (o.factorial : R)) (nsq x)
      pure (st.1 + sub * (mult : R), some lossyInput)) (0, none)
  match lossyInput with
  | none => .error .nameError
  | some l => do
    let p ← floatDiv p ((l.sum.factorial : Nat) : R)
    floatDiv p ((c.initialNumber.choose c.left : Nat) : R)

/-- `__calculate_probability_of_outcome`,
bs_distribution_calculator_with_fixed_losses.py:84-106. -/
def fixedLossOutcome (nsq : K → R) (perm : CalcCfg K → Py K) (hash : List Nat → Int)
    (c : ExpConfig K R) (outcome : List Nat) : Py R := do
  let p ← probabilityForIndistinguishable nsq perm hash c outcome
  (List.range c.modes).foldlM
    (fun (p : R) i => do
      let t ← pyGetN outcome i
      floatDiv p ((t.factorial : Nat) : R))
    (p * ((c.left.factorial : Nat) : R))

/-- `calculate_probabilities_of_outcomes`,
bs_distribution_calculator_with_fixed_losses.py:65-82. -/
def fixedLossProbabilities (nsq : K → R) (perm : CalcCfg K → Py K) (hash : List Nat → Int)
    (c : ExpConfig K R) (outcomes : List (List Nat)) : Py (List R) :=
  outcomes.mapM (fixedLossOutcome nsq perm hash c)

/-- `get_outcomes_in_proper_order`, bs_distribution_calculator_with_fixed_losses.py:38-50. -/
def fixedLossOutcomes (fuel : Nat) (c : ExpConfig K R) : Py (List (List Nat)) :=
  generatePossibleStates fuel c.left c.modes

/-- `calculate_distribution`, bs_distribution_calculator_with_fixed_losses.py:52-63. -/
def fixedLossDistribution (nsq : K → R) (perm : CalcCfg K → Py K) (hash : List Nat → Int)
    (fuel : Nat) (c : ExpConfig K R) : Py (List R) := do
  let outcomes ← fixedLossOutcomes fuel c
  fixedLossProbabilities nsq perm hash c outcomes

/-! ### Uniform losses -/

/-- The attributes of `BSDistributionCalculatorWithUniformLosses`
(bs_exact_distribution_with_uniform_losses.py:25-32) besides the permanent calculator. -/
structure UniformCalc (K R : Type) where
  config : ExpConfig K R
  weights : List R
  weightless : Bool

/-- `_initialize_weights`, bs_exact_distribution_with_uniform_losses.py:42-60. -/
def initializeWeights (c : ExpConfig K R) : List R :=
  (List.range (c.initialNumber + 1)).map fun l =>
    c.eta ^ l * ((c.initialNumber.choose l : Nat) : R) * (1 - c.eta) ^ (c.initialNumber - l)

/-- The constructor, bs_exact_distribution_with_uniform_losses.py:25-32. -/
def uniformCalc (c : ExpConfig K R) : UniformCalc K R :=
  { config := c, weights := initializeWeights c, weightless := false }

/-- `set_weightless`, bs_exact_distribution_with_uniform_losses.py:34-40. -/
def setWeightless (u : UniformCalc K R) (weightless : Bool) : UniformCalc K R :=
  let u := if !weightless then { u with weights := initializeWeights u.config }
    else { u with weights := u.weights.map fun _ => 1 }
  { u with weightless := weightless }

/-- `_calculate_probability_of_outcome`, bs_exact_distribution_with_uniform_losses.py:73-97. -/
def uniformOutcome (nsq : K → R) (perm : CalcCfg K → Py K) (hash : List Nat → Int)
    (u : UniformCalc K R) (outcome : List Nat) : Py R := do
  let l := outcome.sum
  if l = 0 then
    pyGetN u.weights 0
  else
    let n := u.config.initialNumber
    let sub := { u.config with left := l, lost := (n : Int) - l }
    let ps ← fixedLossProbabilities nsq perm hash sub [outcome]
    let p ← pyGetN ps 0
    let w ← pyGetN u.weights l
    pure (p * w)

/-- `calculate_probabilities_of_outcomes`, bs_exact_distribution_with_uniform_losses.py:62-71
(`Pool.map` returns the results in order). -/
def uniformProbabilities (nsq : K → R) (perm : CalcCfg K → Py K) (hash : List Nat → Int)
    (u : UniformCalc K R) (outcomes : List (List Nat)) : Py (List R) :=
  outcomes.mapM (uniformOutcome nsq perm hash u)

/-- `get_outcomes_in_proper_order`, bs_exact_distribution_with_uniform_losses.py:99-104. -/
def uniformOutcomes (fuel : Nat) (c : ExpConfig K R) : Py (List (List Nat)) :=
  generatePossibleStates fuel c.initialNumber c.modes true

/-- `calculate_distribution` (inherited), bs_distribution_calculator_with_fixed_losses.py:52-63. -/
def uniformDistribution (nsq : K → R) (perm : CalcCfg K → Py K) (hash : List Nat → Int)
    (fuel : Nat) (u : UniformCalc K R) : Py (List R) := do
  let outcomes ← uniformOutcomes fuel u.config
  uniformProbabilities nsq perm hash u outcomes

end Verif
