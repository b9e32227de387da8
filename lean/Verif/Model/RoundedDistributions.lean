import Verif.Spec.Floats
import Verif.Model.Distributions
import Mathlib.Algebra.Order.Archimedean.Real.Basic
import Mathlib.Algebra.Order.Floor.Ring

/-!
The exact distribution calculators in floating-point arithmetic, with the conventions of `Rounded.lean`: every
operation of floats and every conversion of an integer to a float is rounded; `pow` and `scipy.special.binom` return
the rounded exact values; `sq` gives the values `abs(compute_permanent()) ** 2` of the permanent calculator.
-/
namespace Verif

variable (R : Rounding)

/-- `x / n` for a float and a positive integer. -/
noncomputable def divIntR (x : ℝ) (n : ℕ) : Py ℝ :=
  if R.rnd n = 0 then .error .zeroDivisionError else .ok (R.rnd (x / R.rnd n))

/-- `__compute_lossy_input_multiplicity`, bs_distribution_calculator_with_fixed_losses.py:153-169: the binomials and
their product are floats, the product is truncated to an integer. -/
noncomputable def lossyInputMultiplicityR (initial lossy : List ℕ) : Py ℤ := do
  let x ← (List.range lossy.length).foldlM
    (fun (acc : ℝ) i => do
      let x ← pyGetN initial i
      let y ← pyGetN lossy i
      let d ← natSub x y
      pure (R.rnd (acc * R.rnd (x.choose d))))
    1
  pure ⌊x⌋

/-- `__compute_probability_of_outcome_state_for_indistinguishable_photons`,
bs_distribution_calculator_with_fixed_losses.py:108-151. -/
noncomputable def probabilityForIndistinguishableR (sq : CalcCfg ℂ → Py ℝ) (hash : List ℕ → ℤ) (c : ExpConfig ℂ ℝ)
    (outcome : List ℕ) : Py ℝ := do
  let lossyInputs ← generateLossyNParticleInputStates hash c.initialState c.left
  let (p, lossyInput) ← lossyInputs.foldlM
    (fun (st : ℝ × Option (List ℕ)) lossyInput => do
      let mult ← lossyInputMultiplicityR R c.initialState lossyInput
      let x ← sq ⟨c.matrix, lossyInput, outcome⟩
      let sub ← lossyInput.foldlM (fun (sub : ℝ) (o : ℕ) => divIntR R sub o.factorial) x
      pure (R.rnd (st.1 + R.rnd (sub * R.rnd mult)), some lossyInput)) (0, none)
  match lossyInput with
  | none => .error .nameError
  | some l => do
    let p ← divIntR R p l.sum.factorial
    divIntR R p (c.initialNumber.choose c.left)

/-- `__calculate_probability_of_outcome`, bs_distribution_calculator_with_fixed_losses.py:84-106. -/
noncomputable def fixedLossOutcomeR (sq : CalcCfg ℂ → Py ℝ) (hash : List ℕ → ℤ) (c : ExpConfig ℂ ℝ) (outcome : List ℕ) :
    Py ℝ := do
  let p ← probabilityForIndistinguishableR R sq hash c outcome
  (List.range c.modes).foldlM
    (fun (p : ℝ) i => do
      let t ← pyGetN outcome i
      divIntR R p t.factorial)
    (R.rnd (p * R.rnd c.left.factorial))

/-- `calculate_probabilities_of_outcomes`, bs_distribution_calculator_with_fixed_losses.py:65-82. -/
noncomputable def fixedLossProbabilitiesR (sq : CalcCfg ℂ → Py ℝ) (hash : List ℕ → ℤ) (c : ExpConfig ℂ ℝ)
    (outcomes : List (List ℕ)) : Py (List ℝ) :=
  outcomes.mapM (fixedLossOutcomeR R sq hash c)

/-- `calculate_distribution`, bs_distribution_calculator_with_fixed_losses.py:52-63. -/
noncomputable def fixedLossDistributionR (sq : CalcCfg ℂ → Py ℝ) (hash : List ℕ → ℤ) (fuel : ℕ) (c : ExpConfig ℂ ℝ) :
    Py (List ℝ) := do
  let outcomes ← fixedLossOutcomes fuel c
  fixedLossProbabilitiesR R sq hash c outcomes

/-- `_initialize_weights`, bs_exact_distribution_with_uniform_losses.py:42-60. -/
noncomputable def initializeWeightsR (c : ExpConfig ℂ ℝ) : List ℝ :=
  (List.range (c.initialNumber + 1)).map fun l =>
    R.rnd (R.rnd (R.rnd (c.eta ^ l) * R.rnd (c.initialNumber.choose l))
      * R.rnd (R.rnd (1 - c.eta) ^ (c.initialNumber - l)))

/-- The constructor, bs_exact_distribution_with_uniform_losses.py:25-32. -/
noncomputable def uniformCalcR (c : ExpConfig ℂ ℝ) : UniformCalc ℂ ℝ :=
  { config := c, weights := initializeWeightsR R c, weightless := false }

/-- `set_weightless`, bs_exact_distribution_with_uniform_losses.py:34-40. -/
noncomputable def setWeightlessR (u : UniformCalc ℂ ℝ) (weightless : Bool) : UniformCalc ℂ ℝ :=
  let u := if !weightless then { u with weights := initializeWeightsR R u.config }
    else { u with weights := u.weights.map fun _ => 1 }
  { u with weightless := weightless }

/-- `_calculate_probability_of_outcome`, bs_exact_distribution_with_uniform_losses.py:73-97. -/
noncomputable def uniformOutcomeR (sq : CalcCfg ℂ → Py ℝ) (hash : List ℕ → ℤ) (u : UniformCalc ℂ ℝ) (outcome : List ℕ) :
    Py ℝ := do
  let l := outcome.sum
  if l = 0 then
    pyGetN u.weights 0
  else
    let n := u.config.initialNumber
    let sub := { u.config with left := l, lost := (n : ℤ) - l }
    let ps ← fixedLossProbabilitiesR R sq hash sub [outcome]
    let p ← pyGetN ps 0
    let w ← pyGetN u.weights l
    pure (R.rnd (p * w))

/-- `calculate_probabilities_of_outcomes`, bs_exact_distribution_with_uniform_losses.py:62-71
(`Pool.map` returns the results in order). -/
noncomputable def uniformProbabilitiesR (sq : CalcCfg ℂ → Py ℝ) (hash : List ℕ → ℤ) (u : UniformCalc ℂ ℝ)
    (outcomes : List (List ℕ)) : Py (List ℝ) :=
  outcomes.mapM (uniformOutcomeR R sq hash u)

/-- `calculate_distribution` (inherited), bs_distribution_calculator_with_fixed_losses.py:52-63. -/
noncomputable def uniformDistributionR (sq : CalcCfg ℂ → Py ℝ) (hash : List ℕ → ℤ) (fuel : ℕ) (u : UniformCalc ℂ ℝ) :
    Py (List ℝ) := do
  let outcomes ← uniformOutcomes fuel u.config
  uniformProbabilitiesR R sq hash u outcomes

end Verif
