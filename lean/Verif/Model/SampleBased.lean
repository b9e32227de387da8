import Verif.Model.Distributions
import Verif.Model.Utilities
import Verif.Prog

/-!
Model of `theboss/distribution_calculators/bs_sample_based_distribution_calculator.py`.

The strategy is any program that takes an input state and a number of samples; states are lists of
natural numbers; frequencies are exact.
-/
namespace Verif

/-- The attributes of the object, bs_sample_based_distribution_calculator.py:18-28, with the fields of
the configuration that are used. -/
structure SampleCalc where
  /-- `_configuration.initial_state` -/
  initialState : List ℕ
  /-- `_configuration.number_of_modes` -/
  modes : ℤ
  /-- `_configuration.number_of_particles_left` -/
  left : ℤ
  /-- `_outcomes` -/
  outcomes : Option (List (List ℕ))
  /-- `_samples_number` -/
  samplesNumber : ℤ

/-- `SimulationStrategyInterface.simulate`. -/
abbrev Strategy := List ℕ → ℤ → Prog (List (List ℕ))

/-- `all(asarray(sample) == outcome)`, bs_sample_based_distribution_calculator.py:102-104, with numpy's
broadcasting of arrays of length 1. For other shapes older versions of numpy return `False`, on which
`all` raises `TypeError`; newer ones raise `ValueError`, reported as `TypeError` too. -/
def allEqual (sample outcome : List ℕ) : Py Bool :=
  if sample.length = outcome.length then pure (decide (sample = outcome))
  else if outcome.length = 1 then pure (sample.all fun x => decide (x = outcome.getD 0 0))
  else if sample.length = 1 then pure (outcome.all fun x => decide (sample.getD 0 0 = x))
  else .error .typeError

/-- The loop over `j`, bs_sample_based_distribution_calculator.py:101-106: the counts from index `j` on. -/
def countSample (sample : List ℕ) : List (List ℕ) → List ℕ → Py (List ℕ)
  | outcome :: outcomes, c :: counts => do
    if ← allEqual sample outcome then pure ((c + 1) :: counts)
    else do
      let rest ← countSample sample outcomes counts
      pure (c :: rest)
  | _, counts => pure counts

/-- The outcomes whose frequencies are computed, bs_sample_based_distribution_calculator.py:84-90. -/
def possibleOutcomes (fuel : ℕ) (o : SampleCalc) : Py (List (List ℕ)) :=
  match o.outcomes with
  | some l => pure l
  | none => generatePossibleStates fuel o.left o.modes

/-- `calculate_approximate_distribution`, bs_sample_based_distribution_calculator.py:74-110. -/
def approximateDistribution (strategy : Strategy) (fuel : ℕ) (o : SampleCalc) (samplesNumber : ℤ := 5000) :
    Prog (List ℚ) := do
  let outcomes ← (possibleOutcomes fuel o : Py _)
  let samples ← strategy o.initialState samplesNumber
  let counts ← (samples.foldlM (fun counts sample => countSample sample outcomes counts)
    (List.replicate outcomes.length 0) : Py _)
  (counts.mapM (fun (c : ℕ) => floatDiv (c : ℚ) (samplesNumber : ℚ)) : Py _)

/-- `calculate_distribution`, bs_sample_based_distribution_calculator.py:65-66. -/
def sampleDistribution (strategy : Strategy) (fuel : ℕ) (o : SampleCalc) : Prog (List ℚ) :=
  approximateDistribution strategy fuel o

/-- `calculate_probabilities_of_outcomes`, bs_sample_based_distribution_calculator.py:68-72: the
frequencies and the object afterwards (the outcomes stay replaced also if the computation raises). -/
def sampleProbabilities (strategy : Strategy) (fuel : ℕ) (o : SampleCalc) (outcomes : List (List ℕ)) :
    Prog (List ℚ × SampleCalc) := do
  let o' := { o with outcomes := some outcomes }
  let l ← approximateDistribution strategy fuel o'
  pure (l, o')

/-- `get_outcomes_in_proper_order`, bs_sample_based_distribution_calculator.py:112-113; `none` is
`None`. -/
def sampleOutcomes (o : SampleCalc) : Option (List (List ℕ)) := o.outcomes

end Verif
