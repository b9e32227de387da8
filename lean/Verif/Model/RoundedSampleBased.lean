import Verif.Model.SampleBased
import Verif.Model.RoundedCliffordsU

/-!
Model of `theboss/distribution_calculators/bs_sample_based_distribution_calculator.py` in floating-point
arithmetic: the counts are floats, and so are the frequencies. States are lists of natural numbers.
-/
namespace Verif

variable (R : Rounding)

/-- The loop over `j`, bs_sample_based_distribution_calculator.py:101-106: the counts from index `j` on.
They are of type `float64` (line 94), so `+= 1` rounds. -/
noncomputable def countSampleR (sample : List ℕ) : List (List ℕ) → List ℝ → Py (List ℝ)
  | outcome :: outcomes, c :: counts => do
    if ← allEqual sample outcome then pure (R.rnd (c + 1) :: counts)
    else do
      let rest ← countSampleR sample outcomes counts
      pure (c :: rest)
  | _, counts => pure counts

/-- `calculate_approximate_distribution`, bs_sample_based_distribution_calculator.py:74-110. The number
of samples is converted to a float, then every count is divided by it. -/
noncomputable def approximateDistributionR (strategy : Strategy) (fuel : ℕ) (o : SampleCalc) (samplesNumber : ℤ := 5000) :
    Prog (List ℝ) := do
  let outcomes ← (possibleOutcomes fuel o : Py _)
  let samples ← strategy o.initialState samplesNumber
  let counts ← (samples.foldlM (fun counts sample => countSampleR R sample outcomes counts)
    (List.replicate outcomes.length 0) : Py _)
  (counts.mapM (fun (c : ℝ) =>
    if R.rnd samplesNumber = 0 then .error .zeroDivisionError else .ok (R.rnd (c / R.rnd samplesNumber))) : Py _)

/-- `GeneralizedCliffordsSimulationStrategy.simulate` and its variants,
generalized_cliffords_simulation_strategy.py:49-73: the samples. -/
noncomputable def gccStrategyR (v : GccVariant) (sq : CalcCfg ℂ → Py ℝ) (U : List (List ℂ)) (fuel : ℕ) (o : GccObj) :
    Strategy := fun S N => do
  let r ← gccSimulateR R v sq U fuel o S N
  pure r.1

/-- `GeneralizedCliffordsUniformLossesSimulationStrategy.simulate`,
generalized_cliffords_uniform_losses_simulation_strategy.py:35-50: the samples. -/
noncomputable def gccuStrategyR (sq : CalcCfg ℂ → Py ℝ) (U : List (List ℂ)) (fuel : ℕ) (o : GccuObj) : Strategy :=
  fun S N => do
    let r ← gccuSimulateR R sq U fuel o S N
    pure r.1

end Verif
