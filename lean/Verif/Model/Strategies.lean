import Verif.Model.CliffordsB
import Verif.Model.CliffordsU
import Verif.Model.SampleBased

/-!
The sampling objects as strategies of the sample-based calculator: the calculator
(bs_sample_based_distribution_calculator.py:92-94) and `BosonSamplingSimulator`
(boson_sampling_simulator.py:18-25) only call `simulate` and use the returned samples. The state of the
object before the call is a parameter, its state afterwards is dropped.
-/
namespace Verif

/-- `GeneralizedCliffordsSimulationStrategy.simulate` (and its mode-assignment variant),
generalized_cliffords_simulation_strategy.py:49-73. -/
noncomputable def gccStrategy (v : GccVariant) (perm : CalcCfg ℂ → Py ℂ) (U : List (List ℂ)) (fuel : ℕ) (o : GccObj) :
    Strategy := fun S N => do
  let r ← gccSimulate v perm U fuel o S N
  pure r.1

/-- `GeneralizedCliffordsBSimulationStrategy.simulate`,
generalized_cliffords_b_simulation_strategy.py:41-67. -/
noncomputable def gccbStrategy (sub : CalcCfg ℂ → Py (List ℂ)) (U : List (List ℂ)) (fuel : ℕ) : Strategy :=
  fun S N => gccbSimulate sub U fuel S N

/-- `GeneralizedCliffordsUniformLossesSimulationStrategy.simulate`,
generalized_cliffords_uniform_losses_simulation_strategy.py:35-50. -/
noncomputable def gccuStrategy (perm : CalcCfg ℂ → Py ℂ) (U : List (List ℂ)) (fuel : ℕ) (o : GccuObj) : Strategy :=
  fun S N => do
    let r ← gccuSimulate perm U fuel o S N
    pure r.1

/-- `GeneralizedCliffordsBUniformLossesSimulationStrategy.simulate`,
generalized_cliffords_b_uniform_losses_simulation_strategy.py:87-109. -/
noncomputable def gccbLossyStrategy (sub : CalcCfg ℂ → Py (List ℂ)) (U : List (List ℂ)) (fuel : ℕ) (eta : ℝ) :
    Strategy := fun S N => gccbLossySimulate sub U fuel eta S N

/-- `BosonSamplingSimulator.get_classical_simulation_results`, boson_sampling_simulator.py:22-25. -/
def simulatorResults (strategy : Strategy) (S : List ℕ) (N : ℤ := 1) : Prog (List (List ℕ)) := strategy S N

end Verif
