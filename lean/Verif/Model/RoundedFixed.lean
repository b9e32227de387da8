import Verif.Model.FixedLoss
import Verif.Model.RoundedCliffordsB
import Verif.Spec.PhaseFloats

/-!
The samplers of particles that move independently in floating-point arithmetic: the functions of `FixedLoss.lean`,
with the rounded operations in the order of the source.

`Φ : PhaseArith` are numpy's `exp(1j * 2 * pi * u)` and `conjugate(z) * z`; `net` is the `simulate` method of the
network strategy, as computed.
-/
namespace Verif

variable (R : Rounding) (C : ComplexArith) (Φ : PhaseArith)

/-- `numpy.random.rand(n)` in floating-point arithmetic: multiples of `2 ^ -53`. -/
noncomputable def randVecR : ℕ → Prog (List ℝ)
  | 0 => pure []
  | n + 1 => do
    let u ← randomR
    let us ← randVecR n
    pure (u :: us)

/-- `_prepare_initial_state` before the phases, fixed_loss_simulation_strategy.py:82-87; `numpy.sqrt` is correctly
rounded. -/
noncomputable def preparedStateR (M n : ℕ) : NanList ℝ :=
  if n = 0 then .nans M
  else .vals ((List.range M).map fun i => R.rnd ((if i < n then 1 else 0) / R.rnd (Real.sqrt n)))

/-- `exp(1j * 2 * pi * rand(len)) * state`, fixed_loss_simulation_strategy.py:91-103. -/
noncomputable def withPhasesR (us state : List ℝ) : List ℂ :=
  List.zipWith (fun (u x : ℝ) => C.mul (Φ.phase u) (x : ℂ)) us state

/-- `_calculate_probabilities`, fixed_loss_simulation_strategy.py:105-116. -/
noncomputable def modeProbabilitiesR (evolved : List ℂ) : List ℝ := evolved.map Φ.sqabs

/-- The loop body of `simulate`, fixed_loss_simulation_strategy.py:57-68, with
`_calculate_approximation_of_boson_sampling_outcome`, lines 118-145. With NaN probabilities the values of the draws
do not matter, and `fixedOutcome` is used. -/
noncomputable def fixedSampleR (net : List ℂ → Py (List ℂ)) (M : ℕ) (k : ℤ) (S : List ℕ) : Prog (List ℕ) := do
  let us ← randVecR M
  match preparedStateR R M S.sum with
  | .vals st => do
    let evolved ← (net (withPhasesR C Φ us st) : Py _)
    fixedPhotonsR R (modeProbabilitiesR Φ evolved) k.toNat (List.replicate M 0)
  | .nans n => do
    let evolved ← (net (List.replicate n 0) : Py _)
    fixedOutcome M k (.nans evolved.length)

/-- The loop of `simulate`, fixed_loss_simulation_strategy.py:55-69. -/
noncomputable def fixedLoopR (net : List ℂ → Py (List ℂ)) (M : ℕ) (k : ℤ) (S : List ℕ) : ℕ → Prog (List (List ℕ))
  | 0 => pure []
  | n + 1 => do
    let s ← fixedSampleR R C Φ net M k S
    let samples ← fixedLoopR net M k S n
    pure (s :: samples)

/-- `FixedLossSimulationStrategy.simulate`, fixed_loss_simulation_strategy.py:41-69. -/
noncomputable def fixedSimulateR (net : List ℂ → Py (List ℂ)) (M : ℕ) (k : ℤ) (S : List ℕ) (N : ℤ) :
    Prog (List (List ℕ)) := fixedLoopR R C Φ net M k S N.toNat

/-- `separable_states_weights`, uniform_loss_simulation_strategy.py:51-53; powers and `binom` are correctly rounded. -/
noncomputable def separableWeightsR (n : ℕ) (eta : ℝ) : List ℝ :=
  (List.range (n + 1)).map fun l =>
    R.rnd (R.rnd (R.rnd (eta ^ l) * R.rnd (n.choose l)) * R.rnd (R.rnd (1 - eta) ^ (n - l)))

/-- The loop of `simulate`, uniform_loss_simulation_strategy.py:57-70. -/
noncomputable def uniformLoopR (net : List ℂ → Py (List ℂ)) (M : ℕ) (eta : ℝ) (S : List ℕ) : ℕ → Prog (List (List ℕ))
  | 0 => pure []
  | n + 1 => do
    let l ← npChoiceR R (S.sum + 1) (separableWeightsR R S.sum eta)
    let res ← fixedSimulateR R C Φ net M l S 1
    let s ← (pyGetN res 0 : Py _)
    let samples ← uniformLoopR net M eta S n
    pure (s :: samples)

/-- `UniformLossSimulationStrategy.simulate`, uniform_loss_simulation_strategy.py:33-72, with any network strategy (the
code uses the lossy one of the given matrix). -/
noncomputable def uniformSimulateR (net : List ℂ → Py (List ℂ)) (M : ℕ) (eta : ℝ) (S : List ℕ) (N : ℤ) :
    Prog (List (List ℕ)) := uniformLoopR R C Φ net M eta S N.toNat

/-- `LosslessNetworkSimulationStrategy(matrix).simulate`, lossless_network_simulation_strategy.py:18-29, with the sums
computed one term after the other (BLAS may use another order). -/
noncomputable def losslessSimulateR {m : ℕ} (A : Matrix (Fin m) (Fin m) ℂ) (x : List ℂ) : Py (List ℂ) :=
  if x.length = m then
    .ok (List.ofFn fun i : Fin m =>
      (List.finRange m).foldl (fun acc j => C.add acc (C.mul (A i j) (x.getD j 0))) 0)
  else .error .valueError

end Verif
