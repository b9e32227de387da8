import Verif.Model.Networks
import Verif.Prog
import Mathlib.Analysis.SpecialFunctions.Complex.Circle

/-!
Model of `fixed_loss_simulation_strategy.py`, `uniform_loss_simulation_strategy.py` and
`boson_sampling_simulator.py`.

Simplifications: arithmetic is exact; the mode probabilities `conj(z) * z` (complex numbers with
imaginary part 0) are real numbers; the entries of the samples, floats in the code, are natural
numbers.
-/
namespace Verif

/-- A float array: ordinary values, or NaN in every entry. -/
inductive NanList (α : Type) where
  | vals (l : List α)
  | nans (len : ℕ)

/-- `numpy.random.rand(n)`. -/
def randVec : ℕ → Prog (List ℝ)
  | 0 => pure []
  | n + 1 => do
    let u ← Prog.random
    let us ← randVec n
    pure (u :: us)

/-- `_prepare_initial_state` before the phases, fixed_loss_simulation_strategy.py:82-87: `n` is the
number of particles of the input, `M` the number of observed modes. For `n = 0` the division is
`0 / 0` in every entry. -/
noncomputable def preparedState (M n : ℕ) : NanList ℝ :=
  if n = 0 then .nans M
  else .vals ((List.range M).map fun i => (if i < n then 1 else 0) / Real.sqrt n)

/-- `exp(1j * 2 * pi * rand(len)) * state`, fixed_loss_simulation_strategy.py:91-103; `us` are the
values returned by `rand`. -/
noncomputable def withPhases (us state : List ℝ) : List ℂ :=
  List.zipWith (fun (u x : ℝ) => Complex.exp (Complex.I * 2 * (Real.pi : ℂ) * (u : ℂ)) * (x : ℂ)) us state

/-- `_calculate_probabilities`, fixed_loss_simulation_strategy.py:105-116. -/
noncomputable def modeProbabilities (evolved : List ℂ) : List ℝ := evolved.map Complex.normSq

/-- The scan `while x > prob`, fixed_loss_simulation_strategy.py:135-141, for ordinary values: the
first index at which the cumulative sum reaches `x`, or the number of modes if there is none. -/
noncomputable def scanReach (x : ℝ) : List ℝ → ℝ → ℕ
  | [], _ => 0
  | p :: ps, cur => if x > cur + p then scanReach x ps (cur + p) + 1 else 0

/-- The index at which the loop of lines 135-141 stops. `probabilities[0]` raises `IndexError` for
an empty array; `x > nan` is false. -/
noncomputable def photonIndex (x : ℝ) : NanList ℝ → Py ℕ
  | .vals [] => .error .indexError
  | .vals l => .ok (scanReach x l 0)
  | .nans 0 => .error .indexError
  | .nans (_ + 1) => .ok 0

def NanList.length {α : Type} : NanList α → ℕ
  | .vals l => l.length
  | .nans n => n

/-- The loop over the photons in `_calculate_approximation_of_boson_sampling_outcome`,
fixed_loss_simulation_strategy.py:132-143. -/
noncomputable def fixedPhotons (probs : NanList ℝ) : ℕ → List ℕ → Prog (List ℕ)
  | 0, output => pure output
  | k + 1, output => do
    let x ← Prog.random
    let i ← (photonIndex x probs : Py _)
    if probs.length ≠ i then do
      let v ← (pyGetN output i : Py _)
      let output ← (pySetN output i (v + 1) : Py _)
      fixedPhotons probs k output
    else fixedPhotons probs k output

/-- `_calculate_approximation_of_boson_sampling_outcome`, fixed_loss_simulation_strategy.py:118-145:
`M` is `number_of_observed_modes`, `k` is `number_of_photons_left`. -/
noncomputable def fixedOutcome (M : ℕ) (k : ℤ) (probs : NanList ℝ) : Prog (List ℕ) :=
  fixedPhotons probs k.toNat (List.replicate M 0)

/-- The loop body of `simulate`, fixed_loss_simulation_strategy.py:57-68; `net` is the `simulate`
method of the network strategy. The network strategies multiply by a matrix, which keeps NaNs: only
the length of the result and the exceptions are taken from `net`. -/
noncomputable def fixedSample (net : List ℂ → Py (List ℂ)) (M : ℕ) (k : ℤ) (S : List ℕ) : Prog (List ℕ) := do
  let us ← randVec M
  match preparedState M S.sum with
  | .vals st => do
    let evolved ← (net (withPhases us st) : Py _)
    fixedOutcome M k (.vals (modeProbabilities evolved))
  | .nans n => do
    let evolved ← (net (List.replicate n 0) : Py _)
    fixedOutcome M k (.nans evolved.length)

/-- `FixedLossSimulationStrategy.simulate`, fixed_loss_simulation_strategy.py:41-69. -/
noncomputable def fixedLoop (net : List ℂ → Py (List ℂ)) (M : ℕ) (k : ℤ) (S : List ℕ) : ℕ → Prog (List (List ℕ))
  | 0 => pure []
  | n + 1 => do
    let s ← fixedSample net M k S
    let samples ← fixedLoop net M k S n
    pure (s :: samples)

/-- `FixedLossSimulationStrategy.simulate`, fixed_loss_simulation_strategy.py:41-69. -/
noncomputable def fixedSimulate (net : List ℂ → Py (List ℂ)) (M : ℕ) (k : ℤ) (S : List ℕ) (N : ℤ) :
    Prog (List (List ℕ)) := fixedLoop net M k S N.toNat

/-- `separable_states_weights`, uniform_loss_simulation_strategy.py:51-53. -/
noncomputable def separableWeights (n : ℕ) (eta : ℝ) : List ℝ :=
  (List.range (n + 1)).map fun l => eta ^ l * (n.choose l : ℝ) * (1 - eta) ^ (n - l)

/-- The loop of `simulate`, uniform_loss_simulation_strategy.py:57-70; the simulator object
(boson_sampling_simulator.py:22-25) passes the call on with `samples_number = 1`. -/
noncomputable def uniformLoop (net : List ℂ → Py (List ℂ)) (M : ℕ) (eta : ℝ) (S : List ℕ) : ℕ → Prog (List (List ℕ))
  | 0 => pure []
  | n + 1 => do
    let l ← Prog.categorical (separableWeights S.sum eta)
    let res ← fixedSimulate net M l S 1
    let s ← (pyGetN res 0 : Py _)
    let samples ← uniformLoop net M eta S n
    pure (s :: samples)

/-- `UniformLossSimulationStrategy.simulate`, uniform_loss_simulation_strategy.py:33-72. The network
is always the lossy one of the given matrix, with decomposition `d`. -/
noncomputable def uniformSimulate {m : ℕ} (fuel : ℕ) (d : Svd m) (M : ℕ) (eta : ℝ) (S : List ℕ) (N : ℤ) :
    Prog (List (List ℕ)) := uniformLoop (lossySimulate fuel d) M eta S N.toNat

end Verif
