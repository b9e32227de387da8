import Verif.Model.CliffordsB
import Verif.Model.FixedLoss
import Verif.Model.QuantumUtilities
import Verif.Model.Utilities

/-!
Model of `lossy_state_approximated_simulation_strategy.py`, for hierarchy levels `0 ≤ h ≤ m` and a
permanent calculator whose input state has as many modes as its `m × m` matrix.

The worker processes of the pool get copies of the object and draw independently: they are modelled
by running the tasks one after the other. `hash` is Python's hash of int tuples. Arithmetic is exact.
-/
namespace Verif

/-- Attributes of the object fixed by the constructor,
lossy_state_approximated_simulation_strategy.py:42-65. -/
structure UBobsObj (m : ℕ) where
  /-- `_hierarchy_level` -/
  h : ℕ
  /-- `_uniform_transmissivity` -/
  eta : ℝ
  /-- `_threads_number` -/
  threads : ℕ
  /-- the matrix of `_permanent_calculator` -/
  U : Matrix (Fin m) (Fin m) ℂ
  /-- `_qft_matrix` -/
  qft : Matrix (Fin m) (Fin m) ℂ

/-- `_get_proper_threads_number`, lossy_state_approximated_simulation_strategy.py:67-87. -/
def uBobsThreadsNumber (cpu : ℕ) (t : ℤ) : ℕ := if t < 1 ∨ t > cpu then cpu else t.toNat

/-- `__init__`, lossy_state_approximated_simulation_strategy.py:42-65. -/
noncomputable def uBobsInit {m : ℕ} (U : Matrix (Fin m) (Fin m) ℂ) (cpu : ℕ) (eta : ℝ) (h : ℕ) (threads : ℤ) :
    Py (UBobsObj m) := do
  let Q ← generateQft (m - h) m
  pure { h := h, eta := eta, threads := uBobsThreadsNumber cpu threads, U := U, qft := Q }

/-- `_get_possible_lossy_inputs_weights`, lossy_state_approximated_simulation_strategy.py:183-200, for
a state with `n` particles. -/
noncomputable def uBobsPossible (eta : ℝ) (n : ℕ) : List ℝ :=
  (List.range (n + 1)).map fun l => (n.choose l : ℝ) * eta ^ l * (1 - eta) ^ (n - l)

/-- `_prepare_not_approximated_lossy_mixed_state_parts`,
lossy_state_approximated_simulation_strategy.py:145-161. -/
def uBobsParts (hash : List ℕ → ℤ) (part : List ℕ) : Py (List (List ℕ)) :=
  (List.range (part.sum + 1)).foldlM
    (fun (acc : List (List ℕ)) (left : ℕ) => do
      let l ← generateLossyNParticleInputStates hash part left
      pure (acc ++ l)) []

/-- `_prepare_not_approximated_lossy_mixed_state_parts_weights`,
lossy_state_approximated_simulation_strategy.py:163-181. -/
noncomputable def uBobsPartsWeights (eta : ℝ) (parts : List (List ℕ)) : Py (List ℝ) := do
  let last ← pyGet parts (-1)
  let possible := uBobsPossible eta last.sum
  let n := last.sum
  parts.mapM fun part => do
    let w ← pyGetN possible part.sum
    pure (w / (n.choose part.sum : ℝ))

/-- `_prepare_approximated_input_state`, lossy_state_approximated_simulation_strategy.py:202-246: the
possibilities and their weights, for a matrix with `m` rows. -/
noncomputable def uBobsApproximated (m h : ℕ) (eta : ℝ) (part : List ℕ) : Py (List (List ℕ) × List ℝ) :=
  if ¬ h < m then pure ([[]], [1])
  else do
    let possibilities ← (List.range (part.sum + 1)).mapM fun left => pySetN (part.map fun _ => 0) 0 left
    let last ← pyGet possibilities (-1)
    pure (possibilities, uBobsPossible eta last.sum)

/-- `_distribute_uniformly`, lossy_state_approximated_simulation_strategy.py:248-271. -/
def distributeUniformly (values bins : ℕ) : Py (List ℕ) :=
  let distributed := List.replicate bins (values / bins)
  (List.range (values % bins)).foldlM
    (fun (l : List ℕ) i => do
      let x ← pyGetN l i
      pySetN l i (x + 1)) distributed

/-- The array returned by `hstack`: numpy converts the entries to floats when one of the parts is
empty. -/
inductive NpState
  | ints (l : List ℕ)
  | floats (l : List ℕ)

/-- `hstack([a, b])` on states; the array of an empty sequence has floating-point type. -/
def hstackState (a b : List ℕ) : NpState := if a = [] ∨ b = [] then .floats (a ++ b) else .ints (a ++ b)

/-- `_get_input_state_for_sampling`, lossy_state_approximated_simulation_strategy.py:312-332. -/
noncomputable def uBobsInput (parts : List (List ℕ)) (partsWeights : List ℝ) (approx : List (List ℕ))
    (approxWeights : List ℝ) : Prog NpState := do
  let i ← Prog.categorical approxWeights
  let a ← (pyGetN approx i : Py _)
  let j ← Prog.categorical partsWeights
  let p ← (pyGetN parts j : Py _)
  pure (hstackState p a)

/-- `matrix[:, permutation]`, lossy_state_approximated_simulation_strategy.py:346. -/
noncomputable def permCols {m : ℕ} (U : Matrix (Fin m) (Fin m) ℂ) (l : List ℕ) : Matrix (Fin m) (Fin m) ℂ :=
  Matrix.of fun i j => if h : l.getD j 0 < m then U i ⟨l.getD j 0, h⟩ else 0

/-- `_get_matrix_for_approximate_sampling`, lossy_state_approximated_simulation_strategy.py:348-362,
with `_permuted_interferometer_matrix`, lines 334-346. -/
noncomputable def uBobsMatrix {m : ℕ} (o : UBobsObj m) : Prog (Matrix (Fin m) (Fin m) ℂ) := do
  let us ← randVec (m - o.h)
  let P ← (generatePhases (m - o.h) m (fun i => us.getD i 0) : Py _)
  let permutation ← Prog.permutation m
  pure (permCols o.U permutation * P * o.qft)

/-- `GeneralizedCliffordsBSimulationStrategy.simulate(state)[0]` on an array: floating-point entries
make `range(mode_occupation[i])` (boson_sampling_utilities.py:75) raise `TypeError`. -/
noncomputable def gccbOnArray {m : ℕ} (sub : CalcCfg ℂ → Py (List ℂ)) (B : Matrix (Fin m) (Fin m) ℂ) (fuel : ℕ) :
    NpState → Prog (List ℕ)
  | .ints S => do
    let res ← gccbSimulate sub (rowsOf B) fuel S 1
    (pyGetN res 0 : Py _)
  | .floats [] => pure []
  | .floats (_ :: _) => .done (.error .typeError)

/-- The loop body of `_simulate_in_parallel`, lossy_state_approximated_simulation_strategy.py:305-308. -/
noncomputable def uBobsSample {m : ℕ} (sub : CalcCfg ℂ → Py (List ℂ)) (fuel : ℕ) (o : UBobsObj m)
    (parts : List (List ℕ)) (partsWeights : List ℝ) (approx : List (List ℕ)) (approxWeights : List ℝ) :
    Prog (List ℕ) := do
  let st ← uBobsInput parts partsWeights approx approxWeights
  let B ← uBobsMatrix o
  gccbOnArray sub B fuel st

/-- `_simulate_in_parallel`, lossy_state_approximated_simulation_strategy.py:287-310: `sample` is
executed `n` times. -/
noncomputable def uBobsTask (sample : Prog (List ℕ)) : ℕ → Prog (List (List ℕ))
  | 0 => pure []
  | n + 1 => do
    let s ← sample
    let l ← uBobsTask sample n
    pure (s :: l)

/-- `p.map(…)`, lossy_state_approximated_simulation_strategy.py:123-126: one list of samples for each thread. -/
noncomputable def uBobsMap (sample : Prog (List ℕ)) : List ℕ → Prog (List (List (List ℕ)))
  | [] => pure []
  | n :: ns => do
    let l ← uBobsTask sample n
    let ls ← uBobsMap sample ns
    pure (l :: ls)

/-- `p.map(…)` and the concatenation, lossy_state_approximated_simulation_strategy.py:123-128. -/
noncomputable def uBobsPool (sample : Prog (List ℕ)) (ns : List ℕ) : Prog (List (List ℕ)) := do
  let ls ← uBobsMap sample ns
  pure ls.flatten

/-- `simulate` for at least one sample up to `samples_lists`, lossy_state_approximated_simulation_strategy.py:107-126,
with the two helpers 132-143 (both parts of the not approximated state) and 273-285 (samples for each
thread). The attributes it sets are set anew by every call. -/
noncomputable def uBobsThreads {m : ℕ} (hash : List ℕ → ℤ) (sub : CalcCfg ℂ → Py (List ℂ)) (fuel : ℕ)
    (o : UBobsObj m) (S : List ℕ) (N : ℤ) : Prog (List (List (List ℕ))) := do
  let parts ← (uBobsParts hash (S.take o.h) : Py _)
  let partsWeights ← (uBobsPartsWeights o.eta parts : Py _)
  let (approx, approxWeights) ← (uBobsApproximated m o.h o.eta (S.drop o.h) : Py _)
  let numbers ← (distributeUniformly N.toNat o.threads : Py _)
  uBobsMap (uBobsSample sub fuel o parts partsWeights approx approxWeights) numbers

/-- `simulate`, lossy_state_approximated_simulation_strategy.py:89-130: the lists of the threads are concatenated. -/
noncomputable def uBobsSimulate {m : ℕ} (hash : List ℕ → ℤ) (sub : CalcCfg ℂ → Py (List ℂ)) (fuel : ℕ)
    (o : UBobsObj m) (S : List ℕ) (N : ℤ) : Prog (List (List ℕ)) :=
  if N < 1 then pure []
  else do
    let samplesLists ← uBobsThreads hash sub fuel o S N
    pure samplesLists.flatten

end Verif
