import Verif.Model.UniformBobs
import Verif.Model.RoundedFixed

/-!
`lossy_state_approximated_simulation_strategy.py` in floating-point arithmetic: the functions of `UniformBobs.lean`,
with the rounded operations in the order of the source.

`Φ.phase` is numpy's `exp(1j * 2 * pi * u)`; products of matrices are computed one term after the other (BLAS may use
another order). `U` is the matrix held by the permanent calculator.
-/
namespace Verif

variable (R : Rounding) (C : ComplexArith) (Φ : PhaseArith)

/-- `compute_qft_matrix`, quantum_computations_utilities.py:159-178. `exp(2j * pi / n)` is taken to have the error of
the phases; for `n = 1` only its power 0 is used. -/
noncomputable def computeQftR (n : ℕ) : Matrix (Fin n) (Fin n) ℂ :=
  let omega : ℂ := Φ.phase (1 / n)
  let vertical := (horizontalRange n).transpose
  let full : Matrix (Fin n) (Fin n) ℕ := Matrix.of fun i j => horizontalRange n i j * vertical i j
  Matrix.of fun i j => C.div (C.pow omega (full i j)) (R.rnd (Real.sqrt n))

/-- `generate_qft_matrix_for_first_m_modes`, boson_sampling_utilities.py:505-521. -/
noncomputable def generateQftR (m M : ℕ) : Py (Matrix (Fin M) (Fin M) ℂ) :=
  let small := computeQftR R C Φ m
  let qft : Matrix (Fin M) (Fin M) ℂ := 1
  if m ≤ M ∨ (m = 1 ∧ M = 0) then .ok (setCorner qft small) else .error .valueError

/-- `generate_random_phases_matrix_for_first_m_modes`, boson_sampling_utilities.py:524-542, for the numbers `r` returned
by `rand(m)`. -/
noncomputable def generatePhasesR (m M : ℕ) (r : Fin m → ℝ) : Py (Matrix (Fin M) (Fin M) ℂ) :=
  let phases : Fin M → ℂ := fun i => if h : i.1 < m then Φ.phase (r ⟨i, h⟩) else 1
  if m ≤ M ∨ (m = 1 ∧ M = 0) then .ok (Matrix.diagonal phases)
  else .error .valueError

/-- `A @ B` -/
noncomputable def matMulR {m : ℕ} (A B : Matrix (Fin m) (Fin m) ℂ) : Matrix (Fin m) (Fin m) ℂ :=
  Matrix.of fun i j => (List.finRange m).foldl (fun acc k => C.add acc (C.mul (A i k) (B k j))) 0

/-- `__init__`, lossy_state_approximated_simulation_strategy.py:42-65. -/
noncomputable def uBobsInitR {m : ℕ} (U : Matrix (Fin m) (Fin m) ℂ) (cpu : ℕ) (eta : ℝ) (h : ℕ) (threads : ℤ) :
    Py (UBobsObj m) := do
  let Q ← generateQftR R C Φ (m - h) m
  pure { h := h, eta := eta, threads := uBobsThreadsNumber cpu threads, U := U, qft := Q }

/-- `_get_possible_lossy_inputs_weights`, lossy_state_approximated_simulation_strategy.py:183-200, for a state with `n`
particles; powers and `binom` are correctly rounded. -/
noncomputable def uBobsPossibleR (eta : ℝ) (n : ℕ) : List ℝ :=
  (List.range (n + 1)).map fun l =>
    R.rnd (R.rnd (R.rnd (n.choose l) * R.rnd (eta ^ l)) * R.rnd (R.rnd (1 - eta) ^ (n - l)))

/-- `_prepare_not_approximated_lossy_mixed_state_parts_weights`,
lossy_state_approximated_simulation_strategy.py:163-181. -/
noncomputable def uBobsPartsWeightsR (eta : ℝ) (parts : List (List ℕ)) : Py (List ℝ) := do
  let last ← pyGet parts (-1)
  let possible := uBobsPossibleR R eta last.sum
  let n := last.sum
  parts.mapM fun part => do
    let w ← pyGetN possible part.sum
    pure (R.rnd (w / R.rnd (n.choose part.sum)))

/-- `_prepare_approximated_input_state`, lossy_state_approximated_simulation_strategy.py:202-246. -/
noncomputable def uBobsApproximatedR (m h : ℕ) (eta : ℝ) (part : List ℕ) : Py (List (List ℕ) × List ℝ) :=
  if ¬ h < m then pure ([[]], [1])
  else do
    let possibilities ← (List.range (part.sum + 1)).mapM fun left => pySetN (part.map fun _ => 0) 0 left
    let last ← pyGet possibilities (-1)
    pure (possibilities, uBobsPossibleR R eta last.sum)

/-- `_get_input_state_for_sampling`, lossy_state_approximated_simulation_strategy.py:312-332. -/
noncomputable def uBobsInputR (parts : List (List ℕ)) (partsWeights : List ℝ) (approx : List (List ℕ))
    (approxWeights : List ℝ) : Prog NpState := do
  let i ← npChoiceR R approx.length approxWeights
  let a ← (pyGetN approx i : Py _)
  let j ← npChoiceR R parts.length partsWeights
  let p ← (pyGetN parts j : Py _)
  pure (hstackState p a)

/-- `_get_matrix_for_approximate_sampling`, lossy_state_approximated_simulation_strategy.py:348-362, with
`_permuted_interferometer_matrix`, lines 334-346. -/
noncomputable def uBobsMatrixR {m : ℕ} (o : UBobsObj m) : Prog (Matrix (Fin m) (Fin m) ℂ) := do
  let us ← randVecR (m - o.h)
  let P ← (generatePhasesR Φ (m - o.h) m (fun i => us.getD i 0) : Py _)
  let permutation ← Prog.permutation m
  pure (matMulR C (matMulR C (permCols o.U permutation) P) o.qft)

/-- `GeneralizedCliffordsBSimulationStrategy.simulate(state)[0]` on an array (`gccbOnArray`), in floating-point
arithmetic. -/
noncomputable def gccbOnArrayF {m : ℕ} (sub : CalcCfg ℂ → Py (List ℂ)) (B : Matrix (Fin m) (Fin m) ℂ) (fuel : ℕ) :
    NpState → Prog (List ℕ)
  | .ints S => do
    let res ← gccbSimulateF R C sub (rowsOf B) fuel S 1
    (pyGetN res 0 : Py _)
  | .floats [] => pure []
  | .floats (_ :: _) => .done (.error .typeError)

/-- The loop body of `_simulate_in_parallel`, lossy_state_approximated_simulation_strategy.py:305-308. -/
noncomputable def uBobsSampleR {m : ℕ} (sub : CalcCfg ℂ → Py (List ℂ)) (fuel : ℕ) (o : UBobsObj m)
    (parts : List (List ℕ)) (partsWeights : List ℝ) (approx : List (List ℕ)) (approxWeights : List ℝ) :
    Prog (List ℕ) := do
  let st ← uBobsInputR R parts partsWeights approx approxWeights
  let B ← uBobsMatrixR C Φ o
  gccbOnArrayF R C sub B fuel st

/-- `simulate`, lossy_state_approximated_simulation_strategy.py:89-130; the parts, the split of the samples and the loops
are those of `uBobsSimulate`. -/
noncomputable def uBobsSimulateR {m : ℕ} (hash : List ℕ → ℤ) (sub : CalcCfg ℂ → Py (List ℂ)) (fuel : ℕ)
    (o : UBobsObj m) (S : List ℕ) (N : ℤ) : Prog (List (List ℕ)) :=
  if N < 1 then pure []
  else do
    let parts ← (uBobsParts hash (S.take o.h) : Py _)
    let partsWeights ← (uBobsPartsWeightsR R o.eta parts : Py _)
    let (approx, approxWeights) ← (uBobsApproximatedR R m o.h o.eta (S.drop o.h) : Py _)
    let numbers ← (distributeUniformly N.toNat o.threads : Py _)
    uBobsPool (uBobsSampleR R C Φ sub fuel o parts partsWeights approx approxWeights) numbers

end Verif
