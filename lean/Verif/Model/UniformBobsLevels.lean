import Verif.Model.UniformBobs

/-!
Model of `lossy_state_approximated_simulation_strategy.py` for every integer hierarchy level and for
permanent calculators whose input state has any number `k` of modes (`k = 0` when it was never set).
For `k = m` and `0 ≤ h ≤ m` it agrees with `Verif.Model.UniformBobs`
(`uAnySimulate_eq` in `Verif.Proofs.UniformBobsLevels`).
-/
namespace Verif

/-- `l[:h]` -/
def pyTake {α : Type} (l : List α) (h : ℤ) : List α :=
  if 0 ≤ h then l.take h.toNat else l.take (l.length + h).toNat

/-- `l[h:]` -/
def pyDrop {α : Type} (l : List α) (h : ℤ) : List α :=
  if 0 ≤ h then l.drop h.toNat else l.drop (l.length + h).toNat

/-- `generate_qft_matrix_for_first_m_modes`, boson_sampling_utilities.py:505-521, for any integer:
`compute_qft_matrix` (quantum_computations_utilities.py:159-178) of a negative number raises
`ValueError` in `reshape(n, n)`. -/
noncomputable def generateQftInt (n : ℤ) (M : ℕ) : Py (Matrix (Fin M) (Fin M) ℂ) :=
  if n < 0 then .error .valueError else generateQft n.toNat M

/-- Attributes of the object, lossy_state_approximated_simulation_strategy.py:42-65. -/
structure UAnyObj (m k : ℕ) where
  /-- `_hierarchy_level` -/
  h : ℤ
  /-- `_uniform_transmissivity` -/
  eta : ℝ
  /-- `_threads_number` -/
  threads : ℕ
  /-- the matrix of `_permanent_calculator` -/
  U : Matrix (Fin m) (Fin m) ℂ
  /-- `_qft_matrix`: its size is the number of modes of the calculator's input state -/
  qft : Matrix (Fin k) (Fin k) ℂ

/-- `__init__`, lossy_state_approximated_simulation_strategy.py:42-65; `k` is
`len(bs_permanent_calculator.input_state)`. -/
noncomputable def uAnyInit {m : ℕ} (k : ℕ) (U : Matrix (Fin m) (Fin m) ℂ) (cpu : ℕ) (eta : ℝ) (h threads : ℤ) :
    Py (UAnyObj m k) := do
  let Q ← generateQftInt (k - h) k
  pure { h := h, eta := eta, threads := uBobsThreadsNumber cpu threads, U := U, qft := Q }

/-- `_prepare_approximated_input_state`, lossy_state_approximated_simulation_strategy.py:202-246, for a
matrix with `m` rows. -/
noncomputable def uAnyApproximated (m : ℕ) (h : ℤ) (eta : ℝ) (part : List ℕ) : Py (List (List ℕ) × List ℝ) :=
  if ¬ (0 ≤ h ∧ h < m) then pure ([[]], [1])
  else do
    let possibilities ← (List.range (part.sum + 1)).mapM fun left => pySetN (part.map fun _ => 0) 0 left
    let last ← pyGet possibilities (-1)
    pure (possibilities, uBobsPossible eta last.sum)

/-- `_get_matrix_for_approximate_sampling`, lossy_state_approximated_simulation_strategy.py:348-362:
`rand` of a negative number raises `ValueError`, and so does the product of an `m × m` and a `k × k`
matrix for `k ≠ m`. -/
noncomputable def uAnyMatrix {m k : ℕ} (o : UAnyObj m k) : Prog (Matrix (Fin m) (Fin m) ℂ) :=
  if (k : ℤ) - o.h < 0 then .done (.error .valueError)
  else do
    let us ← randVec ((k : ℤ) - o.h).toNat
    let P ← (generatePhases ((k : ℤ) - o.h).toNat k (fun i => us.getD i 0) : Py _)
    let permutation ← Prog.permutation m
    if e : m = k then
      pure (permCols o.U permutation * (e ▸ P) * (e ▸ o.qft))
    else .done (.error .valueError)

/-- The loop body of `_simulate_in_parallel`, lossy_state_approximated_simulation_strategy.py:305-308. -/
noncomputable def uAnySample {m k : ℕ} (sub : CalcCfg ℂ → Py (List ℂ)) (fuel : ℕ) (o : UAnyObj m k)
    (parts : List (List ℕ)) (partsWeights : List ℝ) (approx : List (List ℕ)) (approxWeights : List ℝ) :
    Prog (List ℕ) := do
  let st ← uBobsInput parts partsWeights approx approxWeights
  let B ← uAnyMatrix o
  gccbOnArray sub B fuel st

/-- `simulate`, lossy_state_approximated_simulation_strategy.py:89-130. -/
noncomputable def uAnySimulate {m k : ℕ} (hash : List ℕ → ℤ) (sub : CalcCfg ℂ → Py (List ℂ)) (fuel : ℕ)
    (o : UAnyObj m k) (S : List ℕ) (N : ℤ) : Prog (List (List ℕ)) :=
  if N < 1 then pure []
  else do
    let parts ← (uBobsParts hash (pyTake S o.h) : Py _)
    let partsWeights ← (uBobsPartsWeights o.eta parts : Py _)
    let (approx, approxWeights) ← (uAnyApproximated m o.h o.eta (pyDrop S o.h) : Py _)
    let numbers ← (distributeUniformly N.toNat o.threads : Py _)
    uBobsPool (uAnySample sub fuel o parts partsWeights approx approxWeights) numbers

end Verif
