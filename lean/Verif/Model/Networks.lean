import Verif.Py
import Mathlib.LinearAlgebra.UnitaryGroup
import Mathlib.LinearAlgebra.Matrix.NonsingularInverse
import Mathlib.Analysis.Complex.Basic
import Mathlib.Analysis.Real.Sqrt
import Mathlib.Data.Matrix.Block
import Mathlib.Logic.Equiv.Fin.Basic

/-!
Model of the functions built on the singular value decomposition: transmissivities and the expanded
interferometer of `boson_sampling_utilities.py`, the network strategies of
`network_simulation_strategy/`, and the loss extraction of
`nonuniform_losses_approximation_strategy.py`.

`numpy.linalg.svd` is an external routine: the functions take its result as an argument, and the
theorems assume `IsSvd`, numpy's documented contract. Arithmetic is exact.
-/
namespace Verif

/-- The triple returned by `numpy.linalg.svd` on an `m × m` array. -/
structure Svd (m : ℕ) where
  V : Matrix (Fin m) (Fin m) ℂ
  s : Fin m → ℝ
  U : Matrix (Fin m) (Fin m) ℂ

/-- Contract of `numpy.linalg.svd`: unitary factors, non-negative singular values in descending
order, and the product restores the matrix. -/
structure IsSvd {m : ℕ} (M : Matrix (Fin m) (Fin m) ℂ) (d : Svd m) : Prop where
  unitaryV : d.V ∈ Matrix.unitaryGroup (Fin m) ℂ
  unitaryU : d.U ∈ Matrix.unitaryGroup (Fin m) ℂ
  nonneg : ∀ i, 0 ≤ d.s i
  descending : ∀ i j, i ≤ j → d.s j ≤ d.s i
  product : M = d.V * Matrix.diagonal (fun i => (d.s i : ℂ)) * d.U

/-- `get_modes_transmissivity_values_from_matrix`, boson_sampling_utilities.py:240-261. -/
noncomputable def transmissivities {m : ℕ} (d : Svd m) : List ℝ :=
  (List.ofFn d.s).reverse.map fun x => x ^ 2

/-- `_compute_loss_transfer_matrix_expansion`, boson_sampling_utilities.py:264-284. -/
noncomputable def lossExpansion {m : ℕ} (t : Fin m → ℝ) : Matrix (Fin m) (Fin m) ℂ :=
  let losses : Fin m → ℝ := fun i => 1 - t i
  let losses : Fin m → ℝ := fun i => if losses i < 0 then 0 else losses i
  Matrix.diagonal fun i => ((Real.sqrt (losses i) : ℝ) : ℂ)

/-- `prepare_interferometer_matrix_in_expanded_space`, boson_sampling_utilities.py:287-342; rows
and columns indexed by block and position. -/
noncomputable def expandedBlocks {m : ℕ} (d : Svd m) : Matrix (Fin m ⊕ Fin m) (Fin m ⊕ Fin m) ℂ :=
  let expandedV := Matrix.fromBlocks d.V 0 0 1
  let expandedU := Matrix.fromBlocks d.U 0 0 1
  let t : Fin m → ℝ := fun i => d.s i ^ 2
  let ext := lossExpansion t
  let S : Matrix (Fin m) (Fin m) ℂ := Matrix.diagonal fun i => (d.s i : ℂ)
  expandedV * Matrix.fromBlocks S ext ext S * expandedU

/-- The same array with flat indices `0 … 2m-1`, as `numpy.block` lays it out. -/
noncomputable def expandedMatrix {m : ℕ} (d : Svd m) : Matrix (Fin (m + m)) (Fin (m + m)) ℂ :=
  (expandedBlocks d).reindex finSumFinEquiv finSumFinEquiv

/-- `A @ x` (`numpy.dot`): `ValueError` when the length does not fit. -/
noncomputable def matVec {a b : ℕ} (A : Matrix (Fin a) (Fin b) ℂ) (x : List ℂ) : Py (List ℂ) :=
  if x.length = b then .ok (List.ofFn fun i : Fin a => ∑ j : Fin b, A i j * x.getD j 0)
  else .error .valueError

/-- `LosslessNetworkSimulationStrategy(matrix).simulate`, lossless_network_simulation_strategy.py:18-29. -/
noncomputable def losslessSimulate {m : ℕ} (M : Matrix (Fin m) (Fin m) ℂ) (x : List ℂ) : Py (List ℂ) :=
  matVec M x

/-- `while len(state) > n: state = delete(state, len(state) - 1)`,
lossy_network_simulation_strategy.py:40-41. -/
def trimTo {α : Type} (fuel n : ℕ) (state : List α) : Py (List α) :=
  pyWhile fuel (fun s => pure (decide (s.length > n))) (fun s => pure s.dropLast) state

/-- `LossyNetworkSimulationStrategy(matrix).simulate`, lossy_network_simulation_strategy.py:13-45;
`d` is the decomposition of the matrix given to the constructor. -/
noncomputable def lossySimulate {m : ℕ} (fuel : ℕ) (d : Svd m) (x : List ℂ) : Py (List ℂ) :=
  if x.length = m then do
    let expandedState := x ++ List.replicate m 0
    let evolved ← matVec (expandedMatrix d) expandedState
    trimTo fuel x.length evolved
  else .error .valueError

/-- Python's `min` of a list of floats. -/
noncomputable def pyMinR : List ℝ → Py ℝ
  | [] => .error .valueError
  | x :: xs => .ok (xs.foldl (fun a b => if b < a then b else a) x)

/-- `_extract_losses_from_the_interferometer`, nonuniform_losses_approximation_strategy.py:120-144,
with `d = svd(matrix)`: the uniform losses and the remaining matrix; `none` stands for the array of
NaNs that results when the division is 0/0. -/
noncomputable def extractLosses {m : ℕ} (d : Svd m) :
    Py (ℝ × Option (Matrix (Fin m) (Fin m) ℂ)) := do
  let t : Fin m → ℝ := fun i => d.s i ^ 2
  let losses : List ℝ := List.ofFn fun i => 1 - t i
  let l ← pyMinR losses
  if 1 - l = 0 then pure (l, none)
  else
    let t' : Fin m → ℝ := fun i => t i / (1 - l)
    let s' : Fin m → ℝ := fun i => Real.sqrt (t' i)
    pure (l, some (d.V * Matrix.diagonal (fun i => (s' i : ℂ)) * d.U))

end Verif
