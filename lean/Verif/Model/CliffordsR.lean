import Verif.Model.Cliffords
import Verif.Model.Utilities
import Verif.Prog
import Mathlib.Data.Complex.Basic
import Mathlib.Data.Nat.Choose.Basic

/-!
Model of `theboss/simulation_strategies/cliffords_r_simulation_strategy.py`.

The R package is outside of the project: its sampler is a parameter, a program that gets an R matrix
and returns what the package returns. Floats are exact; `isclose` is modelled with its default
tolerances.
-/
namespace Verif

/-- An R matrix as made by `robjects.r.matrix(values, nrow, ncol)`. -/
structure RMatrix where
  values : List ℂ
  nrow : ℕ
  ncol : ℕ

/-- R fills matrices by columns. -/
def RMatrix.entry (A : RMatrix) (i j : ℕ) : ℂ := A.values.getD (j * A.nrow + i) 0

/-- `array(self.interferometer_matrix)[:, arange(n)]`, cliffords_r_simulation_strategy.py:84, for a
matrix with at least one row and rows of the same length. -/
def firstColumns (U : List (List ℂ)) (n : ℕ) : Py (List (List ℂ)) := do
  let first ← pyGetN U 0
  if n ≤ first.length then pure (U.map fun row => row.take n) else .error .indexError

/-- `_numpy_array_to_r_matrix`, cliffords_r_simulation_strategy.py:46-62, for an array with `n`
columns: the elements of the transposed array, row after row. -/
def toRMatrix (A : List (List ℂ)) (n : ℕ) : RMatrix where
  values := (List.range n).flatMap fun j => A.map fun row => row.getD j 0
  nrow := A.length
  ncol := n

/-- `numpy.array_split(l, N)`, cliffords_r_simulation_strategy.py:93. -/
def arraySplit {α : Type} (l : List α) (N : ℤ) : Py (List (List α)) :=
  if N ≤ 0 then .error .valueError
  else
    let N := N.toNat
    let each := l.length / N
    let extras := l.length % N
    pure ((List.range N).map fun t => (l.drop (t * each + min t extras)).take (each + if t < extras then 1 else 0))

/-- `bosonSampler(A, sampleSize, perm=FALSE)`: the first component of its result, with the columns of
the R matrix one after the other. -/
abbrev RSampler := RMatrix → ℤ → Prog (List ℤ)

/-- `bosonSampler(A, sampleSize=1, perm=TRUE)`: the first component of its result and the first entry
of the third, the probability of the sample. -/
abbrev RSamplerPmf := RMatrix → Prog (List ℤ × ℝ)

/-- `simulate`, cliffords_r_simulation_strategy.py:64-106. -/
def rSimulate (sampler : RSampler) (U : List (List ℂ)) (S : List ℕ) (N : ℤ) : Prog (List (List ℕ)) := do
  let A ← (firstColumns U S.sum : Py _)
  let result ← sampler (toRMatrix A S.sum) N
  let pieces ← (arraySplit (result.map fun x => x - 1) N : Py _)
  (pieces.mapM (fun (piece : List ℤ) => modeAssignmentToModeOccupation piece S.length) : Py _)

/-- The sample and its probability drawn in the loops of the two methods below,
cliffords_r_simulation_strategy.py:139-153 and 202-218. -/
def rDraw (sampler : RSamplerPmf) (A : RMatrix) (m : ℕ) : Prog (List ℕ × ℝ) := do
  let (result, p) ← sampler A
  let pieces ← (arraySplit (result.map fun x => x - 1) 1 : Py _)
  let piece ← (pyGetN pieces 0 : Py _)
  let sample ← (modeAssignmentToModeOccupation piece m : Py _)
  pure (sample, p)

/-- `find_probabilities`, cliffords_r_simulation_strategy.py:108-161. -/
def rFindProbabilities (sampler : RSamplerPmf) (fuel : ℕ) (U : List (List ℂ)) (S : List ℕ)
    (outcomes : List (List ℕ)) : Prog (List (List ℕ × ℝ)) := do
  let A ← (firstColumns U S.sum : Py _)
  Prog.loop fuel (fun d : List (List ℕ × ℝ) => decide (d.length ≠ outcomes.length))
    (fun d => do
      let (sample, p) ← rDraw sampler (toRMatrix A S.sum) S.length
      pure (if sample ∈ outcomes then assocSet d sample p else d)) []

/-- `numpy.isclose(x, 1)`. -/
def IsCloseToOne (x : ℝ) : Prop := |x - 1| ≤ 1e-8 + 1e-5

open Classical in
/-- `find_probabilities_of_n_random_states`, cliffords_r_simulation_strategy.py:163-230, for an input
with at least one mode; `int(binom(…))` is the binomial coefficient. -/
noncomputable def rFindRandom (sampler : RSamplerPmf) (fuel : ℕ) (U : List (List ℂ)) (S : List ℕ) (k : ℤ) :
    Prog (List (List ℕ × ℝ)) := do
  let A ← (firstColumns U S.sum : Py _)
  let dim := (S.sum + S.length - 1).choose (S.length - 1)
  let k := if (dim : ℤ) < k then (dim : ℤ) else k
  let (d, _) ← Prog.loop fuel (fun st : List (List ℕ × ℝ) × ℝ => decide ((st.1.length : ℤ) < k) || decide (¬ IsCloseToOne st.2))
    (fun st => do
      let (sample, p) ← rDraw sampler (toRMatrix A S.sum) S.length
      let d := assocSet st.1 sample p
      pure (d, (d.map Prod.snd).sum)) ([], 0)
  pure d

end Verif
