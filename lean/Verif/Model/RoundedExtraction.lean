import Verif.Model.RoundedBobs

/-!
The constructor of `nonuniform_losses_approximation_strategy.py` in floating-point arithmetic. `d` holds the factors of the
singular value decomposition as computed by LAPACK.
-/
namespace Verif

variable (R : Rounding) (C : ComplexArith)

/-- `_extract_losses_from_the_interferometer`, nonuniform_losses_approximation_strategy.py:120-144: the uniform losses and the
remaining matrix, as computed. `none` stands for an array with infinite entries or NaNs: a division by zero of
`numpy.float64` gives `inf` or `nan` and a warning. The square of a singular value and `sqrt` are correctly rounded. -/
noncomputable def extractLossesF {m : ℕ} (d : Svd m) : Py (ℝ × Option (Matrix (Fin m) (Fin m) ℂ)) := do
  let t : Fin m → ℝ := fun i => R.rnd (d.s i ^ 2)
  let losses : List ℝ := List.ofFn fun i => R.rnd (1 - t i)
  let l ← pyMinR losses
  if R.rnd (1 - l) = 0 then pure (l, none)
  else
    let t' : Fin m → ℝ := fun i => R.rnd (t i / R.rnd (1 - l))
    let s' : Fin m → ℝ := fun i => R.rnd (Real.sqrt (t' i))
    pure (l, some (matMulR C (matMulR C d.V (Matrix.diagonal fun i => (s' i : ℂ))) d.U))

/-- `__init__`, nonuniform_losses_approximation_strategy.py:72-94. -/
noncomputable def bobsInitF {m : ℕ} (d : Svd m) (cpu : ℕ) (k threads : ℤ) : Py (BobsObj m) := do
  let (l, A) ← extractLossesF R C d
  pure { k := bobsModes m k, losses := l, initial := A, weights := [],
         threads := bobsThreadsNumber cpu threads, state := [], number := 0 }

end Verif
