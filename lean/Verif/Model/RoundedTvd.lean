import Verif.Model.QuantumUtilities
import Verif.Model.Rounded

/-!
Model of the total variation distances of `theboss/quantum_computations_utilities.py` in
floating-point arithmetic: every subtraction, addition and halving is rounded to nearest.

`abs` is numpy's (line 10), so the summands are `numpy.float64` numbers. Python's `sum` adds them one
after the other (its compensated summation is for objects of type `float` only).
-/
namespace Verif

variable (R : Rounding)

/-- `count_total_variation_distance`, quantum_computations_utilities.py:57-79, on lists of floats. -/
noncomputable def countTvdR (d1 d2 : List ℝ) : Py ℝ :=
  if d1.length ≠ d2.length then .error .assertionError
  else do
    let total ← (List.range d1.length).foldlM (fun (acc : ℝ) i => do
      let a ← pyGetN d1 i
      let b ← pyGetN d2 i
      pure (R.rnd (acc + |R.rnd (a - b)|))) 0
    pure (R.rnd (total / 2))

/-- `count_total_variation_distance_dicts`, quantum_computations_utilities.py:25-54, on dictionaries of
floats (a missing key is the integer 0). The order of the set of keys is left open, as in
`countTvdDicts`. -/
noncomputable def countTvdDictsR {κ : Type} [DecidableEq κ] (setOrder : List κ → List κ)
    (d1 d2 : List (κ × ℝ)) : ℝ :=
  let keys := setOrder (d1.map Prod.fst ++ d2.map Prod.fst)
  R.rnd (1 / 2 * sumR R (keys.map fun key => |R.rnd (dictGetZero d1 key - dictGetZero d2 key)|))

end Verif
