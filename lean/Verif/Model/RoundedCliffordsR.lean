import Verif.Model.CliffordsR
import Verif.Model.RoundedCounting
import Verif.Model.Rounded
import Verif.Model.QuantumUtilities

/-!
`find_probabilities_of_n_random_states` of
`theboss/simulation_strategies/cliffords_r_simulation_strategy.py` in floating-point arithmetic: the
number of states is `int` of a float, and the probabilities are added as floats, in the order in which
the states entered the dictionary.
-/
namespace Verif

/-- `d[key] = value` for a Python dictionary, which keeps the order of insertion. -/
def dictAssign {κ V : Type} [DecidableEq κ] (d : List (κ × V)) (key : κ) (value : V) : List (κ × V) :=
  if key ∈ d.map Prod.fst then d.map fun e => if e.1 = key then (key, value) else e
  else d ++ [(key, value)]

/-- `numpy.isclose(x, 1)` (external): `abs(x - y) <= atol + rtol * abs(y)` with the floats `1e-8` and
`1e-5`. -/
def IsCloseToOneR (R : Rounding) (x : ℝ) : Prop := |R.rnd (x - 1)| ≤ R.rnd (R.rnd 1e-8 + R.rnd 1e-5)

/-- `int(binom(n + m - 1, m - 1))`, cliffords_r_simulation_strategy.py:191-192. -/
noncomputable def rDimensionR (R : Rounding) (beta : ℕ → ℕ → ℝ) (n m : ℕ) : ℤ :=
  pyInt (binomR R beta (n + m - 1) (m - 1))

open Classical in
/-- `find_probabilities_of_n_random_states`, cliffords_r_simulation_strategy.py:163-230, for an input
with at least one mode. -/
noncomputable def rFindRandomR (R : Rounding) (beta : ℕ → ℕ → ℝ) (sampler : RSamplerPmf) (fuel : ℕ)
    (U : List (List ℂ)) (S : List ℕ) (k : ℤ) : Prog (List (List ℕ × ℝ)) := do
  let A ← (firstColumns U S.sum : Py _)
  let dim := rDimensionR R beta S.sum S.length
  let k := if dim < k then dim else k
  let (d, _) ← Prog.loop fuel
    (fun st : List (List ℕ × ℝ) × ℝ => decide ((st.1.length : ℤ) < k) || decide (¬ IsCloseToOneR R st.2))
    (fun st => do
      let (sample, p) ← rDraw sampler (toRMatrix A S.sum) S.length
      let d := dictAssign st.1 sample p
      pure (d, sumR R (d.map Prod.snd))) ([], 0)
  pure d

end Verif
