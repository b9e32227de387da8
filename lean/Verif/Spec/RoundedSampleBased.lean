import Verif.Model.RoundedTvd

/-! Specification: distributions estimated from samples in floating-point arithmetic. -/
namespace Verif

/-- The entries of `l` are the fractions of `samples` equal to each outcome, among `N`, each rounded
once. -/
def IsRoundedFrequencies (R : Rounding) (outs samples : List (List ℕ)) (N : ℕ) (l : List ℝ) : Prop :=
  l.length = outs.length ∧ ∀ i : ℕ, i < outs.length →
    l.getD i 0 = R.rnd (((samples.filter fun s => decide (s = outs.getD i [])).length : ℝ) / N)

/-- The estimation went wrong: it raised, or the computed total variation distance between the estimate
and the list `exact` is not below `ε`. -/
def MissesR (R : Rounding) (exact : List ℝ) (ε : ℝ) (r : Py (List ℝ)) : Prop :=
  ¬ ∃ freq d, r = .ok freq ∧ countTvdR R freq exact = .ok d ∧ d < ε

/-- An error bound `b` for the exact distance, enlarged by the errors of the computed distance between
`K` frequencies and a distribution known up to the total error `D`. -/
noncomputable def estimateBound (K : ℕ) (b D : ℝ) : ℝ :=
  (1 + K / 2 ^ 52) * (b + D / 2 + 1 / 2 ^ 54) + 2 ^ (-1075 : ℤ)

end Verif
