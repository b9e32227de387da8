import Verif.Spec.Fock
import Mathlib.Data.Set.Card

/-! Specification for C76: the states that a draw can record. -/
namespace Verif

/-- A draw of the sampler with uniform losses can record the probability of `T`: a photon can be
added to a state `r` that fewer than `n` photons reach with positive probability. -/
def Recordable (U : List (List ℂ)) (S : List ℕ) (eta : ℝ) (T : List ℕ) : Prop :=
  0 < eta ∧ ∃ r j, r.length = S.length ∧ r.sum < S.sum ∧ j < S.length ∧ 0 < fixedLossProb U S r.sum r ∧
    T = r.modify j (· + 1)

/-- The number of states with `1` to `n` photons that no draw can record. -/
noncomputable def unrecordable (U : List (List ℂ)) (S : List ℕ) (eta : ℝ) : ℕ :=
  Set.ncard {T : List ℕ | T.length = S.length ∧ T.sum ≤ S.sum ∧ T.sum ≠ 0 ∧ ¬ Recordable U S eta T}

end Verif
