import Verif.Spec.Dilation

/-! Specification: losing particles of observed states. -/
namespace Verif

open Finset

/-- The probability that a uniformly random set of `k` particles of `T'` forms the state `T`. -/
noncomputable def keepProb (T' : List ℕ) (k : ℕ) (T : List ℕ) : ℝ :=
  ((powersetCard k (univ : Finset (Particle T'))).filter fun A => stateOf A = T).card / (T'.sum.choose k : ℝ)

/-- The probability that `T` is left of `T'` when every particle survives with probability `eta`,
independently of the others. -/
noncomputable def thinProb (eta : ℝ) (T' T : List ℕ) : ℝ :=
  (List.zipWith (fun n l => binomialWeight n l eta) T' T).prod

/-- Expectation over the lists left when the particles of every state of a list are lost
independently. -/
noncomputable def expLossAll (eta : ℝ) : List (List ℕ) → (List (List ℕ) → ENNReal) → ENNReal
  | [], g => g []
  | T :: l, g => expLoss eta T fun L => expLossAll eta l fun l' => g (L :: l')

end Verif
