import Verif.Spec.CliffordsR
import Verif.Spec.Floats

/-! Specification: an R sampler that reports probabilities as floats. -/
namespace Verif

/-- The R sampler returns one sample for the matrix `A`, together with a float that is its probability
up to the factor `c`. -/
structure RPmfNearFor (c : ℝ) (sampler : RSamplerPmf) (A : RMatrix) : Prop where
  output : ∀ r, (sampler A).Runs r → ∃ result p T, r = .ok (result, p) ∧ IsROutput A.nrow A.ncol 1 result ∧
    ROccupation A.nrow A.ncol 0 result T ∧ IsFloat p ∧ 0 ≤ p ∧ p ≤ c * rProb A T ∧ rProb A T ≤ c * p

end Verif
