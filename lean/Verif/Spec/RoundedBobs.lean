import Verif.Spec.Dilation
import Verif.Model.CliffordsB

/-! Specification: accuracy of the embedding of a lossy network into an interferometer. -/
namespace Verif

open Matrix

/-- Accuracy of a computed embedding: whenever the entries of `B'` are within `(1 + 2^-48)^e₀ - 1` of those of the network
`B = A · P · Q` of a sample, for some phases `us`, the entries of the computed `2m × 2m` array are within `(1 + 2^-48)^e₁ - 1`
of those of some array with entries of modulus at most one that embeds `B` into an interferometer. (The singular vectors are
not continuous functions of the matrix, so which interferometer it is may depend on the rounding.) -/
def ExpandsWithin {m : ℕ} (expand : Matrix (Fin m) (Fin m) ℂ → Matrix (Fin (m + m)) (Fin (m + m)) ℂ)
    (A : Matrix (Fin m) (Fin m) ℂ) (K e₀ e₁ : ℕ) : Prop :=
  ∀ (us : Fin K → ℝ) (B' : Matrix (Fin m) (Fin m) ℂ),
    (∀ i j, ‖B' i j - (A * phaseMatrix K m us * dftMatrix K m) i j‖ ≤ (1 + 1 / 2 ^ 48) ^ e₀ - 1) →
    ∃ W : Matrix (Fin (m + m)) (Fin (m + m)) ℂ,
      IsDilation (rowsOf (A * phaseMatrix K m us * dftMatrix K m)) (rowsOf W) m m ∧ (∀ i j, ‖W i j‖ ≤ 1) ∧
      ∀ i j, ‖expand B' i j - W i j‖ ≤ (1 + 1 / 2 ^ 48) ^ e₁ - 1

end Verif
