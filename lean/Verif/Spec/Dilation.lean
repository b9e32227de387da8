import Verif.Spec.Fock
import Mathlib.Data.ENNReal.Real
import Mathlib.Analysis.SpecialFunctions.Complex.Circle

/-! Specification: lossy networks. -/
namespace Verif

open Finset

/-- `W` embeds the `m`-column array `B` into an interferometer with `b` more output modes: the first
`m` rows of its first `m` columns are those of `B`, and these columns are orthonormal. -/
structure IsDilation (B W : List (List ℂ)) (m b : ℕ) : Prop where
  embeds : ∀ i < m, ∀ j < m, mget W i j = mget B i j
  isometric : Orthonormal W (m + b) m

/-- The probability that the first modes show `T` when the particles of `S` enter the interferometer
`W`: the sum over all the ways the missing particles can leave through `b` further modes. -/
noncomputable def lossyProb (W : List (List ℂ)) (b : ℕ) (S T : List ℕ) : ℝ :=
  ∑ E ∈ (Fintype.piFinset fun _ : Fin b => range (S.sum + 1)).filter (fun E => ∑ i, E i + T.sum = S.sum),
    bosonProb W S (T ++ List.ofFn E)

/-- Expectation over the states left of `S` when in each mode, independently, a binomial number of
particles survives. -/
noncomputable def expLoss (eta : ℝ) : List ℕ → (List ℕ → ENNReal) → ENNReal
  | [], g => g []
  | a :: S, g => ∑ l ∈ range (a + 1), ENNReal.ofReal (binomialWeight a l eta) * expLoss eta S fun L => g (l :: L)

/-- Phases `2π us i` on the first `k` of `m` modes. -/
noncomputable def phaseMatrix (k m : ℕ) (us : Fin k → ℝ) : Matrix (Fin m) (Fin m) ℂ :=
  Matrix.diagonal fun i => if h : (i : ℕ) < k then Complex.exp (2 * Real.pi * us ⟨i, h⟩ * Complex.I) else 1

/-- The discrete Fourier transform of the first `k` of `m` modes. -/
noncomputable def dftMatrix (k m : ℕ) : Matrix (Fin m) (Fin m) ℂ :=
  Matrix.of fun i j =>
    if (i : ℕ) < k ∧ (j : ℕ) < k then
      Complex.exp (2 * Real.pi * Complex.I * ((i : ℕ) * (j : ℕ)) / k) / (Real.sqrt k : ℂ)
    else if i = j then 1 else 0

end Verif
