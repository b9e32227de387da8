import Verif.Spec.Fock
import Mathlib.MeasureTheory.Measure.Lebesgue.Basic
import Mathlib.Analysis.SpecialFunctions.Complex.Circle

/-! Specification: distinguishable particles that land in the modes independently. -/
namespace Verif

/-- The probability that `k` independent particles, each landing in mode `i` with probability `p i`
and getting lost otherwise, form the state `T`. -/
noncomputable def multinomialProb (p : List ℝ) (k : ℕ) (T : List ℕ) : ℝ :=
  (k.factorial : ℝ) / ((factProd T : ℝ) * ((k - T.sum).factorial : ℝ))
    * (List.zipWith (fun x t => x ^ t) p T).prod * (1 - p.sum) ^ (k - T.sum)

/-- Expectation over `m` independent numbers, uniform on `[0, 1)`. -/
noncomputable def expUniform : (m : ℕ) → ((Fin m → ℝ) → ENNReal) → ENNReal
  | 0, g => g Fin.elim0
  | m + 1, g => ∫⁻ u in Set.Ico (0 : ℝ) 1, expUniform m fun us => g (Fin.cons u us)

/-- Expectation over `n` independent lists of `k` uniform numbers. -/
noncomputable def expUniforms (k : ℕ) : (n : ℕ) → (List (Fin k → ℝ) → ENNReal) → ENNReal
  | 0, g => g []
  | n + 1, g => expUniform k fun us => expUniforms k n fun l => g (us :: l)

/-- One particle spread evenly over the first `n` of `m` modes, with phases `2π us i`. -/
noncomputable def smeared (m n : ℕ) (us : Fin m → ℝ) : Fin m → ℂ :=
  fun i => if (i : ℕ) < n then Complex.exp (2 * Real.pi * us i * Complex.I) / Real.sqrt n else 0

end Verif
