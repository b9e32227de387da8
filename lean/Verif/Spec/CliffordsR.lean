import Verif.Model.CliffordsR
import Verif.Spec.Fock

/-! Specification: what the R sampler is expected to do. -/
namespace Verif

/-- The documented form of the result of the R sampler for an `m × n` matrix and `N` samples, written
column after column: `n` modes for each sample, numbered from 1. -/
def IsROutput (m n N : ℕ) (result : List ℤ) : Prop :=
  result.length = N * n ∧ ∀ x ∈ result, 1 ≤ x ∧ x ≤ m

/-- Sample number `t` in such a result puts `T q` particles into mode `q`. -/
def ROccupation (m n t : ℕ) (result : List ℤ) (T : List ℕ) : Prop :=
  T.length = m ∧ ∀ q < m, T.getD q 0 = ((result.drop (t * n)).take n).count ((q : ℤ) + 1)

/-- The probability that `n` particles entering through the `n` columns of `A` leave as `T`. -/
noncomputable def rProb (A : RMatrix) (T : List ℕ) : ℝ :=
  Complex.normSq (Matrix.permanent (Matrix.of fun (a b : Fin T.sum) => A.entry ((particles T).getD a 0) b)) / factProd T

/-- The R sampler works for the matrix `A` and `N` samples. -/
structure RExactFor (sampler : RSampler) (A : RMatrix) (N : ℕ) : Prop where
  output : ∀ r, (sampler A N).Runs r → ∃ result, r = .ok result ∧ IsROutput A.nrow A.ncol N result
  law : ∀ t < N, ∀ T : List ℕ, T.length = A.nrow → T.sum = A.ncol →
    (sampler A N).prob (fun r => ∃ result, r = .ok result ∧ ROccupation A.nrow A.ncol t result T)
      = ENNReal.ofReal (rProb A T)

/-- The R sampler works for the matrix `A` and one sample with its probability. -/
structure RPmfExactFor (sampler : RSamplerPmf) (A : RMatrix) : Prop where
  output : ∀ r, (sampler A).Runs r → ∃ result T, r = .ok (result, rProb A T) ∧ IsROutput A.nrow A.ncol 1 result ∧
    ROccupation A.nrow A.ncol 0 result T
  law : ∀ T : List ℕ, T.length = A.nrow → T.sum = A.ncol →
    (sampler A).prob (fun r => ∃ result p, r = .ok (result, p) ∧ ROccupation A.nrow A.ncol 0 result T)
      = ENNReal.ofReal (rProb A T)

end Verif
