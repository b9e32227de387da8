import Verif.Spec.Floats
import Mathlib.Analysis.SpecialFunctions.Complex.Circle
import Mathlib.LinearAlgebra.Matrix.Notation

/-! Specification: the functions of numpy used by the fixed-loss sampler, with their errors. -/
namespace Verif

/-- The computed phases and squared moduli, with their errors. -/
structure PhaseArith where
  /-- `exp(1j * 2 * pi * u)` -/
  phase : ℝ → ℂ
  /-- `conjugate(z) * z` (its imaginary part is 0) -/
  sqabs : ℂ → ℝ
  phase_err : ∀ u, 0 ≤ u → u < 1 → ‖phase u - Complex.exp (2 * Real.pi * u * Complex.I)‖ ≤ 1 / 2 ^ 48
  sqabs_float : ∀ z, IsFloat (sqabs z)
  sqabs_nonneg : ∀ z, 0 ≤ sqabs z
  sqabs_err : ∀ z, |sqabs z - Complex.normSq z| ≤ 1 / 2 ^ 50 * Complex.normSq z + 2 ^ (-1070 : ℤ)

/-- `net` multiplies vectors by `A`, with an error of at most `ε` in every entry when the vector has norm at most
`√2`. -/
def NetworkNear {m : ℕ} {E : Type} (net : List ℂ → Except E (List ℂ)) (A : Matrix (Fin m) (Fin m) ℂ) (ε : ℝ) : Prop :=
  ∀ x : Fin m → ℂ, ∑ j, Complex.normSq (x j) ≤ 2 →
    ∃ y : Fin m → ℂ, net (List.ofFn x) = .ok (List.ofFn y) ∧ ∀ i, ‖y i - A.mulVec x i‖ ≤ ε

end Verif
