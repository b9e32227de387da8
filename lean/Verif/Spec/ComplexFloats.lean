import Verif.Spec.Floats
import Mathlib.Analysis.Complex.Basic

/-!
Complex floating-point arithmetic, for the properties about the permanent calculators: what is assumed of
`numpy.complex128` and of Python's `complex`.
-/
namespace Verif

/-- The operations of complex floating-point numbers, with their errors: a relative error of at most
`2 ^ -50` (eight units of the last place, enough for the usual formulas with and without fused
multiply-add) and an absolute error of at most `2 ^ -1070` (underflow). For `pow` — repeated multiplication — the relative
error is taken for numbers of modulus at least one. -/
structure ComplexArith where
  add : ℂ → ℂ → ℂ
  sub : ℂ → ℂ → ℂ
  mul : ℂ → ℂ → ℂ
  /-- a complex number divided by a real one -/
  div : ℂ → ℝ → ℂ
  pow : ℂ → ℕ → ℂ
  abs : ℂ → ℝ
  add_err : ∀ a b, ‖add a b - (a + b)‖ ≤ 1 / 2 ^ 50 * ‖a + b‖ + 2 ^ (-1070 : ℤ)
  sub_err : ∀ a b, ‖sub a b - (a - b)‖ ≤ 1 / 2 ^ 50 * ‖a - b‖ + 2 ^ (-1070 : ℤ)
  mul_err : ∀ a b, ‖mul a b - a * b‖ ≤ 1 / 2 ^ 50 * (‖a‖ * ‖b‖) + 2 ^ (-1070 : ℤ)
  div_err : ∀ (a : ℂ) (x : ℝ), x ≠ 0 → ‖div a x - a / x‖ ≤ 1 / 2 ^ 50 * ‖a / x‖ + 2 ^ (-1070 : ℤ)
  pow_err : ∀ (a : ℂ) (t : ℕ), ‖pow a t - a ^ t‖ ≤ ((1 + 1 / 2 ^ 49) ^ t - 1) * max 1 ‖a‖ ^ t
  abs_nonneg : ∀ a, 0 ≤ abs a
  abs_err : ∀ a, |abs a - ‖a‖| ≤ 1 / 2 ^ 50 * ‖a‖ + 2 ^ (-1070 : ℤ)

end Verif
