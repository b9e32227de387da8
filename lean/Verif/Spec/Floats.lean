import Mathlib.Data.Real.Basic
import Mathlib.Algebra.Order.Field.Power

/-!
Floating-point numbers (IEEE 754 binary64), for the properties about rounding. Python's `float` and
numpy's `float64` are these numbers. Infinities, NaN and overflow are left out: there is no largest
exponent.
-/
namespace Verif

/-- The binary64 numbers: 53 bits, smallest positive number `2 ^ -1074`. -/
def IsFloat (x : ℝ) : Prop := ∃ k t : ℤ, |k| < 2 ^ 53 ∧ -1074 ≤ t ∧ x = (k : ℝ) * 2 ^ t

/-- `y` is a float nearest to `x`. -/
def NearestFloat (x y : ℝ) : Prop := IsFloat y ∧ ∀ z, IsFloat z → |x - y| ≤ |x - z|

/-- A way to round to nearest; nothing is assumed about ties. IEEE 754 requires `+`, `-`, `*`, `/` of
floats to be the rounded exact results. -/
structure Rounding where
  rnd : ℝ → ℝ
  nearest : ∀ x, NearestFloat x (rnd x)

/-- The values of `random()`: `k / 2 ^ 53`, with `k` uniform below `2 ^ 53`. -/
def IsRandom (u : ℝ) : Prop := ∃ k : ℕ, k < 2 ^ 53 ∧ u = (k : ℝ) / 2 ^ 53

/-- `x` and `y` agree up to the factor `c` and the absolute error `b`. -/
def Near (c b x y : ℝ) : Prop := x ≤ c * (y + b) ∧ y ≤ c * (x + b)

end Verif
