import Verif.Model.Networks

/-! Specification: accuracy of a computed singular value decomposition. -/
namespace Verif

open Matrix

/-- The computed factors `d` of a decomposition: the singular values are in descending order and, up to rounding, at most
one; the other factors have entries within `(1 + 2^-48)^e₀ - 1` of unitary matrices `V` and `U`. The decomposed matrix is then
`V · diag(s) · U`. -/
structure SvdWithin {m : ℕ} (d : Svd m) (V U : Matrix (Fin m) (Fin m) ℂ) (e₀ : ℕ) : Prop where
  unitaryV : V ∈ unitaryGroup (Fin m) ℂ
  unitaryU : U ∈ unitaryGroup (Fin m) ℂ
  closeV : ∀ i j, ‖d.V i j - V i j‖ ≤ (1 + 1 / 2 ^ 48) ^ e₀ - 1
  closeU : ∀ i j, ‖d.U i j - U i j‖ ≤ (1 + 1 / 2 ^ 48) ^ e₀ - 1
  nonneg : ∀ i, 0 ≤ d.s i
  le : ∀ i, d.s i ≤ 1 + 1 / 2 ^ 30
  descending : ∀ i j, i ≤ j → d.s j ≤ d.s i

end Verif
