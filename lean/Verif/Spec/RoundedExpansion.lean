import Verif.Model.Networks

/-! Specification: backward stability of a singular value decomposition. -/
namespace Verif

open Matrix

/-- The computed factors `d` of a decomposition of `B`: `V` and `U` have entries within `(1 + 2^-48)^e - 1` of unitary
matrices whose product with the singular values between them is within `(1 + 2^-48)^e - 1` of `B`. -/
def SvdBackward {m : ℕ} (B : Matrix (Fin m) (Fin m) ℂ) (d : Svd m) (e : ℕ) : Prop :=
  (∀ i, 0 ≤ d.s i) ∧ ∃ V ∈ unitaryGroup (Fin m) ℂ, ∃ U ∈ unitaryGroup (Fin m) ℂ,
    (∀ i j, ‖d.V i j - V i j‖ ≤ (1 + 1 / 2 ^ 48) ^ e - 1) ∧
    (∀ i j, ‖d.U i j - U i j‖ ≤ (1 + 1 / 2 ^ 48) ^ e - 1) ∧
    ∀ i j, ‖(V * diagonal (fun i => (d.s i : ℂ)) * U) i j - B i j‖ ≤ (1 + 1 / 2 ^ 48) ^ e - 1

end Verif
