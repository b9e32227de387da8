import Verif.Spec.Fock

/-! Specification: interferometers that differ by a relabelling of the modes, by phases, by complex
conjugation or by the direction in which they are passed. -/
namespace Verif

/-- The state in which the particles of mode `i` of `T` are in mode `σ i`. -/
def moved {m : ℕ} (σ : Equiv.Perm (Fin m)) (T : List ℕ) : List ℕ := List.ofFn fun i => T.getD (σ.symm i) 0

/-- `U'` is the `m × m` interferometer `U` with new labels and phases: what leaves `U` through mode
`σ i` leaves `U'` through mode `i` with the phase `a i`, and what enters `U` through mode `τ j` enters
`U'` through mode `j` with the phase `b j`. -/
structure Relabelled {m : ℕ} (σ τ : Equiv.Perm (Fin m)) (a b : Fin m → ℂ) (U U' : List (List ℂ)) : Prop where
  entry : ∀ i j : Fin m, mget U' i j = a i * mget U (σ i) (τ j) * b j
  output : ∀ i, ‖a i‖ = 1
  input : ∀ j, ‖b j‖ = 1

/-- The entries of `U'` are the complex conjugates of those of `U`. -/
def Conjugated (m : ℕ) (U U' : List (List ℂ)) : Prop :=
  ∀ i < m, ∀ j < m, mget U' i j = (starRingEnd ℂ) (mget U i j)

/-- `U'` is the conjugate transpose of `U`. -/
def Reversed (m : ℕ) (U U' : List (List ℂ)) : Prop :=
  ∀ i < m, ∀ j < m, mget U' i j = (starRingEnd ℂ) (mget U j i)

end Verif
