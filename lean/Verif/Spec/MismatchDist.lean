import Verif.Spec.Fock

/-! Specification: the fixed-loss formula with arbitrary amplitudes. -/
namespace Verif

open Finset

/-- The value computed from arbitrary amplitudes of the surviving states. -/
noncomputable def mismatchedProb (amp : List ℕ → ℂ) (S : List ℕ) (k : ℕ) (T : List ℕ) : ℝ :=
  (∑ A ∈ powersetCard k (univ : Finset (Particle S)),
    Complex.normSq (amp (stateOf A)) / (factProd (stateOf A) * factProd T)) / (S.sum.choose k : ℝ)

end Verif
