import Verif.Spec.Dilation
import Verif.Spec.Symmetry
import Mathlib.Data.Fintype.Perm

/-! Specification: a network of two parts with a measurement of the numbers of particles between them. -/
namespace Verif

open Finset

/-- The probability that `L` leaves the network `V` on `m` modes as some state which a second stage turns into the observed
one with probability `f`. -/
noncomputable def measuredThen (m : ℕ) (V : List (List ℂ)) (L : List ℕ) (f : List ℕ → ℝ) : ℝ :=
  ∑ R ∈ univ.filter (fun R : Fin m → Fin (L.sum + 1) => ∑ i, (R i : ℕ) = L.sum),
    bosonProb V L (List.ofFn fun i => (R i : ℕ)) * f (List.ofFn fun i => (R i : ℕ))

/-- The probability that `R`, entering the network `U` through modes assigned at random, leaves it as `T`. -/
noncomputable def shuffledProb (m : ℕ) (U : List (List ℂ)) (R T : List ℕ) : ℝ :=
  (∑ σ : Equiv.Perm (Fin m), lossyProb U 0 (moved σ R) T) / m.factorial

end Verif
