import Verif.Spec.Dilation
import Mathlib.Data.Fintype.Perm

/-! Specification: the approximation of Brod and Oszmaniec with uniform losses applied to the input. -/
namespace Verif

open Finset

/-- Hashes tell the states below `s` apart. -/
def HashOk (hash : List ℕ → ℤ) (s : List ℕ) : Prop :=
  ∀ a b, List.Forall₂ (· ≤ ·) a s → List.Forall₂ (· ≤ ·) b s → hash a = hash b → a = b

/-- `V` leaves the first `h` modes alone. -/
def FixesFirst {m : ℕ} (h : ℕ) (V : Matrix (Fin m) (Fin m) ℂ) : Prop :=
  ∀ i j : Fin m, (i : ℕ) < h ∨ (j : ℕ) < h → V i j = if i = j then 1 else 0

/-- `V` leaves the last `h` modes alone. -/
def FixesLast {m : ℕ} (h : ℕ) (V : Matrix (Fin m) (Fin m) ℂ) : Prop :=
  ∀ i j : Fin m, m - h ≤ i ∨ m - h ≤ j → V i j = if i = j then 1 else 0

end Verif
