import Verif.Spec.Fock

/-! Specification: two interferometers side by side. -/
namespace Verif

/-- `U` consists of the interferometer `A` on its first `a` modes and of the interferometer `B` on the next `b` modes;
nothing passes from one to the other. -/
structure SideBySide (a b : ℕ) (A B U : List (List ℂ)) : Prop where
  first : ∀ i < a, ∀ j < a, mget U i j = mget A i j
  second : ∀ i < b, ∀ j < b, mget U (a + i) (a + j) = mget B i j
  up : ∀ i < a, ∀ j < b, mget U i (a + j) = 0
  down : ∀ i < b, ∀ j < a, mget U (a + i) j = 0

end Verif
