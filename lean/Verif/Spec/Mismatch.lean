import Verif.Spec.Permanent
import Mathlib.Data.Fintype.Pi
import Mathlib.Data.Fintype.Quotient
import Mathlib.Algebra.Ring.Parity

/-! Specification: sums over assignments of output particles to input particles, for states that
may hold different numbers of particles. -/
namespace Verif

variable {K : Type _} [CommRing K]

open Finset in
/-- The sum, over the maps from the output particles to the input particles with property `P`, of
the products of the matrix elements along the map. -/
def assignmentSum (U : List (List K)) (S T : List Nat) (P : (Fin T.sum → Fin S.sum) → Prop)
    [DecidablePred P] : K :=
  ∑ f : Fin T.sum → Fin S.sum with P f,
    ∏ a : Fin T.sum, mget U ((particles T).getD a 0) ((particles S).getD (f a) 0)

/-- Every input particle is assigned to an odd number of output particles. -/
def OddFibres {m n : Nat} (f : Fin m → Fin n) : Prop :=
  ∀ b, Odd (Finset.univ.filter fun a => f a = b).card

instance {m n : Nat} : DecidablePred (@OddFibres m n) := fun f => by unfold OddFibres; infer_instance

open Finset in
/-- The sum over the injective maps from the input particles to the output particles. -/
def embeddingSum (U : List (List K)) (S T : List Nat) : K :=
  ∑ g : Fin S.sum → Fin T.sum with Function.Injective g,
    ∏ b : Fin S.sum, mget U ((particles T).getD (g b) 0) ((particles S).getD b 0)

end Verif
