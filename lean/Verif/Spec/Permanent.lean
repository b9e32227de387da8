import Verif.Spec.States
import Mathlib.LinearAlgebra.Matrix.Permanent
import Mathlib.Algebra.Field.Defs
import Mathlib.Data.Nat.Choose.Basic

/-! Specification: the permanent of the scattering matrix of an input and an output state. -/
namespace Verif

/-- The permanent of the matrix whose rows are the modes of the output particles and whose
columns are the modes of the input particles (particles listed in mode order). -/
def scatteringPermanent {K : Type _} [CommRing K] (U : List (List K)) (S T : List Nat) : K :=
  Matrix.permanent (Matrix.of fun (a b : Fin T.sum) =>
    mget U ((particles T).getD a 0) ((particles S).getD b 0))

open Finset in
/-- The addend of a vector `r` in Ryser's formula for bunched states. -/
def ryserAddend {K : Type _} [Field K] (U : List (List K)) (S T : List Nat) (r : List Int) : K :=
  (-1) ^ S.sum * (∏ ν ∈ range S.length, (-1) ^ (r.getD ν 0).toNat)
    * (∏ ν ∈ range S.length, ((S.getD ν 0).choose (r.getD ν 0).toNat : K))
    * ∏ j ∈ range T.length, (∑ ν ∈ range S.length, ((r.getD ν 0 : Int) : K) * mget U j ν) ^ T.getD j 0

open Finset in
/-- The addend of a vector `r` in the Chin–Huh formula. -/
def chinHuhAddend {K : Type _} [Field K] (U : List (List K)) (S T : List Nat) (r : List Int) : K :=
  1 / 2 ^ S.sum * (∏ ν ∈ range S.length, (-1) ^ (r.getD ν 0).toNat)
    * (∏ ν ∈ range S.length, ((S.getD ν 0).choose (r.getD ν 0).toNat : K))
    * ∏ j ∈ range T.length,
        (∑ ν ∈ range S.length, (((S.getD ν 0 : Int) - 2 * r.getD ν 0 : Int) : K) * mget U j ν) ^ T.getD j 0

end Verif
