import Verif.Spec.Permanent
import Mathlib.Analysis.Complex.Basic
import Mathlib.Data.Nat.Factorial.Basic
import Mathlib.Data.Finset.Powerset

/-! Specification: BosonSampling probabilities. -/
namespace Verif

open Finset

/-- The first `n` columns of `U`, read on the first `m` rows, are orthonormal. -/
def Orthonormal (U : List (List ℂ)) (m n : ℕ) : Prop :=
  ∀ a < n, ∀ b < n, ∑ r ∈ range m, (starRingEnd ℂ) (mget U r a) * mget U r b = if a = b then 1 else 0

/-- Product of the factorials of the occupation numbers. -/
def factProd (S : List ℕ) : ℕ := (S.map Nat.factorial).prod

/-- `|Perm(U_{S,T})|² / (∏ S! ∏ T!)`: the probability that the input `S` is observed as `T`. -/
noncomputable def bosonProb (U : List (List ℂ)) (S T : List ℕ) : ℝ :=
  Complex.normSq (scatteringPermanent U S T) / (factProd S * factProd T)

/-- The particles of the state `S`: a mode together with a number below its occupation. -/
abbrev Particle (S : List ℕ) := Σ i : Fin S.length, Fin S[i]

/-- The state formed by a set of particles of `S`. -/
def stateOf {S : List ℕ} (A : Finset (Particle S)) : List ℕ :=
  List.ofFn fun i : Fin S.length => (A.filter fun x => x.1 = i).card

/-- The probability of `T` when a uniformly random set of `k` input particles survives. -/
noncomputable def fixedLossProb (U : List (List ℂ)) (S : List ℕ) (k : ℕ) (T : List ℕ) : ℝ :=
  (∑ A ∈ powersetCard k (univ : Finset (Particle S)), bosonProb U (stateOf A) T) / (S.sum.choose k : ℝ)

/-- The binomial weight of `l` surviving particles. -/
noncomputable def binomialWeight (n l : ℕ) (eta : ℝ) : ℝ :=
  (n.choose l : ℝ) * eta ^ l * (1 - eta) ^ (n - l)

end Verif
