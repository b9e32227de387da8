import Verif.Spec.Means

/-! Specification: correlations between the numbers of particles in the modes of a sample. -/
namespace Verif

open Finset

/-- The number of ways to find the particles of `R` among those of `T`: `∏ binom(T_j, R_j)`. -/
def patternCount (T R : List ℕ) : ℕ := (List.zipWith Nat.choose T R).prod

/-- The mean of `patternCount · R` in sample number `i`; a run that raises counts 0. -/
noncomputable def meanPattern {α : Type} (p : Prog α) (samples : α → List (List ℕ)) (i : ℕ) (R : List ℕ) : ENNReal :=
  p.wp fun
    | .ok r => (patternCount ((samples r).getD i []) R : ℕ)
    | .error _ => 0

/-- The sum, over all sets of as many particles of `S` as `R` has, of the probability that these particles on their own
leave as `R`. -/
noncomputable def correlation (U : List (List ℂ)) (S R : List ℕ) : ℝ :=
  ∑ A ∈ powersetCard R.sum (univ : Finset (Particle S)), bosonProb U (stateOf A) R

/-- One particle in each of the modes `a` and `b` of `m`. -/
def pairState (m a b : ℕ) : List ℕ := (List.range m).map fun i => (if i = a then 1 else 0) + if i = b then 1 else 0

/-- The rate of coincidences in the modes `a` and `b`: two particles of different modes interfere, `c` to `a` and `d` to
`b` or the other way round; two particles of one mode cannot be told apart. -/
noncomputable def pairRate (U : List (List ℂ)) (S : List ℕ) (a b : ℕ) : ℝ :=
  (∑ c ∈ range S.length, ∑ d ∈ range S.length, if c = d then 0 else (S.getD c 0 : ℝ) * (S.getD d 0 : ℝ) *
      Complex.normSq (mget U a c * mget U b d + mget U a d * mget U b c)) / 2
    + ∑ c ∈ range S.length, (S.getD c 0 : ℝ) * ((S.getD c 0 : ℝ) - 1) *
      (Complex.normSq (mget U a c) * Complex.normSq (mget U b c))

/-- The number of ordered pairs of particles of `T`, the first in mode `a` and the second in mode `b`. -/
def pairCount (T : List ℕ) (a b : ℕ) : ℕ := T.getD a 0 * if a = b then T.getD b 0 - 1 else T.getD b 0

/-- The mean number of such pairs in sample number `i`; a run that raises counts 0. -/
noncomputable def meanPair {α : Type} (p : Prog α) (samples : α → List (List ℕ)) (i a b : ℕ) : ENNReal :=
  p.wp fun
    | .ok r => (pairCount ((samples r).getD i []) a b : ℕ)
    | .error _ => 0

end Verif
