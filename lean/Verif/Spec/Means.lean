import Verif.Prog
import Verif.Spec.Fock

/-! Specification: mean numbers of particles. -/
namespace Verif

open Finset

/-- The mean number of particles in mode `j` of the `i`-th sample of the results of `p`. -/
noncomputable def meanCount {α : Type} (p : Prog α) (samples : α → List (List ℕ)) (i j : ℕ) : ENNReal :=
  p.wp fun
    | .ok r => (((samples r).getD i []).getD j 0 : ℕ)
    | .error _ => 0

/-- The intensity in mode `j` when every particle of `S` is sent through `U` on its own. -/
noncomputable def intensity (U : List (List ℂ)) (S : List ℕ) (j : ℕ) : ℝ :=
  ∑ c ∈ range S.length, (S.getD c 0 : ℝ) * Complex.normSq (mget U j c)

end Verif
