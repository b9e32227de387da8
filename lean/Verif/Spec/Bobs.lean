import Verif.Spec.Dilation
import Verif.Spec.Multinomial

/-! Specification: the approximation of Brod and Oszmaniec. -/
namespace Verif

open Finset

/-- The states in which the first `k` modes of `S` are emptied and `p` particles are put into one of
them; `S` itself for `k = 0`. -/
def bunchedStates (k p : ℕ) (S : List ℕ) : List (List ℕ) :=
  if k = 0 then [S]
  else (List.range k).map fun j => List.replicate j 0 ++ p :: List.replicate (k - 1 - j) 0 ++ S.drop k

/-- The average of `g` over a list. -/
noncomputable def average {α : Type} (l : List α) (g : α → ENNReal) : ENNReal := (l.map g).sum / l.length

/-- The law of the approximation: a bunched state with `p` particles in the first `k` modes, losses
with transmissivity `eta` per particle, random phases `us`, then the network with dilation `W us`. -/
noncomputable def approxLaw (k p : ℕ) (eta : ℝ) (W : (Fin k → ℝ) → List (List ℂ)) (b : ℕ) (S T : List ℕ) : ENNReal :=
  average (bunchedStates k p S) fun st =>
    expLoss eta st fun L => expUniform k fun us => ENNReal.ofReal (lossyProb (W us) b L T)

end Verif
