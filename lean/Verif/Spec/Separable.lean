import Verif.Spec.Dilation

/-! Specification: particles that enter random modes, and a random set of particles that survives. -/
namespace Verif

open Finset

/-- The state of `m` modes in which particle `i` is in mode `f i`. -/
def thrown (m : ℕ) {k n : ℕ} (f : Fin k → Fin n) : List ℕ :=
  (List.range m).map fun j => (univ.filter fun i => (f i : ℕ) = j).card

/-- The probability of `T` when each of `k` particles enters the network `W` in a mode chosen uniformly from the first `n`. -/
noncomputable def thrownProb (W : List (List ℂ)) (m b n k : ℕ) (T : List ℕ) : ℝ :=
  (∑ f : Fin k → Fin n, lossyProb W b (thrown m f) T) / (n : ℝ) ^ k

/-- The probability of `T` when a uniformly random set of `k` particles of `S` enters the network `W`. -/
noncomputable def survivorsProb (W : List (List ℂ)) (b : ℕ) (S : List ℕ) (k : ℕ) (T : List ℕ) : ℝ :=
  (∑ A ∈ powersetCard k (univ : Finset (Particle S)), lossyProb W b (stateOf A) T) / (S.sum.choose k : ℝ)

/-- One particle in each of the first modes. -/
def FirstModes (m : ℕ) (S : List ℕ) : Prop := S = (List.range m).map fun c => if c < S.sum then 1 else 0

/-- The probability of `T` when `p` particles enter the network `W` in modes chosen independently and uniformly from the first
`K`, and the particles of `S` in the other modes enter as they are. -/
noncomputable def scrambledProb (W : List (List ℂ)) (b K p : ℕ) (S T : List ℕ) : ℝ :=
  (∑ f : Fin p → Fin K, lossyProb W b (thrown K f ++ S.drop K) T) / (K : ℝ) ^ p

end Verif
