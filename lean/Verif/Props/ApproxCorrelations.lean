import Verif.Proofs.PhasePairs
import Verif.Props.Correlations

/-!
C111: coincidences in the approximate samplers. `meanPair` is the mean number of ordered pairs of particles of a sample, the
first in mode `a` and the second in mode `b` (`Spec/Correlations.lean`). The exact samplers give the rate of coincidences
`pairRate` (times `η²`). The samplers that spread the particles evenly, with random phases, over the first `n` modes keep the
interference of every pair of input modes: they give the same rate for one particle in each of these modes, plus a term for
two particles from one mode, the sum reduced by the factor `(n - 1) / n`.
-/
namespace Verif

open Finset
open scoped ENNReal

variable {m : ℕ}

/-- C111, the sampler with `k` particles left, on any network: `k (k - 1) / n²` times the rate of coincidences of one particle
in each of the first `n` modes and the terms with both particles from one mode. -/
theorem C111_fixed {net : List ℂ → Py (List ℂ)} {A : Matrix (Fin m) (Fin m) ℂ} (h : NetworkOf net A) (d : Svd m)
    (hd : IsSvd A d) (hs : ∀ i, d.s i ≤ 1) (k : ℕ) (S : List ℕ) (hS : 1 ≤ S.sum) (N : ℤ) (i : ℕ) (hi : i < N.toNat)
    (a b : Fin m) :
    meanPair (fixedSimulate net m k S N) id i a b
      = ENNReal.ofReal ((k : ℝ) * (k - 1) / (S.sum : ℝ) ^ 2 *
          (pairRate (rowsOf A) ((List.range m).map fun c => if c < S.sum then 1 else 0) a b
            + ∑ c : Fin m, if (c : ℕ) < S.sum then Complex.normSq (A a c) * Complex.normSq (A b c) else 0)) := by
  have hm : 0 < m := by have := a.2; omega
  rw [fixedSimulate, fixedLoop_eq, meanPair_repeatN (fixedSample_all net m hm h.total k S) _ i hi,
    fixedSample_pair h d hd hs k S hS a b, Int.toNat_natCast]
  congr 1
  have e : ((k * (k - 1 : ℕ) : ℕ) : ℝ) = (k : ℝ) * (k - 1) := by
    rcases k with _ | k
    · simp
    · push_cast; simp
  rw [e, firstModes]
  ring

/-- C111, the sampler with uniform losses. -/
theorem C111_uniform {A : Matrix (Fin m) (Fin m) ℂ} (d : Svd m) (hd : IsSvd A d) (hs : ∀ i, d.s i ≤ 1)
    (fuel : ℕ) (hf : m < fuel) (eta : ℝ) (h0 : 0 ≤ eta) (h1 : eta ≤ 1) (S : List ℕ) (hS : 1 ≤ S.sum) (N : ℤ) (i : ℕ)
    (hi : i < N.toNat) (a b : Fin m) :
    meanPair (uniformSimulate fuel d m eta S N) id i a b
      = ENNReal.ofReal (eta ^ 2 * (1 - 1 / S.sum) *
          (pairRate (rowsOf A) ((List.range m).map fun c => if c < S.sum then 1 else 0) a b
            + ∑ c : Fin m, if (c : ℕ) < S.sum then Complex.normSq (A a c) * Complex.normSq (A b c) else 0)) := by
  have hm : 0 < m := by have := a.2; omega
  have hn := (networkOf_strategies A d hd fuel hf).1
  rw [uniformSimulate, uniformLoop_eq, meanPair_repeatN (uniformSample_all hn hm h0 h1 S) _ i hi,
    uniformSample_pair hn d hd hs h0 h1 S hS a b, firstModes]

/-- C111, the exact samplers with uniform losses. -/
theorem C111_exact (gray : ℕ → List ℕ) (hgray : ∀ n, IsGrayCode n (gray n)) (t : ℤ) {U : List (List ℂ)} {S : List ℕ}
    (h : Interferometer U S) (hS : S.length = m) (eta : ℝ) (h0 : 0 ≤ eta) (h1 : eta ≤ 1)
    (o : GccuObj) (ho : o.eta = eta) (N : ℕ) (i : ℕ) (hi : i < N) (a b : Fin m) :
    ∃ F, ∀ fuel ≥ F,
      meanPair (gccuStrategy (factoryPermanent gray t fuel) U fuel o S N) id i a b
        = ENNReal.ofReal (eta ^ 2 * pairRate U S a b) ∧
      meanPair (gccbLossyStrategy (ryserSubPermanents fuel) U fuel eta S N) id i a b
        = ENNReal.ofReal (eta ^ 2 * pairRate U S a b) := by
  obtain ⟨F, hF⟩ := C96_uniform gray hgray t h eta h0 h1 o ho N i hi (pairState m a b) (by rw [pairState_length, hS])
  obtain ⟨k, hk⟩ : ∃ k, S.length = k + 1 := ⟨S.length - 1, by
    have := List.length_pos_of_ne_nil h.ne; omega⟩
  refine ⟨F + (genFuel k S.sum + (S.map (· + 1)).prod), fun fuel hf => ?_⟩
  obtain ⟨e1, e2⟩ := hF fuel (by omega)
  rw [pairState_sum m a b a.2 b.2] at e1 e2
  have hl : ∀ l : List (List ℕ), l.length = N → (∀ T ∈ l, T ∈ statesUpTo S.length S.sum) → (l.getD i []).length = m := by
    intro l hl hl'
    rw [getD_of_lt _ _ (by omega), ← hS]
    exact ((mem_statesUpTo _ _ _).mp (hl' _ (List.getElem_mem _))).1
  refine ⟨?_, ?_⟩
  · rw [meanPair_pattern (φ := id) (gccuStrategy_wp gray hgray t h h0 h1 o ho k hk fuel (by omega) N) i hl]
    exact pairs_of_pattern a b e1
  · rw [meanPair_pattern (φ := id) (gccbLossyStrategy_wp h h0 h1 fuel (by omega) N) i hl]
    exact pairs_of_pattern a b e2

/-- C111, the exact sampler for a lossy network `M`. -/
theorem C111_network (M : Matrix (Fin m) (Fin m) ℂ) (d : Svd m) (h : IsSvd M d) (h1 : ∀ i, d.s i ≤ 1)
    (S : List ℕ) (hS : S.length = m) (fuel : ℕ) (hf : (S.map (· + 1)).prod ≤ fuel) (hf' : m < fuel)
    (N : ℕ) (i : ℕ) (hi : i < N) (a b : Fin m) :
    meanPair (lossyNetSimulate (ryserSubPermanents fuel) d fuel S N) id i a b
      = ENNReal.ofReal (pairRate (rowsOf M) S a b) := by
  have hm : 0 < m := by have := a.2; omega
  rw [meanPair_pattern (lossyNet_wp M d h h1 S hS hm fuel hf hf' N) i ?_, ← one_mul (pairRate _ _ _ _)]
  · refine pairs_of_pattern a b ?_
    rw [one_mul]
    exact C96_network M d h h1 S hS hm fuel hf hf' N i hi _ (pairState_length ..)
  · intro l hl hl'
    rw [getD_of_lt _ _ (by simp; omega)]
    simp only [List.getElem_map, List.length_take]
    have := ((mem_statesFin _ _ _).mp (hl' _ (List.getElem_mem (by omega : i < l.length)))).1
    omega

/-- C111, both samplers for one network and one particle in each of the first `n` modes: the approximation has the
coincidences of the exact sampler and those of two particles from one mode, less one `n`-th of the sum. -/
theorem C111_difference {A : Matrix (Fin m) (Fin m) ℂ} (d : Svd m) (hd : IsSvd A d) (hs : ∀ i, d.s i ≤ 1) (n : ℕ)
    (hn : 1 ≤ n) (S : List ℕ) (hS : S = (List.range m).map fun c => if c < n then 1 else 0) (hsum : S.sum = n)
    (fuel : ℕ) (hf : (S.map (· + 1)).prod ≤ fuel) (hf' : m < fuel) (N : ℕ) (i : ℕ) (hi : i < N) (a b : Fin m) :
    ∃ same, same = (∑ c : Fin m, if (c : ℕ) < n then Complex.normSq (A a c) * Complex.normSq (A b c) else 0) ∧
      meanPair (uniformSimulate fuel d m 1 S N) id i a b
        = ENNReal.ofReal ((1 - 1 / n) * (pairRate (rowsOf A) S a b + same)) ∧
      meanPair (lossyNetSimulate (ryserSubPermanents fuel) d fuel S N) id i a b
        = ENNReal.ofReal (pairRate (rowsOf A) S a b) := by
  refine ⟨_, rfl, ?_, C111_network A d hd hs S (by rw [hS]; simp) fuel hf hf' N i hi a b⟩
  have := C111_uniform d hd hs fuel hf' 1 zero_le_one le_rfl S (by omega) N i (by simpa using hi) a b
  rw [this, hsum, ← hS]
  norm_num

/-! ### Concrete cases -/

/-- Two particles in two modes that are not coupled always leave in different modes; in the approximation they do so in
half of the samples. -/
example : meanPair (lossyNetSimulate (ryserSubPermanents 4) idSvd 4 [1, 1] 3) id 1 0 1 = 1 ∧
    meanPair (uniformSimulate 4 idSvd 2 1 [1, 1] 3) id 1 0 1 = ENNReal.ofReal (1 / 2) ∧
    meanPair (fixedSimulate (fun x => .ok x) 2 2 [1, 1] 3) id 1 0 0 = ENNReal.ofReal (1 / 2) := by
  have r : pairRate (rowsOf (1 : Matrix (Fin 2) (Fin 2) ℂ)) [1, 1] 0 1 = 1 ∧
      pairRate (rowsOf (1 : Matrix (Fin 2) (Fin 2) ℂ)) [1, 1] 0 0 = 0 := by
    simp [pairRate, sum_range_succ, mget, rowsOf]
  obtain ⟨same, e0, e1, e2⟩ := C111_difference idSvd idSvd_isSvd (fun i => by simp [idSvd]) 2 (by decide) [1, 1] (by decide)
    rfl 4 (by decide) (by decide) 3 1 (by decide) 0 1
  refine ⟨e2.trans (by simp [r.1]), e1.trans ?_, ?_⟩
  · rw [e0]
    congr 1
    have := r.1
    simp only [Fin.isValue, Fin.val_zero, Fin.val_one] at this ⊢
    rw [this]
    simp
    norm_num
  · refine (C111_fixed identity_network idSvd idSvd_isSvd (fun i => by simp [idSvd]) 2 [1, 1] (by decide) 3 1 (by decide)
      0 0).trans ?_
    congr 1
    have h2 : ((List.range 2).map fun c => if c < [1, 1].sum then 1 else 0) = [1, 1] := by decide
    have := r.2
    simp only [Fin.isValue, Fin.val_zero] at this ⊢
    rw [h2, this]
    simp
    norm_num

end Verif
