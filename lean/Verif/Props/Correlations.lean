import Verif.Proofs.Correlations
import Verif.Props.Means
import Verif.Props.RoundedPermanents

/-!
C96: correlations between the modes of a sample. For a pattern `R` of particles the mean number of ways to find `R` in a
sample is the sum over all sets of as many input particles of the probability that these alone leave as `R`, times
`η^|R|`. For two modes this is the rate of coincidences, with its interference term. `meanPattern`, `correlation` and
`pairRate` are defined in `Spec/Correlations.lean`.
-/
namespace Verif

open Finset
open scoped ENNReal

variable {m : ℕ}

section
variable (gray : ℕ → List ℕ) (hgray : ∀ n, IsGrayCode n (gray n)) (t : ℤ)

include hgray in
/-- C96, the exact calculators: the averages over their distributions. When `k` of `n` particles are left the factor is
`binom(k, |R|) / binom(n, |R|)`. -/
theorem C96_calculators (hash : List ℕ → ℤ) {U : List (List ℂ)} {S : List ℕ} (h : Interferometer U S) (k : ℕ) (hk : k ≤ S.sum)
    (eta : ℝ) (h0 : 0 ≤ eta) (h1 : eta ≤ 1)
    (hinj : ∀ a b : List ℕ, StateLE a S → StateLE b S → a.sum = b.sum → hash a = hash b → a = b)
    (R : List ℕ) (hR : R.length = S.length) :
    ∃ F, ∀ fuel ≥ F,
      (∃ outcomes dist, fixedLossOutcomes fuel (expConfig U S k eta) = .ok outcomes ∧
        fixedLossDistribution Complex.normSq (factoryPermanent gray t fuel) hash fuel (expConfig U S k eta) = .ok dist ∧
        (List.zipWith (fun T p => p * (patternCount T R : ℝ)) outcomes dist).sum
          = (k.choose R.sum : ℝ) / (S.sum.choose R.sum : ℝ) * correlation U S R) ∧
      (∃ outcomes dist, uniformOutcomes fuel (expConfig U S k eta) = .ok outcomes ∧
        uniformDistribution Complex.normSq (factoryPermanent gray t fuel) hash fuel (uniformCalc (expConfig U S k eta))
          = .ok dist ∧
        (List.zipWith (fun T p => p * (patternCount T R : ℝ)) outcomes dist).sum = eta ^ R.sum * correlation U S R) := by
  obtain ⟨o1, F1, e1⟩ := C23_distribution gray hgray t hash U S k eta h.square h.len h.ne h.ortho hk
    fun a b ha hb hc hd => hinj a b ha hc (hb.trans hd.symm)
  obtain ⟨o2, d2, F2, e2, e3, e4, e5, -⟩ := C24_distribution gray hgray t hash U S k eta h0 h1 h.square h.len h.ne h.ortho hinj
  refine ⟨F1 + F2, fun fuel hf => ⟨⟨_, _, (e1 fuel (by omega)).1, (e1 fuel (by omega)).2.1, ?_⟩,
    ⟨_, _, (e2 fuel (by omega)).1, (e2 fuel (by omega)).2, ?_⟩⟩⟩
  · obtain ⟨-, -, a1, a2, -⟩ := e1 fuel (by omega)
    rw [List.zipWith_map_right, List.zipWith_self, sum_states a1 (𝒯 := statesFin S.length k) fun T => by
      rw [a2, mem_statesFin]]
    exact fixedLoss_moment h.used k hk R hR
  · rw [e3, List.zipWith_map_right, List.zipWith_self, sum_states e4 (𝒯 := statesUpTo S.length S.sum) fun T => by
      rw [e5, mem_statesUpTo]]
    exact uniformLoss_moment h.used eta R hR

include hgray in
/-- C96, the exact samplers, on objects with any contents. -/
theorem C96_exact {U : List (List ℂ)} {S : List ℕ} (h : Interferometer U S) (fuel : ℕ)
    (hf : (S.map (· + 1)).prod ≤ fuel) (o : GccObj) (N : ℕ) (i : ℕ) (hi : i < N) (R : List ℕ) (hR : R.length = S.length) :
    meanPattern (gccStrategy gccA (factoryPermanent gray t fuel) U fuel o S N) id i R
      = ENNReal.ofReal (correlation U S R) ∧
    meanPattern (gccStrategy gccAssignment (factoryPermanent gray t fuel) U fuel o S N) id i R
      = ENNReal.ofReal (correlation U S R) ∧
    meanPattern (gccbStrategy (ryserSubPermanents fuel) U fuel S N) id i R = ENNReal.ofReal (correlation U S R) := by
  rw [← boson_moment h.used R hR]
  have ht := boson_total' (h.bok fuel hf)
  exact ⟨meanPattern_expIid (fun T _ => bosonProb_nonneg _ _ _) ht (gccStrategy_wp gray hgray t (okA S) h fuel hf o N) i hi R,
    meanPattern_expIid (fun T _ => bosonProb_nonneg _ _ _) ht
      (gccStrategy_wp gray hgray t (okAssignment S h.ne) h fuel hf o N) i hi R,
    meanPattern_expIid (fun T _ => bosonProb_nonneg _ _ _) ht (gccbStrategy_wp h fuel hf N) i hi R⟩

include hgray in
/-- C96, the exact samplers with uniform losses. -/
theorem C96_uniform {U : List (List ℂ)} {S : List ℕ} (h : Interferometer U S) (eta : ℝ) (h0 : 0 ≤ eta) (h1 : eta ≤ 1)
    (o : GccuObj) (ho : o.eta = eta) (N : ℕ) (i : ℕ) (hi : i < N) (R : List ℕ) (hR : R.length = S.length) :
    ∃ F, ∀ fuel ≥ F,
      meanPattern (gccuStrategy (factoryPermanent gray t fuel) U fuel o S N) id i R
        = ENNReal.ofReal (eta ^ R.sum * correlation U S R) ∧
      meanPattern (gccbLossyStrategy (ryserSubPermanents fuel) U fuel eta S N) id i R
        = ENNReal.ofReal (eta ^ R.sum * correlation U S R) := by
  rw [← uniformLoss_moment h.used eta R hR]
  obtain ⟨k, hk⟩ : ∃ k, S.length = k + 1 := ⟨S.length - 1, by
    have := List.length_pos_of_ne_nil h.ne; omega⟩
  refine ⟨genFuel k S.sum + (S.map (· + 1)).prod, fun fuel hf => ?_⟩
  have hf' : (S.map (· + 1)).prod ≤ fuel := by omega
  have ht := uniformLoss_total (h.bok fuel hf') h0 h1
  exact ⟨meanPattern_expIid (fun T _ => uniformLossProb_nonneg _ _ h0 h1 _) ht
      (gccuStrategy_wp gray hgray t h h0 h1 o ho k hk fuel hf N) i hi R,
    meanPattern_expIid (fun T _ => uniformLossProb_nonneg _ _ h0 h1 _) ht (gccbLossyStrategy_wp h h0 h1 fuel hf' N) i hi R⟩

end

/-- C96, the sampler for a lossy network `M` (the losses are those of the matrix). -/
theorem C96_network (M : Matrix (Fin m) (Fin m) ℂ) (d : Svd m) (h : IsSvd M d) (h1 : ∀ i, d.s i ≤ 1)
    (S : List ℕ) (hS : S.length = m) (hm : 0 < m) (fuel : ℕ) (hf : (S.map (· + 1)).prod ≤ fuel) (hf' : m < fuel)
    (N : ℕ) (i : ℕ) (hi : i < N) (R : List ℕ) (hR : R.length = m) :
    meanPattern (lossyNetSimulate (ryserSubPermanents fuel) d fuel S N) id i R
      = ENNReal.ofReal (correlation (rowsOf M) S R) :=
  lossyNet_moment M d h h1 S hS hm fuel hf hf' N i hi R hR

/-- C96, two modes: for the pattern of one particle in `a` and one in `b` the number of ways is the product of the numbers
of particles, the correlation is the rate of coincidences; for two particles in `a` the number is that of pairs and the
correlation half the rate. -/
theorem C96_pairs (U : List (List ℂ)) (S T : List ℕ) (hT : T.length = m) (a b : ℕ) (ha : a < m) (hb : b < m) :
    (a ≠ b → patternCount T (pairState m a b) = T.getD a 0 * T.getD b 0 ∧
      correlation U S (pairState m a b) = pairRate U S a b) ∧
    (a = b → patternCount T (pairState m a b) = (T.getD a 0).choose 2 ∧
      correlation U S (pairState m a b) = pairRate U S a b / 2) := by
  have h1 := patternCount_pair T a b (by omega) (by omega)
  have h2 := correlation_pair U S m a b ha hb
  rw [hT] at h1
  refine ⟨fun h => ?_, fun h => ?_⟩
  · rw [if_neg h] at h1 h2
    exact ⟨h1, by rw [← h2, mul_one]⟩
  · rw [if_pos h] at h1 h2
    exact ⟨h1, by rw [← h2]; ring⟩

/-! ### Concrete cases -/

/-- Two particles entering the two modes of a rotation: the mean of the product of the numbers of particles is `49/625`,
while independent particles would give `(9/25)² + (16/25)² = 337/625`. -/
example (gray : ℕ → List ℕ) (hgray : ∀ n, IsGrayCode n (gray n)) (o : GccObj) :
    meanPattern (gccStrategy gccA (factoryPermanent gray 0 4) [[3 / 5, 4 / 5], [4 / 5, -3 / 5]] 4 o [1, 1] 2) id 1 [1, 1]
      = ENNReal.ofReal (49 / 625) := by
  refine ((C96_exact gray hgray 0 (rotation_interferometer [1, 1] rfl) 4 (by decide) o 2 1 (by decide) [1, 1] rfl).1).trans ?_
  congr 1
  rw [show ([1, 1] : List ℕ) = pairState 2 0 1 by decide,
    ((C96_pairs (m := 2) [[3 / 5, 4 / 5], [4 / 5, -3 / 5]] (pairState 2 0 1) [1, 1] rfl 0 1 (by decide) (by decide)).1
      (by decide)).2]
  have e : pairState 2 0 1 = [1, 1] := by decide
  rw [e]
  unfold pairRate
  simp [sum_range_succ, mget, Complex.normSq_apply]
  norm_num

end Verif
