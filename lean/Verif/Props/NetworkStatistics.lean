import Verif.Proofs.BlockNetworks
import Verif.Props.Statistics
import Verif.Props.Agreement
import Verif.Props.RoundedSampleBased

/-!
C64, C65 and C110 for lossy networks: distributions estimated from the samples of the sampler for lossy networks.
-/
namespace Verif

open Finset
open scoped ENNReal

variable {m : ℕ} {M : Matrix (Fin m) (Fin m) ℂ} {d : Svd m}

theorem expIid_congr_law {𝒯 : Finset (List ℕ)} {p q : List ℕ → ℝ≥0∞} (h : ∀ T ∈ 𝒯, p T = q T) (n : ℕ)
    (g : List (List ℕ) → ℝ≥0∞) : expIid 𝒯 p n g = expIid 𝒯 q n g := by
  induction n generalizing g with
  | zero => rfl
  | succ n ih =>
    rw [expIid, expIid]
    exact sum_congr rfl fun T hT => by rw [h T hT, ih]

theorem lossyNet_total (h : IsSvd M d) (h1 : ∀ i, d.s i ≤ 1) {S : List ℕ} (hS : S.length = m) (hm : 0 < m) :
    ∑ T ∈ statesUpTo S.length S.sum, ENNReal.ofReal (lossyProb (rowsOf (expandedMatrix d)) m S T) = 1 := by
  have hf : (S.map (· + 1)).prod ≤ (S.map (· + 1)).prod + (m + 1) := Nat.le_add_right _ _
  have e1 := lossyNet_samples M d h h1 S hS hm _ hf (by omega) 1 (fun _ => 1)
  rw [Prog.wp_const] at e1
  simpa [expIid] using e1.symm

/-- The law of a sample of the network, in terms of any dilation of the network. -/
theorem lossyNet_law (h : IsSvd M d) (h1 : ∀ i, d.s i ≤ 1) {W : List (List ℂ)} {b : ℕ} (hW : IsDilation (rowsOf M) W m b)
    {S : List ℕ} (hS : S.length = m) (hm : 0 < m) (fuel : ℕ) (hf : (S.map (· + 1)).prod ≤ fuel) (hf' : m < fuel) (N : ℕ) :
    SamplesFrom (lossyNetSimulate (ryserSubPermanents fuel) d fuel S N) (statesUpTo S.length S.sum) (lossyProb W b S) N ∧
    ∑ T ∈ statesUpTo S.length S.sum, ENNReal.ofReal (lossyProb W b S T) = 1 := by
  have e : ∀ T ∈ statesUpTo S.length S.sum, lossyProb (rowsOf (expandedMatrix d)) m S T = lossyProb W b S T := by
    intro T hT
    rw [mem_statesUpTo] at hT
    exact lossyProb_indep (expanded_isDilation h h1) hW S T
      (fun x hx => by have := particlesFrom_range hx; omega) (by omega) hT.2
  constructor
  · intro f
    rw [lossyNet_samples M d h h1 S hS hm fuel hf hf' N f]
    exact expIid_congr_law (fun T hT => by rw [e T hT]) _ _
  · rw [← lossyNet_total h h1 hS hm]
    exact sum_congr rfl fun T hT => by rw [e T hT]

/-- `simulate` of the sampler for lossy networks, `LossyNetworksGeneralizedCliffordsSimulationStrategy`, as the strategy
of a sample-based calculator. -/
noncomputable def networkStrategy (d : Svd m) (fuel : ℕ) : Strategy :=
  fun S N => lossyNetSimulate (ryserSubPermanents fuel) d fuel S N

/-- C64, lossy networks: the distribution estimated from `N ≥ 1` samples of a network that loses particles unevenly, for
the outcomes `outs` in any order, fails to be within `count_tv_distance_error_bound_of_experiment_results(len(outs), N, δ)`
of the probabilities of the network with probability at most `δ`. -/
theorem C64_network (h : IsSvd M d) (h1 : ∀ i, d.s i ≤ 1) {W : List (List ℂ)} {b : ℕ} (hW : IsDilation (rowsOf M) W m b)
    {S : List ℕ} (hS : S.length = m) (hm : 0 < m) (fuel : ℕ) (hf : (S.map (· + 1)).prod ≤ fuel) (hf' : m < fuel)
    (outs : List (List ℕ)) (hn : outs.Nodup) (ho : ∀ T, T ∈ outs ↔ T.length = m ∧ T.sum ≤ S.sum)
    (N : ℕ) (δ : ℝ) (left k : ℤ) (hN : 0 < N) (hδ0 : 0 < δ) (hδ1 : δ ≤ 1) :
    (approximateDistribution (networkStrategy d fuel) fuel
        ⟨S, S.length, left, some outs, k⟩ N).prob (Misses (outs.map (lossyProb W b S)) (tvErrorBound outs.length N δ))
      ≤ ENNReal.ofReal δ := by
  obtain ⟨e1, e2⟩ := lossyNet_law h h1 hW hS hm fuel hf hf' N
  exact approximateDistribution_tvd (networkStrategy d fuel) fuel ⟨S, S.length, left, some outs, k⟩ N hN S.length (statesUpTo S.length S.sum) (lossyProb W b S) e1
    (lossyProb_nonneg W b S) e2 (fun T hT => ((mem_statesUpTo _ _ T).mp hT).1) outs rfl
    (fun T => by rw [ho, mem_statesUpTo, hS]) hn δ hδ0 hδ1 _ le_rfl

/-- C64, lossy networks: with at least the computed minimal number of samples the estimate is within the desired
distance, except with probability at most `δ`. -/
theorem C64_network_enough (h : IsSvd M d) (h1 : ∀ i, d.s i ≤ 1) {W : List (List ℂ)} {b : ℕ}
    (hW : IsDilation (rowsOf M) W m b) {S : List ℕ} (hS : S.length = m) (hm : 0 < m) (fuel : ℕ)
    (hf : (S.map (· + 1)).prod ≤ fuel) (hf' : m < fuel)
    (outs : List (List ℕ)) (hn : outs.Nodup) (ho : ∀ T, T ∈ outs ↔ T.length = m ∧ T.sum ≤ S.sum)
    (N : ℕ) (δ ε : ℝ) (left k : ℤ) (hδ0 : 0 < δ) (hδ1 : δ ≤ 1) (hε : 0 < ε) (hN : minimalSamples outs.length δ ε ≤ N) :
    (approximateDistribution (networkStrategy d fuel) fuel
        ⟨S, S.length, left, some outs, k⟩ N).prob (Misses (outs.map (lossyProb W b S)) ε) ≤ ENNReal.ofReal δ := by
  obtain ⟨hN0, hε'⟩ := tvErrorBound_le _ N δ ε hδ0 hδ1 hε hN
  obtain ⟨e1, e2⟩ := lossyNet_law h h1 hW hS hm fuel hf hf' N
  exact approximateDistribution_tvd (networkStrategy d fuel) fuel ⟨S, S.length, left, some outs, k⟩ N hN0 S.length (statesUpTo S.length S.sum) (lossyProb W b S) e1
    (lossyProb_nonneg W b S) e2 (fun T hT => ((mem_statesUpTo _ _ T).mp hT).1) outs rfl
    (fun T => by rw [ho, mem_statesUpTo, hS]) hn δ hδ0 hδ1 _ hε'

/-- C65, lossy networks: the expectation of every entry of the estimated distribution is the probability of the outcome,
also if only some of the outcomes are listed. -/
theorem C65_network (h : IsSvd M d) (h1 : ∀ i, d.s i ≤ 1) {W : List (List ℂ)} {b : ℕ} (hW : IsDilation (rowsOf M) W m b)
    {S : List ℕ} (hS : S.length = m) (hm : 0 < m) (fuel : ℕ) (hf : (S.map (· + 1)).prod ≤ fuel) (hf' : m < fuel)
    (outs : List (List ℕ)) (hn : outs.Nodup) (ho : ∀ T ∈ outs, T.length = m ∧ T.sum ≤ S.sum)
    (N : ℕ) (left k : ℤ) (hN : 0 < N) (i : ℕ) (hi : i < outs.length) :
    (approximateDistribution (networkStrategy d fuel) fuel
        ⟨S, S.length, left, some outs, k⟩ N).wp (entry i) = ENNReal.ofReal (lossyProb W b S outs[i]) := by
  obtain ⟨e1, e2⟩ := lossyNet_law h h1 hW hS hm fuel hf hf' N
  exact entry_wp (networkStrategy d fuel) fuel ⟨S, S.length, left, some outs, k⟩ N hN S.length (statesUpTo S.length S.sum) (fun T => ENNReal.ofReal (lossyProb W b S T)) e1
    e2 (fun T hT => ((mem_statesUpTo _ _ T).mp hT).1) outs rfl
    (fun T hT => by rw [mem_statesUpTo, hS]; exact ho T hT) hn i hi

/-- With the same losses in all modes the network has the law of the exact calculator. -/
theorem lossyNet_uniform {U : Matrix (Fin m) (Fin m) ℂ} (hU : U ∈ Matrix.unitaryGroup (Fin m) ℂ) {eta : ℝ} (h0 : 0 ≤ eta)
    (h1 : eta ≤ 1) (hd : IsSvd (((Real.sqrt eta : ℝ) : ℂ) • U) d) {S : List ℕ} (hS : S.length = m) (hm : 0 < m) (fuel : ℕ)
    (hf : (S.map (· + 1)).prod ≤ fuel) (hf' : m < fuel) (N : ℕ) :
    (∀ i, d.s i ≤ 1) ∧ SamplesFrom (lossyNetSimulate (ryserSubPermanents fuel) d fuel S N) (statesUpTo S.length S.sum)
      (uniformLossProb (rowsOf U) S eta) N := by
  have hle : ∀ i, d.s i ≤ 1 := fun i => by
    have := svd_uniform hU eta h0 hd i
    nlinarith [hd.nonneg i]
  refine ⟨hle, fun f => ?_⟩
  rw [lossyNet_samples _ d hd hle S hS hm fuel hf hf' N f]
  refine expIid_congr_law (fun T hT => ?_) _ _
  rw [mem_statesUpTo] at hT
  exact lossyProb_binomial hU eta h0 h1 (expanded_isDilation hd hle) S T hS (by omega) hT.2

/-- C64: the estimate from the sampler for lossy networks, given the network `√eta U`, against the distribution of the exact
calculator for uniform losses. -/
theorem C64_network_uniform (gray : Nat → List Nat) (hgray : ∀ n, IsGrayCode n (gray n)) (t : Int) (hash : List ℕ → Int)
    {U : Matrix (Fin m) (Fin m) ℂ} (hU : U ∈ Matrix.unitaryGroup (Fin m) ℂ) (eta : ℝ) (h0 : 0 ≤ eta)
    (h1 : eta ≤ 1) (hd : IsSvd (((Real.sqrt eta : ℝ) : ℂ) • U) d) {S : List ℕ} (hS : S.length = m) (hm : 0 < m)
    (hinj : ∀ a b : List ℕ, StateLE a S → StateLE b S → a.sum = b.sum → hash a = hash b → a = b) :
    ∃ outs exact F, ∀ fuel ≥ F,
      uniformOutcomes fuel (expConfig (rowsOf U) S S.sum eta) = .ok outs ∧
      uniformDistribution Complex.normSq (factoryPermanent gray t fuel) hash fuel
        (uniformCalc (expConfig (rowsOf U) S S.sum eta)) = .ok exact ∧
      ∀ (N : ℕ) (δ : ℝ) (left k : ℤ), 0 < N → 0 < δ → δ ≤ 1 →
        (approximateDistribution (networkStrategy d fuel) fuel ⟨S, S.length, left, some outs, k⟩ N).prob
          (Misses exact (tvErrorBound exact.length N δ)) ≤ ENNReal.ofReal δ := by
  have h := rowsOf_interferometer hU hm S hS
  obtain ⟨outs, F, _, -, hF, hn, hm', hex⟩ := uniform_exact gray hgray t hash h eta h0 h1 hinj
  refine ⟨outs, _, F + (m + 1), fun fuel hf => ⟨(hex fuel (by omega)).1, (hex fuel (by omega)).2, fun N δ left k hN hδ0 hδ1 => ?_⟩⟩
  have hf' : (S.map (· + 1)).prod ≤ fuel := by omega
  rw [List.length_map]
  exact approximateDistribution_tvd (networkStrategy d fuel) fuel ⟨S, S.length, left, some outs, k⟩ N hN S.length
    (statesUpTo S.length S.sum) (uniformLossProb (rowsOf U) S eta)
    (lossyNet_uniform hU h0 h1 hd hS hm fuel hf' (by omega) N).2
    (fun T => mul_nonneg (binomialWeight_nonneg _ _ h0 h1) (fixedLossProb_nonneg _ S _ T))
    (uniformLoss_total (h.bok fuel hf') h0 h1) (fun T hT => ((mem_statesUpTo _ _ T).mp hT).1) outs
    rfl hm' hn δ hδ0 hδ1 _ le_rfl

/-- C110, lossy networks: the estimate from the samples of the sampler for lossy networks, everything in floating-point
arithmetic, for the network `√eta U`. The unitary is stored up to `e` operations for the exact calculator and the expanded
matrix up to `e'` operations for the sampler. The computed distance between the computed frequencies and the computed
distribution is below the computed error bound, enlarged by the rounding errors, except with probability at most `δ` and
the bound of the sampler for each sample. -/
theorem C110_network (R : Rounding) (A : ComplexArith) (gray : Nat → List Nat) (hgray : ∀ n, IsGrayCode n (gray n)) (t : Int)
    (hash : List ℕ → Int) {e e' : ℕ} {U : Matrix (Fin m) (Fin m) ℂ} (hU : U ∈ Matrix.unitaryGroup (Fin m) ℂ) {eta : ℝ}
    (h0 : 0 ≤ eta) (h1 : eta ≤ 1) (hfl : IsFloat eta) (hd : IsSvd (((Real.sqrt eta : ℝ) : ℂ) • U) d)
    {U' W' : List (List ℂ)} (hsq : ∀ r ∈ U', r.length = U'.length) (hlen : U'.length = m) (hst : StoredAs e U' (rowsOf U))
    (hrows : ∀ r ∈ W', r.length = m + m) (hlen' : W'.length = m + m) (hst' : StoredAs e' W' (rowsOf (expandedMatrix d)))
    {S : List ℕ} (hS : S.length = m) (hm : 0 < m) (hm' : m + m ≤ 2 ^ 20) (hn : S.sum ≤ 170)
    (hK : 6 * S.length + 6 + 2 * boxSize S ≤ 2 ^ 50) (hC : (S.sum + S.length).choose S.sum ≤ 2 ^ 52)
    (hinj : ∀ a b : List ℕ, StateLE a S → StateLE b S → a.sum = b.sum → hash a = hash b → a = b)
    (logR : ℝ → ℝ) (el : ℝ) (he : 0 ≤ el) (he' : el ≤ 1 / 4)
    (hlog : ∀ x, IsFloat x → 0 < x → IsFloat (logR x) ∧ |logR x - Real.log x| ≤ el * |Real.log x|) :
    ∃ outs F, ∀ fuel ≥ F, ∃ exact, uniformOutcomes fuel (expConfig U' S S.sum eta) = .ok outs ∧
      uniformDistributionR R (squaredPermanentR R A gray t fuel) hash fuel (uniformCalcR R (expConfig U' S S.sum eta))
        = .ok exact ∧
      exact.length = (S.sum + S.length).choose S.sum ∧
      ∀ (N : ℕ) (δ : ℝ) (left k : ℤ), 0 < N → N ≤ 2 ^ 53 → IsFloat δ → 0 < δ → δ ≤ 1 →
        ((approximateDistributionR R (fun S N => lossyNetSimulateF R A (ryserSubPermanentsR R A fuel) W' fuel S N) fuel
          ⟨S, S.length, left, some outs, k⟩ N).prob (MissesR R exact (estimateBound exact.length
            ((1 + 2 * el) * (1 + 1 / 2 ^ 50) * tvErrorBoundR R logR exact.length N δ)
            (lossyError t e S exact.length)))).toReal
          ≤ δ + N * versionBBound (m + m) S.sum (entryBound e' S.sum (m + m) (boxSize S)) := by
  have h := rowsOf_interferometer hU hm S hS
  obtain ⟨outs, F, hnd, hmem, hF⟩ := C91_distribution R A gray hgray t hash h hsq (hlen.trans (hS.symm.trans h.len)) hst
    (hn.trans (by norm_num)) (by unfold distOps; omega) S.sum h0 h1 hfl hinj
  refine ⟨outs, F + (boxSize S + (m + 1)), fun fuel hf => ?_⟩
  obtain ⟨g1, x, g2, -, g3, -⟩ := hF fuel (by omega)
  have hf' : boxSize S ≤ fuel := by omega
  have hl := states_length_upTo h.ne hnd hmem
  refine ⟨outs.map x, g1, g2, by rw [List.length_map, hl], ?_⟩
  rw [List.length_map]
  intro N δ left k hN hN' hδ hδ0 hδ1
  have hx : ∀ T ∈ outs, IsFloat (x T) := by
    intro T hT
    have g1' : uniformOutcomes fuel (uniformCalcR R (expConfig U' S S.sum eta)).config = .ok outs := g1
    rw [uniformDistributionR, g1', ok_bind, uniformProbabilitiesR] at g2
    obtain ⟨T', -, hT'⟩ := mapM_mem_ok _ _ _ g2 (x T) (List.mem_map_of_mem hT)
    exact uniformOutcomeR_float R hash _ _ hT'
  have g4 : (outs.map fun T => |x T - uniformLossProb (rowsOf U) S eta T|).sum ≤ lossyError t e S outs.length := by
    unfold uniformLossProb lossyError
    exact g3
  have hcast : (N : ℤ).toNat = N := Int.toNat_natCast N
  obtain ⟨hle, hlaw⟩ := lossyNet_uniform hU h0 h1 hd hS hm fuel hf' (by omega) N
  refine misses_prob R _ (networkStrategy d fuel) fuel ⟨S, S.length, left, some outs, k⟩ N hN hN' S.length
    (statesUpTo S.length S.sum) (uniformLossProb (rowsOf U) S eta) _ (fun P => ?_) hlaw
    (fun T => mul_nonneg (binomialWeight_nonneg _ _ h0 h1) (fixedLossProb_nonneg _ S _ T))
    (uniformLoss_total (h.bok fuel hf') h0 h1) (fun T hT => ((mem_statesUpTo _ _ T).mp hT).1) outs rfl
    (fun T => by rw [hmem, mem_statesUpTo]) hnd (by rw [hl]; exact hC) δ hδ0 hδ1 x hx _ _ g4
    (computed_bound R logR el he he' hlog outs.length N hN hN' hδ hδ0 hδ1)
  have := C95_network R A hd hle hrows hlen' hst' hS hm hm' (hn.trans (by norm_num)) fuel hf' N
    (fun r => ∃ l, r = .ok l ∧ P l)
  rw [hcast] at this
  exact this

/-! ### Concrete cases -/

/-- One mode that lets half of the amplitude pass, one particle: with 1000 samples the estimated probabilities of the outcomes
"lost" and "kept" are within `1/5` of `3/4` and `1/4`, except with probability at most `1/100`. -/
example : (approximateDistribution (networkStrategy halfSvd 4) 4 ⟨[1], 1, 0, some [[0], [1]], 0⟩ (1000 : ℕ)).prob
      (Misses ([[0], [1]].map (lossyProb (rowsOf (expandedMatrix halfSvd)) 1 [1])) (1 / 5)) ≤ ENNReal.ofReal (1 / 100) := by
  have h1 : ∀ i, halfSvd.s i ≤ 1 := fun i => by simp only [halfSvd]; norm_num
  refine C64_network_enough halfSvd_isSvd h1 (expanded_isDilation halfSvd_isSvd h1) (S := [1]) rfl (by decide) 4 (by decide)
    (by decide) [[0], [1]] (by decide) (fun T => ?_) 1000 (1 / 100) (1 / 5) 0 0 (by norm_num) (by norm_num) (by norm_num) ?_
  · constructor
    · intro hT
      simp only [List.mem_cons, List.not_mem_nil, or_false] at hT
      rcases hT with rfl | rfl <;> decide
    · rintro ⟨h2, h3⟩
      match T, h2 with
      | [a], _ =>
        have : a ≤ 1 := by simpa using h3
        interval_cases a <;> simp
  · obtain ⟨N, e, -, -, hmin⟩ := C51_sufficient 2 (1 / 100) (1 / 5) (by norm_num) (by norm_num) (by norm_num)
    change minimalSamples 2 (1 / 100) (1 / 5) ≤ _
    rw [e]
    by_contra hlt
    have := hmin 1000 (by norm_num) (by push Not at hlt; exact_mod_cast hlt)
    unfold tvErrorBound at this
    simp only at this
    rw [Real.le_sqrt' (by norm_num)] at this
    have hl : Real.log (1 / 100) = -Real.log 100 := by rw [one_div, Real.log_inv]
    have h100 : Real.log 100 ≤ 10 := by
      rw [Real.log_le_iff_le_exp (by norm_num)]
      have := Real.add_one_le_exp (1 : ℝ)
      calc (100 : ℝ) ≤ 2 ^ 10 := by norm_num
        _ ≤ Real.exp 1 ^ 10 := by gcongr; linarith
        _ = Real.exp 10 := by rw [← Real.exp_nat_mul]; norm_num
    have h2 : Real.log 2 ≤ 1 := by
      have := Real.log_le_sub_one_of_pos (show (0 : ℝ) < 2 by norm_num)
      linarith
    rw [hl] at this
    norm_num at this
    linarith

/-- The expectation of the estimated probability that the particle is kept is `1/4`, with any number of samples. -/
example (N : ℕ) (hN : 0 < N) : (approximateDistribution (networkStrategy halfSvd 4) 4 ⟨[1], 1, 0, some [[1]], 0⟩ N).wp (entry 0)
      = ENNReal.ofReal (1 / 4) := by
  have h1 : ∀ i, halfSvd.s i ≤ 1 := fun i => by simp only [halfSvd]; norm_num
  exact (C65_network halfSvd_isSvd h1 half_dilation (S := [1]) rfl (by decide) 4 (by decide) (by decide) [[1]] (by decide)
    (by simp) N 0 0 hN 0 (by decide)).trans (congrArg _ half_lossyProb)

/-- Everything in floating-point arithmetic: that mode, two particles, 1000 samples. -/
example (R : Rounding) (t : ℤ) (logR : ℝ → ℝ) (el : ℝ) (he : 0 ≤ el) (he' : el ≤ 1 / 4)
    (hlog : ∀ x, IsFloat x → 0 < x → IsFloat (logR x) ∧ |logR x - Real.log x| ≤ el * |Real.log x|) :
    ∃ outs F, ∀ fuel ≥ F, ∃ exact,
      uniformDistributionR R (squaredPermanentR R (textbookArith R) reflectedGray t fuel)
        (fun l => (Encodable.encode l : ℤ)) fuel (uniformCalcR R (expConfig [[1]] [2] 2 (1 / 4))) = .ok exact ∧
      exact.length = 3 ∧
      ((approximateDistributionR R (fun S N => lossyNetSimulateF R (textbookArith R)
          (ryserSubPermanentsR R (textbookArith R) fuel) ((rowsOf (expandedMatrix halfSvd)).map fun r => r.map R.rndC)
          fuel S N) fuel ⟨[2], 1, 0, some outs, 0⟩ (1000 : ℕ)).prob (MissesR R exact (estimateBound 3
            ((1 + 2 * el) * (1 + 1 / 2 ^ 50) * tvErrorBoundR R logR 3 1000 (1 / 8))
            (lossyError t 1 [2] 3)))).toReal ≤ 1 / 8 + 1 / 2 ^ 20 := by
  have hrows : ∀ r ∈ (rowsOf (expandedMatrix halfSvd)).map (fun r => r.map R.rndC), r.length = 1 + 1 := by
    intro r hr
    obtain ⟨r', hr', rfl⟩ := List.mem_map.mp hr
    obtain ⟨i, rfl⟩ := List.mem_ofFn.mp hr'
    simp
  have e : ((Real.sqrt (1 / 4) : ℝ) : ℂ) • (1 : Matrix (Fin 1) (Fin 1) ℂ) = Matrix.of fun _ _ => (1 / 2 : ℂ) := by
    rw [show (1 / 4 : ℝ) = (1 / 2) ^ 2 by norm_num, Real.sqrt_sq (by norm_num)]
    ext i j
    simp [Subsingleton.elim i j]
  have h1 : ∀ i, halfSvd.s i ≤ 1 := fun i => by simp only [halfSvd]; norm_num
  have hone : rowsOf (1 : Matrix (Fin 1) (Fin 1) ℂ) = [[1]] := by simp [rowsOf]
  obtain ⟨outs, F, hF⟩ := C110_network R (textbookArith R) reflectedGray reflectedGray_isGrayCode t
    (fun l => (Encodable.encode l : ℤ)) (e := 1) (e' := 1) (U := 1) (one_mem _) (eta := 1 / 4) (by norm_num) (by norm_num)
    ⟨1, -2, by norm_num, by norm_num, by norm_num⟩ (d := halfSvd) (by rw [e]; exact halfSvd_isSvd) (U' := [[1]])
    (by simp) rfl (by
      rw [hone]
      intro i j
      rw [sub_self, norm_zero]
      norm_num) hrows (by simp [rowsOf]) (storedAs_round R (expanded_entries halfSvd_isSvd h1)) (S := [2]) rfl (by decide)
    (by norm_num) (by decide) (by decide) (by decide)
    (fun a b _ _ _ hab => Encodable.encode_injective (by exact_mod_cast hab)) logR el he he' hlog
  refine ⟨outs, F, fun fuel hf => ?_⟩
  obtain ⟨exact, -, h2, h3, h4⟩ := hF fuel hf
  have h5 : exact.length = 3 := h3.trans (by decide)
  refine ⟨exact, h2, h5, ?_⟩
  have h6 := h4 1000 (1 / 8) 0 0 (by norm_num) (by norm_num)
    ⟨1, -3, by norm_num, by norm_num, by norm_num⟩ (by norm_num) (by norm_num)
  rw [h5] at h6
  refine h6.trans ?_
  have hb : versionBBound 2 2 (entryBound 1 2 2 3) ≤ 1 / 2 ^ 30 := by
    have h := entryBound_le (e := 1) (n := 2) (m := 2) (L := 3) (K := 73) (by decide) (by norm_num)
    generalize entryBound 1 2 2 3 = a at h ⊢
    unfold versionBBound
    simp only [sum_range_succ, sum_range_zero, Nat.factorial]
    norm_num at h ⊢
    linarith
  change 1 / 8 + ((1000 : ℕ) : ℝ) * versionBBound 2 2 (entryBound 1 2 2 3) ≤ _
  norm_num at hb ⊢
  linarith

end Verif
