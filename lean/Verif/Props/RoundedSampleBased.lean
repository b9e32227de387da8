import Verif.Proofs.RoundedSampleBased
import Verif.Props.RoundedDistributions
import Verif.Props.RoundedCliffordsB
import Verif.Props.RoundedCliffordsU
import Verif.Props.RoundedSamples
import Verif.Props.RoundedTvd

/-!
C110: distributions estimated from samples, with the sampler, the frequencies, the exact distribution, the
distance and the error bound all in floating-point arithmetic.
-/
namespace Verif

open Finset

variable (R : Rounding)

/-- C110: with at most `2 ^ 53` samples the counts are exact, so that every frequency is the fraction of
the samples equal to the outcome, rounded once, with every rounding and every strategy. The calculator
raises exactly what the strategy raises. -/
theorem C110_frequencies (strategy : Strategy) (fuel : ℕ) (o : SampleCalc) (N : ℕ) (hN : 0 < N) (hN' : N ≤ 2 ^ 53)
    (m : ℕ) (outs : List (List ℕ)) (hp : o.outcomes = some outs) (ho : ∀ T ∈ outs, T.length = m) (hn : outs.Nodup)
    (hs : ∀ samples, (strategy o.initialState N).Runs (.ok samples) →
      samples.length ≤ 2 ^ 53 ∧ ∀ s ∈ samples, s.length = m) :
    (∀ l, (approximateDistributionR R strategy fuel o N).Runs (.ok l) ↔
      ∃ samples, (strategy o.initialState N).Runs (.ok samples) ∧ IsRoundedFrequencies R outs samples N l) ∧
    ∀ e, (approximateDistributionR R strategy fuel o N).Runs (.error e) ↔
      (strategy o.initialState N).Runs (.error e) := by
  have hc : ∀ (samples : List (List ℕ)) T, (samples.filter fun s => decide (s = T)).length = samples.count T := by
    intro samples T
    rw [List.count, List.countP_eq_length_filter]
    congr 1
    exact List.filter_congr fun s _ => (beq_eq_decide s T).symm
  have hf : ∀ (samples : List (List ℕ)) l, IsRoundedFrequencies R outs samples N l
      ↔ l = outs.map fun T => R.rnd ((samples.count T : ℝ) / N) := by
    intro samples l
    unfold IsRoundedFrequencies
    simp only [hc]
    constructor
    · rintro ⟨h1, h2⟩
      refine List.ext_getElem (by simpa using h1) fun i hi hi' => ?_
      have := h2 i (h1 ▸ hi)
      rw [getD_of_lt _ _ hi, getD_of_lt _ _ (h1 ▸ hi)] at this
      rw [this, List.getElem_map]
    · rintro rfl
      refine ⟨by simp, fun i hi => ?_⟩
      rw [getD_of_lt _ _ (by simpa using hi), List.getElem_map, getD_of_lt _ _ hi]
  rw [approximateDistributionR_eq R strategy fuel o N outs (by rw [possibleOutcomes, hp]; rfl)]
  simp only [Prog.runs_bind, hf]
  constructor
  · intro l
    constructor
    · rintro (⟨samples, h1, h2⟩ | ⟨e, -, h2⟩)
      · refine ⟨samples, h1, ?_⟩
        rw [frequenciesR_ok R m samples (hs samples h1).2 outs ho hn (hs samples h1).1 N hN hN'] at h2
        exact Except.ok.inj h2
      · exact absurd h2 (by simp)
    · rintro ⟨samples, h1, rfl⟩
      refine .inl ⟨samples, h1, ?_⟩
      rw [frequenciesR_ok R m samples (hs samples h1).2 outs ho hn (hs samples h1).1 N hN hN']
      rfl
  · intro e
    constructor
    · rintro (⟨samples, h1, h2⟩ | ⟨e', h1, h2⟩)
      · rw [frequenciesR_ok R m samples (hs samples h1).2 outs ho hn (hs samples h1).1 N hN hN'] at h2
        exact absurd h2 (by simp [Prog.Runs])
      · cases h2; exact h1
    · exact fun h => .inr ⟨e, h, rfl⟩

/-- C110: beyond `2 ^ 53` samples a count can stop to grow: if `2 ^ 53 + 1` is rounded to `2 ^ 53`, as IEEE 754
prescribes, the frequency of the only outcome of `2 ^ 54` equal samples is one half. -/
theorem C110_many_samples (hR : R.rnd (2 ^ 53 + 1) = 2 ^ 53) (T : List ℕ) (o : SampleCalc)
    (hp : o.outcomes = some [T]) (fuel : ℕ) :
    approximateDistributionR R (fun _ N => pure (List.replicate N.toNat T)) fuel o (2 ^ 54 : ℕ)
      = .done (.ok [1 / 2]) := by
  have hstep : ∀ c : ℝ, countSampleR R T [T] [c] = .ok [R.rnd (c + 1)] := by
    intro c
    rw [countSampleR, allEqual, if_pos rfl]
    simp
  have hcount : ∀ n c : ℕ, c ≤ 2 ^ 53 → ((List.replicate n T).foldlM (fun counts sample => countSampleR R sample [T] counts)
      [(c : ℝ)] : Py _) = .ok [((min (c + n) (2 ^ 53) : ℕ) : ℝ)] := by
    intro n
    induction n with
    | zero => intro c hc; rw [Nat.add_zero, min_eq_left hc]; rfl
    | succ n ih =>
      intro c hc
      rw [List.replicate_succ, List.foldlM_cons, hstep, ok_bind]
      rcases Nat.lt_or_ge c (2 ^ 53) with h | h
      · have : R.rnd ((c : ℝ) + 1) = ((c + 1 : ℕ) : ℝ) := by
          rw [← Nat.cast_succ]; exact R.eq_self (isFloat_nat h)
        rw [this, ih (c + 1) h, show c + 1 + n = c + (n + 1) by ring]
      · have hc' : c = 2 ^ 53 := le_antisymm hc h
        have : R.rnd ((c : ℝ) + 1) = (c : ℝ) := by
          have e53 : (c : ℝ) = 2 ^ 53 := by rw [hc']; norm_num
          rw [e53, hR]
        rw [this, ih c hc, hc', min_eq_right (Nat.le_add_right _ _), min_eq_right (Nat.le_add_right _ _)]
  rw [approximateDistributionR_eq R _ fuel o _ [T] (by rw [possibleOutcomes, hp]; rfl)]
  have h1 := hcount (2 ^ 54) 0 (Nat.zero_le _)
  have hN : R.rnd (((2 ^ 54 : ℕ) : ℤ) : ℝ) = 2 ^ 54 := by
    have : IsFloat (2 ^ 54) := ⟨1, 54, by norm_num, by norm_num, by norm_num⟩
    rw [show (((2 ^ 54 : ℕ) : ℤ) : ℝ) = 2 ^ 54 by norm_num]
    exact R.eq_self this
  have hhalf : R.rnd (2 ^ 53 / 2 ^ 54) = 1 / 2 := by
    rw [show (2 : ℝ) ^ 53 / 2 ^ 54 = 1 / 2 by norm_num]
    exact R.eq_self ⟨1, -1, by norm_num, by norm_num, by norm_num⟩
  have hf : frequenciesR R [T] ((2 ^ 54 : ℕ) : ℤ) (List.replicate (2 ^ 54) T) = .ok [1 / 2] := by
    unfold frequenciesR
    have e0 : List.replicate [T].length (0 : ℝ) = [((0 : ℕ) : ℝ)] := by simp
    rw [e0, h1, ok_bind, show min (0 + 2 ^ 54) (2 ^ 53) = 2 ^ 53 by norm_num, List.mapM_cons, List.mapM_nil, hN,
      if_neg (by norm_num), show ((2 ^ 53 : ℕ) : ℝ) = 2 ^ 53 by norm_num, hhalf]
    rfl
  exact congrArg Prog.done hf

/-- The total error of the distribution computed without losses for `K` outcomes. -/
noncomputable def losslessError (t : ℤ) (e : ℕ) (S : List ℕ) (K : ℕ) : ℝ :=
  distOps S / 2 ^ 52 + K * (2 * distErr t e S S.sum)

/-- The total error of the distribution computed with uniform losses for `K` outcomes. -/
noncomputable def lossyError (t : ℤ) (e : ℕ) (S : List ℕ) (K : ℕ) : ℝ :=
  (distOps S + S.sum + 6) / 2 ^ 52 + K * uniformErr t e S

section

variable (A : ComplexArith) (gray : Nat → List Nat) (hgray : ∀ n, IsGrayCode n (gray n)) (t t' : Int)
  (hash : List ℕ → Int) {e : ℕ} {U' U : List (List ℂ)} {S : List ℕ} (h : Interferometer U S)
  (hsq : ∀ r ∈ U', r.length = U'.length) (hlen : U'.length = U.length) (hU : StoredAs e U' U) (hn : S.sum ≤ 170)
  (hm : S.length ≤ 2 ^ 20) (hK : 6 * S.length + 6 + 2 * boxSize S ≤ 2 ^ 50)

include hgray h hsq hlen hU hn hm hK

/-- The estimate without losses, for any number above the exact error bound. -/
theorem lossless_misses :
    ∃ F, ∀ fuel ≥ F, ∃ exact,
      fixedLossDistributionR R (squaredPermanentR R A gray t fuel) hash fuel (expConfig U' S S.sum 1) = .ok exact ∧
      exact.length = (S.sum + S.length - 1).choose S.sum ∧
      (exact.length ≤ 2 ^ 52 → ∀ (N : ℕ) (δ B : ℝ) (k : ℤ) (o : GccObj), 0 < N → N ≤ 2 ^ 53 → 0 < δ → δ ≤ 1 →
        tvErrorBound exact.length N δ ≤ B →
        (∀ v, v = gccA ∨ v = gccAssignment →
          ((approximateDistributionR R (gccStrategyR R v (squaredPermanentR R A gray t' fuel) U' fuel o) fuel
            ⟨S, S.length, S.sum, none, k⟩ N).prob (MissesR R exact
              (estimateBound exact.length B (losslessError t e S exact.length)))).toReal
            ≤ δ + N * lawBound S 1 (squareErr t' e S)) ∧
        ((approximateDistributionR R (fun S N => gccbSimulateF R A (ryserSubPermanentsR R A fuel) U' fuel S N) fuel
            ⟨S, S.length, S.sum, none, k⟩ N).prob (MissesR R exact
              (estimateBound exact.length B (losslessError t e S exact.length)))).toReal
            ≤ δ + N * versionBBound S.length S.sum (entryBound e S.sum S.length (boxSize S))) := by
  obtain ⟨outs, F, hnd, hmem, hF⟩ := C90_distribution R A gray hgray t hash h hsq hlen hU (hn.trans (by norm_num))
    (by unfold distOps; omega) (k := S.sum) le_rfl 1
    (fun a b ha hsa hb hsb _ => (stateLE_full ha hsa).trans (stateLE_full hb hsb).symm)
  refine ⟨F + boxSize S, fun fuel hf => ?_⟩
  obtain ⟨h1, x, h2, -, h3, -⟩ := hF fuel (by omega)
  have hf' : boxSize S ≤ fuel := by omega
  refine ⟨outs.map x, h2, by rw [List.length_map, states_length h.ne hnd hmem], ?_⟩
  rw [List.length_map]
  intro hK' N δ B k o hN hN' h0 h1' hB
  have hx : ∀ T ∈ outs, IsFloat (x T) := by
    intro T hT
    rw [fixedLossDistributionR, h1, ok_bind, fixedLossProbabilitiesR] at h2
    obtain ⟨T', -, hT'⟩ := mapM_mem_ok _ _ _ h2 (x T) (List.mem_map_of_mem hT)
    exact fixedLossOutcomeR_float R hash _ _ hT'
  have h3' : (outs.map fun T => |x T - bosonProb U S T|).sum ≤ losslessError t e S outs.length := by
    refine le_trans (le_of_eq ?_) h3
    congr 1
    exact List.map_congr_left fun T _ => by rw [fixedLossProb_full]
  have hp : possibleOutcomes fuel ⟨S, S.length, S.sum, none, k⟩ = .ok outs := h1
  have ho : ∀ T, T ∈ outs ↔ T ∈ statesFin S.length S.sum := fun T => by rw [hmem, mem_statesFin]
  have hcast : (N : ℤ).toNat = N := Int.toNat_natCast N
  refine ⟨fun v hv => ?_, ?_⟩
  · have hV : ∀ f, (gccStrategy v (factoryPermanent gray t fuel) U fuel o S N).wp f
        = expIid (statesFin S.length S.sum) (fun T => ENNReal.ofReal (bosonProb U S T)) N fun l => f (.ok l) := by
      rcases hv with rfl | rfl
      · exact fun f => gccStrategy_wp gray hgray t (okA S) h fuel hf' o N f
      · exact fun f => gccStrategy_wp gray hgray t (okAssignment S h.ne) h fuel hf' o N f
    refine misses_prob R _ (gccStrategy v (factoryPermanent gray t fuel) U fuel o) fuel _ N hN hN' S.length
      (statesFin S.length S.sum) (bosonProb U S) _ (fun P => ?_)
      hV
      (bosonProb_nonneg U S) (boson_total' (h.bok fuel hf')) (fun T hT => ((mem_statesFin _ _ T).mp hT).1) outs hp
      ho hnd hK' δ h0 h1' x hx _ B h3' hB
    have := C89_law R A gray hgray t' h hsq hlen hU v hv hn hK fuel hf' t o o N P
    rw [hcast] at this
    simp only [gccStrategyR, gccStrategy, Prog.bind_eq]
    rw [prob_samples, prob_samples]
    exact this
  · refine misses_prob R _ (gccbStrategy (ryserSubPermanents fuel) U fuel) fuel _ N hN hN' S.length
      (statesFin S.length S.sum) (bosonProb U S) _ (fun P => ?_) (fun f => gccbStrategy_wp h fuel hf' N f)
      (bosonProb_nonneg U S) (boson_total' (h.bok fuel hf')) (fun T hT => ((mem_statesFin _ _ T).mp hT).1) outs hp
      ho hnd hK' δ h0 h1' x hx _ B h3' hB
    have := C94_law R A h hsq (by rw [h.len, hlen]) (by rw [h.len, hlen]) hU hm (hn.trans (by norm_num)) fuel hf' N
      (fun r => ∃ l, r = .ok l ∧ P l)
    rw [hcast] at this
    exact this

/-- The estimate with uniform losses, for any number above the exact error bound. -/
theorem lossy_misses {eta : ℝ} (h0 : 0 ≤ eta) (h1 : eta ≤ 1) (hfl : IsFloat eta)
    (hinj : ∀ a b : List ℕ, StateLE a S → StateLE b S → a.sum = b.sum → hash a = hash b → a = b)
    (o : GccuObj) (ho : o.eta = eta) :
    ∃ outs F, ∀ fuel ≥ F, ∃ exact, uniformOutcomes fuel (expConfig U' S S.sum eta) = .ok outs ∧
      uniformDistributionR R (squaredPermanentR R A gray t fuel) hash fuel (uniformCalcR R (expConfig U' S S.sum eta))
        = .ok exact ∧
      exact.length = (S.sum + S.length).choose S.sum ∧
      (exact.length ≤ 2 ^ 52 → ∀ (N : ℕ) (δ B : ℝ) (left k : ℤ), 0 < N → N ≤ 2 ^ 53 → 0 < δ → δ ≤ 1 →
        tvErrorBound exact.length N δ ≤ B →
        ((approximateDistributionR R (gccuStrategyR R (squaredPermanentR R A gray t' fuel) U' fuel o) fuel
          ⟨S, S.length, left, some outs, k⟩ N).prob (MissesR R exact
            (estimateBound exact.length B (lossyError t e S exact.length)))).toReal
          ≤ δ + N * (lawBound S 1 (squareErr t' e S) + S.sum / 2 ^ 53) ∧
        ((approximateDistributionR R (fun S N => gccbLossySimulateF R A (ryserSubPermanentsR R A fuel) U' fuel eta S N) fuel
          ⟨S, S.length, left, some outs, k⟩ N).prob (MissesR R exact
            (estimateBound exact.length B (lossyError t e S exact.length)))).toReal
          ≤ δ + N * ((10 * S.sum + 28) / 2 ^ 53
            + versionBBound S.length S.sum (entryBound e S.sum S.length (boxSize S)))) := by
  obtain ⟨outs, F, hnd, hmem, hF⟩ := C91_distribution R A gray hgray t hash h hsq hlen hU (hn.trans (by norm_num))
    (by unfold distOps; omega) S.sum h0 h1 hfl hinj
  obtain ⟨m, hm'⟩ : ∃ m, S.length = m + 1 := ⟨S.length - 1, by have := List.length_pos_of_ne_nil h.ne; omega⟩
  obtain ⟨F', hF'⟩ := C97_law R A gray hgray t' h hsq hlen hU hn hK h0 h1 t o o ho ho
  refine ⟨outs, F + F' + (genFuel m S.sum + boxSize S), fun fuel hf => ?_⟩
  obtain ⟨g1, x, g2, -, g3, -⟩ := hF fuel (by omega)
  have hf' : boxSize S ≤ fuel := by omega
  refine ⟨outs.map x, g1, g2, by rw [List.length_map, states_length_upTo h.ne hnd hmem], ?_⟩
  rw [List.length_map]
  intro hK' N δ B left k hN hN' hδ0 hδ1 hB
  have hx : ∀ T ∈ outs, IsFloat (x T) := by
    intro T hT
    have g1' : uniformOutcomes fuel (uniformCalcR R (expConfig U' S S.sum eta)).config = .ok outs := g1
    rw [uniformDistributionR, g1', ok_bind, uniformProbabilitiesR] at g2
    obtain ⟨T', -, hT'⟩ := mapM_mem_ok _ _ _ g2 (x T) (List.mem_map_of_mem hT)
    exact uniformOutcomeR_float R hash _ _ hT'
  have g4 : (outs.map fun T => |x T - uniformLossProb U S eta T|).sum ≤ lossyError t e S outs.length := by
    unfold uniformLossProb lossyError
    exact g3
  have hf2 : genFuel m S.sum + (S.map (· + 1)).prod ≤ fuel := le_trans (by unfold boxSize; omega) hf
  have hp : possibleOutcomes fuel ⟨S, S.length, left, some outs, k⟩ = .ok outs := rfl
  have ho' : ∀ T, T ∈ outs ↔ T ∈ statesUpTo S.length S.sum := fun T => by rw [hmem, mem_statesUpTo]
  have hcast : (N : ℤ).toNat = N := Int.toNat_natCast N
  have hnn : ∀ T, 0 ≤ uniformLossProb U S eta T := fun T =>
    mul_nonneg (binomialWeight_nonneg _ _ h0 h1) (fixedLossProb_nonneg U S _ T)
  have l1 : ∀ f, (gccuStrategy (factoryPermanent gray t fuel) U fuel o S (N : ℤ)).wp f
      = expIid (statesUpTo S.length S.sum) (fun T => ENNReal.ofReal (uniformLossProb U S eta T)) N fun l => f (.ok l) :=
    gccuStrategy_wp gray hgray t h h0 h1 o ho m hm' fuel hf2 N
  have l2 : ∀ f, (gccbLossyStrategy (ryserSubPermanents fuel) U fuel eta S (N : ℤ)).wp f
      = expIid (statesUpTo S.length S.sum) (fun T => ENNReal.ofReal (uniformLossProb U S eta T)) N fun l => f (.ok l) :=
    gccbLossyStrategy_wp h h0 h1 fuel hf' N
  constructor
  · refine misses_prob R _ (gccuStrategy (factoryPermanent gray t fuel) U fuel o) fuel
      ⟨S, S.length, left, some outs, k⟩ N hN hN' S.length
      (statesUpTo S.length S.sum) (uniformLossProb U S eta) _ (fun P => ?_)
      l1
      hnn (uniformLoss_total (h.bok fuel hf') h0 h1) (fun T hT => ((mem_statesUpTo _ _ T).mp hT).1) outs hp
      ho' hnd hK' δ hδ0 hδ1 x hx _ B g4 hB
    have := hF' fuel (by omega) N P
    rw [hcast] at this
    simp only [gccuStrategyR, gccuStrategy, Prog.bind_eq]
    rw [prob_samples, prob_samples]
    exact this
  · refine misses_prob R _ (gccbLossyStrategy (ryserSubPermanents fuel) U fuel eta) fuel
      ⟨S, S.length, left, some outs, k⟩ N hN hN' S.length
      (statesUpTo S.length S.sum) (uniformLossProb U S eta) _ (fun P => ?_)
      l2
      hnn (uniformLoss_total (h.bok fuel hf') h0 h1) (fun T hT => ((mem_statesUpTo _ _ T).mp hT).1) outs hp
      ho' hnd hK' δ hδ0 hδ1 x hx _ B g4 hB
    have := C95_uniform R A h hsq (by rw [h.len, hlen]) (by rw [h.len, hlen]) hU hm (hn.trans (by norm_num)) fuel hf'
      h0 h1 hfl hn N (fun r => ∃ l, r = .ok l ∧ P l)
    rw [hcast] at this
    exact this

variable (logR sqR : ℝ → ℝ) (el : ℝ) (he : 0 ≤ el) (he' : el ≤ 1 / 4)
  (hlog : ∀ x, IsFloat x → 0 < x → IsFloat (logR x) ∧ |logR x - Real.log x| ≤ el * |Real.log x|)
include he he' hlog

omit hgray h hsq hlen hU hn hm hK in
theorem computed_bound (K N : ℕ) (hN : 0 < N) (hN' : N ≤ 2 ^ 53) {δ : ℝ} (hδ : IsFloat δ) (h0 : 0 < δ) (h1 : δ ≤ 1) :
    tvErrorBound K N δ ≤ (1 + 2 * el) * (1 + 1 / 2 ^ 50) * tvErrorBoundR R logR K N δ :=
  (C108_bound R logR el he he' hlog K N hN (hN'.trans (by norm_num)) δ hδ h0 h1).2

omit hgray h hsq hlen hU hn hm hK in
theorem computed_number (K N : ℕ) {δ d : ℝ} (hδ : IsFloat δ) (h0 : 0 < δ) (h1 : δ ≤ 1) (hd : 1 / 2 ^ 200 ≤ d)
    (hd1 : d ≤ 1) (hsqR : |sqR d - d ^ 2| ≤ el * d ^ 2) (hN : minimalSamplesR R logR sqR K δ d ≤ N) :
    0 < N ∧ tvErrorBound K N δ ≤ (1 + 2 * el) * (1 + 1 / 2 ^ 50) * d := by
  obtain ⟨M, hM, hM1, hlt, -⟩ := C108_sufficient R logR sqR el he he' hlog K δ d hδ h0 h1 hd hd1 hsqR
  have hd0 : 0 < d := lt_of_lt_of_le (by positivity) hd
  have hFd : 0 < (1 + 2 * el) * (1 + 1 / 2 ^ 50) * d := by positivity
  refine tvErrorBound_le K N δ _ h0 h1 hFd ?_
  obtain ⟨M', hM', -, -, hmin⟩ := C51_sufficient K δ _ h0 h1 hFd
  rw [hM] at hN
  rw [hM']
  have : M' ≤ M := by
    by_contra hc
    push Not at hc
    exact absurd hlt (not_lt.mpr (hmin M hM1 hc))
  exact le_trans (by exact_mod_cast this) hN

/-- C110: without losses. The matrix is stored up to `e` operations, `exact` is the distribution computed with it. For
`N` samples and a float `0 < δ ≤ 1`, the computed distance between the computed frequencies and `exact` is below the
computed error bound, enlarged by the rounding errors, except with probability at most `δ` and the bound of the
sampler for each sample. -/
theorem C110_error_bound (hC : (S.sum + S.length - 1).choose S.sum ≤ 2 ^ 52) :
    ∃ F, ∀ fuel ≥ F, ∃ exact,
      fixedLossDistributionR R (squaredPermanentR R A gray t fuel) hash fuel (expConfig U' S S.sum 1) = .ok exact ∧
      exact.length = (S.sum + S.length - 1).choose S.sum ∧
      (∀ (N : ℕ) (δ : ℝ) (k : ℤ) (o : GccObj), 0 < N → N ≤ 2 ^ 53 → IsFloat δ → 0 < δ → δ ≤ 1 →
        (∀ v, v = gccA ∨ v = gccAssignment →
          ((approximateDistributionR R (gccStrategyR R v (squaredPermanentR R A gray t' fuel) U' fuel o) fuel
            ⟨S, S.length, S.sum, none, k⟩ N).prob (MissesR R exact (estimateBound exact.length
              ((1 + 2 * el) * (1 + 1 / 2 ^ 50) * tvErrorBoundR R logR exact.length N δ)
              (losslessError t e S exact.length)))).toReal
            ≤ δ + N * lawBound S 1 (squareErr t' e S)) ∧
        ((approximateDistributionR R (fun S N => gccbSimulateF R A (ryserSubPermanentsR R A fuel) U' fuel S N) fuel
            ⟨S, S.length, S.sum, none, k⟩ N).prob (MissesR R exact (estimateBound exact.length
              ((1 + 2 * el) * (1 + 1 / 2 ^ 50) * tvErrorBoundR R logR exact.length N δ)
              (losslessError t e S exact.length)))).toReal
            ≤ δ + N * versionBBound S.length S.sum (entryBound e S.sum S.length (boxSize S))) := by
  obtain ⟨F, hF⟩ := lossless_misses R A gray hgray t t' hash h hsq hlen hU hn hm hK
  refine ⟨F, fun fuel hf => ?_⟩
  obtain ⟨exact, h1, hl, h2⟩ := hF fuel hf
  have hK' : exact.length ≤ 2 ^ 52 := by rw [hl]; exact hC
  exact ⟨exact, h1, hl, fun N δ k o hN hN' hδ h0 h1 => h2 hK' N δ _ k o hN hN' h0 h1
    (computed_bound R logR el he he' hlog exact.length N hN hN' hδ h0 h1)⟩

/-- C110: without losses, with at least the computed number of samples for the accuracy `d`. -/
theorem C110_enough_samples (hC : (S.sum + S.length - 1).choose S.sum ≤ 2 ^ 52) :
    ∃ F, ∀ fuel ≥ F, ∃ exact,
      fixedLossDistributionR R (squaredPermanentR R A gray t fuel) hash fuel (expConfig U' S S.sum 1) = .ok exact ∧
      exact.length = (S.sum + S.length - 1).choose S.sum ∧
      (∀ (N : ℕ) (δ d : ℝ) (k : ℤ) (o : GccObj), N ≤ 2 ^ 53 → IsFloat δ → 0 < δ → δ ≤ 1 →
        1 / 2 ^ 200 ≤ d → d ≤ 1 → |sqR d - d ^ 2| ≤ el * d ^ 2 → minimalSamplesR R logR sqR exact.length δ d ≤ N →
        (∀ v, v = gccA ∨ v = gccAssignment →
          ((approximateDistributionR R (gccStrategyR R v (squaredPermanentR R A gray t' fuel) U' fuel o) fuel
            ⟨S, S.length, S.sum, none, k⟩ N).prob (MissesR R exact (estimateBound exact.length
              ((1 + 2 * el) * (1 + 1 / 2 ^ 50) * d) (losslessError t e S exact.length)))).toReal
            ≤ δ + N * lawBound S 1 (squareErr t' e S)) ∧
        ((approximateDistributionR R (fun S N => gccbSimulateF R A (ryserSubPermanentsR R A fuel) U' fuel S N) fuel
            ⟨S, S.length, S.sum, none, k⟩ N).prob (MissesR R exact (estimateBound exact.length
              ((1 + 2 * el) * (1 + 1 / 2 ^ 50) * d) (losslessError t e S exact.length)))).toReal
            ≤ δ + N * versionBBound S.length S.sum (entryBound e S.sum S.length (boxSize S))) := by
  obtain ⟨F, hF⟩ := lossless_misses R A gray hgray t t' hash h hsq hlen hU hn hm hK
  refine ⟨F, fun fuel hf => ?_⟩
  obtain ⟨exact, h1, hl, h2⟩ := hF fuel hf
  have hK' : exact.length ≤ 2 ^ 52 := by rw [hl]; exact hC
  refine ⟨exact, h1, hl, fun N δ d k o hN' hδ h0 h1 hd hd1 hsqR hmin => ?_⟩
  obtain ⟨hN, hB⟩ := computed_number R logR sqR el he he' hlog exact.length N hδ h0 h1 hd hd1 hsqR hmin
  exact h2 hK' N δ _ k o hN hN' h0 h1 hB

/-- C110: with uniform losses; the sample-based calculator is given the outcomes of the exact one. -/
theorem C110_lossy_error_bound {eta : ℝ} (h0 : 0 ≤ eta) (h1 : eta ≤ 1) (hfl : IsFloat eta)
    (hinj : ∀ a b : List ℕ, StateLE a S → StateLE b S → a.sum = b.sum → hash a = hash b → a = b)
    (hC : (S.sum + S.length).choose S.sum ≤ 2 ^ 52) (o : GccuObj) (ho : o.eta = eta) :
    ∃ outs F, ∀ fuel ≥ F, ∃ exact, uniformOutcomes fuel (expConfig U' S S.sum eta) = .ok outs ∧
      uniformDistributionR R (squaredPermanentR R A gray t fuel) hash fuel (uniformCalcR R (expConfig U' S S.sum eta))
        = .ok exact ∧
      exact.length = (S.sum + S.length).choose S.sum ∧
      (∀ (N : ℕ) (δ : ℝ) (left k : ℤ), 0 < N → N ≤ 2 ^ 53 → IsFloat δ → 0 < δ → δ ≤ 1 →
        ((approximateDistributionR R (gccuStrategyR R (squaredPermanentR R A gray t' fuel) U' fuel o) fuel
          ⟨S, S.length, left, some outs, k⟩ N).prob (MissesR R exact (estimateBound exact.length
            ((1 + 2 * el) * (1 + 1 / 2 ^ 50) * tvErrorBoundR R logR exact.length N δ)
            (lossyError t e S exact.length)))).toReal
          ≤ δ + N * (lawBound S 1 (squareErr t' e S) + S.sum / 2 ^ 53) ∧
        ((approximateDistributionR R (fun S N => gccbLossySimulateF R A (ryserSubPermanentsR R A fuel) U' fuel eta S N) fuel
          ⟨S, S.length, left, some outs, k⟩ N).prob (MissesR R exact (estimateBound exact.length
            ((1 + 2 * el) * (1 + 1 / 2 ^ 50) * tvErrorBoundR R logR exact.length N δ)
            (lossyError t e S exact.length)))).toReal
          ≤ δ + N * ((10 * S.sum + 28) / 2 ^ 53
            + versionBBound S.length S.sum (entryBound e S.sum S.length (boxSize S)))) := by
  obtain ⟨outs, F, hF⟩ := lossy_misses R A gray hgray t t' hash h hsq hlen hU hn hm hK h0 h1 hfl hinj o ho
  refine ⟨outs, F, fun fuel hf => ?_⟩
  obtain ⟨exact, g1, g2, hl, g3⟩ := hF fuel hf
  have hK' : exact.length ≤ 2 ^ 52 := by rw [hl]; exact hC
  exact ⟨exact, g1, g2, hl, fun N δ left k hN hN' hδ d0 d1 => g3 hK' N δ _ left k hN hN' d0 d1
    (computed_bound R logR el he he' hlog exact.length N hN hN' hδ d0 d1)⟩

/-- C110: with uniform losses, with at least the computed number of samples for the accuracy `d`. -/
theorem C110_lossy_enough_samples {eta : ℝ} (h0 : 0 ≤ eta) (h1 : eta ≤ 1) (hfl : IsFloat eta)
    (hinj : ∀ a b : List ℕ, StateLE a S → StateLE b S → a.sum = b.sum → hash a = hash b → a = b)
    (hC : (S.sum + S.length).choose S.sum ≤ 2 ^ 52) (o : GccuObj) (ho : o.eta = eta) :
    ∃ outs F, ∀ fuel ≥ F, ∃ exact, uniformOutcomes fuel (expConfig U' S S.sum eta) = .ok outs ∧
      uniformDistributionR R (squaredPermanentR R A gray t fuel) hash fuel (uniformCalcR R (expConfig U' S S.sum eta))
        = .ok exact ∧
      exact.length = (S.sum + S.length).choose S.sum ∧
      (∀ (N : ℕ) (δ d : ℝ) (left k : ℤ), N ≤ 2 ^ 53 → IsFloat δ → 0 < δ → δ ≤ 1 →
        1 / 2 ^ 200 ≤ d → d ≤ 1 → |sqR d - d ^ 2| ≤ el * d ^ 2 → minimalSamplesR R logR sqR exact.length δ d ≤ N →
        ((approximateDistributionR R (gccuStrategyR R (squaredPermanentR R A gray t' fuel) U' fuel o) fuel
          ⟨S, S.length, left, some outs, k⟩ N).prob (MissesR R exact (estimateBound exact.length
            ((1 + 2 * el) * (1 + 1 / 2 ^ 50) * d) (lossyError t e S exact.length)))).toReal
          ≤ δ + N * (lawBound S 1 (squareErr t' e S) + S.sum / 2 ^ 53) ∧
        ((approximateDistributionR R (fun S N => gccbLossySimulateF R A (ryserSubPermanentsR R A fuel) U' fuel eta S N) fuel
          ⟨S, S.length, left, some outs, k⟩ N).prob (MissesR R exact (estimateBound exact.length
            ((1 + 2 * el) * (1 + 1 / 2 ^ 50) * d) (lossyError t e S exact.length)))).toReal
          ≤ δ + N * ((10 * S.sum + 28) / 2 ^ 53
            + versionBBound S.length S.sum (entryBound e S.sum S.length (boxSize S)))) := by
  obtain ⟨outs, F, hF⟩ := lossy_misses R A gray hgray t t' hash h hsq hlen hU hn hm hK h0 h1 hfl hinj o ho
  refine ⟨outs, F, fun fuel hf => ?_⟩
  obtain ⟨exact, g1, g2, hl, g3⟩ := hF fuel hf
  have hK' : exact.length ≤ 2 ^ 52 := by rw [hl]; exact hC
  refine ⟨exact, g1, g2, hl, fun N δ d left k hN' hδ d0 d1 hd hd1 hsqR hmin => ?_⟩
  obtain ⟨hN, hB⟩ := computed_number R logR sqR el he he' hlog exact.length N hδ d0 d1 hd hd1 hsqR hmin
  exact g3 hK' N δ _ left k hN hN' d0 d1 hB

end

/-- A concrete case: 1000 samples of two particles through a rotation whose entries are rounded to floats. There are
three outcomes, the computed distribution is known up to `2 ^ -26`, and the estimate of version B is within the computed
error bound, enlarged by the rounding errors, except with probability `1 / 8 + 2 ^ -20`. -/
example (t : ℤ) (logR : ℝ → ℝ) (el : ℝ) (he : 0 ≤ el) (he' : el ≤ 1 / 4)
    (hlog : ∀ x, IsFloat x → 0 < x → IsFloat (logR x) ∧ |logR x - Real.log x| ≤ el * |Real.log x|) :
    losslessError t 1 [1, 1] 3 ≤ 1 / 2 ^ 26 ∧ ∃ F, ∀ fuel ≥ F, ∃ exact,
      fixedLossDistributionR R (squaredPermanentR R (textbookArith R) reflectedGray t fuel)
        (fun l => (Encodable.encode l : ℤ)) fuel
        (expConfig (([[3 / 5, 4 / 5], [4 / 5, -3 / 5]] : List (List ℂ)).map fun r => r.map R.rndC) [1, 1] 2 1) = .ok exact ∧
      exact.length = 3 ∧
      ((approximateDistributionR R (fun S N => gccbSimulateF R (textbookArith R)
          (ryserSubPermanentsR R (textbookArith R) fuel)
          (([[3 / 5, 4 / 5], [4 / 5, -3 / 5]] : List (List ℂ)).map fun r => r.map R.rndC) fuel S N) fuel
          ⟨[1, 1], 2, 2, none, 0⟩ (1000 : ℕ)).prob (MissesR R exact (estimateBound 3
            ((1 + 2 * el) * (1 + 1 / 2 ^ 50) * tvErrorBoundR R logR 3 1000 (1 / 8))
            (losslessError t 1 [1, 1] 3)))).toReal ≤ 1 / 8 + 1 / 2 ^ 20 := by
  have hsq : ∀ r ∈ ([[3 / 5, 4 / 5], [4 / 5, -3 / 5]] : List (List ℂ)).map (fun r => r.map R.rndC),
      r.length = (([[3 / 5, 4 / 5], [4 / 5, -3 / 5]] : List (List ℂ)).map fun r => r.map R.rndC).length := by
    simp
  constructor
  · have hz : (2 : ℝ) ^ (-1074 : ℤ) ≤ 1 / 2 ^ 60 := by
      refine (zpow_le_zpow_right₀ (by norm_num) (show (-1074 : ℤ) ≤ -60 by norm_num)).trans (le_of_eq ?_)
      rw [zpow_neg, one_div]
      norm_cast
    have ha := squareErr_two t
    have hb : boxSize [1, 1] = 4 := by decide
    have hops : distOps [1, 1] = 23 := by decide
    unfold losslessError distErr
    rw [hb, hops]
    generalize (2 : ℝ) ^ (-1074 : ℤ) = z at hz ⊢
    generalize squareErr t 1 [1, 1] = a at ha ⊢
    simp only [List.length_cons, List.length_nil, List.sum_cons, List.sum_nil, Nat.factorial]
    norm_num at hz ha ⊢
    linarith
  · obtain ⟨F, hF⟩ := C110_error_bound R (textbookArith R) reflectedGray reflectedGray_isGrayCode t t
      (fun l => (Encodable.encode l : ℤ)) (rotation_interferometer [1, 1] rfl) hsq (by simp)
      (storedAs_round R rotation_entries) (by decide) (by simp) (by decide) logR el he he' hlog (by decide)
    refine ⟨F, fun fuel hf => ?_⟩
    obtain ⟨exact, h1, h2, h3⟩ := hF fuel hf
    have h4 : exact.length = 3 := h2.trans (by decide)
    refine ⟨exact, h1, h4, ?_⟩
    have h5 := (h3 1000 (1 / 8) 0 ⟨[], [], [], [], [], []⟩ (by norm_num) (by norm_num)
      ⟨1, -3, by norm_num, by norm_num, by norm_num⟩ (by norm_num) (by norm_num)).2
    rw [h4] at h5
    refine h5.trans ?_
    have hb := bound_two
    change 1 / 8 + ((1000 : ℕ) : ℝ) * versionBBound 2 2 (entryBound 1 2 2 4) ≤ _
    norm_num at hb ⊢
    linarith

/-- The same particles with losses: every one is kept with probability `1 / 2`, and there are six outcomes. -/
example (t : ℤ) (logR : ℝ → ℝ) (el : ℝ) (he : 0 ≤ el) (he' : el ≤ 1 / 4)
    (hlog : ∀ x, IsFloat x → 0 < x → IsFloat (logR x) ∧ |logR x - Real.log x| ≤ el * |Real.log x|) :
    ∃ outs F, ∀ fuel ≥ F, ∃ exact,
      uniformDistributionR R (squaredPermanentR R (textbookArith R) reflectedGray t fuel)
        (fun l => (Encodable.encode l : ℤ)) fuel (uniformCalcR R
        (expConfig (([[3 / 5, 4 / 5], [4 / 5, -3 / 5]] : List (List ℂ)).map fun r => r.map R.rndC) [1, 1] 2 (1 / 2)))
          = .ok exact ∧
      exact.length = 6 ∧
      ((approximateDistributionR R (fun S N => gccbLossySimulateF R (textbookArith R)
          (ryserSubPermanentsR R (textbookArith R) fuel)
          (([[3 / 5, 4 / 5], [4 / 5, -3 / 5]] : List (List ℂ)).map fun r => r.map R.rndC) fuel (1 / 2) S N) fuel
          ⟨[1, 1], 2, 0, some outs, 0⟩ (1000 : ℕ)).prob (MissesR R exact (estimateBound 6
            ((1 + 2 * el) * (1 + 1 / 2 ^ 50) * tvErrorBoundR R logR 6 1000 (1 / 8))
            (lossyError t 1 [1, 1] 6)))).toReal ≤ 1 / 8 + 1 / 2 ^ 19 := by
  have hsq : ∀ r ∈ ([[3 / 5, 4 / 5], [4 / 5, -3 / 5]] : List (List ℂ)).map (fun r => r.map R.rndC),
      r.length = (([[3 / 5, 4 / 5], [4 / 5, -3 / 5]] : List (List ℂ)).map fun r => r.map R.rndC).length := by
    simp
  obtain ⟨outs, F, hF⟩ := C110_lossy_error_bound R (textbookArith R) reflectedGray reflectedGray_isGrayCode t t
    (fun l => (Encodable.encode l : ℤ)) (rotation_interferometer [1, 1] rfl) hsq (by simp)
    (storedAs_round R rotation_entries) (by decide) (by simp) (by decide) logR el he he' hlog (eta := 1 / 2)
    (by norm_num) (by norm_num) ⟨1, -1, by norm_num, by norm_num, by norm_num⟩
    (fun a b _ _ _ hab => Encodable.encode_injective (by exact_mod_cast hab)) (by decide) (gccuInit (1 / 2) false) rfl
  refine ⟨outs, F, fun fuel hf => ?_⟩
  obtain ⟨exact, -, h1, h2, h3⟩ := hF fuel hf
  have h4 : exact.length = 6 := h2.trans (by decide)
  refine ⟨exact, h1, h4, ?_⟩
  have h5 := (h3 1000 (1 / 8) 0 0 (by norm_num) (by norm_num)
    ⟨1, -3, by norm_num, by norm_num, by norm_num⟩ (by norm_num) (by norm_num)).2
  rw [h4] at h5
  refine h5.trans ?_
  have hb := bound_two
  change 1 / 8 + ((1000 : ℕ) : ℝ) * ((10 * (2 : ℕ) + 28) / 2 ^ 53 + versionBBound 2 2 (entryBound 1 2 2 4)) ≤ _
  norm_num at hb ⊢
  linarith

/-- Three samples, two of them equal: the frequencies are the rounded thirds. -/
example : (approximateDistributionR R (fun _ _ => pure [[1, 0], [0, 1], [1, 0]]) 0
    ⟨[1, 0], 2, 1, some [[1, 0], [0, 1]], 0⟩ 3).Runs (.ok [R.rnd (2 / 3), R.rnd (1 / 3)]) := by
  refine ((C110_frequencies R _ 0 _ 3 (by norm_num) (by norm_num) 2 [[1, 0], [0, 1]] rfl (by simp) (by decide) ?_).1 _).mpr
    ⟨[[1, 0], [0, 1], [1, 0]], rfl, rfl, ?_⟩
  · intro samples hs
    cases hs
    exact ⟨by norm_num, by simp⟩
  · intro i hi
    have : i = 0 ∨ i = 1 := by simp at hi; omega
    rcases this with rfl | rfl <;> simp

end Verif
