import Verif.Proofs.Statistics
import Verif.Props.QuantumUtilities

/-!
C63–C65: distributions estimated from samples against the exact distribution. The sampler, the
sample-based calculator, the exact calculator, the distance and its error bound are all the modelled
functions. Helper lemmas are in `Proofs/Concentration.lean` and `Proofs/Statistics.lean`.
-/
namespace Verif

open Finset
open scoped ENNReal

/-- The estimation went wrong: it raised, or the total variation distance computed between the estimate
and the distribution `exact` is not below `ε`. -/
def Misses (exact : List ℝ) (ε : ℝ) (r : Py (List ℚ)) : Prop :=
  ¬ ∃ freq d, r = .ok freq ∧ countTvd (freq.map fun x : ℚ => (x : ℝ)) exact = .ok d ∧ d < ε

/-- The value of the `i`-th entry of an estimate, infinite if there is none. -/
noncomputable def entry (i : ℕ) : Py (List ℚ) → ℝ≥0∞
  | .ok freq => if i < freq.length then ENNReal.ofReal (freq.getD i 0) else ⊤
  | .error _ => ⊤

theorem tvErrorBound_le (K N : ℕ) (δ d : ℝ) (h0 : 0 < δ) (h1 : δ ≤ 1) (hd : 0 < d) (hN : minimalSamples K δ d ≤ N) :
    0 < N ∧ tvErrorBound K N δ ≤ d := by
  obtain ⟨N₀, e, h2, h3, -⟩ := C51_sufficient K δ d h0 h1 hd
  rw [e] at hN
  have hN' : N₀ ≤ N := by exact_mod_cast hN
  refine ⟨by omega, le_trans ?_ h3.le⟩
  have hA : 0 ≤ -Real.log δ + K * Real.log 2 := by
    have := Real.log_nonpos h0.le h1
    have := Real.log_nonneg (show (1 : ℝ) ≤ 2 by norm_num)
    have : 0 ≤ (K : ℝ) * Real.log 2 := by positivity
    linarith
  unfold tvErrorBound
  simp only
  have : (0 : ℝ) < N₀ := by exact_mod_cast h2
  gcongr

theorem stateLE_full {a S : List ℕ} (h : StateLE a S) (hs : a.sum = S.sum) : a = S := by
  unfold StateLE at h
  induction h with
  | nil => rfl
  | @cons x y l l' h1 h2 ih =>
    rw [List.sum_cons, List.sum_cons] at hs
    have h3 : l.sum ≤ l'.sum := List.Forall₂.sum_le_sum h2
    have hx : x = y := by omega
    subst hx
    rw [ih (by omega)]

theorem entry_wp (strategy : Strategy) (fuel : ℕ) (o : SampleCalc) (N : ℕ) (hN : 0 < N) (m : ℕ)
    (𝒯 : Finset (List ℕ)) (p : List ℕ → ℝ≥0∞)
    (hlaw : ∀ f, (strategy o.initialState N).wp f = expIid 𝒯 p N fun l => f (.ok l)) (hp1 : ∑ T ∈ 𝒯, p T = 1)
    (h𝒯 : ∀ T ∈ 𝒯, T.length = m) (outs : List (List ℕ)) (hp : possibleOutcomes fuel o = .ok outs)
    (ho : ∀ T, T ∈ outs → T ∈ 𝒯) (hn : outs.Nodup) (i : ℕ) (hi : i < outs.length) :
    (approximateDistribution strategy fuel o N).wp (entry i) = p outs[i] := by
  rw [approximateDistribution_wp strategy fuel o N hN m 𝒯 p hlaw h𝒯 outs hp (fun T hT => h𝒯 T (ho T hT)) hn]
  have hN' : (0 : ℝ) < N := by exact_mod_cast hN
  have e : ∀ l : List (List ℕ), entry i (.ok (outs.map fun T => (l.count T : ℚ) / N))
      = (N : ℝ≥0∞)⁻¹ * (l.count outs[i] : ℝ≥0∞) := by
    intro l
    simp only [entry]
    rw [if_pos (by simpa using hi), getD_of_lt _ _ (by simpa using hi), List.getElem_map]
    push_cast
    rw [ENNReal.ofReal_div_of_pos hN', ENNReal.ofReal_natCast, ENNReal.ofReal_natCast, ENNReal.div_eq_inv_mul]
  simp only [e]
  rw [expIid_mul, expIid_count 𝒯 p hp1 _ (ho _ (List.getElem_mem hi)), ← mul_assoc,
    ENNReal.inv_mul_cancel (by exact_mod_cast hN.ne') (ENNReal.natCast_ne_top N), one_mul]

section

variable (gray : Nat → List Nat) (hgray : ∀ n, IsGrayCode n (gray n)) (t : Int) (hash : List ℕ → Int)
include hgray

/-- The exact distribution without losses, in the order of the outcomes of the sample-based calculator. -/
theorem lossless_exact {U : List (List ℂ)} {S : List ℕ} (h : Interferometer U S) :
    ∃ outs F, (S.map (· + 1)).prod ≤ F ∧ outs.Nodup ∧ (∀ T, T ∈ outs ↔ T ∈ statesFin S.length S.sum) ∧ ∀ fuel ≥ F,
      (fixedLossDistribution Complex.normSq (factoryPermanent gray t fuel) hash fuel (expConfig U S S.sum (1 : ℝ))
        = .ok (outs.map (bosonProb U S))) ∧
      ∀ k : ℤ, possibleOutcomes fuel ⟨S, S.length, S.sum, none, k⟩ = .ok outs := by
  obtain ⟨outs, F, hF⟩ := C23_distribution gray hgray t hash U S S.sum 1 h.square h.len h.ne h.ortho le_rfl
    (fun a b ha hsa hb hsb _ => (stateLE_full ha hsa).trans (stateLE_full hb hsb).symm)
  have e : outs.map (fixedLossProb U S S.sum) = outs.map (bosonProb U S) :=
    List.map_congr_left fun T hT => fixedLossProb_full U S T
  obtain ⟨-, -, hn, hm, -⟩ := hF F le_rfl
  refine ⟨outs, F + (S.map (· + 1)).prod, Nat.le_add_left _ _, hn, fun T => by rw [hm, mem_statesFin], fun fuel hf => ?_⟩
  obtain ⟨a1, a2, -⟩ := hF fuel (by omega)
  exact ⟨by rw [a2, e], fun k => a1⟩

/-- C63: let `exact` be the result of the exact calculator for `m` modes and `n` particles without
losses. For every number `N ≥ 1` of samples and every `0 < δ ≤ 1`, the distribution estimated from `N`
samples of either generalized Clifford & Clifford sampler fails to be within
`count_tv_distance_error_bound_of_experiment_results(len(exact), N, δ)` of `exact`, in
`count_total_variation_distance`, with probability at most `δ`. -/
theorem C63_error_bound {U : List (List ℂ)} {S : List ℕ} (h : Interferometer U S) :
    ∃ exact F, ∀ fuel ≥ F,
      fixedLossDistribution Complex.normSq (factoryPermanent gray t fuel) hash fuel (expConfig U S S.sum (1 : ℝ))
        = .ok exact ∧
      ∀ (N : ℕ) (δ : ℝ) (k : ℤ) (o : GccObj), 0 < N → 0 < δ → δ ≤ 1 →
        (approximateDistribution (gccStrategy gccA (factoryPermanent gray t fuel) U fuel o) fuel
            ⟨S, S.length, S.sum, none, k⟩ N).prob (Misses exact (tvErrorBound exact.length N δ)) ≤ ENNReal.ofReal δ ∧
        (approximateDistribution (gccStrategy gccAssignment (factoryPermanent gray t fuel) U fuel o) fuel
            ⟨S, S.length, S.sum, none, k⟩ N).prob (Misses exact (tvErrorBound exact.length N δ)) ≤ ENNReal.ofReal δ ∧
        (approximateDistribution (gccbStrategy (ryserSubPermanents fuel) U fuel) fuel
            ⟨S, S.length, S.sum, none, k⟩ N).prob (Misses exact (tvErrorBound exact.length N δ)) ≤ ENNReal.ofReal δ := by
  obtain ⟨outs, F, hF, hn, hm, hex⟩ := lossless_exact gray hgray t hash h
  refine ⟨_, F, fun fuel hf => ⟨(hex fuel hf).1, fun N δ k o hN h0 h1 => ?_⟩⟩
  have hlen : (outs.map (bosonProb U S)).length = outs.length := by simp
  have hf' : (S.map (· + 1)).prod ≤ fuel := hF.trans hf
  rw [hlen]
  refine ⟨?_, ?_, ?_⟩ <;>
    refine approximateDistribution_tvd _ fuel _ N hN S.length (statesFin S.length S.sum) (bosonProb U S) ?_
      (bosonProb_nonneg U S) (boson_total' (h.bok fuel hf')) (fun T hT => ((mem_statesFin _ _ T).mp hT).1) outs
      ((hex fuel hf).2 k) hm hn δ h0 h1 _ le_rfl
  · exact fun f => gccStrategy_wp gray hgray t (okA S) h fuel hf' o N f
  · exact fun f => gccStrategy_wp gray hgray t (okAssignment S h.ne) h fuel hf' o N f
  · exact fun f => gccbStrategy_wp h fuel hf' N f

/-- C63: with at least `compute_minimal_number_of_samples_for_desired_accuracy(len(exact), δ, d)` samples
the estimated distribution is within `d` of the exact one, except with probability at most `δ`. -/
theorem C63_enough_samples {U : List (List ℂ)} {S : List ℕ} (h : Interferometer U S) :
    ∃ exact F, ∀ fuel ≥ F,
      fixedLossDistribution Complex.normSq (factoryPermanent gray t fuel) hash fuel (expConfig U S S.sum (1 : ℝ))
        = .ok exact ∧
      ∀ (N : ℕ) (δ d : ℝ) (k : ℤ) (o : GccObj), 0 < δ → δ ≤ 1 → 0 < d → minimalSamples exact.length δ d ≤ N →
        (approximateDistribution (gccStrategy gccA (factoryPermanent gray t fuel) U fuel o) fuel
            ⟨S, S.length, S.sum, none, k⟩ N).prob (Misses exact d) ≤ ENNReal.ofReal δ ∧
        (approximateDistribution (gccStrategy gccAssignment (factoryPermanent gray t fuel) U fuel o) fuel
            ⟨S, S.length, S.sum, none, k⟩ N).prob (Misses exact d) ≤ ENNReal.ofReal δ ∧
        (approximateDistribution (gccbStrategy (ryserSubPermanents fuel) U fuel) fuel
            ⟨S, S.length, S.sum, none, k⟩ N).prob (Misses exact d) ≤ ENNReal.ofReal δ := by
  obtain ⟨outs, F, hF, hn, hm, hex⟩ := lossless_exact gray hgray t hash h
  refine ⟨_, F, fun fuel hf => ⟨(hex fuel hf).1, fun N δ d k o h0 h1 hd hN => ?_⟩⟩
  have hlen : (outs.map (bosonProb U S)).length = outs.length := by simp
  have hf' : (S.map (· + 1)).prod ≤ fuel := hF.trans hf
  rw [hlen] at hN
  obtain ⟨hN0, hε⟩ := tvErrorBound_le _ N δ d h0 h1 hd hN
  refine ⟨?_, ?_, ?_⟩ <;>
    refine approximateDistribution_tvd _ fuel _ N hN0 S.length (statesFin S.length S.sum) (bosonProb U S) ?_
      (bosonProb_nonneg U S) (boson_total' (h.bok fuel hf')) (fun T hT => ((mem_statesFin _ _ T).mp hT).1) outs
      ((hex fuel hf).2 k) hm hn δ h0 h1 _ hε
  · exact fun f => gccStrategy_wp gray hgray t (okA S) h fuel hf' o N f
  · exact fun f => gccStrategy_wp gray hgray t (okAssignment S h.ne) h fuel hf' o N f
  · exact fun f => gccbStrategy_wp h fuel hf' N f

/-- The exact distribution with uniform losses. -/
theorem uniform_exact {U : List (List ℂ)} {S : List ℕ} (h : Interferometer U S) (eta : ℝ) (h0 : 0 ≤ eta) (h1 : eta ≤ 1)
    (hinj : ∀ a b : List ℕ, StateLE a S → StateLE b S → a.sum = b.sum → hash a = hash b → a = b) :
    ∃ outs F m, S.length = m + 1 ∧ genFuel m S.sum + (S.map (· + 1)).prod ≤ F ∧ outs.Nodup ∧
      (∀ T, T ∈ outs ↔ T ∈ statesUpTo S.length S.sum) ∧ ∀ fuel ≥ F,
      uniformOutcomes fuel (expConfig U S S.sum eta) = .ok outs ∧
      uniformDistribution Complex.normSq (factoryPermanent gray t fuel) hash fuel
        (uniformCalc (expConfig U S S.sum eta)) = .ok (outs.map (uniformLossProb U S eta)) := by
  obtain ⟨outs, dist, F, hF, hd, hn, hm, -⟩ := C24_distribution gray hgray t hash U S S.sum eta h0 h1 h.square h.len
    h.ne h.ortho hinj
  obtain ⟨m, hm'⟩ : ∃ m, S.length = m + 1 := ⟨S.length - 1, by have := List.length_pos_of_ne_nil h.ne; omega⟩
  refine ⟨outs, F + (genFuel m S.sum + (S.map (· + 1)).prod), m, hm', Nat.le_add_left _ _, hn,
    fun T => by rw [hm, mem_statesUpTo], fun fuel hf => ?_⟩
  obtain ⟨a1, a2⟩ := hF fuel (by omega)
  exact ⟨a1, by rw [a2, hd]; rfl⟩

/-- C64: the same for uniform losses: the sample-based calculator is given the outcomes of the exact
calculator, and the samples come from either sampler with uniform losses. -/
theorem C64_error_bound {U : List (List ℂ)} {S : List ℕ} (h : Interferometer U S) (eta : ℝ) (h0 : 0 ≤ eta) (h1 : eta ≤ 1)
    (hinj : ∀ a b : List ℕ, StateLE a S → StateLE b S → a.sum = b.sum → hash a = hash b → a = b) :
    ∃ outs exact F, ∀ fuel ≥ F,
      uniformOutcomes fuel (expConfig U S S.sum eta) = .ok outs ∧
      uniformDistribution Complex.normSq (factoryPermanent gray t fuel) hash fuel
        (uniformCalc (expConfig U S S.sum eta)) = .ok exact ∧
      ∀ (N : ℕ) (δ : ℝ) (left k : ℤ) (o : GccuObj), 0 < N → 0 < δ → δ ≤ 1 → o.eta = eta →
        (approximateDistribution (gccuStrategy (factoryPermanent gray t fuel) U fuel o) fuel
            ⟨S, S.length, left, some outs, k⟩ N).prob (Misses exact (tvErrorBound exact.length N δ))
          ≤ ENNReal.ofReal δ ∧
        (approximateDistribution (gccbLossyStrategy (ryserSubPermanents fuel) U fuel eta) fuel
            ⟨S, S.length, left, some outs, k⟩ N).prob (Misses exact (tvErrorBound exact.length N δ))
          ≤ ENNReal.ofReal δ := by
  obtain ⟨outs, F, m, hm', hF, hn, hm, hex⟩ := uniform_exact gray hgray t hash h eta h0 h1 hinj
  refine ⟨outs, _, F, fun fuel hf => ⟨(hex fuel hf).1, (hex fuel hf).2, fun N δ left k o hN hδ0 hδ1 ho => ?_⟩⟩
  have hlen : (outs.map (uniformLossProb U S eta)).length = outs.length := by simp
  have hf' : (S.map (· + 1)).prod ≤ fuel := by omega
  have hnn : ∀ T, 0 ≤ uniformLossProb U S eta T := fun T =>
    mul_nonneg (binomialWeight_nonneg _ _ h0 h1) (fixedLossProb_nonneg U S _ T)
  rw [hlen]
  constructor <;>
    refine approximateDistribution_tvd _ fuel _ N hN S.length (statesUpTo S.length S.sum) (uniformLossProb U S eta) ?_
      hnn (uniformLoss_total (h.bok fuel hf') h0 h1) (fun T hT => ((mem_statesUpTo _ _ T).mp hT).1) outs
      rfl hm hn δ hδ0 hδ1 _ le_rfl
  · exact fun f => gccuStrategy_wp gray hgray t h h0 h1 o ho m hm' fuel (by omega) N f
  · exact fun f => gccbLossyStrategy_wp h h0 h1 fuel hf' N f

/-- C64: with at least the computed minimal number of samples the estimate is within the desired
distance, except with probability at most `δ`. -/
theorem C64_enough_samples {U : List (List ℂ)} {S : List ℕ} (h : Interferometer U S) (eta : ℝ) (h0 : 0 ≤ eta)
    (h1 : eta ≤ 1) (hinj : ∀ a b : List ℕ, StateLE a S → StateLE b S → a.sum = b.sum → hash a = hash b → a = b) :
    ∃ outs exact F, ∀ fuel ≥ F,
      uniformOutcomes fuel (expConfig U S S.sum eta) = .ok outs ∧
      uniformDistribution Complex.normSq (factoryPermanent gray t fuel) hash fuel
        (uniformCalc (expConfig U S S.sum eta)) = .ok exact ∧
      ∀ (N : ℕ) (δ d : ℝ) (left k : ℤ) (o : GccuObj), 0 < δ → δ ≤ 1 → 0 < d → minimalSamples exact.length δ d ≤ N →
        o.eta = eta →
        (approximateDistribution (gccuStrategy (factoryPermanent gray t fuel) U fuel o) fuel
            ⟨S, S.length, left, some outs, k⟩ N).prob (Misses exact d) ≤ ENNReal.ofReal δ ∧
        (approximateDistribution (gccbLossyStrategy (ryserSubPermanents fuel) U fuel eta) fuel
            ⟨S, S.length, left, some outs, k⟩ N).prob (Misses exact d) ≤ ENNReal.ofReal δ := by
  obtain ⟨outs, F, m, hm', hF, hn, hm, hex⟩ := uniform_exact gray hgray t hash h eta h0 h1 hinj
  refine ⟨outs, _, F, fun fuel hf => ⟨(hex fuel hf).1, (hex fuel hf).2, fun N δ d left k o hδ0 hδ1 hd hN ho => ?_⟩⟩
  have hlen : (outs.map (uniformLossProb U S eta)).length = outs.length := by simp
  have hf' : (S.map (· + 1)).prod ≤ fuel := by omega
  have hnn : ∀ T, 0 ≤ uniformLossProb U S eta T := fun T =>
    mul_nonneg (binomialWeight_nonneg _ _ h0 h1) (fixedLossProb_nonneg U S _ T)
  rw [hlen] at hN
  obtain ⟨hN0, hε⟩ := tvErrorBound_le _ N δ d hδ0 hδ1 hd hN
  constructor <;>
    refine approximateDistribution_tvd _ fuel _ N hN0 S.length (statesUpTo S.length S.sum) (uniformLossProb U S eta) ?_
      hnn (uniformLoss_total (h.bok fuel hf') h0 h1) (fun T hT => ((mem_statesUpTo _ _ T).mp hT).1) outs
      rfl hm hn δ hδ0 hδ1 _ hε
  · exact fun f => gccuStrategy_wp gray hgray t h h0 h1 o ho m hm' fuel (by omega) N f
  · exact fun f => gccbLossyStrategy_wp h h0 h1 fuel hf' N f

/-- C65: without losses, the expectation of every entry of the estimated distribution is the entry of
the exact distribution, for every number of samples and each of the three samplers (and the estimation
raises with probability 0, as the value of an exception is infinite). -/
theorem C65_unbiased {U : List (List ℂ)} {S : List ℕ} (h : Interferometer U S) :
    ∃ exact F, ∀ fuel ≥ F,
      fixedLossDistribution Complex.normSq (factoryPermanent gray t fuel) hash fuel (expConfig U S S.sum (1 : ℝ))
        = .ok exact ∧
      ∀ (N : ℕ) (k : ℤ) (o : GccObj) (i : ℕ), 0 < N → i < exact.length →
        (approximateDistribution (gccStrategy gccA (factoryPermanent gray t fuel) U fuel o) fuel
            ⟨S, S.length, S.sum, none, k⟩ N).wp (entry i) = ENNReal.ofReal (exact.getD i 0) ∧
        (approximateDistribution (gccStrategy gccAssignment (factoryPermanent gray t fuel) U fuel o) fuel
            ⟨S, S.length, S.sum, none, k⟩ N).wp (entry i) = ENNReal.ofReal (exact.getD i 0) ∧
        (approximateDistribution (gccbStrategy (ryserSubPermanents fuel) U fuel) fuel
            ⟨S, S.length, S.sum, none, k⟩ N).wp (entry i) = ENNReal.ofReal (exact.getD i 0) := by
  obtain ⟨outs, F, hF, hn, hm, hex⟩ := lossless_exact gray hgray t hash h
  refine ⟨_, F, fun fuel hf => ⟨(hex fuel hf).1, fun N k o i hN hi => ?_⟩⟩
  have hf' : (S.map (· + 1)).prod ≤ fuel := hF.trans hf
  have hi' : i < outs.length := by simpa using hi
  rw [getD_of_lt _ _ hi, List.getElem_map]
  refine ⟨?_, ?_, ?_⟩ <;>
    refine entry_wp _ fuel _ N hN S.length (statesFin S.length S.sum) (fun T => ENNReal.ofReal (bosonProb U S T)) ?_
      (boson_total' (h.bok fuel hf')) (fun T hT => ((mem_statesFin _ _ T).mp hT).1) outs
      ((hex fuel hf).2 k) (fun T => (hm T).mp) hn i hi'
  · exact fun f => gccStrategy_wp gray hgray t (okA S) h fuel hf' o N f
  · exact fun f => gccStrategy_wp gray hgray t (okAssignment S h.ne) h fuel hf' o N f
  · exact fun f => gccbStrategy_wp h fuel hf' N f

/-- C65 for uniform losses, with the outcomes of the exact calculator. -/
theorem C65_unbiased_losses {U : List (List ℂ)} {S : List ℕ} (h : Interferometer U S) (eta : ℝ) (h0 : 0 ≤ eta)
    (h1 : eta ≤ 1) (hinj : ∀ a b : List ℕ, StateLE a S → StateLE b S → a.sum = b.sum → hash a = hash b → a = b) :
    ∃ outs exact F, ∀ fuel ≥ F,
      uniformOutcomes fuel (expConfig U S S.sum eta) = .ok outs ∧
      uniformDistribution Complex.normSq (factoryPermanent gray t fuel) hash fuel
        (uniformCalc (expConfig U S S.sum eta)) = .ok exact ∧
      ∀ (N : ℕ) (left k : ℤ) (o : GccuObj) (i : ℕ), 0 < N → i < exact.length → o.eta = eta →
        (approximateDistribution (gccuStrategy (factoryPermanent gray t fuel) U fuel o) fuel
            ⟨S, S.length, left, some outs, k⟩ N).wp (entry i) = ENNReal.ofReal (exact.getD i 0) ∧
        (approximateDistribution (gccbLossyStrategy (ryserSubPermanents fuel) U fuel eta) fuel
            ⟨S, S.length, left, some outs, k⟩ N).wp (entry i) = ENNReal.ofReal (exact.getD i 0) := by
  obtain ⟨outs, F, m, hm', hF, hn, hm, hex⟩ := uniform_exact gray hgray t hash h eta h0 h1 hinj
  refine ⟨outs, _, F, fun fuel hf => ⟨(hex fuel hf).1, (hex fuel hf).2, fun N left k o i hN hi ho => ?_⟩⟩
  have hf' : (S.map (· + 1)).prod ≤ fuel := by omega
  have hi' : i < outs.length := by simpa using hi
  rw [getD_of_lt _ _ hi, List.getElem_map]
  constructor <;>
    refine entry_wp _ fuel _ N hN S.length (statesUpTo S.length S.sum)
      (fun T => ENNReal.ofReal (uniformLossProb U S eta T)) ?_
      (uniformLoss_total (h.bok fuel hf') h0 h1) (fun T hT => ((mem_statesUpTo _ _ T).mp hT).1) outs
      rfl (fun T => (hm T).mp) hn i hi'
  · exact fun f => gccuStrategy_wp gray hgray t h h0 h1 o ho m hm' fuel (by omega) N f
  · exact fun f => gccbLossyStrategy_wp h h0 h1 fuel hf' N f

/-- A case of C63 and C65: two particles in the rotation. The exact distribution has three entries, and
with 1000 samples the estimate is within `1/5` of it except with probability at most `1/100`. -/
example : ∃ exact F, ∀ fuel ≥ F,
    fixedLossDistribution Complex.normSq (factoryPermanent gray t fuel) hash fuel
        (expConfig [[3 / 5, 4 / 5], [4 / 5, -3 / 5]] [1, 1] 2 (1 : ℝ)) = .ok exact ∧ exact.length = 3 ∧
      (approximateDistribution (gccbStrategy (ryserSubPermanents fuel) [[3 / 5, 4 / 5], [4 / 5, -3 / 5]] fuel) fuel
            ⟨[1, 1], 2, 2, none, 7⟩ 1000).prob (Misses exact (1 / 5)) ≤ ENNReal.ofReal (1 / 100) := by
  have hr := rotation_interferometer [1, 1] rfl
  obtain ⟨outs, F₁, -, hn, hm, hex⟩ := lossless_exact gray hgray t hash hr
  have h3 : outs.length = 3 := by
    have h4 : outs.Perm [[2, 0], [1, 1], [0, 2]] := by
      refine (List.perm_ext_iff_of_nodup hn (by decide)).mpr fun T => ?_
      rw [hm, mem_statesFin]
      constructor
      · rintro ⟨h5, h6⟩
        match T, h5 with
        | [a, b], _ =>
          simp only [List.sum_cons, List.sum_nil] at h6
          have ha : a ≤ 2 := by omega
          have hb : b = 2 - a := by omega
          subst hb
          interval_cases a <;> simp
      · intro h5
        simp only [List.mem_cons, List.not_mem_nil, or_false] at h5
        rcases h5 with rfl | rfl | rfl <;> decide
    exact h4.length_eq
  obtain ⟨exact, F₂, hF₂⟩ := C63_enough_samples gray hgray t hash hr
  refine ⟨exact, max F₁ F₂, fun fuel hf => ?_⟩
  obtain ⟨a1, a2⟩ := hF₂ fuel (le_trans (le_max_right _ _) hf)
  have a3 := (hex fuel (le_trans (le_max_left _ _) hf)).1
  rw [a1] at a3
  have a4 : exact.length = 3 := by
    injection a3 with a3
    rw [a3, List.length_map, h3]
  refine ⟨a1, a4, (a2 1000 (1 / 100) (1 / 5) 7 gccInit (by norm_num) (by norm_num) (by norm_num) ?_).2.2⟩
  rw [a4]
  obtain ⟨N, e, -, -, hmin⟩ := C51_sufficient 3 (1 / 100) (1 / 5) (by norm_num) (by norm_num) (by norm_num)
  rw [e]
  by_contra hlt
  have := hmin 1000 (by norm_num) (by push Not at hlt; exact_mod_cast hlt)
  unfold tvErrorBound at this
  simp only at this
  rw [Real.le_sqrt' (by norm_num)] at this
  have hl : Real.log (1 / 100) = -Real.log 100 := by rw [one_div, Real.log_inv]
  have h100 : Real.log 100 ≤ 10 := by
    rw [Real.log_le_iff_le_exp (by norm_num)]
    have := Real.add_one_le_exp (1 : ℝ)
    calc (100 : ℝ) ≤ 2 ^ 10 := by norm_num
      _ ≤ Real.exp 1 ^ 10 := by gcongr; linarith
      _ = Real.exp 10 := by rw [← Real.exp_nat_mul]; norm_num
  have h2 : Real.log 2 ≤ 1 := by
    have := Real.log_le_sub_one_of_pos (show (0 : ℝ) < 2 by norm_num)
    linarith
  rw [hl] at this
  norm_num at this
  linarith

end

end Verif
