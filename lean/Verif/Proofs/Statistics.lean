import Verif.Model.Strategies
import Verif.Proofs.Concentration
import Verif.Proofs.SampleBased
import Verif.Proofs.QuantumUtilities
import Verif.Props.Cliffords

/-! Helper lemmas: laws of the strategies, and of frequencies computed with them. -/
namespace Verif

open Finset
open scoped ENNReal

section

variable (gray : Nat → List Nat) (hgray : ∀ n, IsGrayCode n (gray n)) (t : Int)

include hgray in
theorem gccStrategy_wp {v : GccVariant} {S : List ℕ} (V : VariantOK v S) {U : List (List ℂ)} (h : Interferometer U S)
    (fuel : ℕ) (hf : (S.map (· + 1)).prod ≤ fuel) (o : GccObj) (N : ℕ) (f : Py (List (List ℕ)) → ℝ≥0∞) :
    (gccStrategy v (factoryPermanent gray t fuel) U fuel o S N).wp f
      = expIid (statesFin S.length S.sum) (fun T => ENNReal.ofReal (bosonProb U S T)) N fun l => f (.ok l) := by
  have hp := factory_permOn gray hgray t U S h.square h.len.le h.ne fuel hf
  unfold gccStrategy
  rw [Prog.bind_eq, Prog.wp_bind, simulate_wp V hp h.used fuel (lt_of_lt_of_le (sum_lt_prod_succ S) hf) _
    (fun l => f (.ok l)) _ (fun l o => rfl)]
  rfl

theorem gccbStrategy_wp {S : List ℕ} {U : List (List ℂ)} (h : Interferometer U S)
    (fuel : ℕ) (hf : (S.map (· + 1)).prod ≤ fuel) (N : ℕ) (f : Py (List (List ℕ)) → ℝ≥0∞) :
    (gccbStrategy (ryserSubPermanents fuel) U fuel S N).wp f
      = expIid (statesFin S.length S.sum) (fun T => ENNReal.ofReal (bosonProb U S T)) N fun l => f (.ok l) := by
  unfold gccbStrategy
  rw [gccbSimulate_eq, gccbLoop_wp (h.bok fuel hf) fuel (lt_of_lt_of_le (sum_lt_prod_succ S) hf)]
  rfl

theorem gccbLossyStrategy_wp {S : List ℕ} {U : List (List ℂ)} (h : Interferometer U S) {eta : ℝ} (h0 : 0 ≤ eta)
    (h1 : eta ≤ 1) (fuel : ℕ) (hf : (S.map (· + 1)).prod ≤ fuel) (N : ℕ) (f : Py (List (List ℕ)) → ℝ≥0∞) :
    (gccbLossyStrategy (ryserSubPermanents fuel) U fuel eta S N).wp f
      = expIid (statesUpTo S.length S.sum) (fun T => ENNReal.ofReal (uniformLossProb U S eta T)) N
        fun l => f (.ok l) := by
  unfold gccbLossyStrategy
  rw [gccbLossySimulate_eq, gccbLossyLoop_wp (h.bok fuel hf) fuel (lt_of_lt_of_le (sum_lt_prod_succ S) hf) h0 h1]
  rfl

include hgray in
theorem gccuStrategy_wp {S : List ℕ} {U : List (List ℂ)} (h : Interferometer U S) {eta : ℝ} (h0 : 0 ≤ eta)
    (h1 : eta ≤ 1) (o : GccuObj) (ho : o.eta = eta) (m : ℕ) (hm : S.length = m + 1) (fuel : ℕ)
    (hf : genFuel m S.sum + (S.map (· + 1)).prod ≤ fuel) (N : ℕ) (f : Py (List (List ℕ)) → ℝ≥0∞) :
    (gccuStrategy (factoryPermanent gray t fuel) U fuel o S N).wp f
      = expIid (statesUpTo S.length S.sum) (fun T => ENNReal.ofReal (uniformLossProb U S eta T)) N
        fun l => f (.ok l) := by
  have hp := factory_permOn gray hgray t U S h.square h.len.le h.ne fuel (by omega)
  obtain ⟨o', e1, e2⟩ := gccuInitialize_ok U S m hm fuel (by omega) o
  unfold gccuStrategy gccuSimulate
  rw [e1, ho] at *
  simp only [Prog.lift_def, Prog.bind_eq, Prog.done_ok_bind]
  rw [Prog.wp_bind, gccuLoop_wp hp h.used h.len.symm h0 h1 _ (fun l => f (.ok l)) _ (fun l o => rfl) o' e2]
  rfl

end

/-- Expectations over the computed frequencies. -/
theorem approximateDistribution_wp (strategy : Strategy) (fuel : ℕ) (o : SampleCalc) (N : ℕ) (hN : 0 < N) (m : ℕ)
    (𝒯 : Finset (List ℕ)) (p : List ℕ → ℝ≥0∞)
    (hlaw : ∀ f, (strategy o.initialState N).wp f = expIid 𝒯 p N fun l => f (.ok l))
    (h𝒯 : ∀ T ∈ 𝒯, T.length = m) (outs : List (List ℕ)) (hp : possibleOutcomes fuel o = .ok outs)
    (ho : ∀ T ∈ outs, T.length = m) (hn : outs.Nodup) (f : Py (List ℚ) → ℝ≥0∞) :
    (approximateDistribution strategy fuel o N).wp f
      = expIid 𝒯 p N fun l => f (.ok (outs.map fun T => (l.count T : ℚ) / N)) := by
  unfold approximateDistribution
  rw [hp]
  simp only [Prog.lift_def, Prog.bind_eq, Prog.done_ok_bind]
  rw [Prog.wp_bind, hlaw]
  refine expIid_congr _ _ _ fun l _ hl => ?_
  have h3 : List.replicate outs.length 0 = outs.map fun _ => 0 := by simp
  have h4 := countSamples_ok m l (fun s hs => h𝒯 s (hl s hs)) outs ho hn fun _ => 0
  rw [Prog.post, h3, h4, Prog.done_ok_bind, mapM_ok _ (fun c : ℕ => (c : ℚ) / N)]
  · rw [List.map_map]
    simp [Prog.wp, Function.comp_def]
  · intro c _
    rw [floatDiv, if_neg (by exact_mod_cast hN.ne')]
    simp

open Classical in
/-- Deviation of computed frequencies from the exact probabilities. -/
theorem approximateDistribution_tvd (strategy : Strategy) (fuel : ℕ) (o : SampleCalc) (N : ℕ) (hN : 0 < N) (m : ℕ)
    (𝒯 : Finset (List ℕ)) (p : List ℕ → ℝ)
    (hlaw : ∀ f, (strategy o.initialState N).wp f = expIid 𝒯 (fun T => ENNReal.ofReal (p T)) N fun l => f (.ok l))
    (hp0 : ∀ T, 0 ≤ p T) (hp1 : ∑ T ∈ 𝒯, ENNReal.ofReal (p T) = 1)
    (h𝒯 : ∀ T ∈ 𝒯, T.length = m) (outs : List (List ℕ)) (hp : possibleOutcomes fuel o = .ok outs)
    (ho : ∀ T, T ∈ outs ↔ T ∈ 𝒯) (hn : outs.Nodup) (δ : ℝ) (hδ0 : 0 < δ) (hδ1 : δ ≤ 1) (ε : ℝ)
    (hε : tvErrorBound outs.length N δ ≤ ε) :
    (approximateDistribution strategy fuel o N).prob (fun r => ¬ ∃ freq d, r = .ok freq ∧
        countTvd (freq.map fun x : ℚ => (x : ℝ)) (outs.map p) = .ok d ∧ d < ε)
      ≤ ENNReal.ofReal δ := by
  have hfin : outs.toFinset = 𝒯 := by ext T; rw [List.mem_toFinset, ho]
  have hcard : 𝒯.card = outs.length := by rw [← hfin, List.toFinset_card_of_nodup hn]
  obtain ⟨hb0, hb1⟩ := tvErrorBound_prob outs.length N hN δ hδ0 hδ1
  have hs : ∑ T ∈ 𝒯, p T = 1 := by
    have := hp1
    rw [← ENNReal.ofReal_sum_of_nonneg fun T _ => hp0 T] at this
    exact ENNReal.ofReal_eq_one.mp this
  have key := expIid_tvd 𝒯 p (fun T _ => hp0 T) hs N hN _ hb0
  rw [hcard, hb1] at key
  unfold Prog.prob
  rw [approximateDistribution_wp strategy fuel o N hN m 𝒯 _ hlaw h𝒯 outs hp (fun T hT => h𝒯 T ((ho T).mp hT)) hn]
  refine le_trans (expIid_mono _ _ _ fun l _ _ => ?_) key
  have htvd : countTvd ((outs.map fun T => (l.count T : ℚ) / N).map fun x : ℚ => (x : ℝ)) (outs.map p)
      = .ok ((∑ T ∈ 𝒯, |(l.count T : ℝ) / N - p T|) / 2) := by
    rw [countTvd_ok _ _ (by simp), List.map_map, zipWith_map_same, ← hfin, List.sum_toFinset _ hn]
    congr 4
    funext T
    simp
  by_cases h : tvErrorBound outs.length N δ ≤ (∑ T ∈ 𝒯, |(l.count T : ℝ) / N - p T|) / 2
  · rw [if_pos h]
    split_ifs <;> simp
  · rw [if_neg h, if_neg]
    rw [not_not]
    exact ⟨_, _, rfl, htvd, lt_of_lt_of_le (not_le.mp h) hε⟩

/-- The expected frequency of an outcome is its probability. -/
theorem expIid_count (𝒯 : Finset (List ℕ)) (p : List ℕ → ℝ≥0∞) (hp : ∑ T ∈ 𝒯, p T = 1) (T : List ℕ) (hT : T ∈ 𝒯)
    (n : ℕ) : expIid 𝒯 p n (fun l => (l.count T : ℝ≥0∞)) = n * p T := by
  classical
  induction n with
  | zero => simp [expIid]
  | succ n ih =>
    have hadd : ∀ (g g' : List (List ℕ) → ℝ≥0∞) (n : ℕ),
        expIid 𝒯 p n (fun l => g l + g' l) = expIid 𝒯 p n g + expIid 𝒯 p n g' := by
      intro g g' n
      have := expIid_sum (𝒯 := 𝒯) (p := p) (univ : Finset Bool) n fun b => if b then g else g'
      simpa using this
    have e : ∀ T' ∈ 𝒯, p T' * expIid 𝒯 p n (fun l => ((T' :: l).count T : ℝ≥0∞))
        = p T' * (n * p T) + (if T' = T then p T' else 0) := by
      intro T' _
      have : (fun l : List (List ℕ) => ((T' :: l).count T : ℝ≥0∞))
          = fun l => (l.count T : ℝ≥0∞) + (if T' = T then 1 else 0) := by
        funext l
        rw [List.count_cons]
        simp only [beq_iff_eq]
        push_cast
        rfl
      rw [this, hadd, ih, expIid_const hp, mul_add]
      congr 1
      split_ifs <;> simp
    rw [expIid, sum_congr rfl e, sum_add_distrib, ← sum_mul, hp, one_mul, sum_ite_eq' 𝒯 T, if_pos hT]
    push_cast
    ring

end Verif
