import Verif.Proofs.Thrown
import Verif.Props.FixedLoss
import Verif.Props.NetworkStatistics
import Verif.Props.Agreement
import Verif.Props.ApproxCorrelations

/-!
C112: the separable samplers are exact samplers with a random input. C113: their distance from the exact law with losses.
Helper lemmas are in `Proofs/Parseval.lean`, `Proofs/PhaseMixture.lean` and `Proofs/Thrown.lean`.
-/
namespace Verif

open Finset
open scoped ENNReal

variable {m : ℕ}

theorem lossyProb_above (W : List (List ℂ)) (b : ℕ) (S T : List ℕ) (h : S.sum < T.sum) : lossyProb W b S T = 0 := by
  unfold lossyProb
  rw [filter_false_of_mem, sum_empty]
  intro E _ hE
  omega

/-- C112, the sampler with `k` particles left: each sample equals `T` with the probability with which `T` leaves the network
when each of the `k` particles enters a mode chosen independently and uniformly from the first `n`, `n` being the number of
particles of the input. `W` is any embedding of the network into an interferometer. -/
theorem C112_fixed {net : List ℂ → Py (List ℂ)} {A : Matrix (Fin m) (Fin m) ℂ} (h : NetworkOf net A) (d : Svd m)
    (hd : IsSvd A d) (hs : ∀ i, d.s i ≤ 1) {W : List (List ℂ)} {b : ℕ} (hW : IsDilation (rowsOf A) W m b) (k : ℕ)
    (S : List ℕ) (hS : 1 ≤ S.sum) (hSm : S.sum ≤ m) (N : ℤ) (i : ℕ) (hi : i < N.toNat) (T : List ℕ) (hT : T.length = m) :
    (fixedSimulate net m k S N).prob (fun r => ∃ l, r = .ok l ∧ l[i]? = some T)
      = ENNReal.ofReal (thrownProb W m b S.sum k T) := by
  have hm : 0 < m := by omega
  by_cases hk : T.sum ≤ k
  · rw [C38_sample h hm d hd hs k S hS N i hi T hT (by simpa using hk), Int.toNat_natCast,
      mixture_law hW hS hSm k T hT hk, thrownProb_eq]
  · have e : thrownProb W m b S.sum k T = 0 := by
      rw [thrownProb, sum_eq_zero, zero_div]
      intro f _
      exact lossyProb_above _ _ _ _ (by rw [thrown_sum hSm]; omega)
    rw [e, ENNReal.ofReal_zero, fixedSimulate, fixedLoop_eq, Prog.repeatN_marginal (fixedSample_all net m hm h.total k S) _ i hi T,
      Prog.prob, Prog.wp_congr _ _ (fun _ => 0), Prog.wp_const]
    intro r hr
    rw [if_neg]
    rintro rfl
    rcases fixedSample_all _ m hm h.total k S _ hr with ⟨a, h2, h3⟩ | ⟨_, _, h⟩
    · injection h2 with h2
      subst h2
      have := h3.2.1
      rw [Int.toNat_natCast] at this
      omega
    · exact h

/-- C112, the sampler with uniform losses: the number of particles that enter is binomial. -/
theorem C112_uniform {A : Matrix (Fin m) (Fin m) ℂ} (d : Svd m) (hd : IsSvd A d) (hs : ∀ i, d.s i ≤ 1)
    {W : List (List ℂ)} {b : ℕ} (hW : IsDilation (rowsOf A) W m b) (fuel : ℕ) (hf : m < fuel) (eta : ℝ) (h0 : 0 ≤ eta)
    (h1 : eta ≤ 1) (S : List ℕ) (hS : 1 ≤ S.sum) (hSm : S.sum ≤ m) (N : ℤ) (i : ℕ) (hi : i < N.toNat) (T : List ℕ)
    (hT : T.length = m) :
    (uniformSimulate fuel d m eta S N).prob (fun r => ∃ l, r = .ok l ∧ l[i]? = some T)
      = ENNReal.ofReal (∑ l ∈ range (S.sum + 1), binomialWeight S.sum l eta * thrownProb W m b S.sum l T) := by
  have hm : 0 < m := by omega
  rw [C57_sample hm d hd hs fuel hf eta h0 h1 S hS N i hi T hT,
    ENNReal.ofReal_sum_of_nonneg fun l _ => mul_nonneg (binomialWeight_nonneg _ _ h0 h1) (thrownProb_nonneg _ _ _ _ _ _)]
  refine Eq.trans ?_ (sum_subset (s₁ := Icc T.sum S.sum) ?_ ?_)
  · refine sum_congr rfl fun l hl => ?_
    rw [mem_Icc] at hl
    rw [mixture_law hW hS hSm l T hT hl.1, ENNReal.ofReal_mul (binomialWeight_nonneg _ _ h0 h1), thrownProb_eq, binomialWeight]
  · intro l hl
    rw [mem_Icc] at hl
    rw [mem_range]; omega
  · intro l hl hl'
    rw [mem_range] at hl
    rw [mem_Icc] at hl'
    have e : thrownProb W m b S.sum l T = 0 := by
      rw [thrownProb, sum_eq_zero, zero_div]
      intro f _
      exact lossyProb_above _ _ _ _ (by rw [thrown_sum hSm]; omega)
    rw [e, mul_zero, ENNReal.ofReal_zero]

/-- C112: the same in terms of the exact sampler for lossy networks. The sampler with `k` particles left shows `T` with the
average, over all the placements `f` of `k` particles in the first `n` modes, of the probability that the exact sampler shows
`T` for the input `thrown m f`. -/
theorem C112_sampler {net : List ℂ → Py (List ℂ)} {A : Matrix (Fin m) (Fin m) ℂ} (h : NetworkOf net A) (d : Svd m)
    (hd : IsSvd A d) (hs : ∀ i, d.s i ≤ 1) (k : ℕ) (S : List ℕ) (hS : 1 ≤ S.sum) (hSm : S.sum ≤ m) (N : ℤ) (i : ℕ)
    (hi : i < N.toNat) (T : List ℕ) (hT : T.length = m) (fuel : ℕ) (hf : (k + 1) ^ m ≤ fuel) (hf' : m < fuel) :
    (fixedSimulate net m k S N).prob (fun r => ∃ l, r = .ok l ∧ l[i]? = some T)
      = (∑ f : Fin k → Fin S.sum, (lossyNetSimulate (ryserSubPermanents fuel) d fuel (thrown m f) 1).prob
          fun r => ∃ l, r = .ok l ∧ l[0]? = some T) / (S.sum : ℝ≥0∞) ^ k := by
  have hm : 0 < m := by omega
  have hW := expanded_isDilation hd hs
  rw [C112_fixed h d hd hs hW k S hS hSm N i hi T hT, thrownProb, ENNReal.ofReal_div_of_pos (by positivity),
    ENNReal.ofReal_pow (by positivity), ENNReal.ofReal_natCast,
    ENNReal.ofReal_sum_of_nonneg fun f _ => lossyProb_nonneg _ _ _ _]
  congr 1
  refine sum_congr rfl fun f _ => ?_
  rw [C35_dilation A d hd hs _ m hW (thrown m f) (thrown_length m f) hm fuel ?_ hf' 1 0 (by decide) T hT]
  refine le_trans ?_ hf
  have := List.prod_le_pow_card ((thrown m f).map (· + 1)) (k + 1) (by
    intro x hx
    rw [List.mem_map] at hx
    obtain ⟨y, hy, rfl⟩ := hx
    have := List.le_sum_of_mem hy
    rw [thrown_sum hSm] at this
    omega)
  rwa [List.length_map, thrown_length] at this

/-- C112 without losses in the network: the average of `|Perm(U_{S,T})|² / (∏ S! ∏ T!)` over the placements. -/
theorem C112_unitary {net : List ℂ → Py (List ℂ)} {U : Matrix (Fin m) (Fin m) ℂ} (h : NetworkOf net U)
    (hU : U ∈ Matrix.unitaryGroup (Fin m) ℂ) (d : Svd m) (hd : IsSvd U d) (hs : ∀ i, d.s i ≤ 1) (k : ℕ) (S : List ℕ)
    (hS : 1 ≤ S.sum) (hSm : S.sum ≤ m) (N : ℤ) (i : ℕ) (hi : i < N.toNat) (T : List ℕ) (hT : T.length = m) (hk : T.sum = k) :
    (fixedSimulate net m k S N).prob (fun r => ∃ l, r = .ok l ∧ l[i]? = some T)
      = ENNReal.ofReal ((∑ f : Fin k → Fin S.sum, bosonProb (rowsOf U) (thrown m f) T) / (S.sum : ℝ) ^ k) := by
  rw [C112_fixed h d hd hs (unitary_isDilation hU) k S hS hSm N i hi T hT, thrownProb]
  congr 2
  refine sum_congr rfl fun f _ => ?_
  rw [lossyProb_zero, if_pos (by rw [thrown_sum hSm, hk])]

/-! ### Distance from the exact law -/

theorem lossyProb_sum_le {A : Matrix (Fin m) (Fin m) ℂ} {d : Svd m} (hd : IsSvd A d) (hs : ∀ i, d.s i ≤ 1)
    {W : List (List ℂ)} {b : ℕ} (hW : IsDilation (rowsOf A) W m b) (hm : 0 < m) {t : List ℕ} (ht : t.length = m)
    (𝒯 : Finset (List ℕ)) (h𝒯 : ∀ T ∈ 𝒯, T.length = m) : ∑ T ∈ 𝒯, lossyProb W b t T ≤ 1 := by
  have h1 := (lossyNet_law hd hs hW ht hm ((t.map (· + 1)).prod + (m + 1)) (by omega) (by omega) 1).2
  rw [← ENNReal.ofReal_sum_of_nonneg fun T _ => lossyProb_nonneg W b t T, ENNReal.ofReal_eq_one] at h1
  rw [← h1, ← sum_filter_add_sum_filter_not 𝒯 (fun T => T.sum ≤ t.sum)]
  rw [sum_eq_zero (s := 𝒯.filter fun T => ¬ T.sum ≤ t.sum) fun T hT => lossyProb_above _ _ _ _ (by
    have := (mem_filter.mp hT).2; omega), add_zero]
  refine sum_le_sum_of_subset_of_nonneg ?_ fun T _ _ => lossyProb_nonneg W b t T
  intro T hT
  rw [mem_filter] at hT
  rw [mem_statesUpTo]
  exact ⟨by rw [h𝒯 T hT.1, ht], hT.2⟩

theorem thrown_survivors {A : Matrix (Fin m) (Fin m) ℂ} {d : Svd m} (hd : IsSvd A d) (hs : ∀ i, d.s i ≤ 1)
    {W : List (List ℂ)} {b : ℕ} (hW : IsDilation (rowsOf A) W m b) (k : ℕ) {S : List ℕ} (hS : 1 ≤ S.sum) (hSm : S.sum ≤ m)
    (hF : FirstModes m S) (hk : k ≤ S.sum) (𝒯 : Finset (List ℕ)) (h𝒯 : ∀ T ∈ 𝒯, T.length = m) :
    ∑ T ∈ 𝒯, |thrownProb W m b S.sum k T - survivorsProb W b S k T|
      ≤ 2 * (1 - S.sum.descFactorial k / (S.sum : ℝ) ^ k) := by
  have h := average_injective hk (fun f T => lossyProb W b (thrown m f) T) 𝒯 (fun f T => lossyProb_nonneg _ _ _ _)
    (fun f => lossyProb_sum_le hd hs hW (by omega) (thrown_length m f) 𝒯 h𝒯)
  refine le_trans (le_of_eq (sum_congr rfl fun T _ => ?_)) h
  rw [survivorsProb_eq hF hSm, thrownProb]

/-- C113, the sampler with `k` particles left: for one particle in each of the first `n` modes, the total variation distance
between the law of a sample and the law for a uniformly random set of `k` survivors is at most
`1 - n (n - 1) ⋯ (n - k + 1) / n ^ k`, the probability that two of `k` random modes coincide, hence at most
`k (k - 1) / (2 n)`. -/
theorem C113_fixed {net : List ℂ → Py (List ℂ)} {A : Matrix (Fin m) (Fin m) ℂ} (h : NetworkOf net A) (d : Svd m)
    (hd : IsSvd A d) (hs : ∀ i, d.s i ≤ 1) {W : List (List ℂ)} {b : ℕ} (hW : IsDilation (rowsOf A) W m b) (k : ℕ)
    (S : List ℕ) (hS : 1 ≤ S.sum) (hF : FirstModes m S) (hk : k ≤ S.sum) (N : ℤ) (i : ℕ)
    (hi : i < N.toNat) (𝒯 : Finset (List ℕ)) (h𝒯 : ∀ T ∈ 𝒯, T.length = m) :
    1 / 2 * ∑ T ∈ 𝒯, |((fixedSimulate net m k S N).prob fun r => ∃ l, r = .ok l ∧ l[i]? = some T).toReal
        - survivorsProb W b S k T|
      ≤ 1 - S.sum.descFactorial k / (S.sum : ℝ) ^ k ∧
    1 - (S.sum.descFactorial k : ℝ) / (S.sum : ℝ) ^ k ≤ (k : ℝ) * (k - 1) / (2 * S.sum) := by
  have hSm := hF.le
  rw [sum_congr rfl fun T hT => by
    rw [C112_fixed h d hd hs hW k S hS hSm N i hi T (h𝒯 T hT), ENNReal.toReal_ofReal (thrownProb_nonneg _ _ _ _ _ _)]]
  have := thrown_survivors hd hs hW k hS hSm hF hk 𝒯 h𝒯
  exact ⟨by linarith, birthday hS k hk⟩

/-- C113: with at most one particle left the sampler is exact. -/
theorem C113_one {net : List ℂ → Py (List ℂ)} {A : Matrix (Fin m) (Fin m) ℂ} (h : NetworkOf net A) (d : Svd m)
    (hd : IsSvd A d) (hs : ∀ i, d.s i ≤ 1) {W : List (List ℂ)} {b : ℕ} (hW : IsDilation (rowsOf A) W m b) (k : ℕ)
    (hk : k ≤ 1) (S : List ℕ) (hS : 1 ≤ S.sum) (hF : FirstModes m S) (N : ℤ) (i : ℕ)
    (hi : i < N.toNat) (T : List ℕ) (hT : T.length = m) :
    (fixedSimulate net m k S N).prob (fun r => ∃ l, r = .ok l ∧ l[i]? = some T)
      = ENNReal.ofReal (survivorsProb W b S k T) := by
  have hSm := hF.le
  rw [C112_fixed h d hd hs hW k S hS hSm N i hi T hT]
  have := thrown_survivors hd hs hW k hS hSm hF (by omega) {T} (by simpa using hT)
  rw [sum_singleton] at this
  have hz : 2 * (1 - (S.sum.descFactorial k : ℝ) / (S.sum : ℝ) ^ k) = 0 := by
    have : k = 0 ∨ k = 1 := by omega
    have hne : (S.sum : ℝ) ≠ 0 := by exact_mod_cast (show S.sum ≠ 0 by omega)
    rcases this with rfl | rfl
    · simp
    · rw [Nat.descFactorial_one, pow_one, div_self hne, sub_self, mul_zero]
  rw [hz] at this
  rw [sub_eq_zero.mp (abs_eq_zero.mp (le_antisymm this (abs_nonneg _)))]

/-- C113, the sampler with uniform losses: for one particle in each of the first `n` modes, the total variation distance
between the law of a sample and the law for independently surviving particles is at most `η² (n - 1) / 2`. -/
theorem C113_uniform {A : Matrix (Fin m) (Fin m) ℂ} (d : Svd m) (hd : IsSvd A d) (hs : ∀ i, d.s i ≤ 1)
    {W : List (List ℂ)} {b : ℕ} (hW : IsDilation (rowsOf A) W m b) (fuel : ℕ) (hf : m < fuel) (eta : ℝ) (h0 : 0 ≤ eta)
    (h1 : eta ≤ 1) (S : List ℕ) (hS : 1 ≤ S.sum) (hF : FirstModes m S) (N : ℤ) (i : ℕ)
    (hi : i < N.toNat) (𝒯 : Finset (List ℕ)) (h𝒯 : ∀ T ∈ 𝒯, T.length = m) :
    1 / 2 * ∑ T ∈ 𝒯, |((uniformSimulate fuel d m eta S N).prob fun r => ∃ l, r = .ok l ∧ l[i]? = some T).toReal
        - ∑ l ∈ range (S.sum + 1), binomialWeight S.sum l eta * survivorsProb W b S l T|
      ≤ eta ^ 2 * (S.sum - 1) / 2 := by
  have hSm := hF.le
  have hb := fun l => binomialWeight_nonneg S.sum l h0 h1
  rw [sum_congr rfl fun T hT => by
    rw [C112_uniform d hd hs hW fuel hf eta h0 h1 S hS hSm N i hi T (h𝒯 T hT),
      ENNReal.toReal_ofReal (sum_nonneg fun l _ => mul_nonneg (hb l) (thrownProb_nonneg _ _ _ _ _ _)),
      ← sum_sub_distrib]]
  have h2 : ∀ T ∈ 𝒯, |∑ l ∈ range (S.sum + 1), (binomialWeight S.sum l eta * thrownProb W m b S.sum l T
        - binomialWeight S.sum l eta * survivorsProb W b S l T)|
      ≤ ∑ l ∈ range (S.sum + 1), binomialWeight S.sum l eta * |thrownProb W m b S.sum l T - survivorsProb W b S l T| := by
    intro T _
    refine (abs_sum_le_sum_abs _ _).trans (sum_le_sum fun l _ => ?_)
    rw [← mul_sub, abs_mul, abs_of_nonneg (hb l)]
  have h3 := sum_le_sum h2
  rw [sum_comm] at h3
  simp only [← mul_sum] at h3
  have h4 : ∑ l ∈ range (S.sum + 1), binomialWeight S.sum l eta *
        ∑ T ∈ 𝒯, |thrownProb W m b S.sum l T - survivorsProb W b S l T|
      ≤ ∑ l ∈ range (S.sum + 1), binomialWeight S.sum l eta * ((l * (l - 1 : ℕ) : ℕ) : ℝ) / S.sum := by
    refine sum_le_sum fun l hl => ?_
    rw [mem_range] at hl
    rw [mul_div_assoc]
    refine mul_le_mul_of_nonneg_left ?_ (hb l)
    have h5 := thrown_survivors hd hs hW l hS hSm hF (by omega) 𝒯 h𝒯
    have h6 := birthday hS l (by omega)
    have e : ((l * (l - 1 : ℕ) : ℕ) : ℝ) / S.sum = 2 * ((l : ℝ) * (l - 1) / (2 * S.sum)) := by
      have hne : (S.sum : ℝ) ≠ 0 := by exact_mod_cast (show S.sum ≠ 0 by omega)
      generalize (S.sum : ℝ) = n at hne
      rcases l with _ | l
      · simp
      · push_cast; field_simp; simp
    rw [e]
    linarith
  rw [← sum_div, binomial_pairs] at h4
  have h5 : eta ^ 2 * ((S.sum * (S.sum - 1 : ℕ) : ℕ) : ℝ) / S.sum = eta ^ 2 * (S.sum - 1) := by
    generalize S.sum = n at hS
    have : (n : ℝ) ≠ 0 := by exact_mod_cast (show n ≠ 0 by omega)
    rw [Nat.cast_mul, Nat.cast_sub hS, Nat.cast_one]
    field_simp
  rw [h5] at h4
  linarith

theorem survivorsProb_unitary (U : List (List ℂ)) (S : List ℕ) (k : ℕ) (T : List ℕ) (hk : T.sum = k) :
    survivorsProb U 0 S k T = fixedLossProb U S k T := by
  rw [survivorsProb, fixedLossProb]
  congr 1
  refine sum_congr rfl fun A hA => ?_
  rw [lossyProb_zero, if_pos (by rw [stateOf_sum, (mem_powersetCard.mp hA).2, hk])]

theorem survivors_uniform (U : List (List ℂ)) (S : List ℕ) (eta : ℝ) (T : List ℕ) (hT : T.sum ≤ S.sum) :
    ∑ l ∈ range (S.sum + 1), binomialWeight S.sum l eta * survivorsProb U 0 S l T
      = binomialWeight S.sum T.sum eta * fixedLossProb U S T.sum T := by
  rw [sum_eq_single T.sum, survivorsProb_unitary _ _ _ _ rfl]
  · intro l _ hl
    have : survivorsProb U 0 S l T = 0 := by
      rw [survivorsProb, sum_eq_zero, zero_div]
      intro A hA
      rw [lossyProb_zero, if_neg (by rw [stateOf_sum, (mem_powersetCard.mp hA).2]; exact fun h => hl h.symm)]
    rw [this, mul_zero]
  · intro h
    rw [mem_range] at h
    omega

/-- C113 against the exact calculator with `k` particles left: the total variation distance between the calculated
distribution and the law of a sample, over the outcomes of the calculator. -/
theorem C113_calculator (gray : Nat → List Nat) (hgray : ∀ n, IsGrayCode n (gray n)) (t : Int) (hash : List Nat → Int)
    {net : List ℂ → Py (List ℂ)} {U : Matrix (Fin m) (Fin m) ℂ} (h : NetworkOf net U)
    (hU : U ∈ Matrix.unitaryGroup (Fin m) ℂ) (d : Svd m) (hd : IsSvd U d) (hs : ∀ i, d.s i ≤ 1) (k : ℕ) (eta : ℝ) (S : List ℕ)
    (hS : 1 ≤ S.sum) (hF : FirstModes m S) (hk : k ≤ S.sum)
    (hinj : ∀ a b : List Nat, StateLE a S → a.sum = k → StateLE b S → b.sum = k → hash a = hash b → a = b) (N : ℤ) (i : ℕ)
    (hi : i < N.toNat) :
    ∃ outs dist F, (∀ fuel ≥ F,
      fixedLossOutcomes fuel (expConfig (rowsOf U) S k eta) = .ok outs ∧
      fixedLossDistribution Complex.normSq (factoryPermanent gray t fuel) hash fuel (expConfig (rowsOf U) S k eta) = .ok dist) ∧
      (∀ T, T ∈ outs ↔ T.length = m ∧ T.sum = k) ∧
      1 / 2 * (List.zipWith (fun T p =>
          |((fixedSimulate net m k S N).prob fun r => ∃ l, r = .ok l ∧ l[i]? = some T).toReal - p|) outs dist).sum
        ≤ (k : ℝ) * (k - 1) / (2 * S.sum) := by
  have hSm := hF.le
  have hl : S.length = m := by rw [hF]; simp
  have hI := rowsOf_interferometer hU (by omega) S hl
  obtain ⟨outs, F, hc⟩ := C23_distribution gray hgray t hash (rowsOf U) S k eta hI.square hI.len hI.ne hI.ortho hk hinj
  obtain ⟨-, -, hn, hm, -⟩ := hc F le_rfl
  rw [hl] at hm
  refine ⟨outs, _, F, fun fuel hf => ⟨(hc fuel hf).1, (hc fuel hf).2.1⟩, hm, ?_⟩
  obtain ⟨h1, h2⟩ := C113_fixed h d hd hs (unitary_isDilation hU) k S hS hF hk N i hi outs.toFinset
    (fun T hT => ((hm T).mp (List.mem_toFinset.mp hT)).1)
  rw [List.sum_toFinset _ hn] at h1
  refine le_trans (le_of_eq ?_) (h1.trans h2)
  rw [List.zipWith_map_right, List.zipWith_self]
  congr 2
  refine List.map_congr_left fun T hT => ?_
  rw [survivorsProb_unitary _ _ _ _ ((hm T).mp hT).2]

/-- C113 against the exact sampler with uniform losses: the total variation distance between the laws of a sample of the
two samplers is at most `η² (n - 1) / 2`. -/
theorem C113_sampler {U : Matrix (Fin m) (Fin m) ℂ} (hU : U ∈ Matrix.unitaryGroup (Fin m) ℂ) (d : Svd m) (hd : IsSvd U d)
    (hs : ∀ i, d.s i ≤ 1) (fuel : ℕ) (hf : m < fuel) (eta : ℝ) (h0 : 0 ≤ eta) (h1 : eta ≤ 1) (S : List ℕ) (hS : 1 ≤ S.sum)
    (hF : FirstModes m S) (hf' : (S.map (· + 1)).prod ≤ fuel) (N : ℤ) (i : ℕ) (hi : i < N.toNat)
    (𝒯 : Finset (List ℕ)) (h𝒯 : ∀ T ∈ 𝒯, T.length = m ∧ T.sum ≤ S.sum) :
    1 / 2 * ∑ T ∈ 𝒯, |((uniformSimulate fuel d m eta S N).prob fun r => ∃ l, r = .ok l ∧ l[i]? = some T).toReal
        - ((gccbLossySimulate (ryserSubPermanents fuel) (rowsOf U) fuel eta S N).prob
            fun r => ∃ l, r = .ok l ∧ l[i]? = some T).toReal|
      ≤ eta ^ 2 * (S.sum - 1) / 2 := by
  have hSm := hF.le
  have hl : S.length = m := by rw [hF]; simp
  have hI := rowsOf_interferometer hU (by omega) S hl
  refine le_trans (le_of_eq ?_) (C113_uniform d hd hs (unitary_isDilation hU) fuel hf eta h0 h1 S hS hF N i hi 𝒯
    fun T hT => (h𝒯 T hT).1)
  congr 1
  refine sum_congr rfl fun T hT => ?_
  rw [C32_sample hI eta h0 h1 fuel hf' N i hi T (by rw [hl]; exact (h𝒯 T hT).1) (h𝒯 T hT).2,
    ENNReal.toReal_ofReal (mul_nonneg (binomialWeight_nonneg _ _ h0 h1) (fixedLossProb_nonneg _ _ _ _)),
    survivors_uniform _ _ _ _ (h𝒯 T hT).2]

/-! ### Concrete cases -/

theorem identity_pair (S T : List ℕ) (hS : S = [1, 1] ∨ S = [2, 0] ∨ S = [0, 2]) (hT : T = [1, 1] ∨ T = [2, 0] ∨ T = [0, 2]) :
    bosonProb (rowsOf (1 : Matrix (Fin 2) (Fin 2) ℂ)) S T = if S = T then 1 else 0 := by
  have e : S.sum = T.sum := by rcases hS with rfl | rfl | rfl <;> rcases hT with rfl | rfl | rfl <;> rfl
  rw [bosonProb_eq_phi _ _ _ e]
  unfold phi
  rw [multFact_particles]
  rcases hS with rfl | rfl | rfl <;> rcases hT with rfl | rfl | rfl <;>
    simp [amp, lperm, picks, particles, particlesFrom, colOf, mget, rowsOf, factProd, List.replicate_succ]
  all_goals norm_num [Complex.normSq_apply]

/-- Two particles in two modes that are not coupled: one of four placements each puts both particles into the first or
the second mode, so that the approximation shows one particle in each mode with probability 1/2 instead of 1. The distance,
1/2, is the bound of C113: the bound cannot be improved. -/
theorem C113_tight :
    (fixedSimulate (fun x => .ok x) 2 2 [1, 1] 3).prob (fun r => ∃ l, r = .ok l ∧ l[1]? = some [1, 1])
      = ENNReal.ofReal (1 / 2) ∧
    survivorsProb (rowsOf (1 : Matrix (Fin 2) (Fin 2) ℂ)) 0 [1, 1] 2 [1, 1] = 1 ∧
    1 / 2 * ∑ T ∈ statesFin 2 2, |((fixedSimulate (fun x => .ok x) 2 2 [1, 1] 3).prob
        fun r => ∃ l, r = .ok l ∧ l[1]? = some T).toReal - survivorsProb (rowsOf (1 : Matrix (Fin 2) (Fin 2) ℂ)) 0 [1, 1] 2 T|
      = 1 - (Nat.descFactorial 2 2 : ℝ) / 2 ^ 2 := by
  have hU : (1 : Matrix (Fin 2) (Fin 2) ℂ) ∈ Matrix.unitaryGroup (Fin 2) ℂ := one_mem _
  have hl : ∀ S T : List ℕ, (S = [1, 1] ∨ S = [2, 0] ∨ S = [0, 2]) → (T = [1, 1] ∨ T = [2, 0] ∨ T = [0, 2]) →
      lossyProb (rowsOf (1 : Matrix (Fin 2) (Fin 2) ℂ)) 0 S T = if S = T then 1 else 0 := by
    intro S T hS hT
    have e : S.sum = T.sum := by rcases hS with rfl | rfl | rfl <;> rcases hT with rfl | rfl | rfl <;> rfl
    rw [lossyProb_zero, if_pos e.symm, identity_pair S T hS hT]
  have ht : ∀ T : List ℕ, (T = [1, 1] ∨ T = [2, 0] ∨ T = [0, 2]) →
      thrownProb (rowsOf (1 : Matrix (Fin 2) (Fin 2) ℂ)) 2 0 2 2 T = if T = [1, 1] then 1 / 2 else 1 / 4 := by
    intro T hT
    rw [thrownProb_eq, sum_words_succ, sum_words_succ, show words 2 0 = {[]} from rfl]
    simp only [sum_range_succ, sum_range_zero, zero_add, sum_singleton]
    rw [show occOf 2 [0, 0] = [2, 0] from rfl, show occOf 2 [1, 0] = [1, 1] from rfl, show occOf 2 [0, 1] = [1, 1] from rfl,
      show occOf 2 [1, 1] = [0, 2] from rfl, hl _ T (by simp) hT, hl _ T (by simp) hT, hl _ T (by simp) hT]
    rcases hT with rfl | rfl | rfl <;> norm_num
  have hv : ∀ T : List ℕ, (T = [1, 1] ∨ T = [2, 0] ∨ T = [0, 2]) →
      survivorsProb (rowsOf (1 : Matrix (Fin 2) (Fin 2) ℂ)) 0 [1, 1] 2 T = if [1, 1] = T then 1 else 0 := by
    intro T hT
    have e : T.sum = 2 := by rcases hT with rfl | rfl | rfl <;> rfl
    rw [survivorsProb_unitary _ _ _ _ e]
    have := fixedLossProb_full (rowsOf (1 : Matrix (Fin 2) (Fin 2) ℂ)) [1, 1] T
    rw [show [1, 1].sum = 2 from rfl] at this
    rw [this, identity_pair _ T (by simp) hT]
  have hp : ∀ T : List ℕ, (T = [1, 1] ∨ T = [2, 0] ∨ T = [0, 2]) →
      (fixedSimulate (fun x => .ok x) 2 2 [1, 1] 3).prob (fun r => ∃ l, r = .ok l ∧ l[1]? = some T)
        = ENNReal.ofReal (if T = [1, 1] then 1 / 2 else 1 / 4) := by
    intro T hT
    rw [← ht T hT]
    exact C112_fixed identity_network idSvd idSvd_isSvd (fun i => by simp [idSvd]) (unitary_isDilation hU) 2 [1, 1]
      (by decide) (by decide) 3 1 (by decide) T (by rcases hT with rfl | rfl | rfl <;> rfl)
  refine ⟨by rw [hp _ (by simp)]; simp, by rw [hv _ (by simp)]; simp, ?_⟩
  rw [show statesFin 2 2 = {[1, 1], [2, 0], [0, 2]} by decide, sum_insert (by decide), sum_insert (by decide), sum_singleton,
    hp _ (by simp), hp _ (by simp), hp _ (by simp), hv _ (by simp), hv _ (by simp), hv _ (by simp)]
  norm_num [Nat.descFactorial, ENNReal.toReal_ofReal, abs_of_nonneg, abs_of_nonpos]

/-- C113 needs the particles in the first modes: only the number of particles of the input is used. For one particle in the
second of two modes that are not coupled, the sampler always shows a particle in the first mode, which is impossible. -/
theorem C113_other_inputs :
    (fixedSimulate (fun x => .ok x) 2 1 [0, 1] 3).prob (fun r => ∃ l, r = .ok l ∧ l[1]? = some [1, 0]) = 1 ∧
    survivorsProb (rowsOf (1 : Matrix (Fin 2) (Fin 2) ℂ)) 0 [0, 1] 1 [1, 0] = 0 := by
  have hU : (1 : Matrix (Fin 2) (Fin 2) ℂ) ∈ Matrix.unitaryGroup (Fin 2) ℂ := one_mem _
  have hb : bosonProb (rowsOf (1 : Matrix (Fin 2) (Fin 2) ℂ)) [1, 0] [1, 0] = 1 ∧
      bosonProb (rowsOf (1 : Matrix (Fin 2) (Fin 2) ℂ)) [0, 1] [1, 0] = 0 := by
    constructor
    · rw [bosonProb_eq_phi _ _ _ rfl, phi, multFact_particles]
      simp [amp, lperm, picks, particles, particlesFrom, colOf, mget, rowsOf, factProd]
    · rw [bosonProb_eq_phi (rowsOf (1 : Matrix (Fin 2) (Fin 2) ℂ)) [0, 1] [1, 0] rfl, phi, multFact_particles]
      simp [amp, lperm, picks, particles, particlesFrom, colOf, mget, rowsOf, factProd]
  constructor
  · refine (C112_fixed identity_network idSvd idSvd_isSvd (fun i => by simp [idSvd]) (unitary_isDilation hU) 1 [0, 1]
      (by decide) (by decide) 3 1 (by decide) [1, 0] rfl).trans ?_
    rw [thrownProb_eq, show [0, 1].sum = 1 from rfl, sum_words_succ, show words 1 0 = {[]} from rfl, sum_singleton,
      sum_range_one, show occOf 2 [0] = [1, 0] from rfl, lossyProb_zero, if_pos rfl, hb.1]
    simp
  · rw [survivorsProb_unitary _ [0, 1] 1 [1, 0] rfl]
    exact (fixedLossProb_full _ [0, 1] [1, 0]).trans hb.2

example : FirstModes 3 [1, 1, 0] := by rfl

end Verif
