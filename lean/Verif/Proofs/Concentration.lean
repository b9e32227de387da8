import Verif.Proofs.LossyNet
import Verif.Model.QuantumUtilities
import Mathlib.Probability.Moments.SubGaussian

/-! Helper lemmas: deviations of the frequencies of independent samples. -/
namespace Verif

open Finset
open scoped ENNReal

/-- Hoeffding's lemma for a variable with values 0 and 1. -/
theorem bernoulli_mgf (p t : ℝ) (h0 : 0 ≤ p) (h1 : p ≤ 1) :
    (1 - p) + p * Real.exp t ≤ Real.exp (p * t + t ^ 2 / 8) := by
  set μ : MeasureTheory.Measure ℝ :=
    ENNReal.ofReal (1 - p) • MeasureTheory.Measure.dirac 0 + ENNReal.ofReal p • MeasureTheory.Measure.dirac 1 with hμ
  have hint : ∀ f : ℝ → ℝ, ∫ x, f x ∂μ = (1 - p) * f 0 + p * f 1 := by
    intro f
    rw [hμ, MeasureTheory.integral_add_measure, MeasureTheory.integral_smul_measure,
      MeasureTheory.integral_smul_measure, MeasureTheory.integral_dirac, MeasureTheory.integral_dirac,
      ENNReal.toReal_ofReal (by linarith), ENNReal.toReal_ofReal h0]
    · rfl
    · exact (MeasureTheory.integrable_dirac (by simp)).smul_measure ENNReal.ofReal_ne_top
    · exact (MeasureTheory.integrable_dirac (by simp)).smul_measure ENNReal.ofReal_ne_top
  have : MeasureTheory.IsProbabilityMeasure μ := ⟨by
    rw [hμ]
    simp only [MeasureTheory.Measure.add_apply, MeasureTheory.Measure.smul_apply, MeasureTheory.measure_univ,
      smul_eq_mul, mul_one]
    rw [← ENNReal.ofReal_add (by linarith) h0]
    simp⟩
  have hb : ∀ᵐ x ∂μ, (fun x : ℝ => x) x ∈ Set.Icc (0 : ℝ) 1 := by
    rw [hμ, MeasureTheory.ae_add_measure_iff]
    constructor
    · refine MeasureTheory.Measure.ae_smul_measure ?_ _
      rw [MeasureTheory.ae_dirac_eq]
      simp
    · refine MeasureTheory.Measure.ae_smul_measure ?_ _
      rw [MeasureTheory.ae_dirac_eq]
      simp
  have key := (ProbabilityTheory.hasSubgaussianMGF_of_mem_Icc (μ := μ) aemeasurable_id' hb).mgf_le t
  unfold ProbabilityTheory.mgf at key
  simp only [hint] at key
  have hc : (((‖(1 : ℝ) - 0‖₊ / 2) ^ 2 : NNReal) : ℝ) * t ^ 2 / 2 = t ^ 2 / 8 := by
    push_cast
    simp
    ring
  rw [hc] at key
  have e0 : Real.exp (p * t + t ^ 2 / 8) = Real.exp (p * t) * Real.exp (t ^ 2 / 8) := Real.exp_add _ _
  rw [e0]
  have e1 : Real.exp (p * t) * ((1 - p) * Real.exp (t * (0 - ((1 - p) * 0 + p * 1)))
      + p * Real.exp (t * (1 - ((1 - p) * 0 + p * 1)))) = (1 - p) + p * Real.exp t := by
    have a1 : Real.exp (p * t) * Real.exp (t * (0 - ((1 - p) * 0 + p * 1))) = 1 := by
      rw [← Real.exp_add, show p * t + t * (0 - ((1 - p) * 0 + p * 1)) = 0 by ring, Real.exp_zero]
    have a2 : Real.exp (p * t) * Real.exp (t * (1 - ((1 - p) * 0 + p * 1))) = Real.exp t := by
      rw [← Real.exp_add]
      congr 1
      ring
    calc _ = (1 - p) * (Real.exp (p * t) * Real.exp (t * (0 - ((1 - p) * 0 + p * 1))))
        + p * (Real.exp (p * t) * Real.exp (t * (1 - ((1 - p) * 0 + p * 1)))) := by ring
      _ = _ := by rw [a1, a2, mul_one]
  rw [← e1]
  exact mul_le_mul_of_nonneg_left key (Real.exp_pos _).le

section

variable {𝒯 : Finset (List ℕ)} {p : List ℕ → ℝ≥0∞}

theorem expIid_mono (n : ℕ) (g g' : List (List ℕ) → ℝ≥0∞)
    (h : ∀ l : List (List ℕ), l.length = n → (∀ T ∈ l, T ∈ 𝒯) → g l ≤ g' l) : expIid 𝒯 p n g ≤ expIid 𝒯 p n g' := by
  induction n generalizing g g' with
  | zero => exact h [] rfl (by simp)
  | succ n ih =>
    rw [expIid, expIid]
    refine sum_le_sum fun T hT => mul_le_mul_right ?_ _
    exact ih _ _ fun l h1 h2 => h (T :: l) (by simp [h1]) (by simp [hT]; exact h2)

theorem expIid_mul (n : ℕ) (c : ℝ≥0∞) (g : List (List ℕ) → ℝ≥0∞) :
    expIid 𝒯 p n (fun l => c * g l) = c * expIid 𝒯 p n g := by
  induction n generalizing g with
  | zero => rfl
  | succ n ih =>
    simp only [expIid, ih, mul_sum]
    exact sum_congr rfl fun T _ => mul_left_comm _ _ _

theorem expIid_sum {ι : Type} (s : Finset ι) (n : ℕ) (g : ι → List (List ℕ) → ℝ≥0∞) :
    expIid 𝒯 p n (fun l => ∑ i ∈ s, g i l) = ∑ i ∈ s, expIid 𝒯 p n (g i) := by
  induction n generalizing g with
  | zero => rfl
  | succ n ih =>
    simp only [expIid, ih, mul_sum]
    exact sum_comm

theorem expIid_prod (n : ℕ) (w : List ℕ → ℝ≥0∞) :
    expIid 𝒯 p n (fun l => (l.map w).prod) = (∑ T ∈ 𝒯, p T * w T) ^ n := by
  induction n with
  | zero => simp [expIid]
  | succ n ih =>
    simp only [expIid, List.map_cons, List.prod_cons, expIid_mul, ih]
    rw [pow_succ, mul_comm, sum_mul]
    exact sum_congr rfl fun T _ => by rw [mul_assoc]

end

open Classical in
/-- Hoeffding's inequality for the number of samples in a set of states. -/
theorem expIid_hoeffding (𝒯 A : Finset (List ℕ)) (hA : A ⊆ 𝒯) (p : List ℕ → ℝ) (hp : ∀ T ∈ 𝒯, 0 ≤ p T)
    (hs : ∑ T ∈ 𝒯, p T = 1) (n : ℕ) (ε : ℝ) (hε : 0 ≤ ε) :
    expIid 𝒯 (fun T => ENNReal.ofReal (p T)) n
        (fun l => if (∑ T ∈ A, p T + ε) * n ≤ (l.countP (fun T => decide (T ∈ A)) : ℝ) then 1 else 0)
      ≤ ENNReal.ofReal (Real.exp (-(2 * n * ε ^ 2))) := by
  set q := ∑ T ∈ A, p T with hq
  have hq0 : 0 ≤ q := sum_nonneg fun T hT => hp T (hA hT)
  have hq1 : q ≤ 1 := by rw [← hs]; exact sum_le_sum_of_subset_of_nonneg hA fun T hT _ => hp T hT
  set t := 4 * ε with ht
  have ht0 : 0 ≤ t := by positivity
  set w : List ℕ → ℝ≥0∞ := fun T => ENNReal.ofReal (Real.exp (if T ∈ A then t else 0)) with hw
  have hprod : ∀ l : List (List ℕ), (l.map w).prod
      = ENNReal.ofReal (Real.exp (t * (l.countP (fun T => decide (T ∈ A)) : ℝ))) := by
    intro l
    induction l with
    | nil => simp
    | cons T l ih =>
      rw [List.map_cons, List.prod_cons, ih, hw]
      simp only
      rw [← ENNReal.ofReal_mul (Real.exp_pos _).le, ← Real.exp_add, List.countP_cons]
      congr 2
      by_cases h : T ∈ A
      · simp [h]; ring
      · simp [h]
  have h1 : ∑ T ∈ 𝒯, ENNReal.ofReal (p T) * w T = ENNReal.ofReal ((1 - q) + q * Real.exp t) := by
    have h2 : ∀ T ∈ 𝒯, ENNReal.ofReal (p T) * w T
        = ENNReal.ofReal (p T + if T ∈ A then p T * (Real.exp t - 1) else 0) := by
      intro T hT
      rw [hw]
      simp only
      rw [← ENNReal.ofReal_mul (hp T hT)]
      congr 1
      by_cases h : T ∈ A
      · simp [h]; ring
      · simp [h]
    have hexp : 1 ≤ Real.exp t := Real.one_le_exp ht0
    rw [sum_congr rfl h2, ← ENNReal.ofReal_sum_of_nonneg]
    · congr 1
      rw [sum_add_distrib, hs, ← sum_filter]
      have : 𝒯.filter (fun T => T ∈ A) = A := by
        ext T
        rw [mem_filter]
        exact ⟨fun h => h.2, fun h => ⟨hA h, h⟩⟩
      rw [this, ← sum_mul, ← hq]
      ring
    · intro T hT
      split_ifs
      · have := mul_nonneg (hp T hT) (sub_nonneg.mpr hexp)
        have := hp T hT
        linarith
      · have := hp T hT
        linarith
  calc expIid 𝒯 (fun T => ENNReal.ofReal (p T)) n
        (fun l => if (q + ε) * n ≤ (l.countP (fun T => decide (T ∈ A)) : ℝ) then 1 else 0)
      ≤ expIid 𝒯 (fun T => ENNReal.ofReal (p T)) n
        (fun l => ENNReal.ofReal (Real.exp (-(t * ((q + ε) * n)))) * (l.map w).prod) := by
        refine expIid_mono _ _ _ fun l _ _ => ?_
        split_ifs with h
        · rw [hprod, ← ENNReal.ofReal_mul (Real.exp_pos _).le, ← Real.exp_add, ← ENNReal.ofReal_one]
          refine ENNReal.ofReal_le_ofReal (Real.one_le_exp ?_)
          have := mul_le_mul_of_nonneg_left h ht0
          linarith
        · exact zero_le
    _ = ENNReal.ofReal (Real.exp (-(t * ((q + ε) * n)))) * ENNReal.ofReal ((1 - q) + q * Real.exp t) ^ n := by
        rw [expIid_mul, expIid_prod, h1]
    _ ≤ ENNReal.ofReal (Real.exp (-(t * ((q + ε) * n)))) * ENNReal.ofReal (Real.exp (q * t + t ^ 2 / 8)) ^ n := by
        gcongr
        exact bernoulli_mgf q t hq0 hq1
    _ = ENNReal.ofReal (Real.exp (-(2 * n * ε ^ 2))) := by
        rw [← ENNReal.ofReal_pow (Real.exp_pos _).le, ← ENNReal.ofReal_mul (Real.exp_pos _).le, ← Real.exp_nat_mul,
          ← Real.exp_add]
        congr 2
        rw [ht]
        ring

open Classical in
theorem sum_count_eq_countP (B : Finset (List ℕ)) (l : List (List ℕ)) :
    ∑ T ∈ B, l.count T = l.countP (fun T => decide (T ∈ B)) := by
  induction l with
  | nil => simp
  | cons T l ih =>
    rw [List.countP_cons, ← ih]
    simp only [List.count_cons, sum_add_distrib, beq_iff_eq, Finset.sum_ite_eq, decide_eq_true_eq]

open Classical in
/-- The frequencies of `n` independent samples are within `ε` of the probabilities, in total variation,
except with probability `2^K exp(-2nε²)`. -/
theorem expIid_tvd (𝒯 : Finset (List ℕ)) (p : List ℕ → ℝ) (hp : ∀ T ∈ 𝒯, 0 ≤ p T) (hs : ∑ T ∈ 𝒯, p T = 1) (n : ℕ)
    (hn : 0 < n) (ε : ℝ) (hε : 0 ≤ ε) :
    expIid 𝒯 (fun T => ENNReal.ofReal (p T)) n
        (fun l => if ε ≤ (∑ T ∈ 𝒯, |(l.count T : ℝ) / n - p T|) / 2 then 1 else 0)
      ≤ ENNReal.ofReal (2 ^ 𝒯.card * Real.exp (-(2 * n * ε ^ 2))) := by
  have hn' : (0 : ℝ) < n := by exact_mod_cast hn
  calc _ ≤ expIid 𝒯 (fun T => ENNReal.ofReal (p T)) n (fun l => ∑ A ∈ 𝒯.powerset,
        if (∑ T ∈ A, p T + ε) * n ≤ (l.countP (fun T => decide (T ∈ A)) : ℝ) then 1 else 0) := by
        refine expIid_mono _ _ _ fun l hl hmem => ?_
        split_ifs with h
        · set A := 𝒯.filter fun T => p T < (l.count T : ℝ) / n with hA
          have hcount : ∀ B ⊆ 𝒯, ∑ T ∈ B, (l.count T : ℝ) = (l.countP (fun T => decide (T ∈ B)) : ℝ) := fun B _ => by
            rw [← Nat.cast_sum, sum_count_eq_countP]
          have htot : ∑ T ∈ 𝒯, ((l.count T : ℝ) / n - p T) = 0 := by
            rw [sum_sub_distrib, hs, ← sum_div, hcount 𝒯 (Subset.refl _)]
            have : l.countP (fun T => decide (T ∈ 𝒯)) = n := by
              rw [← hl, List.countP_eq_length]
              simpa using hmem
            rw [this, div_self hn'.ne', sub_self]
          have hsplit : ∑ T ∈ 𝒯, |(l.count T : ℝ) / n - p T| = 2 * ∑ T ∈ A, ((l.count T : ℝ) / n - p T) := by
            have e1 : ∀ T ∈ 𝒯, |(l.count T : ℝ) / n - p T|
                = 2 * (if p T < (l.count T : ℝ) / n then (l.count T : ℝ) / n - p T else 0)
                  - ((l.count T : ℝ) / n - p T) := by
              intro T _
              split_ifs with h2
              · rw [abs_of_pos (by linarith)]; ring
              · rw [abs_of_nonpos (by linarith)]; ring
            rw [sum_congr rfl e1, sum_sub_distrib, htot, sub_zero, ← mul_sum, hA, sum_filter]
          have hAt : A ∈ 𝒯.powerset := mem_powerset.mpr (filter_subset _ _)
          refine le_trans ?_ (single_le_sum (fun _ _ => zero_le) hAt)
          rw [if_pos]
          rw [hsplit, sum_sub_distrib, ← sum_div, hcount A (filter_subset _ _)] at h
          have h3 : ∑ T ∈ A, p T + ε ≤ (l.countP (fun T => decide (T ∈ A)) : ℝ) / n := by linarith
          exact (le_div_iff₀ hn').mp h3
        · exact zero_le
    _ = ∑ A ∈ 𝒯.powerset, expIid 𝒯 (fun T => ENNReal.ofReal (p T)) n
        (fun l => if (∑ T ∈ A, p T + ε) * n ≤ (l.countP (fun T => decide (T ∈ A)) : ℝ) then 1 else 0) :=
        expIid_sum _ _ _
    _ ≤ ∑ _A ∈ 𝒯.powerset, ENNReal.ofReal (Real.exp (-(2 * n * ε ^ 2))) :=
        sum_le_sum fun A hA => expIid_hoeffding 𝒯 A (mem_powerset.mp hA) p hp hs n ε hε
    _ = ENNReal.ofReal (2 ^ 𝒯.card * Real.exp (-(2 * n * ε ^ 2))) := by
        rw [sum_const, card_powerset, nsmul_eq_mul, ENNReal.ofReal_mul (by positivity)]
        congr 1
        rw [ENNReal.ofReal_pow (by norm_num)]
        simp

/-- The computed error bound makes the failure probability at most the desired one. -/
theorem tvErrorBound_prob (K N : ℕ) (hN : 0 < N) (δ : ℝ) (h0 : 0 < δ) (h1 : δ ≤ 1) :
    0 ≤ tvErrorBound K N δ ∧ 2 ^ K * Real.exp (-(2 * N * tvErrorBound K N δ ^ 2)) = δ := by
  have hN' : (0 : ℝ) < N := by exact_mod_cast hN
  have hA : 0 ≤ -Real.log δ + K * Real.log 2 := by
    have := Real.log_nonpos h0.le h1
    have := Real.log_nonneg (show (1 : ℝ) ≤ 2 by norm_num)
    have : 0 ≤ (K : ℝ) * Real.log 2 := by positivity
    linarith
  unfold tvErrorBound
  simp only
  refine ⟨Real.sqrt_nonneg _, ?_⟩
  rw [Real.sq_sqrt (by positivity)]
  have : -(2 * (N : ℝ) * ((-Real.log δ + K * Real.log 2) / (2 * N))) = Real.log δ - K * Real.log 2 := by
    field_simp
    ring
  rw [this, Real.exp_sub, Real.exp_log h0, Real.exp_nat_mul, Real.exp_log (by norm_num)]
  field_simp

end Verif
