import Verif.Model.RoundedSamples
import Verif.Proofs.RoundedBinomial
import Verif.Proofs.RoundedLoss
import Verif.Proofs.RoundedPrimes
import Mathlib.Analysis.Complex.ExponentialBounds

/-! Helper lemmas: error bounds and sample numbers in floating-point arithmetic. -/
namespace Verif

variable (R : Rounding)

theorem within_of_rel {e x y : ℝ} (he : 0 ≤ e) (he' : e ≤ 1 / 2) (hy : 0 ≤ y) (h : |x - y| ≤ e * y) :
    Within (1 + 2 * e) x y := by
  obtain ⟨h1, h2⟩ := abs_le.mp h
  constructor
  · nlinarith
  · have : (1 - e) * y ≤ x := by linarith
    have h3 : (1 + 2 * e) * ((1 - e) * y) ≤ (1 + 2 * e) * x := mul_le_mul_of_nonneg_left this (by linarith)
    nlinarith [mul_nonneg he hy, mul_nonneg (mul_nonneg he (by linarith : 0 ≤ 1 - 2 * e)) hy]

theorem rnd_cast_within (n : ℕ) : Within rho (R.rnd n) n := by
  rcases Nat.eq_zero_or_pos n with rfl | h
  · exact R.within (Or.inl (by simp))
  · exact R.within (Or.inr (small_le_nat h))

/-- `-log p` is zero or not tiny. -/
theorem neg_log_lower {p : ℝ} (hp : IsFloat p) (h0 : 0 < p) (h1 : p < 1) : (1 : ℝ) / 2 ^ 54 ≤ -Real.log p := by
  have hle : p ≤ 1 - 1 / 2 ^ 54 := by
    by_contra hlt
    push Not at hlt
    obtain ⟨k, hk⟩ := hp.multiple (t := -53) (by
      rw [abs_of_pos h0]; norm_num [zpow_neg] at hlt ⊢; linarith)
    rw [hk] at hlt h1
    have e : (2 : ℝ) ^ (-53 : ℤ) = 1 / 2 ^ 53 := by norm_num [zpow_neg]
    rw [e] at hlt h1
    have k1 : (k : ℝ) < 2 ^ 53 := by
      have : (k : ℝ) / 2 ^ 53 < 1 := by linarith [mul_one_div (k : ℝ) (2 ^ 53)]
      rwa [div_lt_one (by positivity)] at this
    have k2 : k ≤ 2 ^ 53 - 1 := by
      have : k < 2 ^ 53 := by exact_mod_cast k1
      omega
    have k3 : (k : ℝ) ≤ 2 ^ 53 - 1 := by exact_mod_cast k2
    have : (k : ℝ) * (1 / 2 ^ 53) ≤ (2 ^ 53 - 1) * (1 / 2 ^ 53) := mul_le_mul_of_nonneg_right k3 (by positivity)
    norm_num at this hlt
    linarith
  have := Real.log_le_sub_one_of_pos h0
  linarith

theorem log_lower {p : ℝ} (hp : IsFloat p) (h1 : 1 < p) : (1 : ℝ) / 2 ^ 54 ≤ Real.log p := by
  have hle : 1 + 1 / 2 ^ 53 ≤ p := by
    by_contra hlt
    push Not at hlt
    obtain ⟨k, hk⟩ := hp.multiple (t := -52) (by rw [abs_of_pos (by linarith)]; norm_num; linarith)
    rw [hk] at hlt h1
    have e : (2 : ℝ) ^ (-52 : ℤ) = 1 / 2 ^ 52 := by norm_num [zpow_neg]
    rw [e] at hlt h1
    have k1 : (2 : ℝ) ^ 52 < k := by
      have : 1 < (k : ℝ) / 2 ^ 52 := by linarith [mul_one_div (k : ℝ) (2 ^ 52)]
      rwa [one_lt_div (by positivity)] at this
    have k2 : 2 ^ 52 + 1 ≤ k := by
      have : 2 ^ 52 < k := by exact_mod_cast k1
      omega
    have k3 : (2 : ℝ) ^ 52 + 1 ≤ k := by exact_mod_cast k2
    have : (2 ^ 52 + 1) * (1 / 2 ^ 52) ≤ (k : ℝ) * (1 / 2 ^ 52) := mul_le_mul_of_nonneg_right k3 (by positivity)
    norm_num at this hlt
    linarith
  have h2 := Real.one_sub_inv_le_log_of_pos (show 0 < p by linarith)
  have h3 : p⁻¹ ≤ (1 + 1 / 2 ^ 53)⁻¹ := inv_anti₀ (by positivity) hle
  norm_num at h3 h2 ⊢
  linarith

/-- The common numerator `-log p + K log 2`. -/
theorem numerator_within {logR : ℝ → ℝ} {e : ℝ} (he : 0 ≤ e) (he' : e ≤ 1 / 4)
    (hlog : ∀ x, IsFloat x → 0 < x → IsFloat (logR x) ∧ |logR x - Real.log x| ≤ e * |Real.log x|)
    (K : ℕ) {p : ℝ} (hp : IsFloat p) (h0 : 0 < p) (h1 : p ≤ 1) :
    Within ((1 + 2 * e) * rho ^ 3) (R.rnd (-logR p + R.rnd (R.rnd K * logR 2)))
      (-Real.log p + K * Real.log 2) ∧
    (-Real.log p + K * Real.log 2 = 0 ∨ 1 / 2 ^ 54 ≤ -Real.log p + K * Real.log 2) := by
  have f2 : IsFloat 2 := ⟨2, 0, by norm_num, by norm_num, by norm_num⟩
  have hl2 : 0 < Real.log 2 := Real.log_pos (by norm_num)
  have hlp : 0 ≤ -Real.log p := by linarith [Real.log_nonpos h0.le h1]
  obtain ⟨g1, e1⟩ := hlog p hp h0
  obtain ⟨g2, e2⟩ := hlog 2 f2 (by norm_num)
  have hc : 1 ≤ 1 + 2 * e := by linarith
  have w1 : Within (1 + 2 * e) (-logR p) (-Real.log p) := by
    refine within_of_rel he (by linarith) hlp ?_
    rw [abs_of_nonpos (a := Real.log p) (by linarith), abs_sub_comm] at e1
    convert e1 using 2; ring
  have w2 : Within (1 + 2 * e) (logR 2) (Real.log 2) := by
    refine within_of_rel he (by linarith) hl2.le ?_
    rwa [abs_of_pos hl2] at e2
  have p1 : 0 ≤ -logR p := by
    have := w1.2
    nlinarith
  have p2 : 1 / 2 ≤ logR 2 := by
    have h3 := Real.log_two_gt_d9
    rw [abs_of_pos hl2] at e2
    have := (abs_le.mp e2).1
    nlinarith
  have hK0 : 0 ≤ R.rnd K := R.nonneg (Nat.cast_nonneg K)
  have w3 : Within (rho * (1 + 2 * e)) (R.rnd K * logR 2) (K * Real.log 2) :=
    (rnd_cast_within R K).mul w2 rho_nonneg hK0 (Nat.cast_nonneg K) (by linarith) hl2.le
  have w4 : Within rho (R.rnd (R.rnd K * logR 2)) (R.rnd K * logR 2) := by
    rcases Nat.eq_zero_or_pos K with rfl | hK
    · exact R.within (Or.inl (by simp))
    · refine R.within (Or.inr (small_le_half ?_))
      have : (1 : ℝ) ≤ R.rnd K := R.ge_of_ge (by simpa using isFloat_nat (n := 1) (by norm_num)) (by exact_mod_cast hK)
      nlinarith
  have w5 := w4.trans w3 rho_nonneg (by have := one_lt_rho; positivity)
  have q1 : 0 ≤ R.rnd (R.rnd K * logR 2) := R.nonneg (mul_nonneg hK0 (by linarith))
  have w6 := R.add_within g1.neg (R.isFloat (R.rnd K * logR 2)) p1 q1
  have hr := one_lt_rho
  have w7 : Within ((1 + 2 * e) * rho ^ 2) (-logR p + R.rnd (R.rnd K * logR 2)) (-Real.log p + K * Real.log 2) := by
    refine Within.add (w1.mono p1 hlp ?_) (w5.mono q1 (by positivity) (le_of_eq (by ring)))
    nlinarith [one_le_pow₀ (n := 2) hr.le]
  refine ⟨?_, ?_⟩
  · have := w6.trans w7 rho_nonneg (by positivity)
    convert this using 1
    ring
  · rcases Nat.eq_zero_or_pos K with rfl | hK
    · rcases eq_or_lt_of_le h1 with rfl | h1
      · left; simp
      · right
        have := neg_log_lower hp h0 h1
        simpa using this
    · right
      have h3 := Real.log_two_gt_d9
      have : (1 : ℝ) ≤ K := by exact_mod_cast hK
      norm_num
      nlinarith

theorem sqrt_within {c x y : ℝ} (hc : 1 ≤ c) (hx : 0 ≤ x) (hy : 0 ≤ y) (h : Within c x y) :
    Within c (Real.sqrt x) (Real.sqrt y) := by
  have key : ∀ a b : ℝ, 0 ≤ a → 0 ≤ b → a ≤ c * b → Real.sqrt a ≤ c * Real.sqrt b := by
    intro a b ha hb hab
    rw [Real.sqrt_le_left (by positivity), mul_pow, Real.sq_sqrt hb]
    nlinarith
  exact ⟨key x y hx hy h.1, key y x hy hx h.2⟩

theorem rho_pow_six : rho ^ 6 ≤ 1 + 1 / 2 ^ 50 := by unfold rho; norm_num

/-- The quotient of the computed numerator by a positive number. -/
theorem quotient_within (R : Rounding) {c d x A y B : ℝ} (hc : 1 ≤ c) (hc' : c ≤ 4) (hd : 1 ≤ d)
    (hA : A = 0 ∨ 1 / 2 ^ 54 ≤ A) (hx : 0 ≤ x) (h : Within c x A) (hy : 0 < y) (hB : 0 < B) (h' : Within d y B)
    (hy' : y ≤ 2 ^ 202) : Within (rho * (c * d)) (R.rnd (x / y)) (A / B) := by
  have hA0 : 0 ≤ A := by
    rcases hA with h | h
    · exact h.ge
    · exact le_trans (by positivity) h
  have w := h.div h' (by linarith) hx hA0 hy hB
  refine (R.within ?_).trans w rho_nonneg (by positivity)
  rcases hA with hA | hA
  · left
    rw [h.eq_zero hx hA, zero_div]
  · right
    have h1 : 1 / 2 ^ 56 ≤ x := by
      have := h.2
      have h2 : A ≤ 4 * x := this.trans (mul_le_mul_of_nonneg_right hc' hx)
      have : (1 : ℝ) / 2 ^ 56 = (1 / 2 ^ 54) / 4 := by norm_num
      linarith
    rw [le_div_iff₀ hy]
    calc (2 : ℝ) ^ (-1022 : ℤ) * y ≤ 2 ^ (-1022 : ℤ) * 2 ^ 202 := mul_le_mul_of_nonneg_left hy' (two_zpow_pos _).le
      _ = 2 ^ (-820 : ℤ) := by rw [← zpow_natCast, ← zpow_add₀ (by norm_num)]; norm_num
      _ ≤ 2 ^ (-56 : ℤ) := zpow_le_zpow_right₀ (by norm_num) (by norm_num)
      _ = 1 / 2 ^ 56 := by norm_num [zpow_neg]
      _ ≤ x := h1

end Verif
