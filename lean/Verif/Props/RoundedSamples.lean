import Verif.Proofs.RoundedSamples
import Verif.Props.Statistics

/-! C108: the error bound and the number of samples in floating-point arithmetic. -/
namespace Verif

/-- C108: if `log` has the relative error `e`, the computed error bound is the exact one up to the factor
`(1 + 2 e) (1 + 2 ^ -50)`, with every rounding. -/
theorem C108_bound (R : Rounding) (logR : ℝ → ℝ) (e : ℝ) (he : 0 ≤ e) (he' : e ≤ 1 / 4)
    (hlog : ∀ x, IsFloat x → 0 < x → IsFloat (logR x) ∧ |logR x - Real.log x| ≤ e * |Real.log x|)
    (K N : ℕ) (hN : 1 ≤ N) (hN' : N ≤ 2 ^ 200) (p : ℝ) (hp : IsFloat p) (h0 : 0 < p) (h1 : p ≤ 1) :
    tvErrorBoundR R logR K N p ≤ (1 + 2 * e) * (1 + 1 / 2 ^ 50) * Real.sqrt ((-Real.log p + K * Real.log 2) / (2 * N)) ∧
    Real.sqrt ((-Real.log p + K * Real.log 2) / (2 * N)) ≤ (1 + 2 * e) * (1 + 1 / 2 ^ 50) * tvErrorBoundR R logR K N p := by
  have hr := one_lt_rho
  have h3 : rho ^ 3 ≤ 2 := by unfold rho; norm_num
  obtain ⟨w, hA⟩ := numerator_within R he he' hlog K hp h0 h1
  set A := -Real.log p + K * Real.log 2
  set x := R.rnd (-logR p + R.rnd (R.rnd K * logR 2)) with hx
  have hA0 : 0 ≤ A := by
    rcases hA with h | h
    · exact h.ge
    · exact le_trans (by positivity) h
  have hc1 : 1 ≤ (1 + 2 * e) * rho ^ 3 := by nlinarith [one_le_rho_pow 3]
  have hx0 : 0 ≤ x := by
    by_contra hneg
    push Not at hneg
    have := w.2
    nlinarith
  have hN1 : (1 : ℝ) ≤ (2 * N : ℕ) := by exact_mod_cast (by omega : 1 ≤ 2 * N)
  have hy1 : 1 ≤ R.rnd (2 * N : ℕ) := R.ge_of_ge (by simpa using isFloat_nat (n := 1) (by norm_num)) hN1
  have hy2 : R.rnd (2 * N : ℕ) ≤ 2 ^ 202 := by
    refine R.le_of_le ⟨1, 202, by norm_num, by norm_num, by norm_cast⟩ ?_
    have : ((2 * N : ℕ) : ℝ) ≤ ((2 * 2 ^ 200 : ℕ) : ℝ) := by exact_mod_cast Nat.mul_le_mul_left 2 hN'
    refine this.trans ?_
    push_cast
    rw [show (2 : ℝ) ^ 202 = 4 * 2 ^ 200 by rw [show (202 : ℕ) = 2 + 200 by norm_num, pow_add]; norm_num]
    have : (0 : ℝ) < 2 ^ 200 := by positivity
    linarith
  have q := quotient_within R hc1 (by nlinarith) hr.le hA hx0 w (by linarith) (by linarith) (rnd_cast_within R (2 * N)) hy2
  have eA : A / ((2 * N : ℕ) : ℝ) = A / (2 * N) := by push_cast; rfl
  rw [eA] at q
  have hz : 0 ≤ A / (2 * (N : ℝ)) := by positivity
  have hq0 : 0 ≤ R.rnd (x / R.rnd (2 * N : ℕ)) := R.nonneg (by positivity)
  have hc2 : 1 ≤ rho * ((1 + 2 * e) * rho ^ 3 * rho) :=
    one_le_mul_of_one_le_of_one_le hr.le (one_le_mul_of_one_le_of_one_le hc1 hr.le)
  have s := sqrt_within hc2 hq0 hz q
  have t : Within rho (tvErrorBoundR R logR K N p) (Real.sqrt (R.rnd (x / R.rnd (2 * N : ℕ)))) := by
    refine R.within ?_
    rcases hq0.eq_or_lt with h | h
    · left; rw [← h, Real.sqrt_zero]
    · right
      have hmin : (2 : ℝ) ^ (-1074 : ℤ) ≤ R.rnd (x / R.rnd (2 * N : ℕ)) := by
        obtain ⟨k, hk⟩ := (R.isFloat (x / R.rnd (2 * N : ℕ))).multiple_min
        rw [hk] at h ⊢
        have : 0 < k := by
          have := (mul_pos_iff_of_pos_right (two_zpow_pos (-1074))).mp h
          exact_mod_cast this
        have : (1 : ℝ) ≤ k := by exact_mod_cast this
        nlinarith [two_zpow_pos (-1074)]
      have e2 : (2 : ℝ) ^ (-1074 : ℤ) = (2 ^ (-537 : ℤ)) ^ 2 := by rw [← zpow_natCast, ← zpow_mul]; norm_num
      refine (zpow_le_zpow_right₀ (by norm_num) (by norm_num : (-1022 : ℤ) ≤ -537)).trans ?_
      refine Real.le_sqrt_of_sq_le ?_
      rw [← e2]; exact hmin
  have u := t.trans s rho_nonneg (by linarith)
  have hle : rho * (rho * ((1 + 2 * e) * rho ^ 3 * rho)) ≤ (1 + 2 * e) * (1 + 1 / 2 ^ 50) := by
    rw [show rho * (rho * ((1 + 2 * e) * rho ^ 3 * rho)) = (1 + 2 * e) * rho ^ 6 by ring]
    exact mul_le_mul_of_nonneg_left rho_pow_six (by linarith)
  have v := u.mono (R.nonneg (Real.sqrt_nonneg _)) (Real.sqrt_nonneg _) hle
  exact v

/-- C108: the computed number of samples `N`. With `X` the exact quotient and
`C = (1 + 2 e) ^ 2 (1 + 2 ^ -50)`: `N` exceeds `X / C`, is at most `C X + 1`, and is the exact number unless
an integer lies between `X / C` and `C X`. -/
theorem C108_samples (R : Rounding) (logR sqR : ℝ → ℝ) (e : ℝ) (he : 0 ≤ e) (he' : e ≤ 1 / 4)
    (hlog : ∀ x, IsFloat x → 0 < x → IsFloat (logR x) ∧ |logR x - Real.log x| ≤ e * |Real.log x|)
    (K : ℕ) (p d : ℝ) (hp : IsFloat p) (h0 : 0 < p) (h1 : p ≤ 1) (hd : 1 / 2 ^ 200 ≤ d) (hd1 : d ≤ 1)
    (hsq : |sqR d - d ^ 2| ≤ e * d ^ 2) :
    ∃ N : ℕ, minimalSamplesR R logR sqR K p d = N ∧ 1 ≤ N ∧
      (-Real.log p + K * Real.log 2) / (2 * d ^ 2) < (1 + 2 * e) ^ 2 * (1 + 1 / 2 ^ 50) * N ∧
      (N : ℝ) ≤ (1 + 2 * e) ^ 2 * (1 + 1 / 2 ^ 50) * ((-Real.log p + K * Real.log 2) / (2 * d ^ 2)) + 1 ∧
      ((¬ ∃ k : ℤ, (-Real.log p + K * Real.log 2) / (2 * d ^ 2) / ((1 + 2 * e) ^ 2 * (1 + 1 / 2 ^ 50)) ≤ k ∧
          (k : ℝ) ≤ (1 + 2 * e) ^ 2 * (1 + 1 / 2 ^ 50) * ((-Real.log p + K * Real.log 2) / (2 * d ^ 2))) →
        minimalSamples K p d = N) := by
  have hr := one_lt_rho
  have h3 : rho ^ 3 ≤ 2 := by unfold rho; norm_num
  have hr2 : rho ≤ 2 := by unfold rho; norm_num
  obtain ⟨w, hA⟩ := numerator_within R he he' hlog K hp h0 h1
  set A := -Real.log p + K * Real.log 2 with hAdef
  set x := R.rnd (-logR p + R.rnd (R.rnd K * logR 2)) with hx
  have hA0 : 0 ≤ A := by
    rcases hA with h | h
    · exact h.ge
    · exact le_trans (by positivity) h
  have hc1 : 1 ≤ (1 + 2 * e) * rho ^ 3 := by nlinarith [one_le_rho_pow 3]
  have hx0 : 0 ≤ x := by
    by_contra hneg
    push Not at hneg
    have := w.2
    nlinarith
  have hd0 : 0 < d := lt_of_lt_of_le (by positivity) hd
  have hd2 : d ^ 2 ≤ 1 := by nlinarith
  have ws : Within (1 + 2 * e) (sqR d) (d ^ 2) := within_of_rel he (by linarith) (by positivity) hsq
  have hs := abs_le.mp hsq
  have hs1 : d ^ 2 / 2 ≤ sqR d := by nlinarith [sq_nonneg d]
  have hs2 : sqR d ≤ 2 := by nlinarith [sq_nonneg d]
  have ws2 : Within (1 + 2 * e) (2 * sqR d) (2 * d ^ 2) := ⟨by linarith [ws.1], by linarith [ws.2]⟩
  have hlow : (2 : ℝ) ^ (-1022 : ℤ) ≤ 2 * sqR d := by
    have : (1 / 2 ^ 200 : ℝ) ^ 2 ≤ d ^ 2 := pow_le_pow_left₀ (by positivity) hd 2
    have e1 : (1 / 2 ^ 200 : ℝ) ^ 2 = 2 ^ (-400 : ℤ) := by
      rw [one_div, ← zpow_natCast, ← zpow_natCast, ← zpow_neg, ← zpow_mul]; norm_num
    rw [e1] at this
    have : (2 : ℝ) ^ (-1022 : ℤ) ≤ 2 ^ (-400 : ℤ) := zpow_le_zpow_right₀ (by norm_num) (by norm_num)
    linarith
  have wy := (R.within (Or.inr hlow)).trans ws2 rho_nonneg (by linarith)
  have hy0 : 0 < R.rnd (2 * sqR d) := lt_of_lt_of_le (two_zpow_pos (-1022))
    (R.ge_of_ge ⟨1, -1022, by norm_num, by norm_num, by push_cast; ring⟩ hlow)
  have hy1 : R.rnd (2 * sqR d) ≤ 2 ^ 202 := by
    refine R.le_of_le ⟨1, 202, by norm_num, by norm_num, by norm_cast⟩ ?_
    refine (by linarith : 2 * sqR d ≤ 2 ^ 2).trans (pow_le_pow_right₀ (by norm_num) (by norm_num))
  have q := quotient_within R hc1 (by nlinarith) (by nlinarith : 1 ≤ rho * (1 + 2 * e)) hA hx0 w hy0 (by positivity) wy hy1
  set X := A / (2 * d ^ 2) with hX
  have hX0 : 0 ≤ X := by positivity
  set y := R.rnd (x / R.rnd (2 * sqR d)) with hy
  have hyy : 0 ≤ y := R.nonneg (by positivity)
  set C := (1 + 2 * e) ^ 2 * (1 + 1 / 2 ^ 50) with hC
  have hC0 : 0 < C := by positivity
  have q' : Within C y X := by
    refine q.mono hyy hX0 ?_
    rw [show rho * ((1 + 2 * e) * rho ^ 3 * (rho * (1 + 2 * e))) = (1 + 2 * e) ^ 2 * rho ^ 5 by ring, hC]
    refine mul_le_mul_of_nonneg_left ?_ (by positivity)
    exact (pow_le_pow_right₀ hr.le (by norm_num)).trans rho_pow_six
  have hval : minimalSamplesR R logR sqR K p d = ⌊y⌋₊ + 1 := by
    simp only [minimalSamplesR, pyInt]
    rw [mul_comm (logR 2), ← hx, ← hy, if_pos hyy, Int.natCast_floor_eq_floor hyy]
  refine ⟨⌊y⌋₊ + 1, by rw [hval]; push_cast; rfl, by omega, ?_, ?_, ?_⟩
  · have := Nat.lt_floor_add_one y
    push_cast
    exact q'.2.trans_lt (mul_lt_mul_of_pos_left this hC0)
  · have := Nat.floor_le hyy
    push_cast
    linarith [q'.1]
  · intro hno
    simp only [minimalSamples, pyInt]
    have eX : (-Real.log p + Real.log 2 * (K : ℝ)) / (2 * d ^ 2) = X := by rw [hX, hAdef, mul_comm (Real.log 2)]
    rw [eX, if_pos hX0, ← Int.natCast_floor_eq_floor hX0]
    have hfl : ∀ a b : ℝ, 0 ≤ a → 0 ≤ b → X / C ≤ a → b ≤ C * X → ⌊b⌋₊ ≤ ⌊a⌋₊ := by
      intro a b ha hb h2 h4
      by_contra hlt
      push Not at hlt
      refine hno ⟨(⌊b⌋₊ : ℕ), ?_, ?_⟩
      · have : a < ⌊b⌋₊ := (Nat.floor_lt ha).mp hlt
        push_cast
        linarith
      · have := Nat.floor_le hb
        push_cast
        linarith
    have hC1 : 1 ≤ C := by
      rw [hC]
      have : (1 : ℝ) ≤ (1 + 2 * e) ^ 2 := one_le_pow₀ (by linarith)
      nlinarith
    have hyl : X / C ≤ y := by rw [div_le_iff₀ hC0, mul_comm]; exact q'.2
    have hXl : X / C ≤ X := div_le_self hX0 hC1
    have hXu : X ≤ C * X := le_mul_of_one_le_left hX0 hC1
    have := le_antisymm (hfl X y hX0 hyy hXl q'.1) (hfl y X hyy hX0 hyl hXu)
    rw [this]
    push_cast
    rfl

/-- C108: the computed number of samples brings the exact error bound below the desired distance up to the
factor `(1 + 2 e) (1 + 2 ^ -50)`, and no smaller number does so by more than this factor (compare
`C51_sufficient`). -/
theorem C108_sufficient (R : Rounding) (logR sqR : ℝ → ℝ) (e : ℝ) (he : 0 ≤ e) (he' : e ≤ 1 / 4)
    (hlog : ∀ x, IsFloat x → 0 < x → IsFloat (logR x) ∧ |logR x - Real.log x| ≤ e * |Real.log x|)
    (K : ℕ) (p d : ℝ) (hp : IsFloat p) (h0 : 0 < p) (h1 : p ≤ 1) (hd : 1 / 2 ^ 200 ≤ d) (hd1 : d ≤ 1)
    (hsq : |sqR d - d ^ 2| ≤ e * d ^ 2) :
    ∃ N : ℕ, minimalSamplesR R logR sqR K p d = N ∧ 1 ≤ N ∧
      tvErrorBound K N p < (1 + 2 * e) * (1 + 1 / 2 ^ 50) * d ∧
      ∀ N' : ℕ, 1 ≤ N' → N' < N → d ≤ (1 + 2 * e) * (1 + 1 / 2 ^ 50) * tvErrorBound K N' p := by
  obtain ⟨N, hN, hN1, ha, hb, -⟩ := C108_samples R logR sqR e he he' hlog K p d hp h0 h1 hd hd1 hsq
  have hd0 : 0 < d := lt_of_lt_of_le (by positivity) hd
  set A := -Real.log p + K * Real.log 2 with hA
  have hA0 : 0 ≤ A := by
    have := Real.log_nonpos h0.le h1
    have := Real.log_nonneg (show (1 : ℝ) ≤ 2 by norm_num)
    have : 0 ≤ (K : ℝ) * Real.log 2 := by positivity
    linarith
  have hB : ∀ N : ℕ, tvErrorBound K N p = Real.sqrt (A / (2 * N)) := fun N => rfl
  have hC : (1 + 2 * e) ^ 2 * (1 + 1 / 2 ^ 50) ≤ ((1 + 2 * e) * (1 + 1 / 2 ^ 50)) ^ 2 := by
    rw [mul_pow]
    refine mul_le_mul_of_nonneg_left ?_ (by positivity)
    norm_num
  set F := (1 + 2 * e) * (1 + 1 / 2 ^ 50) with hF
  have hF0 : 0 < F := by positivity
  refine ⟨N, hN, hN1, ?_, ?_⟩
  · rw [hB, Real.sqrt_lt' (by positivity)]
    have hNp : (0 : ℝ) < N := by exact_mod_cast hN1
    have h2 : A / (2 * d ^ 2) < F ^ 2 * N := ha.trans_le (mul_le_mul_of_nonneg_right hC hNp.le)
    rw [div_lt_iff₀ (by positivity)] at h2 ⊢
    rw [mul_pow]
    linarith
  · intro N' h2 h3
    have h4 : (N' : ℝ) + 1 ≤ N := by exact_mod_cast h3
    have hNp : (0 : ℝ) < N' := by exact_mod_cast h2
    have hX0 : 0 ≤ A / (2 * d ^ 2) := by positivity
    have h5 : (N' : ℝ) ≤ F ^ 2 * (A / (2 * d ^ 2)) := by
      have := mul_le_mul_of_nonneg_right hC hX0
      linarith
    rw [hB, ← Real.sqrt_sq hd0.le, ← Real.sqrt_sq hF0.le, ← Real.sqrt_mul (by positivity)]
    refine Real.sqrt_le_sqrt ?_
    rw [mul_div_assoc', le_div_iff₀ (by positivity)]
    rw [mul_div_assoc', le_div_iff₀ (by positivity)] at h5
    linarith

/-- C108: with at least the computed number of samples the estimate of C63 is within
`(1 + 2 e) (1 + 2 ^ -50) d` of the exact distribution, except with probability at most `δ`. -/
theorem C108_guarantee (gray : Nat → List Nat) (hgray : ∀ n, IsGrayCode n (gray n)) (t : Int)
    (hash : List ℕ → Int) {U : List (List ℂ)}
    {S : List ℕ} (h : Interferometer U S) (R : Rounding) (logR sqR : ℝ → ℝ) (e : ℝ) (he : 0 ≤ e) (he' : e ≤ 1 / 4)
    (hlog : ∀ x, IsFloat x → 0 < x → IsFloat (logR x) ∧ |logR x - Real.log x| ≤ e * |Real.log x|) :
    ∃ exact F, ∀ fuel ≥ F,
      fixedLossDistribution Complex.normSq (factoryPermanent gray t fuel) hash fuel (expConfig U S S.sum (1 : ℝ))
        = .ok exact ∧
      ∀ (N : ℕ) (δ d : ℝ) (k : ℤ) (o : GccObj), IsFloat δ → 0 < δ → δ ≤ 1 → 1 / 2 ^ 200 ≤ d → d ≤ 1 →
        |sqR d - d ^ 2| ≤ e * d ^ 2 → minimalSamplesR R logR sqR exact.length δ d ≤ N →
        (approximateDistribution (gccStrategy gccA (factoryPermanent gray t fuel) U fuel o) fuel
            ⟨S, S.length, S.sum, none, k⟩ N).prob (Misses exact ((1 + 2 * e) * (1 + 1 / 2 ^ 50) * d)) ≤ ENNReal.ofReal δ ∧
        (approximateDistribution (gccStrategy gccAssignment (factoryPermanent gray t fuel) U fuel o) fuel
            ⟨S, S.length, S.sum, none, k⟩ N).prob (Misses exact ((1 + 2 * e) * (1 + 1 / 2 ^ 50) * d)) ≤ ENNReal.ofReal δ ∧
        (approximateDistribution (gccbStrategy (ryserSubPermanents fuel) U fuel) fuel
            ⟨S, S.length, S.sum, none, k⟩ N).prob (Misses exact ((1 + 2 * e) * (1 + 1 / 2 ^ 50) * d)) ≤ ENNReal.ofReal δ := by
  obtain ⟨exact, F, hF⟩ := C63_enough_samples gray hgray t hash h
  refine ⟨exact, F, fun fuel hf => ⟨(hF fuel hf).1, fun N δ d k o hδ h0 h1 hd hd1 hsq hN => ?_⟩⟩
  have hd0 : 0 < d := lt_of_lt_of_le (by positivity) hd
  have hFd : 0 < (1 + 2 * e) * (1 + 1 / 2 ^ 50) * d := by positivity
  refine (hF fuel hf).2 N δ _ k o h0 h1 hFd ?_
  obtain ⟨M, hM, hM1, hlt, -⟩ :=
    C108_sufficient R logR sqR e he he' hlog exact.length δ d hδ h0 h1 hd hd1 hsq
  obtain ⟨M', hM', -, -, hmin⟩ := C51_sufficient exact.length δ _ h0 h1 hFd
  rw [hM] at hN
  rw [hM']
  have : M' ≤ M := by
    by_contra hc
    push Not at hc
    exact absurd hlt (not_lt.mpr (hmin M hM1 hc))
  exact le_trans (by exact_mod_cast this) hN

/-- A correctly rounded logarithm meets the hypothesis with `e = 2 ^ -53`. -/
example (R : Rounding) : ∃ logR : ℝ → ℝ, ∀ x, IsFloat x → 0 < x →
    IsFloat (logR x) ∧ |logR x - Real.log x| ≤ 1 / 2 ^ 53 * |Real.log x| := by
  refine ⟨fun x => if 1 ≤ x then R.rnd (Real.log x) else -R.rnd (-Real.log x), fun x hx h0 => ?_⟩
  have small : (2 : ℝ) ^ (-1022 : ℤ) ≤ 1 / 2 ^ 54 := by
    rw [show (1 : ℝ) / 2 ^ 54 = 2 ^ (-54 : ℤ) by norm_num [zpow_neg]]
    exact zpow_le_zpow_right₀ (by norm_num) (by norm_num)
  dsimp only
  split_ifs with h
  · refine ⟨R.isFloat _, ?_⟩
    rw [abs_of_nonneg (a := Real.log x) (Real.log_nonneg h)]
    rcases eq_or_lt_of_le h with rfl | h
    · simp
    · have := R.error (small.trans (log_lower hx h))
      rwa [div_eq_mul_one_div, mul_comm] at this
  · push Not at h
    refine ⟨(R.isFloat _).neg, ?_⟩
    rw [abs_of_neg (a := Real.log x) (Real.log_neg h0 h)]
    have := R.error (small.trans (neg_log_lower hx h0 h))
    rw [div_eq_mul_one_div, mul_comm, ← abs_neg] at this
    convert this using 2
    ring

/-- Ten outcomes and the accuracy 1/8 meet the hypotheses and need more than 90 samples. -/
example (R : Rounding) (e : ℝ) (he : 0 ≤ e) (he' : e ≤ 1 / 4) (logR : ℝ → ℝ)
    (hlog : ∀ x, IsFloat x → 0 < x → IsFloat (logR x) ∧ |logR x - Real.log x| ≤ e * |Real.log x|) :
    ∃ N : ℕ, minimalSamplesR R logR (fun d => d ^ 2) 10 1 (1 / 8) = N ∧ 90 < N := by
  have hd : (1 : ℝ) / 2 ^ 200 ≤ 1 / 8 := by
    rw [show (8 : ℝ) = 2 ^ 3 by norm_num]
    exact one_div_le_one_div_of_le (by positivity) (pow_le_pow_right₀ (by norm_num) (by norm_num))
  obtain ⟨N, h, -, h2, -⟩ := C108_samples R logR (fun d => d ^ 2) e he he' hlog 10 1 (1 / 8)
    ⟨1, 0, by norm_num, by norm_num, by norm_num⟩ one_pos le_rfl hd (by norm_num)
    (by rw [sub_self, abs_zero]; positivity)
  refine ⟨N, h, ?_⟩
  have h3 := Real.log_two_gt_d9
  have h4 : (1 + 2 * e) ^ 2 * (1 + 1 / 2 ^ 50) ≤ 9 / 4 * (1 + 1 / 2 ^ 50) := by
    refine mul_le_mul_of_nonneg_right ?_ (by norm_num)
    nlinarith
  rw [Real.log_one] at h2
  norm_num at h2 h4 ⊢
  by_contra hN
  have hN' : (N : ℝ) ≤ 90 := by exact_mod_cast not_lt.mp hN
  have h0 : (0 : ℝ) ≤ N := Nat.cast_nonneg N
  nlinarith

end Verif
