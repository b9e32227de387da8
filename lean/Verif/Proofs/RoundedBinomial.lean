import Verif.Proofs.RoundedCounting
import Verif.Proofs.RoundedLoss

/-! Helper lemmas: the relative error of `scipy.special.binom`, for binomials of any size. -/
namespace Verif

theorem small_le_half {x : ℝ} (h : 1 / 2 ≤ x) : (2 : ℝ) ^ (-1022 : ℤ) ≤ x := by
  have h1 : (2 : ℝ) ^ (-1022 : ℤ) ≤ 2 ^ (-1 : ℤ) := zpow_le_zpow_right₀ (by norm_num) (by norm_num)
  have h2 : (2 : ℝ) ^ (-1 : ℤ) = 1 / 2 := by norm_num
  exact h1.trans (h2.le.trans h)

theorem rho_pow_sixty {k : ℕ} (hk : k ≤ 60) : rho ^ k ≤ 2 := by
  have h := rho_pow_le (k := k) (by omega)
  have hk' : (k : ℝ) ≤ 60 := by exact_mod_cast hk
  have : 2 * (k : ℝ) / 2 ^ 53 ≤ 1 := by rw [div_le_iff₀ (by positivity)]; norm_num; linarith
  linarith

/-- The loop of the product formula: the quotient of numerator and denominator is the binomial, up to three
roundings per factor, also when the numerator is rescaled. -/
theorem binom_loop_within (R : Rounding) {n kx : ℕ} (hk : kx < 20) (hkn : 2 * kx ≤ n) (hn : n ≤ 2 ^ 52) :
    ∀ j, j ≤ kx → ∃ num den : ℝ, (List.range' 1 j).foldl (binomStepR R n kx) (1, 1) = (num, den) ∧
      1 / 2 ≤ num ∧ 1 ≤ den ∧ Within (rho ^ (3 * j)) (num / den) ((n - kx + j).choose j : ℝ) := by
  have hrho := one_lt_rho.le
  intro j
  induction j with
  | zero => intro _; exact ⟨1, 1, by simp, by norm_num, le_rfl, by simp [Within]⟩
  | succ j ih =>
    intro hj
    obtain ⟨num, den, h1, h2, h3, h4⟩ := ih (by omega)
    rw [List.range'_concat, List.foldl_append, h1]
    simp only [List.foldl_cons, List.foldl_nil, mul_one, one_mul]
    have f1 : R.rnd (((1 + j : ℕ) : ℝ) + n) = ((1 + j + n : ℕ) : ℝ) := by
      rw [← Nat.cast_add]; exact R.eq_self (isFloat_nat (by omega))
    have f2 : R.rnd (((1 + j + n : ℕ) : ℝ) - kx) = ((n - kx + j + 1 : ℕ) : ℝ) := by
      rw [← Nat.cast_sub (by omega), show 1 + j + n - kx = n - kx + j + 1 by omega]
      exact R.eq_self (isFloat_nat (by omega))
    have hstep : binomStepR R n kx (num, den) (1 + j)
        = if |R.rnd (num * ((n - kx + j + 1 : ℕ) : ℝ))| > R.rnd (10 ^ 50) then
            (R.rnd (R.rnd (num * ((n - kx + j + 1 : ℕ) : ℝ)) / R.rnd (den * ((1 + j : ℕ) : ℝ))), 1)
          else (R.rnd (num * ((n - kx + j + 1 : ℕ) : ℝ)), R.rnd (den * ((1 + j : ℕ) : ℝ))) := by
      unfold binomStepR
      simp only [f1, f2]
    have hf1 : (1 : ℝ) ≤ ((n - kx + j + 1 : ℕ) : ℝ) := by exact_mod_cast Nat.succ_le_succ (Nat.zero_le _)
    have hi1 : (1 : ℝ) ≤ ((1 + j : ℕ) : ℝ) := by exact_mod_cast (by omega : 1 ≤ 1 + j)
    have hchoose : ((n - kx + (j + 1)).choose (j + 1) : ℝ)
        = ((n - kx + j).choose j : ℝ) * (((n - kx + j + 1 : ℕ) : ℝ) / ((1 + j : ℕ) : ℝ)) := by
      have := Nat.add_one_mul_choose_eq (n - kx + j) j
      have e : ((n - kx + j + 1 : ℕ) : ℝ) * ((n - kx + j).choose j : ℝ)
          = ((n - kx + j + 1).choose (j + 1) : ℝ) * ((1 + j : ℕ) : ℝ) := by
        rw [add_comm 1 j]; exact_mod_cast this
      rw [← add_assoc, mul_div_assoc', eq_div_iff (by positivity), mul_comm ((n - kx + j).choose j : ℝ)]
      exact e.symm
    have hc1 : (1 : ℝ) ≤ ((n - kx + (j + 1)).choose (j + 1) : ℝ) := by
      exact_mod_cast Nat.choose_pos (by omega)
    set f : ℝ := ((n - kx + j + 1 : ℕ) : ℝ) with hf
    set i : ℝ := ((1 + j : ℕ) : ℝ) with hi
    set C : ℝ := ((n - kx + (j + 1)).choose (j + 1) : ℝ) with hC
    rw [hstep]
    have a1 : (1 : ℝ) / 2 ≤ num * f := by nlinarith
    have a2 : 1 ≤ den * i := by nlinarith
    have hhalf : IsFloat (1 / 2 : ℝ) := ⟨1, -1, by norm_num, by norm_num, by norm_num⟩
    have b1 : 1 / 2 ≤ R.rnd (num * f) := R.ge_of_ge hhalf a1
    have b2 : 1 ≤ R.rnd (den * i) := R.ge_of_ge isFloat_one a2
    have w1 : Within rho (R.rnd (num * f)) (num * f) := R.within (.inr (small_le_half a1))
    have w2 : Within rho (R.rnd (den * i)) (den * i) := R.within (.inr (small_le_half (by linarith)))
    have w3 := w1.div w2 rho_nonneg (by linarith) (by linarith) (by linarith) (by linarith)
    have w4 : Within (rho ^ (3 * j)) (num * f / (den * i)) C := by
      rw [hchoose, mul_div_mul_comm]
      have := h4.mul (Within.refl (c := 1) (x := f / i) le_rfl (by positivity)) (by positivity) (by positivity)
        (by positivity) (by positivity) (by positivity)
      rwa [mul_one] at this
    have w5 : Within (rho ^ (3 * j + 2)) (R.rnd (num * f) / R.rnd (den * i)) C := by
      have := w3.trans w4 (by positivity) (by positivity)
      have e : rho * rho * rho ^ (3 * j) = rho ^ (3 * j + 2) := by ring
      rwa [e] at this
    have hq : 1 / 2 ≤ R.rnd (num * f) / R.rnd (den * i) := by
      have h5 := w5.2
      have h6 := rho_pow_sixty (k := 3 * j + 2) (by omega)
      have h7 : 0 ≤ R.rnd (num * f) / R.rnd (den * i) := by positivity
      nlinarith
    split_ifs
    · refine ⟨_, _, rfl, R.ge_of_ge hhalf hq, le_rfl, ?_⟩
      rw [div_one]
      have := (R.within (.inr (small_le_half hq))).trans w5 rho_nonneg (by positivity)
      have e : rho * rho ^ (3 * j + 2) = rho ^ (3 * (j + 1)) := by ring
      rwa [e] at this
    · refine ⟨_, _, rfl, b1, b2, w5.mono (by linarith) (by linarith) ?_⟩
      exact pow_le_pow_right₀ hrho (by omega)

/-- The relative error of the product formula. -/
theorem binomR_within (R : Rounding) (beta : ℕ → ℕ → ℝ) {n k : ℕ} (hkn : k ≤ n) (hmin : min k (n - k) < 20)
    (hn : n ≤ 2 ^ 52) :
    Within (rho ^ (3 * min k (n - k) + 1)) (binomR R beta n k) (n.choose k : ℝ) := by
  unfold binomR
  simp only
  set kx := if n < 2 * k ∧ 0 < n then n - k else k with hkx
  have hk2 : 2 * kx ≤ n := by rw [hkx]; split_ifs <;> omega
  have hkm : kx = min k (n - k) := by rw [hkx]; split_ifs <;> omega
  have hch : n.choose kx = n.choose k := by
    rw [hkx]; split_ifs
    · exact Nat.choose_symm hkn
    · rfl
  rw [← hkm] at hmin ⊢
  rw [if_pos hmin]
  obtain ⟨num, den, h1, h2, h3, h4⟩ := binom_loop_within R hmin hk2 hn kx le_rfl
  rw [h1]
  simp only
  rw [show n - kx + kx = n by omega, hch] at h4
  have hc1 : (1 : ℝ) ≤ (n.choose k : ℝ) := by exact_mod_cast Nat.choose_pos hkn
  have hq : 1 / 2 ≤ num / den := by
    have h5 := h4.2
    have h6 := rho_pow_sixty (k := 3 * kx) (by omega)
    have h7 : 0 ≤ num / den := by positivity
    nlinarith
  have := (R.within (.inr (small_le_half hq))).trans h4 rho_nonneg (pow_nonneg rho_nonneg _)
  rwa [← pow_succ'] at this

theorem pyRound_half (x : ℝ) : |(pyRound x : ℝ) - x| ≤ 1 / 2 := by
  have h1 := Int.floor_le x
  have h2 := Int.lt_floor_add_one x
  unfold pyRound
  simp only
  rw [abs_le]
  split_ifs <;> push_cast <;> constructor <;> linarith

end Verif
