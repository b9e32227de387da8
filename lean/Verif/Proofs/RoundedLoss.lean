import Verif.Proofs.RoundedSafe
import Mathlib.Algebra.Order.Ring.Pow

/-! Helper lemmas: the computed numbers of particles after losses. -/
namespace Verif

open Finset
open scoped ENNReal

theorem rho_pow_le {k : ℕ} (hk : k ≤ 2 ^ 52) : rho ^ k - 1 ≤ 2 * k / 2 ^ 53 := by
  have hk' : (k : ℝ) ≤ 2 ^ 52 := by exact_mod_cast hk
  have hr : rho * (1 - 1 / 2 ^ 53) = 1 := by unfold rho; norm_num
  have h1 : 1 + (k : ℝ) * (-(1 / 2 ^ 53)) ≤ (1 + -(1 / 2 ^ 53)) ^ k :=
    one_add_mul_le_pow (by norm_num) k
  have h2 : rho ^ k * (1 + -(1 / 2 ^ 53)) ^ k = 1 := by
    rw [← mul_pow, ← sub_eq_add_neg, hr, one_pow]
  have h3 := one_le_rho_pow k
  set x : ℝ := k / 2 ^ 53 with hx
  have hx0 : 0 ≤ x := by positivity
  have hx1 : x ≤ 1 / 2 := by rw [hx, div_le_iff₀ (by positivity)]; linarith
  have h4 : rho ^ k * (1 - x) ≤ 1 := by
    rw [← h2]
    refine mul_le_mul_of_nonneg_left ?_ (by linarith)
    rw [hx]; linarith
  have h5 : 2 * (k : ℝ) / 2 ^ 53 = 2 * x := by rw [hx]; ring
  rw [h5]
  nlinarith

theorem Near.mul_near {b c d e x y z w X Z : ℝ} (h : Near c b x y) (h' : Near d e z w) (hc : 1 ≤ c) (hd : 1 ≤ d)
    (hb : 0 ≤ b) (he : 0 ≤ e) (hx : 0 ≤ x) (hy : 0 ≤ y) (hz : 0 ≤ z) (hw : 0 ≤ w) (hxX : x ≤ X) (hyX : y ≤ X)
    (hzZ : z ≤ Z) (hwZ : w ≤ Z) : Near (c * d) (b * Z + e * X + b * e) (x * z) (y * w) := by
  constructor
  · calc x * z ≤ c * (y + b) * (d * (w + e)) := mul_le_mul h.1 h'.1 hz (by positivity)
      _ = c * d * (y * w + (b * w + e * y + b * e)) := by ring
      _ ≤ _ := by
        refine mul_le_mul_of_nonneg_left ?_ (by positivity)
        have := mul_le_mul_of_nonneg_left hwZ hb
        have := mul_le_mul_of_nonneg_left hyX he
        linarith
  · calc y * w ≤ c * (x + b) * (d * (z + e)) := mul_le_mul h.2 h'.2 hw (by positivity)
      _ = c * d * (x * z + (b * z + e * x + b * e)) := by ring
      _ ≤ _ := by
        refine mul_le_mul_of_nonneg_left ?_ (by positivity)
        have := mul_le_mul_of_nonneg_left hzZ hb
        have := mul_le_mul_of_nonneg_left hxX he
        linarith

theorem Within.near {c x y : ℝ} (h : Within c x y) : Near c 0 x y := by
  unfold Near; rw [add_zero, add_zero]; exact h

theorem Within.pow {c x y : ℝ} (h : Within c x y) (hx : 0 ≤ x) (hy : 0 ≤ y) (k : ℕ) :
    Within (c ^ k) (x ^ k) (y ^ k) := by
  constructor
  · rw [← mul_pow]; exact pow_le_pow_left₀ hx h.1 k
  · rw [← mul_pow]; exact pow_le_pow_left₀ hy h.2 k

variable (R : Rounding)

theorem rnd_le_one {x : ℝ} (h : x ≤ 1) : R.rnd x ≤ 1 := R.le_of_le isFloat_one h

theorem one_sub_within {x : ℝ} (h1 : x ≤ 1) (hx : IsFloat x) : Within rho (R.rnd (1 - x)) (1 - x) := by
  by_cases h : (2 : ℝ) ^ (-1022 : ℤ) ≤ 1 - x
  · exact R.within (.inr h)
  · push Not at h
    obtain ⟨a, ha⟩ := isFloat_one.multiple_min
    obtain ⟨b, rfl⟩ := hx.multiple_min
    have hf : IsFloat (1 - b * 2 ^ (-1074 : ℤ)) := by
      refine Rounding.isFloat_of_small (k := a - b) (by push_cast; rw [sub_mul, ← ha]) ?_
      rw [abs_of_nonneg (by linarith)]
      refine h.trans_le (zpow_le_zpow_right₀ (by norm_num) (by norm_num))
    rw [R.eq_self hf]
    exact Within.refl one_lt_rho.le (by linarith)

/-- One weight of the number of particles left. -/
noncomputable def binomWeightR (n : ℕ) (eta : ℝ) (l : ℕ) : ℝ :=
  R.rnd (R.rnd (R.rnd (n.choose l) * R.rnd (eta ^ l)) * R.rnd (R.rnd (1 - eta) ^ (n - l)))

theorem binomWeightR_near (n : ℕ) {eta : ℝ} (h0 : 0 ≤ eta) (h1 : eta ≤ 1) (hf : IsFloat eta) (l : ℕ) (hl : l ≤ n) :
    Near (rho ^ (n + 5)) (tiny * 2 ^ (n + 5)) (binomWeightR R n eta l)
      (n.choose l * eta ^ l * (1 - eta) ^ (n - l)) := by
  have hr := one_lt_rho
  have hr0 := rho_nonneg
  have hr2 : rho ≤ 2 := by unfold rho; norm_num
  have ht := tiny_pos
  have ht1 : tiny ≤ 1 := by
    unfold tiny; exact zpow_le_one_of_nonpos₀ (by norm_num) (by norm_num)
  set P : ℝ := 2 ^ n with hP
  have hP1 : 1 ≤ P := one_le_pow₀ (by norm_num)
  have hch : (n.choose l : ℝ) ≤ P := by
    rw [hP]; exact_mod_cast Nat.choose_le_two_pow n l
  have hchp : 0 < n.choose l := Nat.choose_pos hl
  have hA := (rnd_nat_within R hchp)
  have hA1 : R.rnd (n.choose l) ≤ 2 * P := hA.1.trans (by nlinarith)
  have hA0 : 0 ≤ R.rnd (n.choose l) := R.nonneg (Nat.cast_nonneg _)
  have he0 : 0 ≤ eta ^ l := by positivity
  have he1 : eta ^ l ≤ 1 := pow_le_one₀ h0 h1
  have hB := R.near he0
  have hAB := hA.near.mul_near hB hr.le hr.le le_rfl ht.le hA0 (Nat.cast_nonneg _) (R.nonneg he0) he0 hA1
    (by linarith : (n.choose l : ℝ) ≤ 2 * P) (rnd_le_one R he1) he1
  have hAB' := hAB.rnd R (by nlinarith) (mul_nonneg hA0 (R.nonneg he0)) (by positivity)
  have hq0 : 0 ≤ 1 - eta := by linarith
  have hqR := one_sub_within R h1 hf
  have hqR0 := R.nonneg hq0
  have hqR1 : R.rnd (1 - eta) ≤ 1 := rnd_le_one R (by linarith)
  have hC := (hqR.pow hqR0 hq0 (n - l)).near.rnd R (one_le_rho_pow _) (by positivity) le_rfl
  have hprod : R.rnd (n.choose l) * R.rnd (eta ^ l) ≤ 2 * P := by
    have := rnd_le_one R he1
    have := R.nonneg he0
    nlinarith
  have hAB1 : R.rnd (R.rnd (n.choose l) * R.rnd (eta ^ l)) ≤ 8 * P := by
    have := (R.near (mul_nonneg hA0 (R.nonneg he0))).1
    nlinarith
  have hx0 : 0 ≤ R.rnd (R.rnd (n.choose l) * R.rnd (eta ^ l)) := R.nonneg (mul_nonneg hA0 (R.nonneg he0))
  have hy0 : (0 : ℝ) ≤ n.choose l * eta ^ l := by positivity
  have hy1 : (n.choose l : ℝ) * eta ^ l ≤ 8 * P := by nlinarith
  have hz0 : 0 ≤ R.rnd (R.rnd (1 - eta) ^ (n - l)) := R.nonneg (by positivity)
  have hD := hAB'.mul_near hC (by nlinarith) (by nlinarith [one_le_rho_pow (n - l)]) (by positivity) (by positivity) hx0 hy0 hz0
    (by positivity) hAB1 hy1 (rnd_le_one R (pow_le_one₀ hqR0 hqR1)) (pow_le_one₀ hq0 (by linarith))
  have hb : 0 ≤ (0 * 1 + tiny * (2 * P) + 0 * tiny + tiny) * 1 + (0 + tiny) * (8 * P)
      + (0 * 1 + tiny * (2 * P) + 0 * tiny + tiny) * (0 + tiny) := by positivity
  have hcc : 1 ≤ rho * rho * rho * (rho ^ (n - l) * rho) := by
    have : rho * rho * rho * (rho ^ (n - l) * rho) = rho ^ (n - l + 4) := by ring
    rw [this]; exact one_le_rho_pow _
  have hE := hD.rnd R hcc (mul_nonneg hx0 hz0) hb
  refine hE.mono (by nlinarith) (R.nonneg (mul_nonneg hx0 hz0)) (by positivity) (by linarith) ?_ ?_
  · have : rho * rho * rho * (rho ^ (n - l) * rho) * rho = rho ^ (n - l + 5) := by ring
    rw [this]
    exact pow_le_pow_right₀ hr.le (by omega)
  · rw [pow_add, ← hP]
    have h3 : tiny * tiny ≤ tiny := by nlinarith
    have h4 : tiny ≤ tiny * P := by nlinarith
    have h5 : tiny * P * tiny ≤ tiny * P := by nlinarith
    nlinarith

theorem gccbWeightsR_weights (n : ℕ) {eta : ℝ} (h0 : 0 ≤ eta) (h1 : eta ≤ 1) : Weights (gccbWeightsR R n eta) := by
  intro x hx
  obtain ⟨l, _, rfl⟩ := List.mem_map.mp hx
  refine ⟨R.isFloat _, R.nonneg (mul_nonneg (R.nonneg (mul_nonneg (R.nonneg (Nat.cast_nonneg _)) (R.nonneg ?_)))
    (R.nonneg ?_))⟩
  · positivity
  · exact pow_nonneg (R.nonneg (by linarith)) _

theorem length_gccbWeightsR (n : ℕ) (eta : ℝ) : (gccbWeightsR R n eta).length = n + 1 := by simp [gccbWeightsR]

theorem binom_list_sum (n : ℕ) (eta : ℝ) :
    ((List.range (n + 1)).map fun l => (n.choose l : ℝ) * eta ^ l * (1 - eta) ^ (n - l)).sum = 1 := by
  have h := add_pow eta (1 - eta) n
  rw [add_sub_cancel, one_pow] at h
  rw [list_sum_range]
  refine (sum_congr rfl fun l _ => ?_).trans h.symm
  ring

/-- The computed probabilities of the numbers of particles left sum up to one, up to rounding. -/
theorem gccbWeightsR_sum (n : ℕ) (hn : n ≤ 170) {eta : ℝ} (h0 : 0 ≤ eta) (h1 : eta ≤ 1) (hf : IsFloat eta) :
    |sumR R (gccbWeightsR R n eta) - 1| ≤ (4 * n + 13) / 2 ^ 53 := by
  have hW := gccbWeightsR_weights R n h0 h1
  have hN := Near.list_sum (f := binomWeightR R n eta)
    (g := fun l => (n.choose l : ℝ) * eta ^ l * (1 - eta) ^ (n - l)) (List.range (n + 1))
    fun l hl => binomWeightR_near R n h0 h1 hf l (by have := List.mem_range.mp hl; omega)
  rw [binom_list_sum, List.length_range] at hN
  have hs := sumR_within R hW
  rw [length_gccbWeightsR] at hs
  have ht := tiny_pos
  have hN' := hN.trans_within hs (one_le_rho_pow _) (one_le_rho_pow _) (by positivity)
  rw [← pow_add] at hN'
  have hc := hN'.close (one_le_rho_pow _) zero_le_one (by positivity)
  refine hc.trans ?_
  have hp := rho_pow_le (k := n + 5 + (n + 1)) (by omega)
  push_cast at hp
  have hb : ((n + 1 : ℕ) : ℝ) * (tiny * 2 ^ (n + 5)) ≤ 1 / 2 ^ 60 := by
    have h3 : tiny ≤ 1 / 2 ^ 250 := by
      unfold tiny
      have : (2 : ℝ) ^ (-1074 : ℤ) ≤ 2 ^ (-250 : ℤ) := zpow_le_zpow_right₀ (by norm_num) (by norm_num)
      refine this.trans (le_of_eq ?_)
      rw [zpow_neg, one_div]
      norm_cast
    have h4 : (2 : ℝ) ^ (n + 5) ≤ 2 ^ 175 := pow_le_pow_right₀ (by norm_num) (by omega)
    have h5 : ((n + 1 : ℕ) : ℝ) ≤ 2 ^ 8 := by
      have : n + 1 ≤ 2 ^ 8 := by omega
      exact_mod_cast this
    calc ((n + 1 : ℕ) : ℝ) * (tiny * 2 ^ (n + 5)) ≤ 2 ^ 8 * (1 / 2 ^ 250 * 2 ^ 175) := by gcongr
      _ ≤ 1 / 2 ^ 60 := by norm_num
  have hn' : (n : ℝ) ≤ 170 := by exact_mod_cast hn
  have h2 : rho ^ (n + 5 + (n + 1)) ≤ 2 := by
    have : 2 * ((n : ℝ) + 5 + (n + 1)) / 2 ^ 53 ≤ 1 := by
      rw [div_le_one (by positivity)]; norm_num; linarith
    linarith
  have h6 : rho ^ (n + 5 + (n + 1)) * (((n + 1 : ℕ) : ℝ) * (tiny * 2 ^ (n + 5))) ≤ 2 * (1 / 2 ^ 60) :=
    mul_le_mul h2 hb (by positivity) (by norm_num)
  have h7 : (4 * (n : ℝ) + 13) / 2 ^ 53 = 2 * (n + 5 + (n + 1)) / 2 ^ 53 + 1 / 2 ^ 53 := by ring
  rw [h7, mul_one]
  have h8 : (2 : ℝ) * (1 / 2 ^ 60) ≤ 1 / 2 ^ 53 := by norm_num
  linarith

/-- BOBS computes the same weights, with the transmissivity rounded. -/
theorem bobsWeightsR_eq (losses : ℝ) (n : ℕ) : bobsWeightsR R losses n = gccbWeightsR R n (R.rnd (1 - losses)) := by
  unfold bobsWeightsR gccbWeightsR
  refine List.map_congr_left fun l _ => ?_
  rw [mul_comm (R.rnd (R.rnd (1 - losses) ^ l))]

/-! ### Draws outside the range -/

theorem isFloat_mk (k : ℤ) (t : ℤ) (hk : |k| < 2 ^ 53) (ht : -1074 ≤ t) : IsFloat ((k : ℝ) * 2 ^ t) := ⟨k, t, hk, ht, rfl⟩

/-- The float `0.27`. -/
noncomputable def eta27 : ℝ := 2431943798780068 / 2 ^ 53

/-- The float `0.73`. -/
noncomputable def eta73 : ℝ := 6575255455960924 / 2 ^ 53

theorem isFloat_eta27 : IsFloat eta27 := ⟨2431943798780068, -53, by norm_num, by norm_num, by
  rw [zpow_neg, ← div_eq_mul_inv]; unfold eta27; norm_num⟩

theorem isFloat_eta73 : IsFloat eta73 := ⟨6575255455960924, -53, by norm_num, by norm_num, by
  rw [zpow_neg, ← div_eq_mul_inv]; unfold eta73; norm_num⟩

theorem rnd_close (k : ℤ) (t : ℕ) (x : ℝ) (hk : 2 ^ 52 < k) (hk' : k < 2 ^ 53) (ht : t ≤ 1074)
    (h : |x - (k : ℝ) / 2 ^ t| < 1 / 2 ^ t / 2) : R.rnd x = (k : ℝ) / 2 ^ t := by
  have e : ∀ y : ℝ, y * 2 ^ (-(t : ℤ)) = y / 2 ^ t := fun y => by
    rw [zpow_neg, ← div_eq_mul_inv, zpow_natCast]
  have := R.eq_of_close (x := x) (k := k) (t := -(t : ℤ)) hk hk' (by omega) (by
    rw [e]
    rw [zpow_neg, zpow_natCast, ← one_div]
    exact h)
  rw [this, e]

theorem rnd_one : R.rnd 1 = 1 := R.eq_self isFloat_one

theorem rnd_two : R.rnd 2 = 2 := R.eq_self ⟨2, 0, by norm_num, by norm_num, by norm_num⟩

theorem weights27 : gccbWeightsR R 2 eta27 =
    [4799936482851474 / 2 ^ 53, 7101275892437798 / 2 ^ 54, 5252998605364947 / 2 ^ 56] := by
  have hq : R.rnd (1 - eta27) = eta73 := by
    have : 1 - eta27 = eta73 := by unfold eta27 eta73; norm_num
    rw [this, R.eq_self isFloat_eta73]
  have h0 : R.rnd (eta73 ^ 2) = 4799936482851474 / 2 ^ 53 := by
    have := rnd_close R 4799936482851474 53 (eta73 ^ 2) (by norm_num) (by norm_num) (by norm_num) (by
      unfold eta73; rw [abs_lt]; norm_num)
    simpa using this
  have h2 : R.rnd (eta27 ^ 2) = 5252998605364947 / 2 ^ 56 := by
    have := rnd_close R 5252998605364947 56 (eta27 ^ 2) (by norm_num) (by norm_num) (by norm_num) (by
      unfold eta27; rw [abs_lt]; norm_num)
    simpa using this
  have h1 : R.rnd (2 * eta27 * eta73) = 7101275892437798 / 2 ^ 54 := by
    have := rnd_close R 7101275892437798 54 (2 * eta27 * eta73) (by norm_num) (by norm_num) (by norm_num) (by
      unfold eta27 eta73; rw [abs_lt]; norm_num)
    simpa using this
  have hd : R.rnd (2 * eta27) = 2 * eta27 := R.eq_self ⟨2431943798780068, -52, by norm_num, by norm_num, by
    rw [zpow_neg, ← div_eq_mul_inv]; unfold eta27; norm_num⟩
  have hw0 : IsFloat (R.rnd (eta73 ^ 2)) := R.isFloat _
  have hw2 : IsFloat (R.rnd (eta27 ^ 2)) := R.isFloat _
  unfold gccbWeightsR
  simp only [List.range_succ, List.range_zero, List.nil_append, List.cons_append, List.map_cons, List.map_nil, hq,
    Nat.choose_zero_right, Nat.choose_self, Nat.choose_one_right, Nat.cast_one, Nat.cast_ofNat, pow_zero, pow_one,
    rnd_one, rnd_two, one_mul, mul_one, R.eq_self isFloat_eta27, R.eq_self isFloat_eta73, hd, h1, Nat.sub_zero,
    Nat.sub_self, Nat.add_one_sub_one, R.eq_self hw0, R.eq_self hw2]
  rw [h0, h2]

theorem sum27 : sumR R (gccbWeightsR R 2 eta27) = 1 - 1 / 2 ^ 53 := by
  have hw0 : IsFloat (4799936482851474 / 2 ^ 53 : ℝ) := by
    have h := gccbWeightsR_weights R 2 (eta := eta27) (by unfold eta27; positivity) (by unfold eta27; norm_num)
    rw [weights27] at h
    exact (h _ (by simp)).1
  have h1 : R.rnd (4799936482851474 / 2 ^ 53 + 7101275892437798 / 2 ^ 54) = 8350574429070373 / 2 ^ 53 := by
    have := rnd_close R 8350574429070373 53 (4799936482851474 / 2 ^ 53 + 7101275892437798 / 2 ^ 54) (by norm_num)
      (by norm_num) (by norm_num) (by rw [abs_lt]; norm_num)
    simpa using this
  have h2 : R.rnd (8350574429070373 / 2 ^ 53 + 5252998605364947 / 2 ^ 56) = 9007199254740991 / 2 ^ 53 := by
    have := rnd_close R 9007199254740991 53 (8350574429070373 / 2 ^ 53 + 5252998605364947 / 2 ^ 56) (by norm_num)
      (by norm_num) (by norm_num) (by rw [abs_lt]; norm_num)
    simpa using this
  rw [weights27]
  simp only [sumR, List.foldl_cons, List.foldl_nil, zero_add]
  rw [R.eq_self hw0, h1, h2]
  norm_num

end Verif
