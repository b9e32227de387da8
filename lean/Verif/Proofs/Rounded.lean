import Verif.Proofs.Floats
import Verif.Proofs.CliffordsRuns
import Verif.Model.Rounded

/-! Helper lemmas: sums and draws in floating-point arithmetic. -/
namespace Verif

open Finset
open scoped ENNReal

/-! ### Equality up to a factor -/

/-- `x` and `y` agree up to the factor `c`. -/
def Within (c x y : ℝ) : Prop := x ≤ c * y ∧ y ≤ c * x

namespace Within

variable {c d x y z x' y' : ℝ}

theorem symm (h : Within c x y) : Within c y x := ⟨h.2, h.1⟩

theorem refl (hc : 1 ≤ c) (hx : 0 ≤ x) : Within c x x := ⟨by nlinarith, by nlinarith⟩

theorem mono (h : Within c x y) (hx : 0 ≤ x) (hy : 0 ≤ y) (hcd : c ≤ d) : Within d x y :=
  ⟨h.1.trans (by gcongr), h.2.trans (by gcongr)⟩

theorem trans (h : Within c x y) (h' : Within d y z) (hc : 0 ≤ c) (hd : 0 ≤ d) : Within (c * d) x z := by
  refine ⟨h.1.trans ?_, h'.2.trans ?_⟩
  · rw [mul_assoc]; exact mul_le_mul_of_nonneg_left h'.1 hc
  · rw [mul_comm c d, mul_assoc]; exact mul_le_mul_of_nonneg_left h.2 hd

theorem mul (h : Within c x y) (h' : Within d x' y') (hc : 0 ≤ c) (hx : 0 ≤ x) (hy : 0 ≤ y) (hx' : 0 ≤ x')
    (hy' : 0 ≤ y') : Within (c * d) (x * x') (y * y') := by
  constructor
  · calc x * x' ≤ (c * y) * (d * y') := mul_le_mul h.1 h'.1 hx' (by positivity)
      _ = _ := by ring
  · calc y * y' ≤ (c * x) * (d * x') := mul_le_mul h.2 h'.2 hy' (by positivity)
      _ = _ := by ring

theorem add (h : Within c x y) (h' : Within c x' y') : Within c (x + x') (y + y') :=
  ⟨by rw [mul_add]; exact add_le_add h.1 h'.1, by rw [mul_add]; exact add_le_add h.2 h'.2⟩

theorem inv (h : Within c x y) (hx : 0 < x) (hy : 0 < y) : Within c x⁻¹ y⁻¹ := by
  constructor
  · rw [← div_eq_mul_inv, le_div_iff₀ hy, inv_mul_le_iff₀ hx]
    rw [mul_comm x c]; exact h.2
  · rw [← div_eq_mul_inv, le_div_iff₀ hx, inv_mul_le_iff₀ hy]
    rw [mul_comm y c]; exact h.1

theorem div (h : Within c x y) (h' : Within d x' y') (hc : 0 ≤ c) (hx : 0 ≤ x) (hy : 0 ≤ y) (hx' : 0 < x')
    (hy' : 0 < y') : Within (c * d) (x / x') (y / y') := by
  rw [div_eq_mul_inv, div_eq_mul_inv]
  exact h.mul (h'.inv hx' hy') hc hx hy (inv_nonneg.mpr hx'.le) (inv_nonneg.mpr hy'.le)

theorem eq_zero (h : Within c x y) (hx : 0 ≤ x) (hy : y = 0) : x = 0 := by
  have := h.1; rw [hy, mul_zero] at this; linarith

theorem pos (h : Within c x y) (hy : 0 < y) (hx : 0 ≤ x) : 0 < x := by
  rcases eq_or_lt_of_le hx with h0 | h0
  · have := h.2; rw [← h0, mul_zero] at this; linarith
  · exact h0

/-- Numbers between 0 and 1 that agree up to a factor are close. -/
theorem close (h : Within c x y) (hc : 1 ≤ c) (hx : x ≤ 1) (hy : y ≤ 1) : |x - y| ≤ c - 1 := by
  rw [abs_le]
  constructor
  · nlinarith [h.2]
  · nlinarith [h.1]

theorem list_sum {α : Type} {f g : α → ℝ} (l : List α) (h : ∀ a ∈ l, Within c (f a) (g a)) :
    Within c (l.map f).sum (l.map g).sum := by
  induction l with
  | nil => simp [Within]
  | cons a l ih =>
    simp only [List.map_cons, List.sum_cons]
    exact (h a (by simp)).add (ih fun b hb => h b (by simp [hb]))

end Within

/-- The factor belonging to one rounding. -/
noncomputable def rho : ℝ := 1 + 1 / (2 ^ 53 - 1)

theorem one_lt_rho : 1 < rho := by unfold rho; norm_num

theorem rho_nonneg : 0 ≤ rho := one_lt_rho.le.trans' zero_le_one

theorem one_le_rho_pow (n : ℕ) : 1 ≤ rho ^ n := one_le_pow₀ one_lt_rho.le

theorem within_of_error {x y : ℝ} (hx : 0 ≤ x) (h : |y - x| ≤ x / 2 ^ 53) : Within rho y x := by
  obtain ⟨h1, h2⟩ := abs_le.mp h
  have hr : rho * (1 - 1 / 2 ^ 53) = 1 := by unfold rho; norm_num
  have hr2 : 1 + 1 / 2 ^ 53 ≤ rho := by unfold rho; norm_num
  constructor
  · calc y ≤ (1 + 1 / 2 ^ 53) * x := by linarith
      _ ≤ rho * x := mul_le_mul_of_nonneg_right hr2 hx
  · calc x = rho * ((1 - 1 / 2 ^ 53) * x) := by rw [← mul_assoc, hr, one_mul]
      _ ≤ rho * y := mul_le_mul_of_nonneg_left (by linarith) rho_nonneg

namespace Rounding

variable (R : Rounding)

theorem within {x : ℝ} (hx : x = 0 ∨ (2 : ℝ) ^ (-1022 : ℤ) ≤ x) : Within rho (R.rnd x) x := by
  rcases hx with rfl | hx
  · rw [R.zero]; exact Within.refl one_lt_rho.le le_rfl
  · exact within_of_error ((two_zpow_pos _).le.trans hx) (R.error hx)

theorem add_within {x y : ℝ} (hx : IsFloat x) (hy : IsFloat y) (h0 : 0 ≤ x) (h1 : 0 ≤ y) :
    Within rho (R.rnd (x + y)) (x + y) :=
  within_of_error (add_nonneg h0 h1) (R.add_error hx hy h0 h1)

end Rounding

/-! ### Sums -/

/-- Nonnegative floats. -/
def Weights (l : List ℝ) : Prop := ∀ x ∈ l, IsFloat x ∧ 0 ≤ x

theorem Weights.tail {p : ℝ} {ps : List ℝ} (h : Weights (p :: ps)) : Weights ps := fun x hx => h x (by simp [hx])

theorem Weights.sum_nonneg {l : List ℝ} (h : Weights l) : 0 ≤ l.sum := List.sum_nonneg fun x hx => (h x hx).2

theorem Weights.take {l : List ℝ} (h : Weights l) (i : ℕ) : Weights (l.take i) :=
  fun x hx => h x (List.mem_of_mem_take hx)

variable (R : Rounding)

/-- Adding floats from left to right, starting with `cur`. -/
noncomputable def accR (cur : ℝ) (l : List ℝ) : ℝ := l.foldl (fun acc x => R.rnd (acc + x)) cur

theorem accR_cons (cur p : ℝ) (ps : List ℝ) : accR R cur (p :: ps) = accR R (R.rnd (cur + p)) ps := rfl

theorem accR_append (cur : ℝ) (l l' : List ℝ) : accR R cur (l ++ l') = accR R (accR R cur l) l' := by
  unfold accR; rw [List.foldl_append]

theorem accR_float {cur : ℝ} (hc : IsFloat cur) (l : List ℝ) : IsFloat (accR R cur l) := by
  induction l generalizing cur with
  | nil => exact hc
  | cons p ps ih => rw [accR_cons]; exact ih (R.isFloat _)

theorem accR_ge {cur : ℝ} (hc : IsFloat cur) (l : List ℝ) (h : Weights l) : cur ≤ accR R cur l := by
  induction l generalizing cur with
  | nil => exact le_rfl
  | cons p ps ih =>
    rw [accR_cons]
    exact (R.ge_of_ge hc (by have := (h p (by simp)).2; linarith)).trans (ih (R.isFloat _) h.tail)

theorem accR_within {cur : ℝ} (hc : IsFloat cur) (h0 : 0 ≤ cur) (l : List ℝ) (h : Weights l) :
    Within (rho ^ l.length) (accR R cur l) (cur + l.sum) := by
  induction l generalizing cur with
  | nil => simpa [accR] using Within.refl le_rfl h0
  | cons p ps ih =>
    obtain ⟨hp, hp0⟩ := h p (by simp)
    rw [accR_cons, List.length_cons, pow_succ, List.sum_cons, ← add_assoc]
    have h1 := ih (R.isFloat (cur + p)) (R.nonneg (by linarith)) h.tail
    have h2 := (R.add_within hc hp h0 hp0).add (Within.refl one_lt_rho.le h.tail.sum_nonneg)
    exact h1.trans h2 (pow_nonneg rho_nonneg _) rho_nonneg

theorem sumR_eq (l : List ℝ) : sumR R l = accR R 0 l := rfl

theorem sumR_float (l : List ℝ) : IsFloat (sumR R l) := accR_float R isFloat_zero l

theorem sumR_nonneg {l : List ℝ} (h : Weights l) : 0 ≤ sumR R l := accR_ge R isFloat_zero l h

theorem sumR_within {l : List ℝ} (h : Weights l) : Within (rho ^ l.length) (sumR R l) l.sum := by
  have := accR_within R isFloat_zero le_rfl l h
  rwa [zero_add] at this

/-! ### Scanning -/

/-- The scan stops at `i` or before exactly when the sum up to `i` exceeds the threshold. -/
theorem scanIndexR_le (x cur : ℝ) (ps : List ℝ) (h : Weights ps) (i : ℕ) (hi : i < ps.length) :
    scanIndexR R x ps cur ≤ i ↔ x < accR R cur (ps.take (i + 1)) := by
  induction ps generalizing cur i with
  | nil => simp at hi
  | cons p ps ih =>
    rw [List.take_succ_cons, accR_cons]
    unfold scanIndexR
    by_cases hp : R.rnd (cur + p) > x
    · rw [if_pos hp]
      have := accR_ge R (R.isFloat (cur + p)) (ps.take i) (h.tail.take i)
      exact ⟨fun _ => lt_of_lt_of_le hp this, fun _ => Nat.zero_le _⟩
    · rw [if_neg hp]
      cases i with
      | zero => simp only [List.take_zero, accR, List.foldl_nil]; exact ⟨fun hc => by omega, fun hc => absurd hc hp⟩
      | succ i =>
        rw [Nat.add_le_add_iff_right, ih (R.rnd (cur + p)) h.tail i (by simpa using hi)]

theorem scanIndexR_lt (x cur : ℝ) (ps : List ℝ) (h : Weights ps) (hc : IsFloat cur) (h0 : cur ≤ x)
    (hx : x < accR R cur ps) :
    scanIndexR R x ps cur < ps.length ∧ 0 < ps.getD (scanIndexR R x ps cur) 0 := by
  induction ps generalizing cur with
  | nil => simp only [accR, List.foldl_nil] at hx; linarith
  | cons p ps ih =>
    unfold scanIndexR
    by_cases hp : R.rnd (cur + p) > x
    · rw [if_pos hp]
      refine ⟨by simp, ?_⟩
      rcases eq_or_lt_of_le (h p (by simp)).2 with h' | h'
      · rw [← h', add_zero, R.eq_self hc] at hp; linarith
      · simpa using h'
    · rw [if_neg hp]
      have := ih (R.rnd (cur + p)) h.tail (R.isFloat _) (not_lt.mp hp) (by rwa [accR_cons] at hx)
      simpa using this

/-- No value of `random()` makes the sampler leave its list of probabilities or choose a zero. -/
theorem gccSelect_lt {u : ℝ} (hu : IsRandom u) {pmf : List ℝ} (h : Weights pmf)
    (hs : (2 : ℝ) ^ (-1022 : ℤ) < sumR R pmf) :
    gccSelect R u pmf < pmf.length ∧ 0 < pmf.getD (gccSelect R u pmf) 0 := by
  have hlt := R.random_mul_lt hu (sumR_float R pmf) hs
  refine scanIndexR_lt R _ 0 pmf h isFloat_zero (R.nonneg ?_) hlt
  obtain ⟨k, -, rfl⟩ := hu
  exact mul_nonneg (by positivity) (sumR_nonneg R h)

/-! ### The distribution of the drawn index -/

/-- How often, out of the `2 ^ 53` values of `random()`, the rounded threshold is below `c`. -/
theorem count_below {s c : ℝ} (hs : (2 : ℝ) ^ (-969 : ℤ) ≤ s) (hc : IsFloat c) (h0 : 0 ≤ c) (hcs : c ≤ s) :
    |(((range (2 ^ 53)).filter fun k : ℕ => R.rnd ((k : ℝ) / 2 ^ 53 * s) < c).card : ℝ) - c / s * 2 ^ 53| ≤ 1 := by
  have hspos : 0 < s := lt_of_lt_of_le (two_zpow_pos _) hs
  rcases eq_or_lt_of_le h0 with rfl | hcpos
  · rw [filter_false_of_mem]
    · simp
    · intro k _
      exact not_lt.mpr (R.nonneg (by positivity))
  have hq1 : c / s ≤ 1 := by rw [div_le_one hspos]; exact hcs
  have hq0 : 0 ≤ c / s := by positivity
  rw [abs_le]
  constructor
  · -- lower bound
    set y : ℝ := c / s * 2 ^ 53 - 1 with hy
    have hsub : range ⌈y⌉₊ ⊆ (range (2 ^ 53)).filter fun k : ℕ => R.rnd ((k : ℝ) / 2 ^ 53 * s) < c := by
      intro k hk
      rw [mem_range, Nat.lt_ceil] at hk
      have hk53 : k < 2 ^ 53 := by
        have : (k : ℝ) < 2 ^ 53 := by nlinarith
        exact_mod_cast this
      rw [mem_filter, mem_range]
      refine ⟨hk53, ?_⟩
      rcases Nat.eq_zero_or_pos k with rfl | hkpos
      · simpa using hcpos
      · have hk1 : (1 : ℝ) ≤ k := by exact_mod_cast hkpos
        have hx : (2 : ℝ) ^ (-1022 : ℤ) ≤ (k : ℝ) / 2 ^ 53 * s := by
          have e : (2 : ℝ) ^ (-1022 : ℤ) = 1 / 2 ^ 53 * 2 ^ (-969 : ℤ) := by
            rw [one_div, ← zpow_natCast, ← zpow_neg, ← zpow_add₀ (by norm_num)]; norm_num
          rw [e]
          refine mul_le_mul ?_ hs (two_zpow_pos _).le (by positivity)
          gcongr
        have herr := (abs_le.mp (R.error hx)).2
        have hk' : (k : ℝ) * s < c * 2 ^ 53 - s := by
          rw [hy] at hk
          have := mul_lt_mul_of_pos_right hk hspos
          have e : (c / s * 2 ^ 53 - 1) * s = c * 2 ^ 53 - s := by field_simp
          rwa [e] at this
        have hkle : (k : ℝ) ≤ 2 ^ 53 := by exact_mod_cast hk53.le
        have h3 : R.rnd ((k : ℝ) / 2 ^ 53 * s) ≤ (k * s) / 2 ^ 53 + (k * s) / 2 ^ 53 / 2 ^ 53 := by
          have e : (k : ℝ) / 2 ^ 53 * s = k * s / 2 ^ 53 := by ring
          rw [e] at herr ⊢; linarith
        have h4 : (k * s) / 2 ^ 53 / 2 ^ 53 ≤ s / 2 ^ 53 := by
          gcongr
          rw [div_le_iff₀ (by positivity)]; nlinarith
        have h5 : (k * s) / 2 ^ 53 < c - s / 2 ^ 53 := by
          rw [div_lt_iff₀ (by positivity)]
          have : (c - s / 2 ^ 53) * 2 ^ 53 = c * 2 ^ 53 - s := by ring
          linarith
        linarith
    have hcard := card_le_card hsub
    rw [card_range] at hcard
    have : y ≤ ⌈y⌉₊ := Nat.le_ceil y
    have h2 : (⌈y⌉₊ : ℝ) ≤ (((range (2 ^ 53)).filter fun k : ℕ => R.rnd ((k : ℝ) / 2 ^ 53 * s) < c).card : ℝ) := by
      exact_mod_cast hcard
    have h6 := this.trans h2
    linarith
  · -- upper bound
    have hsub : ((range (2 ^ 53)).filter fun k : ℕ => R.rnd ((k : ℝ) / 2 ^ 53 * s) < c) ⊆ range (⌊c / s * 2 ^ 53⌋₊ + 1) := by
      intro k hk
      rw [mem_filter] at hk
      rw [mem_range, Nat.lt_succ_iff, Nat.le_floor_iff (by positivity)]
      by_contra hcon
      push Not at hcon
      have : c ≤ (k : ℝ) / 2 ^ 53 * s := by
        have h1 := mul_lt_mul_of_pos_right hcon hspos
        have e : c / s * 2 ^ 53 * s = c * 2 ^ 53 := by field_simp
        rw [e] at h1
        rw [div_mul_eq_mul_div, le_div_iff₀ (by positivity)]
        linarith
      have := R.ge_of_ge hc this
      linarith [hk.2]
    have hcard := card_le_card hsub
    rw [card_range] at hcard
    have h1 : (((range (2 ^ 53)).filter fun k : ℕ => R.rnd ((k : ℝ) / 2 ^ 53 * s) < c).card : ℝ)
        ≤ ⌊c / s * 2 ^ 53⌋₊ + 1 := by exact_mod_cast hcard
    have h2 := Nat.floor_le (by positivity : 0 ≤ c / s * 2 ^ 53)
    linarith

/-- The probability that the index `i` is drawn. -/
noncomputable def selLaw (P : List ℝ) (i : ℕ) : ℝ :=
  ((range (2 ^ 53)).filter fun k : ℕ => gccSelect R ((k : ℝ) / 2 ^ 53) P = i).card / 2 ^ 53

/-- The error of the distribution of the drawn index, per entry. -/
noncomputable def selError (m : ℕ) : ℝ := 1 / 2 ^ 53 + (rho ^ (2 * m) - 1)

theorem selError_nonneg (m : ℕ) : 0 ≤ selError m := by
  have := one_le_rho_pow (2 * m)
  unfold selError
  have : (0 : ℝ) < 1 / 2 ^ 53 := by positivity
  linarith

/-- How often the index `i` or a smaller one is drawn. -/
theorem count_select {P : List ℝ} (h : Weights P) (hs : (2 : ℝ) ^ (-969 : ℤ) ≤ sumR R P) (i : ℕ) (hi : i < P.length) :
    |(((range (2 ^ 53)).filter fun k : ℕ => gccSelect R ((k : ℝ) / 2 ^ 53) P ≤ i).card : ℝ) / 2 ^ 53
      - (P.take (i + 1)).sum / P.sum| ≤ selError P.length := by
  have hspos : 0 < sumR R P := lt_of_lt_of_le (two_zpow_pos _) hs
  have hcf := accR_float R isFloat_zero (P.take (i + 1))
  have hc0 := accR_ge R isFloat_zero (P.take (i + 1)) (h.take _)
  have hcs : accR R 0 (P.take (i + 1)) ≤ sumR R P := by
    rw [sumR_eq]
    conv_rhs => rw [← List.take_append_drop (i + 1) P, accR_append]
    exact accR_ge R hcf _ fun x hx => h x (List.mem_of_mem_drop hx)
  have hset : ((range (2 ^ 53)).filter fun k : ℕ => gccSelect R ((k : ℝ) / 2 ^ 53) P ≤ i)
      = (range (2 ^ 53)).filter fun k : ℕ => R.rnd ((k : ℝ) / 2 ^ 53 * sumR R P) < accR R 0 (P.take (i + 1)) := by
    refine filter_congr fun k _ => ?_
    unfold gccSelect
    exact scanIndexR_le R _ 0 P h i hi
  rw [hset]
  have h1 := count_below R hs hcf hc0 hcs
  set N : ℝ := (((range (2 ^ 53)).filter fun k : ℕ =>
    R.rnd ((k : ℝ) / 2 ^ 53 * sumR R P) < accR R 0 (P.take (i + 1))).card : ℝ) with hN
  have h1' : |N / 2 ^ 53 - accR R 0 (P.take (i + 1)) / sumR R P| ≤ 1 / 2 ^ 53 := by
    have e : N / 2 ^ 53 - accR R 0 (P.take (i + 1)) / sumR R P
        = (N - accR R 0 (P.take (i + 1)) / sumR R P * 2 ^ 53) / 2 ^ 53 := by field_simp
    rw [e, abs_div, abs_of_pos (by positivity : (0 : ℝ) < 2 ^ 53)]
    gcongr
  have w1 : Within (rho ^ P.length) (accR R 0 (P.take (i + 1))) (P.take (i + 1)).sum := by
    have := accR_within R isFloat_zero le_rfl (P.take (i + 1)) (h.take _)
    rw [zero_add] at this
    exact this.mono hc0 (h.take _).sum_nonneg (pow_le_pow_right₀ one_lt_rho.le (by simp))
  have w2 := sumR_within R h
  have hPpos : 0 < P.sum := w2.symm.pos hspos h.sum_nonneg
  have w3 := w1.div w2 (pow_nonneg rho_nonneg _) hc0 (h.take _).sum_nonneg hspos hPpos
  rw [← pow_add, ← two_mul] at w3
  have hle : (P.take (i + 1)).sum ≤ P.sum := by
    conv_rhs => rw [← List.take_append_drop (i + 1) P, List.sum_append]
    have : 0 ≤ (P.drop (i + 1)).sum := List.sum_nonneg fun x hx => (h x (List.mem_of_mem_drop hx)).2
    linarith
  have h2 := w3.close (one_le_rho_pow _) (by rw [div_le_one hspos]; exact hcs) (by rw [div_le_one hPpos]; exact hle)
  unfold selError
  calc _ ≤ |N / 2 ^ 53 - accR R 0 (P.take (i + 1)) / sumR R P|
        + |accR R 0 (P.take (i + 1)) / sumR R P - (P.take (i + 1)).sum / P.sum| := abs_sub_le _ _ _
    _ ≤ _ := add_le_add h1' h2

/-- The drawn index has the distribution given by the weights, up to rounding. -/
theorem selLaw_close {P : List ℝ} (h : Weights P) (hs : (2 : ℝ) ^ (-969 : ℤ) ≤ sumR R P) (i : ℕ) (hi : i < P.length) :
    |selLaw R P i - P.getD i 0 / P.sum| ≤ 2 * selError P.length := by
  have h1 := count_select R h hs i hi
  have hsum : (P.take (i + 1)).sum = (P.take i).sum + P.getD i 0 := by
    rw [List.take_succ_eq_append_getElem hi, List.sum_append, getD_of_lt _ _ hi]; simp
  cases i with
  | zero =>
    have e : selLaw R P 0 = (((range (2 ^ 53)).filter fun k : ℕ => gccSelect R ((k : ℝ) / 2 ^ 53) P ≤ 0).card : ℝ) / 2 ^ 53 := by
      unfold selLaw; simp only [Nat.le_zero]
    rw [e]
    rw [hsum, List.take_zero, List.sum_nil, zero_add] at h1
    have := selError_nonneg P.length
    linarith
  | succ i =>
    have h2 := count_select R h hs i (by omega)
    have hsplit : ((range (2 ^ 53)).filter fun k : ℕ => gccSelect R ((k : ℝ) / 2 ^ 53) P ≤ i + 1)
        = ((range (2 ^ 53)).filter fun k : ℕ => gccSelect R ((k : ℝ) / 2 ^ 53) P ≤ i)
          ∪ ((range (2 ^ 53)).filter fun k : ℕ => gccSelect R ((k : ℝ) / 2 ^ 53) P = i + 1) := by
      rw [← filter_or]
      refine filter_congr fun k _ => ?_
      omega
    have hcard := congrArg Finset.card hsplit
    rw [card_union_of_disjoint] at hcard
    · have e : selLaw R P (i + 1)
          = (((range (2 ^ 53)).filter fun k : ℕ => gccSelect R ((k : ℝ) / 2 ^ 53) P ≤ i + 1).card : ℝ) / 2 ^ 53
            - (((range (2 ^ 53)).filter fun k : ℕ => gccSelect R ((k : ℝ) / 2 ^ 53) P ≤ i).card : ℝ) / 2 ^ 53 := by
        rw [hcard]; unfold selLaw; push_cast; ring
      rw [e]
      have e2 : P.getD (i + 1) 0 / P.sum = (P.take (i + 1 + 1)).sum / P.sum - (P.take (i + 1)).sum / P.sum := by
        rw [hsum]; ring
      rw [e2]
      calc _ = |((((range (2 ^ 53)).filter fun k : ℕ => gccSelect R ((k : ℝ) / 2 ^ 53) P ≤ i + 1).card : ℝ) / 2 ^ 53
                - (P.take (i + 1 + 1)).sum / P.sum)
              - ((((range (2 ^ 53)).filter fun k : ℕ => gccSelect R ((k : ℝ) / 2 ^ 53) P ≤ i).card : ℝ) / 2 ^ 53
                - (P.take (i + 1)).sum / P.sum)| := by ring_nf
        _ ≤ _ := abs_sub _ _
        _ ≤ _ := by linarith
    · rw [disjoint_filter]; intro k _ h1 h2; omega

end Verif
