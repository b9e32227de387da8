import Verif.Spec.Floats
import Mathlib.Data.Int.Log
import Mathlib.Data.Set.Finite.Lattice
import Mathlib.Algebra.Order.Floor.Ring
import Mathlib.Algebra.Order.Archimedean.Real.Basic
import Mathlib.Tactic

/-! Helper lemmas: floating-point numbers. -/
namespace Verif

theorem two_zpow_pos (t : ℤ) : (0 : ℝ) < 2 ^ t := zpow_pos (by norm_num) t

theorem isFloat_zero : IsFloat 0 := ⟨0, 0, by norm_num, by norm_num, by simp⟩

theorem IsFloat.neg {x : ℝ} (h : IsFloat x) : IsFloat (-x) := by
  obtain ⟨k, t, h1, h2, rfl⟩ := h
  exact ⟨-k, t, by rwa [abs_neg], h2, by push_cast; ring⟩

/-- A multiple of `2 ^ t` by at most `2 ^ 53`. -/
theorem isFloat_mul {k t : ℤ} (hk : |k| ≤ 2 ^ 53) (ht : -1074 ≤ t) : IsFloat ((k : ℝ) * 2 ^ t) := by
  rcases lt_or_eq_of_le hk with h | h
  · exact ⟨k, t, h, ht, rfl⟩
  · rcases abs_eq (by norm_num : (0 : ℤ) ≤ 2 ^ 53) |>.mp h with rfl | rfl
    · refine ⟨2 ^ 52, t + 1, by norm_num, by omega, ?_⟩
      rw [zpow_add₀ (by norm_num)]; push_cast; ring
    · refine ⟨-2 ^ 52, t + 1, by norm_num, by omega, ?_⟩
      rw [zpow_add₀ (by norm_num)]; push_cast; ring

/-- Floats of at least `2 ^ (52 + t)` are multiples of `2 ^ t`. -/
theorem IsFloat.multiple {x : ℝ} (h : IsFloat x) {t : ℤ} (hx : (2 : ℝ) ^ (52 + t) ≤ |x|) :
    ∃ k : ℤ, x = (k : ℝ) * 2 ^ t := by
  obtain ⟨k, s, h1, h2, rfl⟩ := h
  have hts : t ≤ s := by
    by_contra hc
    push Not at hc
    have : |(k : ℝ) * 2 ^ s| < 2 ^ (52 + t) := by
      rw [abs_mul, abs_of_pos (two_zpow_pos s)]
      calc |(k : ℝ)| * 2 ^ s < 2 ^ (53 : ℤ) * 2 ^ s := by
            refine mul_lt_mul_of_pos_right ?_ (two_zpow_pos s)
            rw [← Int.cast_abs]; exact_mod_cast h1
        _ = 2 ^ (53 + s) := by rw [zpow_add₀ (by norm_num)]
        _ ≤ 2 ^ (52 + t) := zpow_le_zpow_right₀ (by norm_num) (by omega)
    linarith
  obtain ⟨n, hn⟩ := Int.eq_ofNat_of_zero_le (sub_nonneg.mpr hts)
  refine ⟨k * 2 ^ n, ?_⟩
  have e : s = t + n := by omega
  rw [e, zpow_add₀ (by norm_num), zpow_natCast]
  push_cast; ring

/-- All floats are multiples of the smallest one. -/
theorem IsFloat.multiple_min {x : ℝ} (h : IsFloat x) : ∃ k : ℤ, x = (k : ℝ) * 2 ^ (-1074 : ℤ) := by
  obtain ⟨k, s, h1, h2, rfl⟩ := h
  obtain ⟨n, hn⟩ := Int.eq_ofNat_of_zero_le (by omega : 0 ≤ s + 1074)
  refine ⟨k * 2 ^ n, ?_⟩
  have e : s = -1074 + n := by omega
  rw [e, zpow_add₀ (by norm_num), zpow_natCast]
  push_cast; ring

theorem exists_nearest (x : ℝ) : ∃ y, NearestFloat x y := by
  classical
  set e : ℝ := 2 ^ (-1074 : ℤ) with he
  have hepos : 0 < e := two_zpow_pos _
  -- the floats at distance at most |x|
  let s : Set ℝ := {y | IsFloat y ∧ |x - y| ≤ |x|}
  have hs0 : (0 : ℝ) ∈ s := ⟨isFloat_zero, by simp⟩
  have hfin : s.Finite := by
    obtain ⟨N, hN⟩ := exists_nat_ge (2 * |x| / e)
    refine ((Set.finite_Icc (-(N : ℤ)) N).image fun k : ℤ => (k : ℝ) * e).subset ?_
    rintro y ⟨hy, hd⟩
    obtain ⟨k, rfl⟩ := hy.multiple_min
    refine ⟨k, ?_, rfl⟩
    have h1 : |(k : ℝ) * e| ≤ 2 * |x| := by
      have := abs_sub_abs_le_abs_sub ((k : ℝ) * e) x
      rw [abs_sub_comm] at hd
      linarith
    rw [abs_mul, abs_of_pos hepos] at h1
    have h2 : |(k : ℝ)| ≤ N := by
      refine le_trans ?_ hN
      rw [le_div_iff₀ hepos]; exact h1
    rw [← Int.cast_abs] at h2
    have h3 : |k| ≤ (N : ℤ) := by exact_mod_cast h2
    exact abs_le.mp h3
  obtain ⟨y, hy, hmin⟩ := hfin.exists_minimalFor (fun y => |x - y|) s ⟨0, hs0⟩
  refine ⟨y, hy.1, fun z hz => ?_⟩
  by_contra hc
  push Not at hc
  have hzs : z ∈ s := ⟨hz, hc.le.trans hy.2⟩
  have := hmin hzs hc.le
  simp only at this
  linarith

/-- There are roundings to nearest. -/
noncomputable def someRounding : Rounding where
  rnd x := (exists_nearest x).choose
  nearest x := (exists_nearest x).choose_spec

namespace Rounding

variable (R : Rounding)

theorem isFloat (x : ℝ) : IsFloat (R.rnd x) := (R.nearest x).1

theorem eq_self {x : ℝ} (h : IsFloat x) : R.rnd x = x := by
  have := (R.nearest x).2 x h
  simp only [sub_self, abs_zero, abs_nonpos_iff] at this
  linarith

@[simp] theorem zero : R.rnd 0 = 0 := R.eq_self isFloat_zero

theorem mono {x y : ℝ} (h : x ≤ y) : R.rnd x ≤ R.rnd y := by
  rcases eq_or_lt_of_le h with rfl | h
  · rfl
  by_contra hc
  push Not at hc
  have h1 := (R.nearest x).2 _ (R.isFloat y)
  have h2 := (R.nearest y).2 _ (R.isFloat x)
  rcases abs_cases (x - R.rnd x) with h3 | h3 <;> rcases abs_cases (x - R.rnd y) with h4 | h4 <;>
    rcases abs_cases (y - R.rnd y) with h5 | h5 <;> rcases abs_cases (y - R.rnd x) with h6 | h6 <;>
    linarith

theorem le_of_le {x y : ℝ} (hy : IsFloat y) (h : x ≤ y) : R.rnd x ≤ y := by
  have := R.mono h
  rwa [R.eq_self hy] at this

theorem ge_of_ge {x y : ℝ} (hy : IsFloat y) (h : y ≤ x) : y ≤ R.rnd x := by
  have := R.mono h
  rwa [R.eq_self hy] at this

theorem nonneg {x : ℝ} (h : 0 ≤ x) : 0 ≤ R.rnd x := R.ge_of_ge isFloat_zero h

/-- A value strictly nearer to a float than half the spacing is rounded to it. -/
theorem eq_of_close {x : ℝ} {k t : ℤ} (hk : 2 ^ 52 < k) (hk' : k < 2 ^ 53) (ht : -1074 ≤ t)
    (h : |x - (k : ℝ) * 2 ^ t| < 2 ^ t / 2) : R.rnd x = (k : ℝ) * 2 ^ t := by
  have hf : IsFloat ((k : ℝ) * 2 ^ t) := ⟨k, t, by rw [abs_of_pos (by omega)]; exact hk', ht, rfl⟩
  have hd := (R.nearest x).2 _ hf
  have htp := two_zpow_pos t
  have hclose : |R.rnd x - (k : ℝ) * 2 ^ t| < 2 ^ t := by
    have := abs_sub_le (R.rnd x) x ((k : ℝ) * 2 ^ t)
    rw [abs_sub_comm (R.rnd x) x] at this
    linarith
  have hkr : (2 : ℝ) ^ 52 + 1 ≤ k := by exact_mod_cast hk
  have hbig : (2 : ℝ) ^ (52 + t) ≤ |R.rnd x| := by
    have h1 := (abs_lt.mp hclose).1
    have h2 : (2 : ℝ) ^ (52 + t) ≤ R.rnd x := by
      rw [zpow_add₀ (by norm_num)]
      have h3 : (2 : ℝ) ^ (52 : ℤ) * 2 ^ t ≤ (k - 1) * 2 ^ t := by
        refine mul_le_mul_of_nonneg_right ?_ htp.le
        have : (2 : ℝ) ^ (52 : ℤ) = 2 ^ 52 := by norm_cast
        rw [this]; linarith
      nlinarith
    exact h2.trans (le_abs_self _)
  obtain ⟨j, hj⟩ := (R.isFloat x).multiple hbig
  rw [hj] at hclose ⊢
  rw [← sub_mul, abs_mul, abs_of_pos htp] at hclose
  have h1 : |((j : ℝ) - k)| < 1 := by
    by_contra hc
    push Not at hc
    nlinarith
  have h2 : |j - k| < 1 := by
    have : ((|j - k| : ℤ) : ℝ) < 1 := by push_cast; exact h1
    exact_mod_cast this
  have h3 : j = k := by rw [Int.abs_lt_one_iff] at h2; omega
  rw [h3]

end Rounding

/-- The binade of a positive number. -/
theorem exists_binade {x : ℝ} (hx : (2 : ℝ) ^ (-1022 : ℤ) ≤ x) :
    ∃ t : ℤ, -1074 ≤ t ∧ (2 : ℝ) ^ (52 + t) ≤ x ∧ x < 2 ^ (53 + t) := by
  have hpos : 0 < x := lt_of_lt_of_le (two_zpow_pos _) hx
  refine ⟨Int.log 2 x - 52, ?_, ?_, ?_⟩
  · have : (-1022 : ℤ) ≤ Int.log 2 x := by
      rw [← Int.zpow_le_iff_le_log (by norm_num) hpos]; exact_mod_cast hx
    omega
  · have := Int.zpow_log_le_self (b := 2) (by norm_num) hpos
    have e : 52 + (Int.log 2 x - 52) = Int.log 2 x := by ring
    rw [e]; exact_mod_cast this
  · have := Int.lt_zpow_succ_log_self (b := 2) (by norm_num) x
    have e : 53 + (Int.log 2 x - 52) = Int.log 2 x + 1 := by ring
    rw [e]; exact_mod_cast this

namespace Rounding

variable (R : Rounding)

/-- The error of one rounding, for results in the normal range. -/
theorem error {x : ℝ} (hx : (2 : ℝ) ^ (-1022 : ℤ) ≤ x) : |R.rnd x - x| ≤ x / 2 ^ 53 := by
  obtain ⟨t, ht, h1, h2⟩ := exists_binade hx
  have htp := two_zpow_pos t
  set k : ℤ := ⌊x / 2 ^ t⌋ with hk
  have hlo : (k : ℝ) * 2 ^ t ≤ x := by
    have := Int.floor_le (x / 2 ^ t)
    rwa [le_div_iff₀ htp] at this
  have hhi : x < ((k + 1 : ℤ) : ℝ) * 2 ^ t := by
    have := Int.lt_floor_add_one (x / 2 ^ t)
    rw [div_lt_iff₀ htp] at this
    push_cast; exact this
  have hk1 : 2 ^ 52 ≤ k := by
    rw [hk, Int.le_floor, le_div_iff₀ htp]
    rw [zpow_add₀ (by norm_num)] at h1
    push_cast; exact_mod_cast h1
  have hk2 : k < 2 ^ 53 := by
    rw [hk, Int.floor_lt, div_lt_iff₀ htp]
    rw [zpow_add₀ (by norm_num)] at h2
    push_cast; exact_mod_cast h2
  have f1 : IsFloat ((k : ℝ) * 2 ^ t) := isFloat_mul (by rw [abs_of_nonneg (by omega)]; omega) ht
  have f2 : IsFloat (((k + 1 : ℤ) : ℝ) * 2 ^ t) := isFloat_mul (by rw [abs_of_nonneg (by omega)]; omega) ht
  have d1 := (R.nearest x).2 _ f1
  have d2 := (R.nearest x).2 _ f2
  rw [abs_of_nonneg (a := x - k * 2 ^ t) (by linarith)] at d1
  rw [abs_of_nonpos (a := x - ((k + 1 : ℤ) : ℝ) * 2 ^ t) (by linarith)] at d2
  have hhalf : |x - R.rnd x| ≤ 2 ^ t / 2 := by push_cast at d2; linarith
  rw [abs_sub_comm]
  refine hhalf.trans ?_
  rw [zpow_add₀ (by norm_num)] at h1
  have h3 : (2 : ℝ) ^ (52 : ℤ) = 2 ^ 52 := by norm_cast
  rw [h3] at h1
  rw [le_div_iff₀ (by positivity)]
  calc (2 : ℝ) ^ t / 2 * 2 ^ 53 = 2 ^ 52 * 2 ^ t := by ring
    _ ≤ x := h1

/-- Sums of floats that are too small for the normal range are exact. -/
theorem isFloat_of_small {x : ℝ} {k : ℤ} (hx : x = (k : ℝ) * 2 ^ (-1074 : ℤ)) (h : |x| < 2 ^ (-1021 : ℤ)) :
    IsFloat x := by
  refine ⟨k, -1074, ?_, le_refl _, hx⟩
  rw [hx, abs_mul, abs_of_pos (two_zpow_pos _)] at h
  have e : (2 : ℝ) ^ (-1021 : ℤ) = 2 ^ 53 * 2 ^ (-1074 : ℤ) := by
    rw [← zpow_natCast, ← zpow_add₀ (by norm_num)]; norm_num
  rw [e] at h
  have := lt_of_mul_lt_mul_right h (two_zpow_pos (-1074)).le
  rw [← Int.cast_abs] at this
  exact_mod_cast this

/-- The error of an addition of nonnegative floats (no restriction of the range). -/
theorem add_error {x y : ℝ} (hx : IsFloat x) (hy : IsFloat y) (h0 : 0 ≤ x) (h1 : 0 ≤ y) :
    |R.rnd (x + y) - (x + y)| ≤ (x + y) / 2 ^ 53 := by
  by_cases h : (2 : ℝ) ^ (-1022 : ℤ) ≤ x + y
  · exact R.error h
  · push Not at h
    obtain ⟨a, rfl⟩ := hx.multiple_min
    obtain ⟨b, rfl⟩ := hy.multiple_min
    have hf : IsFloat ((a : ℝ) * 2 ^ (-1074 : ℤ) + b * 2 ^ (-1074 : ℤ)) := by
      refine isFloat_of_small (k := a + b) (by push_cast; ring) ?_
      rw [abs_of_nonneg (by linarith)]
      refine h.trans_le (zpow_le_zpow_right₀ (by norm_num) (by norm_num))
    rw [R.eq_self hf, sub_self, abs_zero]
    positivity

/-- `random() * s < s`, also when the product is rounded. -/
theorem random_mul_lt {u s : ℝ} (hu : IsRandom u) (hs : IsFloat s) (h : (2 : ℝ) ^ (-1022 : ℤ) < s) :
    R.rnd (u * s) < s := by
  obtain ⟨i, hi, rfl⟩ := hu
  obtain ⟨t, ht, h1, h2⟩ := exists_binade h.le
  have htp := two_zpow_pos t
  have hspos : 0 < s := lt_trans (two_zpow_pos _) h
  obtain ⟨k, rfl⟩ := hs.multiple (t := t) (h1.trans (le_abs_self _))
  have e52 : (2 : ℝ) ^ (52 : ℤ) = 2 ^ 52 := by norm_cast
  have e53 : (2 : ℝ) ^ (53 : ℤ) = 2 ^ 53 := by norm_cast
  rw [zpow_add₀ (by norm_num), e52] at h1
  rw [zpow_add₀ (by norm_num), e53] at h2
  have hk1 : (2 : ℝ) ^ 52 ≤ k := le_of_mul_le_mul_right h1 htp
  have hk2 : (k : ℝ) < 2 ^ 53 := lt_of_mul_lt_mul_right h2 htp.le
  have hk1' : 2 ^ 52 ≤ k := by exact_mod_cast hk1
  have hk2' : k < 2 ^ 53 := by exact_mod_cast hk2
  have hi' : (i : ℝ) ≤ 2 ^ 53 - 1 := by
    have : ((i + 1 : ℕ) : ℝ) ≤ ((2 ^ 53 : ℕ) : ℝ) := by exact_mod_cast hi
    push_cast at this; linarith
  have hmax : (i : ℝ) / 2 ^ 53 * (k * 2 ^ t) ≤ (k - k / 2 ^ 53) * 2 ^ t := by
    have : (i : ℝ) / 2 ^ 53 ≤ 1 - 1 / 2 ^ 53 := by
      rw [div_le_iff₀ (by positivity)]; norm_num at hi' ⊢; linarith
    calc (i : ℝ) / 2 ^ 53 * (k * 2 ^ t) ≤ (1 - 1 / 2 ^ 53) * (k * 2 ^ t) :=
          mul_le_mul_of_nonneg_right this hspos.le
      _ = _ := by ring
  -- a float below `s` to which the product is nearer than to `s`
  by_contra hc
  push Not at hc
  set x := (i : ℝ) / 2 ^ 53 * (k * 2 ^ t) with hx
  have hlt : x < k * 2 ^ t := by
    refine hmax.trans_lt ?_
    have : (0 : ℝ) < k / 2 ^ 53 := by positivity
    nlinarith
  rcases eq_or_lt_of_le hk1' with hk | hk
  · -- a power of two: the predecessor is `s - 2 ^ (t - 1)`
    have hkr : (k : ℝ) = 2 ^ 52 := by rw [← hk]; norm_num
    have ht' : -1074 ≤ t - 1 := by
      by_contra hcc
      have e : t = -1074 := by omega
      rw [hkr, e] at h
      have e2 : (2 : ℝ) ^ (-1022 : ℤ) = 2 ^ 52 * 2 ^ (-1074 : ℤ) := by
        rw [← zpow_natCast, ← zpow_add₀ (by norm_num)]; norm_num
      linarith
    have hp : IsFloat (((2 ^ 53 - 1 : ℤ) : ℝ) * 2 ^ (t - 1)) := isFloat_mul (by norm_num) ht'
    have hmax' : x ≤ (2 ^ 52 - 1 / 2) * 2 ^ t := by
      refine hmax.trans_eq ?_
      rw [hkr]; norm_num
    have d := (R.nearest x).2 _ hp
    rw [zpow_sub_one₀ (by norm_num)] at d
    push_cast at d
    have e : (9007199254740991 : ℝ) * (2 ^ t * 2⁻¹) = (2 ^ 52 - 1 / 2) * 2 ^ t := by ring
    rw [e, abs_of_nonpos (by linarith), abs_of_nonpos (by linarith)] at d
    rw [hkr] at hc
    nlinarith
  · have hp : IsFloat (((k - 1 : ℤ) : ℝ) * 2 ^ t) := isFloat_mul (by rw [abs_of_nonneg (by omega)]; omega) ht
    have d := (R.nearest x).2 _ hp
    push_cast at d
    have hk3 : (2 : ℝ) ^ 52 + 1 ≤ k := by exact_mod_cast hk
    have hfrac : (1 : ℝ) / 2 < k / 2 ^ 53 := by
      rw [lt_div_iff₀ (by positivity)]; norm_num at hk3 ⊢; linarith
    have hx2 : x < (k - 1 / 2) * 2 ^ t := hmax.trans_lt (by nlinarith)
    rw [abs_of_nonpos (by linarith : x - R.rnd x ≤ 0)] at d
    rcases abs_cases (x - (k - 1) * 2 ^ t) with h5 | h5 <;> nlinarith

end Rounding

end Verif
