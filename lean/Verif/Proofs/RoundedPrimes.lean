import Verif.Model.RoundedPrimes
import Verif.Proofs.PrimeFactors
import Verif.Proofs.RoundedDist
import Verif.Proofs.RoundedCounting
import Mathlib.Data.Nat.Factors
import Mathlib.Algebra.BigOperators.Group.List.Basic

/-! Trial division with floats. -/
namespace Verif

/-! ### Integers that are floats -/

/-- The integers that are floats. -/
theorem isFloat_nat_iff (M : ℕ) : IsFloat (M : ℝ) ↔ ∃ k t : ℕ, k < 2 ^ 53 ∧ M = k * 2 ^ t := by
  constructor
  · rintro ⟨k, t, hk, ht, h⟩
    rcases le_or_gt 0 t with h0 | h0
    · obtain ⟨s, rfl⟩ := Int.eq_ofNat_of_zero_le h0
      have hk0 : 0 ≤ k := by
        by_contra hc
        push Not at hc
        have h1 : (k : ℝ) < 0 := by exact_mod_cast hc
        have h2 : (k : ℝ) * 2 ^ (s : ℤ) < 0 := mul_neg_of_neg_of_pos h1 (by positivity)
        have h3 : (0 : ℝ) ≤ (M : ℝ) := Nat.cast_nonneg _
        linarith
      obtain ⟨m, rfl⟩ := Int.eq_ofNat_of_zero_le hk0
      refine ⟨m, s, ?_, ?_⟩
      · have : |(m : ℤ)| = m := abs_of_nonneg hk0
        rw [this] at hk; exact_mod_cast hk
      · rw [zpow_natCast] at h; exact_mod_cast h
    · refine ⟨M, 0, ?_, by simp⟩
      have h1 : (M : ℝ) ≤ |(k : ℝ)| := by
        rw [h]
        have h2 : (2 : ℝ) ^ t ≤ 1 := zpow_le_one_of_nonpos₀ (by norm_num) h0.le
        have h3 : (0 : ℝ) < 2 ^ t := by positivity
        calc (k : ℝ) * 2 ^ t ≤ |(k : ℝ)| * 2 ^ t := mul_le_mul_of_nonneg_right (le_abs_self _) h3.le
          _ ≤ |(k : ℝ)| * 1 := mul_le_mul_of_nonneg_left h2 (abs_nonneg _)
          _ = |(k : ℝ)| := mul_one _
      have h4 : ((M : ℤ) : ℝ) ≤ ((|k| : ℤ) : ℝ) := by push_cast; exact h1
      have h5 : (M : ℤ) ≤ |k| := by exact_mod_cast h4
      have : (M : ℤ) < 2 ^ 53 := lt_of_le_of_lt h5 hk
      exact_mod_cast this
  · rintro ⟨k, t, hk, rfl⟩
    refine ⟨k, t, ?_, by omega, by push_cast; rw [zpow_natCast]⟩
    rw [abs_of_nonneg (Int.natCast_nonneg k)]; exact_mod_cast hk

/-- A divisor of an integer float is a float. -/
theorem isFloat_dvd {M d : ℕ} (h : IsFloat (M : ℝ)) (hM : 0 < M) (hd : d ∣ M) : IsFloat (d : ℝ) := by
  rw [isFloat_nat_iff] at h ⊢
  obtain ⟨k, t, hk, rfl⟩ := h
  obtain ⟨a, b, ha, hb, rfl⟩ := (Nat.dvd_mul).mp hd
  obtain ⟨s, -, rfl⟩ := (Nat.dvd_prime_pow Nat.prime_two).mp hb
  refine ⟨a, s, lt_of_le_of_lt (Nat.le_of_dvd ?_ ha) hk, rfl⟩
  exact Nat.pos_of_mul_pos_right hM

/-- An odd float is below `2 ^ 53`. -/
theorem isFloat_odd {M : ℕ} (h : IsFloat (M : ℝ)) (hM : Odd M) : M < 2 ^ 53 := by
  obtain ⟨k, t, hk, rfl⟩ := (isFloat_nat_iff M).mp h
  rcases t with _ | t
  · simpa using hk
  · obtain ⟨j, hj⟩ := hM
    rw [pow_succ, ← mul_assoc] at hj
    omega

/-! ### The square root -/

variable (R : Rounding)

/-- The rounded square root of a rounded square. -/
theorem rnd_sqrt_sq {r : ℕ} (hr : r ≤ 2 ^ 33) : R.rnd (Real.sqrt (R.rnd ((r : ℝ) ^ 2))) = r := by
  have hrf : IsFloat (r : ℝ) := isFloat_nat (hr.trans (by norm_num))
  by_cases hf : IsFloat ((r : ℝ) ^ 2)
  · rw [R.eq_self hf, Real.sqrt_sq (Nat.cast_nonneg _), R.eq_self hrf]
  have hr1 : 1 ≤ r := by
    by_contra hc
    have : r = 0 := by omega
    subst this
    exact hf (by simpa using isFloat_zero)
  have hr1' : (1 : ℝ) ≤ r := by exact_mod_cast hr1
  obtain ⟨t, ht, h1, h2⟩ := exists_binade (x := (r : ℝ)) (by
    refine le_trans ?_ hr1'
    exact zpow_le_one_of_nonpos₀ (by norm_num) (by norm_num))
  have ht0 : t ≤ 0 := by
    by_contra hc
    push Not at hc
    have h3 : (2 : ℝ) ^ (53 : ℤ) ≤ 2 ^ (52 + t) := zpow_le_zpow_right₀ (by norm_num) (by omega)
    have h4 : (r : ℝ) ≤ 2 ^ 33 := by exact_mod_cast hr
    have h5 : (2 : ℝ) ^ (53 : ℤ) = 2 ^ 53 := by norm_cast
    rw [h5] at h3
    have : (2 : ℝ) ^ 33 < 2 ^ 53 := by norm_num
    linarith
  obtain ⟨s, hs⟩ := Int.eq_ofNat_of_zero_le (show 0 ≤ -t by omega)
  have hts : t = -(s : ℤ) := by omega
  have h2s : (2 : ℝ) ^ t * 2 ^ s = 1 := by
    rw [hts, zpow_neg, zpow_natCast]; exact inv_mul_cancel₀ (by positivity)
  have htp : (0 : ℝ) < 2 ^ t := by positivity
  rw [zpow_add₀ (by norm_num)] at h1 h2
  have e52 : (2 : ℝ) ^ (52 : ℤ) = 2 ^ 52 := by norm_cast
  have e53 : (2 : ℝ) ^ (53 : ℤ) = 2 ^ 53 := by norm_cast
  rw [e52] at h1
  rw [e53] at h2
  set k : ℤ := (r : ℤ) * 2 ^ s with hk
  have hkr : (k : ℝ) * 2 ^ t = r := by
    rw [hk]; push_cast
    rw [mul_assoc, mul_comm ((2 : ℝ) ^ s), h2s, mul_one]
  have hk1 : (2 : ℝ) ^ 52 ≤ k := by
    rw [← hkr] at h1
    exact le_of_mul_le_mul_right h1 htp
  have hk2 : (k : ℝ) < 2 ^ 53 := by
    rw [← hkr] at h2
    exact lt_of_mul_lt_mul_right h2 htp.le
  have hk1' : (2 : ℤ) ^ 52 ≤ k := by exact_mod_cast hk1
  have hk2' : k < (2 : ℤ) ^ 53 := by exact_mod_cast hk2
  have hkn : r * 2 ^ s < 2 ^ 53 := by
    have : ((r * 2 ^ s : ℕ) : ℤ) < 2 ^ 53 := by push_cast; exact hk2'
    exact_mod_cast this
  have hkn1 : 2 ^ 52 ≤ r * 2 ^ s := by
    have : (2 : ℤ) ^ 52 ≤ ((r * 2 ^ s : ℕ) : ℤ) := by push_cast; exact hk1'
    exact_mod_cast this
  have hkne : k ≠ 2 ^ 52 := by
    intro h
    apply hf
    have h3 : r * 2 ^ s = 2 ^ 52 := by
      have : ((r * 2 ^ s : ℕ) : ℤ) = 2 ^ 52 := by push_cast; exact h
      exact_mod_cast this
    obtain ⟨j, -, rfl⟩ := (Nat.dvd_prime_pow Nat.prime_two).mp (⟨2 ^ s, h3.symm⟩ : r ∣ 2 ^ 52)
    have := (isFloat_nat_iff ((2 ^ j) ^ 2)).mpr ⟨1, j * 2, by norm_num, by rw [one_mul, pow_mul]⟩
    exact_mod_cast this
  have hs1 : 1 ≤ s := by
    by_contra hc
    have : s = 0 := by omega
    subst this
    omega
  have hs53 : s ≤ 53 := by
    by_contra hc
    have h3 : 2 ^ 53 ≤ 2 ^ s := Nat.pow_le_pow_right (by norm_num) (by omega)
    have h4 : 1 * 2 ^ s ≤ r * 2 ^ s := Nat.mul_le_mul_right _ hr1
    omega
  have hks : (r + 1) * 2 ^ s ≤ 2 ^ 53 := by
    have e : (2 : ℕ) ^ 53 = 2 ^ (53 - s) * 2 ^ s := by rw [← pow_add]; congr 1; omega
    rw [e] at hkn ⊢
    exact Nat.mul_le_mul_right _ (Nat.succ_le_of_lt (lt_of_mul_lt_mul_right hkn (Nat.zero_le _)))
  have hk3 : (k : ℝ) + 2 ≤ 2 ^ 53 := by
    have h3 : 2 ^ 1 ≤ 2 ^ s := Nat.pow_le_pow_right (by norm_num) hs1
    have h4 : r * 2 ^ s + 2 ≤ 2 ^ 53 := by
      rw [add_mul] at hks; omega
    have h5 : ((r * 2 ^ s + 2 : ℕ) : ℝ) ≤ ((2 ^ 53 : ℕ) : ℝ) := by exact_mod_cast h4
    have e : (2 : ℝ) ^ 53 = 9007199254740992 := by norm_num
    rw [hk, e]; push_cast at h5 ⊢; exact h5
  -- the error of the inner rounding
  have herr := R.error (x := (r : ℝ) ^ 2) (by
    refine le_trans (zpow_le_one_of_nonpos₀ (by norm_num) (by norm_num)) ?_
    nlinarith)
  set Y := R.rnd ((r : ℝ) ^ 2) with hY
  have hY0 : 0 ≤ Y := R.nonneg (by positivity)
  have hx0 := Real.sqrt_nonneg Y
  have hxx := Real.sq_sqrt hY0
  set x := Real.sqrt Y with hx
  rw [← hkr]
  refine R.eq_of_close (by omega) hk2' ht ?_
  rw [hkr]
  set w := (2 : ℝ) ^ t with hw
  have hrk : (r : ℝ) = k * w := hkr.symm
  rw [abs_le] at herr
  rw [abs_lt]
  constructor
  · by_contra hc
    push Not at hc
    have h3 : x ≤ r - w / 2 := by linarith
    have h4 : x ^ 2 ≤ (r - w / 2) ^ 2 := pow_le_pow_left₀ hx0 h3 2
    rw [hxx] at h4
    have h5 := herr.1
    rw [hrk] at h4 h5
    have h6 : (k * w * w - w ^ 2 / 4) ≤ (k * w) ^ 2 / 2 ^ 53 := by nlinarith
    have hw2 : 0 < w ^ 2 := by positivity
    have h7 : ((k : ℝ) - 1 / 4) * w ^ 2 ≤ k ^ 2 / 2 ^ 53 * w ^ 2 := by
      calc ((k : ℝ) - 1 / 4) * w ^ 2 = k * w * w - w ^ 2 / 4 := by ring
        _ ≤ (k * w) ^ 2 / 2 ^ 53 := h6
        _ = _ := by ring
    have h8 := le_of_mul_le_mul_right h7 hw2
    rw [le_div_iff₀ (by positivity)] at h8
    nlinarith
  · by_contra hc
    push Not at hc
    have h3 : r + w / 2 ≤ x := by linarith
    have h4 : (r + w / 2) ^ 2 ≤ x ^ 2 := pow_le_pow_left₀ (by positivity) h3 2
    rw [hxx] at h4
    have h5 := herr.2
    rw [hrk] at h4 h5
    have hw2 : 0 < w ^ 2 := by positivity
    have h7 : (k : ℝ) * w ^ 2 ≤ k ^ 2 / 2 ^ 53 * w ^ 2 := by
      have : (k * w + w / 2) ^ 2 = (k * w) ^ 2 + k * w ^ 2 + w ^ 2 / 4 := by ring
      have h9 : (k * w) ^ 2 / 2 ^ 53 = (k : ℝ) ^ 2 / 2 ^ 53 * w ^ 2 := by ring
      linarith
    have h8 := le_of_mul_le_mul_right h7 hw2
    rw [le_div_iff₀ (by positivity)] at h8
    have hkpos : (0 : ℝ) < k := lt_of_lt_of_le (by norm_num) hk1
    nlinarith

/-- The bound of the trial division. -/
noncomputable def sqrtBound (n : ℕ) : ℕ := ⌊R.rnd (Real.sqrt (R.rnd n))⌋₊

theorem sqrtBound_ge {n r : ℕ} (hr : r ≤ 2 ^ 33) (h : r * r ≤ n) : r ≤ sqrtBound R n := by
  refine Nat.le_floor ?_
  rw [← rnd_sqrt_sq R hr]
  refine R.mono (Real.sqrt_le_sqrt (R.mono ?_))
  rw [pow_two]; exact_mod_cast h

theorem sqrtBound_le {n r : ℕ} (hr : r ≤ 2 ^ 33) (h : n ≤ r * r) : sqrtBound R n ≤ r := by
  refine Nat.floor_le_of_le ?_
  rw [← rnd_sqrt_sq R hr]
  refine R.mono (Real.sqrt_le_sqrt (R.mono ?_))
  rw [pow_two]; exact_mod_cast h

theorem sqrtBound_small {n : ℕ} (h : n < 2 ^ 64) : sqrtBound R n ≤ 2 ^ 33 :=
  sqrtBound_le R le_rfl (by omega)

/-- The bound reaches the integer square root. -/
theorem sqrtBound_lt {n : ℕ} (h : n < 2 ^ 64) : n < (sqrtBound R n + 1) * (sqrtBound R n + 1) := by
  by_contra hc
  push Not at hc
  have h1 : sqrtBound R n + 1 ≤ 2 ^ 33 := by
    by_contra h2
    push Not at h2
    have : 2 ^ 33 * 2 ^ 33 ≤ (sqrtBound R n + 1) * (sqrtBound R n + 1) := Nat.mul_le_mul h2.le h2.le
    omega
  have := sqrtBound_ge R h1 hc
  omega

/-- The bound does not reach the prime factors above the square root of an odd number. -/
theorem sqrtBound_prime {n q : ℕ} (h : n < 2 ^ 64) (hn : Odd n) (hd : q ∣ n) (hq : n < q * q) :
    sqrtBound R n < q := by
  obtain ⟨m, rfl⟩ := hd
  have hqpos : 0 < q := Nat.pos_of_mul_pos_right hn.pos
  have hm : m < q := lt_of_mul_lt_mul_left hq (Nat.zero_le _)
  have h2 : m + 2 ≤ q := by
    have h3 := Nat.odd_mul.mp hn
    obtain ⟨a, ha⟩ := h3.1
    obtain ⟨b, hb⟩ := h3.2
    omega
  obtain ⟨u, rfl⟩ : ∃ u, q = u + 1 := ⟨q - 1, by omega⟩
  rcases le_or_gt u (2 ^ 33) with h4 | h4
  · have := sqrtBound_le R (n := (u + 1) * m) h4 (by nlinarith)
    omega
  · have := sqrtBound_small R h
    omega

/-! ### Loops on floats and on integers -/

theorem pyDivides_float {i n : ℕ} (hi : 2 ≤ i) (hi' : i ≤ 2 ^ 53) :
    pyDivides R i (.float n) = (n % i == 0) := by
  have hr : R.rnd (i : ℝ) = i := R.eq_self (isFloat_nat hi')
  have hi0 : (0 : ℝ) < i := by exact_mod_cast (by omega : 0 < i)
  by_cases hd : i ∣ n
  · obtain ⟨q, rfl⟩ := hd
    have e : ((i * q : ℕ) : ℝ) / i = (q : ℕ) := by push_cast; field_simp
    simp only [pyDivides, hr, e, Int.floor_natCast, Nat.mul_mod_right, beq_self_eq_true, decide_eq_true_eq]
    push_cast; ring
  · have h1 : n % i ≠ 0 := fun h => hd (Nat.dvd_of_mod_eq_zero h)
    have h2 : ¬ ((n : ℝ) - ⌊(n : ℝ) / i⌋ * i = 0) := by
      intro h
      have h3 : ((n : ℤ) : ℝ) = ((⌊(n : ℝ) / i⌋ * (i : ℤ) : ℤ) : ℝ) := by push_cast; linarith
      have h4 : (n : ℤ) = ⌊(n : ℝ) / i⌋ * (i : ℤ) := by exact_mod_cast h3
      exact hd (Int.natCast_dvd_natCast.mp ⟨_, by rw [mul_comm]; exact h4⟩)
    simp [pyDivides, hr, h1, h2]

theorem isFloat_quot {M i : ℕ} (h : IsFloat (M : ℝ)) (hd : i ∣ M) : IsFloat ((M / i : ℕ) : ℝ) := by
  rcases Nat.eq_zero_or_pos M with rfl | hM
  · simpa using isFloat_zero
  · exact isFloat_dvd h hM (Nat.div_dvd_of_dvd hd)

/-- The Python number `x` is the natural number `n`; as long as it is still the integer given by the
caller, its quotients are floats. -/
def Represents (N : ℕ) (x : PyNumber) (n : ℕ) : Prop :=
  (x = .int n ∧ n = N ∧ ∀ i, 2 ≤ i → i ∣ n → IsFloat ((n / i : ℕ) : ℝ)) ∨
    (x = .float n ∧ IsFloat (n : ℝ))

theorem Represents.val {N n : ℕ} {x : PyNumber} (h : Represents N x n) : x.val = n := by
  rcases h with ⟨rfl, -⟩ | ⟨rfl, -⟩ <;> rfl

theorem Represents.divides {N n i : ℕ} {x : PyNumber} (h : Represents N x n) (hi : 2 ≤ i)
    (hi' : i ≤ 2 ^ 53) : pyDivides R i x = (n % i == 0) := by
  rcases h with ⟨rfl, -⟩ | ⟨rfl, -⟩
  · rfl
  · exact pyDivides_float R hi hi'

theorem Represents.div {N n i : ℕ} {x : PyNumber} (h : Represents N x n) (hi : 2 ≤ i)
    (hi' : i ≤ 2 ^ 53) (hd : i ∣ n) : Represents N (pyTrueDiv R i x) (n / i) := by
  have hi0 : (0 : ℝ) < i := by exact_mod_cast (by omega : 0 < i)
  have e : (n : ℝ) / i = ((n / i : ℕ) : ℝ) := by
    rw [Nat.cast_div hd hi0.ne']
  rcases h with ⟨rfl, -, hf⟩ | ⟨rfl, hf⟩
  · have h1 := hf i hi hd
    right
    refine ⟨?_, h1⟩
    rw [pyTrueDiv, e, R.eq_self h1]
  · have h1 := isFloat_quot hf hd
    right
    refine ⟨?_, h1⟩
    rw [pyTrueDiv, R.eq_self (isFloat_nat hi'), e, R.eq_self h1]

/-- One loop of the code does what the loop on natural numbers does. -/
theorem divideOutR_sim {N i : ℕ} (hi : 2 ≤ i) (hi' : i ≤ 2 ^ 53) :
    ∀ (fuel : ℕ) (acc : List ℕ) (n : ℕ) (x : PyNumber), Represents N x n → ∀ s',
      divideOut fuel i (acc, n) = .ok s' →
      ∃ x', Represents N x' s'.2 ∧ divideOutR R fuel i (acc, x) = .ok (s'.1, x') := by
  intro fuel
  induction fuel with
  | zero => intro acc n x _ s' h; exact absurd h (by simp [divideOut, pyWhile])
  | succ fuel ih =>
    intro acc n x hx s' h
    have hc := hx.divides R hi hi'
    by_cases hd : i ∣ n
    · have hm : (n % i == 0) = true := by simp [Nat.mod_eq_zero_of_dvd hd]
      have h1 : divideOut fuel i (acc ++ [i], n / i) = .ok s' := by
        rw [← h]; unfold divideOut
        rw [pyWhile_step (fuel := fuel) (s := (acc, n)) (s' := (acc ++ [i], n / i))]
        · simp [hm]
        · rfl
      obtain ⟨x', h2, h3⟩ := ih _ _ _ (hx.div R hi hi' hd) s' h1
      refine ⟨x', h2, ?_⟩
      rw [← h3]; unfold divideOutR
      rw [pyWhile_step (fuel := fuel) (s := (acc, x)) (s' := (acc ++ [i], pyTrueDiv R i x))]
      · simp [hc, hm]
      · rfl
    · have hm : (n % i == 0) = false := by
        have : n % i ≠ 0 := fun h => hd (Nat.dvd_of_mod_eq_zero h)
        simp [this]
      have h1 : divideOut (fuel + 1) i (acc, n) = .ok (acc, n) := by
        unfold divideOut; rw [pyWhile_stop _ (Nat.succ_pos _)]; simp [hm]
      rw [h1] at h
      cases h
      refine ⟨x, hx, ?_⟩
      unfold divideOutR; rw [pyWhile_stop _ (Nat.succ_pos _)]; simp [hc, hm]

/-- The same for the trial division by a list of numbers. -/
theorem foldR_sim {N fuel : ℕ} : ∀ (L : List ℕ) (_ : ∀ i ∈ L, 2 ≤ i ∧ i ≤ 2 ^ 53) (acc : List ℕ) (n : ℕ)
    (x : PyNumber), Represents N x n → ∀ s',
      L.foldlM (fun s i => divideOut fuel i s) (acc, n) = .ok s' →
      ∃ x', Represents N x' s'.2 ∧ L.foldlM (fun s i => divideOutR R fuel i s) (acc, x) = .ok (s'.1, x') := by
  intro L
  induction L with
  | nil => intro _ acc n x hx s' h; cases h; exact ⟨x, hx, rfl⟩
  | cons i L ih =>
    intro hL acc n x hx s' h
    rw [List.foldlM_cons] at h
    cases hs : divideOut fuel i (acc, n) with
    | error e => rw [hs] at h; exact absurd h (by simp [error_bind])
    | ok s1 =>
      rw [hs, ok_bind] at h
      obtain ⟨x1, h1, h2⟩ := divideOutR_sim R (hL i (by simp)).1 (hL i (by simp)).2 fuel acc n x hx s1 hs
      obtain ⟨x', h3, h4⟩ := ih (fun j hj => hL j (by simp [hj])) s1.1 s1.2 x1 h1 s' h
      exact ⟨x', h3, by rw [List.foldlM_cons, h2, ok_bind, h4]⟩

theorem oddRange_mem {b i : ℕ} (h : i ∈ oddRange b) : 2 ≤ i ∧ i ≤ b ∧ Odd i := by
  obtain ⟨k, hk, rfl⟩ := List.mem_map.mp h
  rw [List.mem_range] at hk
  exact ⟨by omega, by omega, ⟨k + 1, by ring⟩⟩

open Classical in
/-- If the first quotient is a float, the code returns what exact arithmetic returns. -/
theorem getPrimeFactorsR_exact {N : ℕ} (hN : 1 ≤ N) (hodd : Odd N → N < 2 ^ 64)
    (hq : ∀ i, 2 ≤ i → i ∣ N → IsFloat ((N / i : ℕ) : ℝ)) (fuel : ℕ) (hf : N < fuel) :
    ∃ r l, getPrimeFactorsR R fuel N = .ok r ∧ getPrimeFactors fuel N = .ok l ∧
      factorValues r = l.map (fun p : ℕ => (p : ℝ)) := by
  obtain ⟨a, o, ho, rfl⟩ := Nat.exists_eq_two_pow_mul_odd (n := N) (by omega)
  obtain ⟨x, hx, e1⟩ := divideOutR_sim R (N := 2 ^ a * o) (i := 2) le_rfl (by norm_num) fuel [] (2 ^ a * o)
    (.int (2 ^ a * o)) (Or.inl ⟨rfl, rfl, hq⟩) _ (divideOut_two a o ho fuel hf)
  simp only at hx e1
  have ho64 : o < 2 ^ 64 := by
    rcases hx with ⟨-, h, -⟩ | ⟨-, h⟩
    · rw [h]; exact hodd (h ▸ ho)
    · exact (isFloat_odd h ho).trans (by norm_num)
  have hsq : pyIntSqrt R x = .ok (sqrtBound R o) := by
    rcases hx with ⟨rfl, -⟩ | ⟨rfl, h⟩
    · rw [pyIntSqrt, if_pos ho64]; rfl
    · rw [pyIntSqrt, sqrtBound, R.eq_self h]
  obtain ⟨acc, r, e2, h⟩ := trial_result a o (sqrtBound R o) ho fuel hf (sqrtBound_lt R ho64)
    (fun q _ hd hlt => sqrtBound_prime R ho64 ho hd hlt)
  obtain ⟨x', h3, h4⟩ := foldR_sim R (oddRange (sqrtBound R o)) (fun i hi => by
    have h1 := oddRange_mem hi
    have h2 := sqrtBound_small R ho64
    exact ⟨h1.1, by omega⟩) _ _ _ hx _ e2
  refine ⟨(acc, x'), _, ?_, getPrimeFactors_ok a o ho fuel hf, ?_⟩
  · unfold getPrimeFactorsR
    rw [e1, ok_bind]
    simp only [hsq, ok_bind]
    exact h4
  · rw [← h, factorValues, h3.val, List.map_append]
    rfl

/-! ### Rounded quotients -/

/-- Trial division keeps the product and the factors found so far. -/
theorem fold_prod {fuel : ℕ} : ∀ (L : List ℕ) (_ : ∀ i ∈ L, 2 ≤ i) (acc : List ℕ) (n : ℕ), 0 < n → n < fuel →
    ∃ acc' n', L.foldlM (fun s i => divideOut fuel i s) (acc, n) = .ok (acc', n') ∧
      acc'.prod * n' = acc.prod * n ∧ acc <+: acc' ∧ 0 < n' ∧ n' ≤ n := by
  intro L
  induction L with
  | nil => intro _ acc n hn _; exact ⟨acc, n, rfl, rfl, List.prefix_rfl, hn, le_rfl⟩
  | cons i L ih =>
    intro hL acc n hn hf
    obtain ⟨v, n1, h1, h2, -⟩ := divideOut_ok (hL i (by simp)) fuel n acc hn hf
    have hn1 : 0 < n1 := by
      rcases Nat.eq_zero_or_pos n1 with rfl | h
      · omega
      · exact h
    have hle : n1 ≤ n := by
      rw [h2]; exact Nat.le_mul_of_pos_left _ (pow_pos (by have := hL i (by simp); omega) _)
    obtain ⟨acc', n', h3, h4, h5, h6, h7⟩ := ih (fun j hj => hL j (by simp [hj])) (acc ++ List.replicate v i) n1
      hn1 (by omega)
    refine ⟨acc', n', by rw [List.foldlM_cons, h1, ok_bind, h3], ?_, (List.prefix_append _ _).trans h5, h6,
      h7.trans hle⟩
    rw [h4, List.prod_append, List.prod_replicate, mul_assoc, ← h2]

theorem divideOutR_skip {fuel N i : ℕ} (hf : 0 < fuel) (hd : ¬ i ∣ N) (acc : List ℕ) :
    divideOutR R fuel i (acc, .int N) = .ok (acc, .int N) := by
  have h1 : N % i ≠ 0 := fun h => hd (Nat.dvd_of_mod_eq_zero h)
  unfold divideOutR; rw [pyWhile_stop _ hf]; simp [pyDivides, h1]

/-- Numbers that do not divide the integer leave it alone. -/
theorem foldR_skip {fuel N : ℕ} (hf : 0 < fuel) : ∀ (L : List ℕ), (∀ i ∈ L, ¬ i ∣ N) → ∀ acc : List ℕ,
    L.foldlM (fun s i => divideOutR R fuel i s) (acc, .int N) = .ok (acc, .int N) := by
  intro L
  induction L with
  | nil => intro _ acc; rfl
  | cons i L ih =>
    intro hL acc
    rw [List.foldlM_cons, divideOutR_skip R hf (hL i (by simp)), ok_bind, ih (fun j hj => hL j (by simp [hj]))]

/-- The first number that divides the integer: the quotient is rounded. -/
theorem divideOutR_first {fuel N i : ℕ} (hd : i ∣ N) (acc : List ℕ) :
    divideOutR R (fuel + 1) i (acc, .int N)
      = divideOutR R fuel i (acc ++ [i], .float (R.rnd ((N : ℝ) / i))) := by
  unfold divideOutR
  refine pyWhile_step ?_ rfl
  simp [pyDivides, Nat.mod_eq_zero_of_dvd hd]

/-- The rounded quotient is a positive integer, not above the number. -/
theorem rnd_quot {N i : ℕ} (hN : 0 < N) (hi : 2 ≤ i) (hd : i ∣ N) :
    ∃ M : ℕ, R.rnd ((N : ℝ) / i) = M ∧ IsFloat (M : ℝ) ∧ 0 < M ∧ M < N := by
  have hi0 : (0 : ℝ) < i := by exact_mod_cast (by omega : 0 < i)
  obtain ⟨q, rfl⟩ := hd
  have hq : 0 < q := Nat.pos_of_mul_pos_left hN
  have e : ((i * q : ℕ) : ℝ) / i = (q : ℕ) := by push_cast; field_simp
  obtain ⟨M, hM⟩ := rnd_nat_int R q
  rw [e]
  refine ⟨M, hM, by rw [← hM]; exact R.isFloat _, ?_, ?_⟩
  · have h1 := rnd_nat_ge R hq
    rw [hM] at h1
    have : 1 ≤ M := by exact_mod_cast h1
    omega
  · have hq1 : (1 : ℝ) ≤ q := by exact_mod_cast hq
    have h1 := (abs_le.mp (R.error (x := (q : ℝ)) ((zpow_le_one_of_nonpos₀ (by norm_num) (by norm_num)).trans hq1))).2
    rw [hM] at h1
    have h2 : (M : ℝ) < 2 * q := by
      have : (q : ℝ) / 2 ^ 53 < q := div_lt_self (by linarith) (by norm_num)
      linarith
    have h3 : M < 2 * q := by exact_mod_cast h2
    nlinarith

/-- The divisors tried before `i`. -/
theorem oddRange_split {b i : ℕ} (hi : Odd i) (h3 : 3 ≤ i) (hb : i ≤ b) :
    ∃ L1 L2, oddRange b = L1 ++ i :: L2 ∧ ∀ j ∈ L1, j < i := by
  have hmem : i ∈ oddRange b := by
    obtain ⟨k, rfl⟩ := hi
    exact List.mem_map.mpr ⟨k - 1, List.mem_range.mpr (by omega), by omega⟩
  obtain ⟨L1, L2, h⟩ := List.append_of_mem hmem
  refine ⟨L1, L2, h, fun j hj => ?_⟩
  have hs : (oddRange b).Pairwise (· < ·) := by
    unfold oddRange
    rw [List.pairwise_map]
    exact List.pairwise_lt_range.imp (fun h => by omega)
  rw [h, List.pairwise_append] at hs
  exact hs.2.2 j hj i (by simp)

/-- The result when the number is divided at least once. -/
theorem getPrimeFactorsR_composite {N : ℕ} (hN : 2 ≤ N) (hp : ¬ N.Prime) (hodd : Odd N → N < 2 ^ 64)
    (fuel : ℕ) (hf : N < fuel) :
    ∃ acc n, getPrimeFactorsR R fuel N = .ok (acc, .float (n : ℕ)) ∧ [N.minFac] <+: acc ∧
      ((acc.prod * n : ℕ) : ℝ) = N.minFac * R.rnd ((N : ℝ) / N.minFac) := by
  obtain ⟨f, rfl⟩ : ∃ f, fuel = f + 1 := ⟨fuel - 1, by omega⟩
  set p := N.minFac with hpdef
  have hpp : p.Prime := Nat.minFac_prime (by omega)
  have hpd : p ∣ N := Nat.minFac_dvd N
  obtain ⟨M, hM, hMf, hM0, hMN⟩ := rnd_quot R (by omega) hpp.two_le hpd
  have hrep : ∀ K : ℕ, IsFloat (K : ℝ) → Represents 0 (.float K) K := fun K h => Or.inr ⟨rfl, h⟩
  have hfin : ∀ (x' : PyNumber) (n' : ℕ), Represents 0 x' n' → 0 < n' → x' = .float n' ∧ IsFloat (n' : ℝ) := by
    rintro x' n' (⟨-, h, -⟩ | h) h0
    · omega
    · exact h
  rcases Nat.even_or_odd N with he | ho
  · -- even: the first division is by 2
    have hp2 : p = 2 := (Nat.minFac_eq_two_iff N).mpr he.two_dvd
    rw [hp2] at hM hpd ⊢
    obtain ⟨v, n1, h1, h2, h3⟩ := divideOut_ok (i := 2) le_rfl f M [2] hM0 (by omega)
    have hn1 : 0 < n1 := by
      rcases Nat.eq_zero_or_pos n1 with rfl | h
      · omega
      · exact h
    obtain ⟨x1, r1, e1⟩ := divideOutR_sim R (N := 0) (i := 2) le_rfl (by norm_num) f [2] M _ (hrep M hMf) _ h1
    obtain ⟨rfl, hf1⟩ := hfin _ _ r1 hn1
    have ho1 : Odd n1 := by
      rw [← Nat.not_even_iff_odd]; exact fun h => h3 h.two_dvd
    have hs1 := isFloat_odd hf1 ho1
    obtain ⟨acc', n', h4, h5, h6, h7, -⟩ := fold_prod (fuel := f + 1) (oddRange (sqrtBound R n1))
      (fun i hi => (oddRange_mem hi).1) ([2] ++ List.replicate v 2) n1 hn1 (by
        have : n1 ≤ M := by rw [h2]; exact Nat.le_mul_of_pos_left _ (by positivity)
        omega)
    obtain ⟨x', r', e2⟩ := foldR_sim R (N := 0) (oddRange (sqrtBound R n1)) (fun i hi => by
      have h1 := oddRange_mem hi
      have h2 := sqrtBound_small R (n := n1) (by omega)
      exact ⟨h1.1, by omega⟩) _ _ _ (hrep n1 hf1) _ h4
    obtain ⟨rfl, -⟩ := hfin _ _ r' h7
    refine ⟨acc', n', ?_, ?_, ?_⟩
    · unfold getPrimeFactorsR
      rw [divideOutR_first R hpd, List.nil_append]
      simp only [hM, Nat.cast_ofNat] at *
      rw [e1, ok_bind]
      simp only [pyIntSqrt, ok_bind]
      rw [sqrtBound, R.eq_self hf1] at e2
      exact e2
    · exact (List.prefix_append _ _).trans h6
    · rw [h5, List.prod_append, List.prod_replicate, mul_assoc, ← h2, hM]
      push_cast; simp
  · -- odd: the first division is by the least prime factor
    have hN64 := hodd ho
    have hno : ¬ 2 ∣ N := fun h => by obtain ⟨k, rfl⟩ := ho; omega
    have hpo : Odd p := by
      rcases hpp.eq_two_or_odd' with h | h
      · rw [h] at hpd; exact absurd hpd hno
      · exact h
    have hp3 : 3 ≤ p := by
      have := hpp.two_le
      obtain ⟨k, hk⟩ := hpo
      omega
    have hsq : p * p ≤ N := by
      have := Nat.minFac_sq_le_self (n := N) (by omega) hp
      rwa [pow_two] at this
    have hp32 : p ≤ 2 ^ 33 := by
      by_contra hc
      push Not at hc
      have : 2 ^ 33 * 2 ^ 33 ≤ p * p := Nat.mul_le_mul hc.le hc.le
      omega
    obtain ⟨L1, L2, hL, hlt⟩ := oddRange_split hpo hp3 (sqrtBound_ge R hp32 hsq)
    have hmem : ∀ i ∈ L2, i ∈ oddRange (sqrtBound R N) := fun i hi => by rw [hL]; simp [hi]
    have hb := sqrtBound_small R hN64
    obtain ⟨v, n1, h1, h2, h3⟩ := divideOut_ok (i := p) hpp.two_le f M [p] hM0 (by omega)
    have hn1 : 0 < n1 := by
      rcases Nat.eq_zero_or_pos n1 with rfl | h
      · omega
      · exact h
    obtain ⟨x1, r1, e1⟩ := divideOutR_sim R (N := 0) (i := p) hpp.two_le (by omega) f [p] M _ (hrep M hMf) _ h1
    obtain ⟨rfl, hf1⟩ := hfin _ _ r1 hn1
    obtain ⟨acc', n', h4, h5, h6, h7, -⟩ := fold_prod (fuel := f + 1) L2
      (fun i hi => (oddRange_mem (hmem i hi)).1) ([p] ++ List.replicate v p) n1 hn1 (by
        have : n1 ≤ M := by rw [h2]; exact Nat.le_mul_of_pos_left _ (pow_pos hpp.pos _)
        omega)
    obtain ⟨x', r', e2⟩ := foldR_sim R (N := 0) L2 (fun i hi => by
      have h1 := oddRange_mem (hmem i hi)
      exact ⟨h1.1, by omega⟩) _ _ _ (hrep n1 hf1) _ h4
    obtain ⟨rfl, -⟩ := hfin _ _ r' h7
    refine ⟨acc', n', ?_, ?_, ?_⟩
    · unfold getPrimeFactorsR
      rw [divideOutR_skip R (Nat.succ_pos f) hno, ok_bind]
      simp only [pyIntSqrt]
      rw [if_pos hN64, ok_bind]
      change (oddRange (sqrtBound R N)).foldlM (fun s i => divideOutR R (f + 1) i s) ([], .int N) = _
      rw [hL, List.foldlM_append, foldR_skip R (Nat.succ_pos f) L1 (fun i hi hd => ?_), ok_bind,
        List.foldlM_cons, divideOutR_first R hpd, hM, List.nil_append, e1, ok_bind]
      · exact e2
      · have hi2 := (oddRange_mem (b := sqrtBound R N) (i := i) (by rw [hL]; simp [hi])).1
        have := Nat.minFac_le_of_dvd hi2 hd
        have := hlt i hi
        omega
    · exact (List.prefix_append _ _).trans h6
    · rw [h5, List.prod_append, List.prod_replicate, mul_assoc, ← h2, hM]
      push_cast; simp

/-- If the quotient by the least prime factor is a float, so are the other quotients. -/
theorem isFloat_quot_of_minFac {N i : ℕ} (hN : 0 < N) (h : IsFloat ((N / N.minFac : ℕ) : ℝ)) (hi : 2 ≤ i)
    (hd : i ∣ N) : IsFloat ((N / i : ℕ) : ℝ) := by
  rcases Nat.even_or_odd N with he | ho
  · rw [(Nat.minFac_eq_two_iff N).mpr he.two_dvd] at h
    obtain ⟨k, t, hk, ht⟩ := (isFloat_nat_iff _).mp h
    refine isFloat_quot ((isFloat_nat_iff N).mpr ⟨k, t + 1, hk, ?_⟩) hd
    obtain ⟨m, rfl⟩ := he.two_dvd
    rw [Nat.mul_div_cancel_left _ (by norm_num)] at ht
    rw [ht]; ring
  · have ho' : Odd (N / N.minFac) := ho.of_dvd_nat (Nat.div_dvd_of_dvd (Nat.minFac_dvd N))
    have h1 := isFloat_odd h ho'
    have h2 : N / i ≤ N / N.minFac := Nat.div_le_div_left (Nat.minFac_le_of_dvd hi hd) (Nat.minFac_pos N)
    exact isFloat_nat (by omega)

/-- The run on `7 · (2 ^ 54 + 9)`: the quotient is rounded to `2 ^ 54 + 8`, which is divisible by 9. -/
theorem rounded_nine (fuel : ℕ) (hf : 7 * (2 ^ 54 + 9) < fuel) :
    ∃ r, getPrimeFactorsR R fuel (7 * (2 ^ 54 + 9)) = .ok r ∧ 9 ∈ r.1 := by
  obtain ⟨f, rfl⟩ : ∃ f, fuel = f + 1 := ⟨fuel - 1, by omega⟩
  set N := 7 * (2 ^ 54 + 9) with hN
  have hN64 : N < 2 ^ 64 := by rw [hN]; norm_num
  have hM : R.rnd ((N : ℝ) / (7 : ℕ)) = ((2 ^ 54 + 8 : ℕ) : ℝ) := by
    have := R.eq_of_close (x := (N : ℝ) / (7 : ℕ)) (k := 2 ^ 52 + 2) (t := 2) (by norm_num) (by norm_num)
      (by norm_num) (by rw [hN]; norm_num)
    rw [this]; norm_num
  have hMf : IsFloat ((2 ^ 54 + 8 : ℕ) : ℝ) := (isFloat_nat_iff _).mpr ⟨2 ^ 52 + 2, 2, by norm_num, by norm_num⟩
  have hb9 : 9 ≤ sqrtBound R N := sqrtBound_ge R (by norm_num) (by rw [hN]; norm_num)
  have hb := sqrtBound_small R hN64
  have hrep : ∀ K : ℕ, IsFloat (K : ℝ) → Represents 0 (.float K) K := fun K h => Or.inr ⟨rfl, h⟩
  obtain ⟨c, hc⟩ : ∃ c, (sqrtBound R N - 1) / 2 = 4 + c := ⟨(sqrtBound R N - 1) / 2 - 4, by omega⟩
  obtain ⟨L, hL⟩ : ∃ L, oddRange (sqrtBound R N) = 3 :: 5 :: 7 :: 9 :: L := by
    refine ⟨((List.range c).map (4 + ·)).map fun k => 3 + 2 * k, ?_⟩
    unfold oddRange
    rw [hc, List.range_add, List.map_append]
    rfl
  have hmem : ∀ i ∈ L, i ∈ oddRange (sqrtBound R N) := fun i hi => by rw [hL]; simp [hi]
  -- the loop for 7
  have h7 : divideOut f 7 ([7], 2 ^ 54 + 8) = .ok ([7], 2 ^ 54 + 8) := by
    unfold divideOut
    exact pyWhile_stop (by norm_num) (by omega)
  obtain ⟨x1, r1, e1⟩ := divideOutR_sim R (N := 0) (i := 7) (by norm_num) (by norm_num) f [7] _ _ (hrep _ hMf) _ h7
  simp only at r1 e1
  -- the loop for 9
  obtain ⟨v, n1, h1, h2, h3⟩ := divideOut_ok (i := 9) (by norm_num) (f + 1) (2 ^ 54 + 8) [7] (by norm_num) (by omega)
  have hv : v ≠ 0 := by
    rintro rfl
    rw [pow_zero, one_mul] at h2
    rw [← h2] at h3
    exact h3 (by norm_num)
  have hn1 : 0 < n1 := by
    rcases Nat.eq_zero_or_pos n1 with rfl | h
    · omega
    · exact h
  have hle : n1 ≤ 2 ^ 54 + 8 := by rw [h2]; exact Nat.le_mul_of_pos_left _ (by positivity)
  obtain ⟨x2, r2, e2⟩ := divideOutR_sim R (N := 0) (i := 9) (by norm_num) (by norm_num) (f + 1) [7] _ _ r1 _ h1
  obtain ⟨acc', n', h4, -, h6, -⟩ := fold_prod (fuel := f + 1) L (fun i hi => (oddRange_mem (hmem i hi)).1)
    ([7] ++ List.replicate v 9) n1 hn1 (by omega)
  obtain ⟨x', -, e3⟩ := foldR_sim R (N := 0) L (fun i hi => by
    have h1 := oddRange_mem (hmem i hi)
    exact ⟨h1.1, by omega⟩) _ _ _ r2 _ h4
  refine ⟨(acc', x'), ?_, h6.subset (by simp [hv])⟩
  unfold getPrimeFactorsR
  rw [divideOutR_skip R (Nat.succ_pos f) (by rw [hN]; norm_num), ok_bind]
  simp only [pyIntSqrt]
  rw [if_pos hN64, ok_bind]
  change (oddRange (sqrtBound R N)).foldlM (fun s i => divideOutR R (f + 1) i s) ([], .int N) = _
  rw [hL, List.foldlM_cons, divideOutR_skip R (Nat.succ_pos f) (by rw [hN]; norm_num), ok_bind,
    List.foldlM_cons, divideOutR_skip R (Nat.succ_pos f) (by rw [hN]; norm_num), ok_bind,
    List.foldlM_cons, divideOutR_first R ⟨2 ^ 54 + 9, hN⟩, hM, List.nil_append, e1, ok_bind,
    List.foldlM_cons, e2, ok_bind, e3]

end Verif
