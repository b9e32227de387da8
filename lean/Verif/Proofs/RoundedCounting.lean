import Verif.Model.RoundedCounting
import Verif.Proofs.Rounded
import Verif.Proofs.KPartitions
import Mathlib.Data.Nat.Factorial.Basic
import Mathlib.Data.Nat.Choose.Basic
import Mathlib.Tactic

/-! Helper lemmas: the counting functions in floating-point arithmetic. -/
namespace Verif

/-- The divisors of `22!` are floats: their odd parts are below `2 ^ 53`. -/
theorem isFloat_of_dvd {q : ℕ} (h : q ∣ Nat.factorial 22) : IsFloat (q : ℝ) := by
  have hq : q ≠ 0 := fun h0 => by
    rw [h0, zero_dvd_iff] at h
    exact Nat.factorial_ne_zero _ h
  obtain ⟨a, o, ho, rfl⟩ := Nat.exists_eq_two_pow_mul_odd hq
  have e : Nat.factorial 22 = 2 ^ 19 * 2143861251406875 := by decide +kernel
  have h1 : o ∣ 2143861251406875 := by
    have hd : o ∣ 2 ^ 19 * 2143861251406875 := by
      rw [← e]; exact (Dvd.intro_left _ rfl).trans h
    refine Nat.Coprime.dvd_of_dvd_mul_left ?_ hd
    exact Nat.Coprime.pow_right _ (Nat.coprime_two_right.mpr ho)
  have h2 : o ≤ 2143861251406875 := Nat.le_of_dvd (by norm_num) h1
  refine ⟨o, a, ?_, by omega, ?_⟩
  · rw [abs_of_nonneg (by omega)]; omega
  · push_cast; rw [zpow_natCast]; ring

theorem factorialR_eq (R : Rounding) (stirling : ℕ → ℝ) {n : ℕ} (hn : n ≤ 22) :
    factorialR R stirling n = (n.factorial : ℝ) := by
  have key : ∀ j, j ≤ n → (List.range j).foldl (fun z i => R.rnd (z * ((n - i : ℕ) : ℝ))) 1
      = (n.descFactorial j : ℝ) := by
    intro j
    induction j with
    | zero => simp
    | succ j ih =>
      intro hj
      rw [List.range_succ, List.foldl_append, ih (by omega)]
      simp only [List.foldl_cons, List.foldl_nil]
      rw [← Nat.cast_mul, mul_comm, ← Nat.descFactorial_succ]
      refine R.eq_self (isFloat_of_dvd ?_)
      refine Dvd.dvd.trans ?_ (Nat.factorial_dvd_factorial hn)
      exact ⟨_, ((mul_comm _ _).trans (Nat.factorial_mul_descFactorial hj)).symm⟩
  unfold factorialR
  rw [if_pos (by omega), key _ (by omega)]
  congr 1
  have := Nat.factorial_mul_descFactorial (n := n) (k := n - 1) (by omega)
  rcases Nat.eq_zero_or_pos n with rfl | hp
  · simp
  · rw [show n - (n - 1) = 1 by omega] at this
    simpa using this

/-- Exact quotients that are floats. -/
theorem floorDivR_exact (R : Rounding) {a b q : ℕ} (hb : 0 < b) (h : a = b * q) (ha : IsFloat (a : ℝ))
    (hq : IsFloat (q : ℝ)) : floorDivR R a b = q := by
  have hb' : (b : ℝ) ≠ 0 := by positivity
  have e : (a : ℝ) / b = q := by rw [h]; push_cast; field_simp
  unfold floorDivR
  simp only [e, Int.floor_natCast]
  have e2 : (a : ℝ) - (a - b * ((q : ℤ) : ℝ)) = a := by rw [h]; push_cast; ring
  rw [e2, R.eq_self ha, e, R.eq_self hq]
  simp

/-- A quotient of moderate size is the floor. -/
theorem floorDivR_floor (R : Rounding) {a b : ℝ} (q : ℕ) (hb : 1 ≤ b) (hq : 1 ≤ q)
    (hq' : q ≤ 2 ^ 50) (h1 : q * b ≤ a) (h2 : a < (q + 1) * b) : floorDivR R a b = q := by
  have hb0 : 0 < b := by linarith
  have hqr : (1 : ℝ) ≤ q := by exact_mod_cast hq
  have hqr' : (q : ℝ) ≤ 2 ^ 50 := by exact_mod_cast hq'
  have hfl : ⌊a / b⌋ = (q : ℤ) := by
    rw [Int.floor_eq_iff]
    constructor
    · rw [le_div_iff₀ hb0]; exact_mod_cast h1
    · rw [div_lt_iff₀ hb0]; exact_mod_cast h2
  unfold floorDivR
  simp only [hfl]
  have e2 : a - (a - b * ((q : ℤ) : ℝ)) = q * b := by push_cast; ring
  rw [e2]
  have hsmall : (2 : ℝ) ^ (-1022 : ℤ) ≤ 1 / 2 := by
    rw [show (1 / 2 : ℝ) = 2 ^ (-1 : ℤ) by norm_num]
    exact zpow_le_zpow_right₀ (by norm_num) (by norm_num)
  have hqb : 1 ≤ q * b := by nlinarith
  have er1 := R.error (x := q * b) (hsmall.trans (by linarith))
  set y := R.rnd (q * b) with hy
  have hy1 : q * b * (1 - 1 / 2 ^ 53) ≤ y := by have := (abs_le.mp er1).1; linarith
  have hy2 : y ≤ q * b * (1 + 1 / 2 ^ 53) := by have := (abs_le.mp er1).2; linarith
  have hz1 : q * (1 - 1 / 2 ^ 53) ≤ y / b := by
    rw [le_div_iff₀ hb0]; linarith
  have hz2 : y / b ≤ q * (1 + 1 / 2 ^ 53) := by
    rw [div_le_iff₀ hb0]; linarith
  have er2 := R.error (x := y / b) (hsmall.trans (by nlinarith))
  set d := R.rnd (y / b) with hd
  have hd1 : (q : ℝ) - 1 / 2 < d := by
    have := (abs_le.mp er2).1
    nlinarith
  have hd2 : d < (q : ℝ) + 1 / 2 := by
    have := (abs_le.mp er2).2
    nlinarith
  have hhalf : IsFloat (1 / 2 : ℝ) := ⟨1, -1, by norm_num, by norm_num, by norm_num⟩
  rcases lt_or_ge d q with hc | hc
  · have hf : ⌊d⌋ = (q : ℤ) - 1 := by
      rw [Int.floor_eq_iff]; push_cast; constructor <;> linarith
    -- the difference is a float above one half
    have hdd : R.rnd (d - ((⌊d⌋ : ℤ) : ℝ)) > 1 / 2 := by
      rw [hf]
      push_cast
      have hgt : (1 : ℝ) / 2 + 1 / 4 ≤ d - (q - 1) := by
        have := (abs_le.mp er2).1
        nlinarith
      have h34 : IsFloat (1 / 2 + 1 / 4 : ℝ) := ⟨3, -2, by norm_num, by norm_num, by norm_num⟩
      have := R.ge_of_ge h34 hgt
      linarith
    rw [if_pos hdd, hf]
    push_cast
    rw [sub_add_cancel]
    have : IsFloat (q : ℝ) := by
      refine ⟨q, 0, ?_, by norm_num, by simp⟩
      rw [abs_of_nonneg (by omega)]; omega
    exact R.eq_self this
  · have hf : ⌊d⌋ = (q : ℤ) := by
      rw [Int.floor_eq_iff]; push_cast; constructor <;> linarith
    have hdd : ¬ R.rnd (d - ((⌊d⌋ : ℤ) : ℝ)) > 1 / 2 := by
      rw [hf]
      push_cast
      rw [not_lt]
      exact R.le_of_le hhalf (by linarith)
    rw [if_neg hdd, hf]
    simp

theorem foldR_eq (R : Rounding) (stirling : ℕ → ℝ) : ∀ (counts : List ℕ) (a : ℕ), a ∣ Nat.factorial 22 →
    (counts.map Nat.factorial).prod ∣ a → 0 < a →
    (∀ c ∈ counts, c ≤ 22) →
    counts.foldl (fun acc c => floorDivR R acc (factorialR R stirling c)) (a : ℝ)
      = ((a / (counts.map Nat.factorial).prod : ℕ) : ℝ) := by
  intro counts
  induction counts with
  | nil => intro a _ _ _ _; simp
  | cons c counts ih =>
    intro a h22 hd hpos hc
    rw [List.map_cons, List.prod_cons] at hd ⊢
    have hca : c.factorial ∣ a := (Dvd.intro _ rfl).trans hd
    obtain ⟨q, hq⟩ := hca
    have hqa : q ∣ a := ⟨c.factorial, by rw [hq]; ring⟩
    have hq0 : 0 < q := Nat.pos_of_ne_zero fun h0 => by rw [h0] at hq; omega
    rw [List.foldl_cons, factorialR_eq R stirling (hc c (by simp)),
      floorDivR_exact R c.factorial_pos hq (isFloat_of_dvd h22) (isFloat_of_dvd (hqa.trans h22)),
      ih q (hqa.trans h22) ?_ hq0 fun x hx => hc x (by simp [hx])]
    · congr 1
      rw [hq, Nat.mul_div_mul_left _ _ c.factorial_pos]
    · rw [hq] at hd
      exact Nat.dvd_of_mul_dvd_mul_left c.factorial_pos hd

theorem countR_eq (R : Rounding) (stirling : ℕ → ℝ) (vals t : List ℕ) (hnd : vals.Nodup)
    (hv : ∀ x, x ∈ vals ↔ x ∈ t) (ht : t.length ≤ 22) :
    computeNumberOfStatesOfGivenTypeR R stirling vals t = ((arrangements (t : Multiset ℕ)).card : ℝ) := by
  unfold computeNumberOfStatesOfGivenTypeR
  simp only
  have h := card_arrangements_mul (t : Multiset ℕ)
  rw [Multiset.coe_card, ← counts_prod vals t hnd hv] at h
  rw [factorialR_eq R stirling ht, foldR_eq R stirling _ _ (Nat.factorial_dvd_factorial ht)
    ⟨_, h.symm.trans (mul_comm _ _)⟩ (Nat.factorial_pos _)]
  · congr 1
    refine Nat.div_eq_of_eq_mul_left ?_ h.symm
    refine List.prod_pos ?_
    intro x hx
    obtain ⟨y, -, rfl⟩ := List.mem_map.mp hx
    exact Nat.factorial_pos _
  · intro c hc
    obtain ⟨v, -, rfl⟩ := List.mem_map.mp hc
    exact List.count_le_length.trans ht

/-! ### The factorial of 29 -/

/-- `x` is rounded to `k * 2 ^ t`: either it is that number or it is close to it. -/
def roundsTo (x k t : ℕ) : Bool :=
  (x == k * 2 ^ t && decide (k ≤ 2 ^ 53)) ||
    (decide (2 ^ 52 < k) && decide (k < 2 ^ 53) && decide (2 * x < 2 * (k * 2 ^ t) + 2 ^ t) &&
      decide (2 * (k * 2 ^ t) < 2 * x + 2 ^ t))

theorem rnd_of_roundsTo (R : Rounding) {x k t : ℕ} (h : roundsTo x k t = true) :
    R.rnd (x : ℝ) = ((k * 2 ^ t : ℕ) : ℝ) := by
  simp only [roundsTo, Bool.or_eq_true, Bool.and_eq_true, beq_iff_eq, decide_eq_true_eq] at h
  rcases h with ⟨h1, h2⟩ | ⟨⟨⟨h1, h2⟩, h3⟩, h4⟩
  · rw [h1]
    refine R.eq_self ?_
    have := isFloat_mul (k := k) (t := t) (by rw [abs_of_nonneg (by omega)]; omega) (by omega)
    rw [zpow_natCast] at this
    exact_mod_cast this
  · have h3' : 2 * (x : ℝ) < 2 * (k * 2 ^ t) + 2 ^ t := by exact_mod_cast h3
    have h4' : 2 * ((k : ℝ) * 2 ^ t) < 2 * x + 2 ^ t := by exact_mod_cast h4
    have := R.eq_of_close (x := x) (k := k) (t := t) (by omega) (by omega) (by omega) (by
      rw [zpow_natCast, abs_lt]
      push_cast
      constructor <;> linarith)
    rw [this, zpow_natCast]
    push_cast; rfl

/-- Check a chain of rounded products: factor, mantissa and exponent of every product. -/
def chainOk : List (ℕ × ℕ × ℕ) → ℕ → Bool
  | [], _ => true
  | (i, k, t) :: l, z => roundsTo (z * i) k t && chainOk l (k * 2 ^ t)

/-- The last product of a chain. -/
def chainEnd : List (ℕ × ℕ × ℕ) → ℕ → ℕ
  | [], z => z
  | (_, k, t) :: l, _ => chainEnd l (k * 2 ^ t)

theorem foldl_chain (R : Rounding) : ∀ (l : List (ℕ × ℕ × ℕ)) (z : ℕ), chainOk l z = true →
    (l.map (·.1)).foldl (fun (z : ℝ) (i : ℕ) => R.rnd (z * (i : ℝ))) z = (chainEnd l z : ℝ) := by
  intro l
  induction l with
  | nil => intro z _; rfl
  | cons e l ih =>
    obtain ⟨i, k, t⟩ := e
    intro z h
    simp only [chainOk, Bool.and_eq_true] at h
    rw [List.map_cons, List.foldl_cons]
    simp only
    rw [← Nat.cast_mul, rnd_of_roundsTo R h.1, ih _ h.2]
    rfl

/-- The products `29`, `29 * 28`, … in floats. -/
def chain29 : List (ℕ × ℕ × ℕ) :=
  [ (29, 29, 0), (28, 812, 0), (27, 21924, 0), (26, 570024, 0), (25, 14250600, 0), (24, 342014400,
    0), (23, 7866331200, 0), (22, 173059286400, 0), (21, 3634245014400, 0), (20, 72684900288000,
    0), (19, 1381013105472000, 0), (18, 6214558974624000, 2), (17, 6602968910538000, 6), (16,
    6602968910538000, 10), (15, 6190283353629375, 14), (14, 5416497934425703, 18), (13,
    8801809143441767, 21), (12, 6601356857581325, 25), (11, 4538432839587161, 29), (10,
    5673041049483951, 32), (9, 6382171180669445, 35), (8, 6382171180669445, 38), (7,
    5584399783085764, 41), (6, 8376599674628646, 43), (5, 5235374796642904, 46), (4,
    5235374796642904, 48), (3, 7853062194964356, 49), (2, 7853062194964356, 50)]

theorem factorialR_29 (R : Rounding) (stirling : ℕ → ℝ) :
    factorialR R stirling 29 = ((7853062194964356 * 2 ^ 50 : ℕ) : ℝ) := by
  unfold factorialR
  rw [if_pos (by norm_num)]
  have e : (List.range (29 - 1)).map (fun i => 29 - i) = chain29.map (·.1) := by decide +kernel
  have h := foldl_chain R chain29 1 (by decide +kernel)
  rw [← e, List.foldl_map, Nat.cast_one] at h
  rw [h]
  congr 1

/-- Dividing first by `22!`. -/
theorem fails_order1 (R : Rounding) (stirling : ℕ → ℝ) :
    [22, 7].foldl (fun acc c => floorDivR R acc (factorialR R stirling c)) (factorialR R stirling 29) = 1560779 := by
  simp only [List.foldl_cons, List.foldl_nil]
  rw [factorialR_29, factorialR_eq R stirling (n := 22) (by norm_num),
    factorialR_eq R stirling (n := 7) (by norm_num)]
  have e22 : Nat.factorial 22 = 1124000727777607680000 := by decide +kernel
  have e7 : Nat.factorial 7 = 5040 := by decide
  rw [e22, e7]
  rw [floorDivR_floor R (a := ((7853062194964356 * 2 ^ 50 : ℕ) : ℝ)) (b := ((1124000727777607680000 : ℕ) : ℝ)) 7866331199 (by norm_num) (by norm_num) (by norm_num) (by norm_num) (by norm_num)]
  rw [floorDivR_floor R 1560779 (by norm_num) (by norm_num) (by norm_num) (by norm_num) (by norm_num)]
  norm_num

/-- Dividing first by `7!`. -/
theorem fails_order2 (R : Rounding) (stirling : ℕ → ℝ) :
    [7, 22].foldl (fun acc c => floorDivR R acc (factorialR R stirling c)) (factorialR R stirling 29) = 1560779 := by
  simp only [List.foldl_cons, List.foldl_nil]
  rw [factorialR_29, factorialR_eq R stirling (n := 22) (by norm_num),
    factorialR_eq R stirling (n := 7) (by norm_num)]
  have e22 : Nat.factorial 22 = 1124000727777607680000 := by decide +kernel
  have e7 : Nat.factorial 7 = 5040 := by decide
  rw [e22, e7]
  have h1 : floorDivR R ((7853062194964356 * 2 ^ 50 : ℕ) : ℝ) ((5040 : ℕ) : ℝ)
      = ((6382171180669445 * 2 ^ 38 : ℕ) : ℝ) := by
    set a : ℝ := ((7853062194964356 * 2 ^ 50 : ℕ) : ℝ) with ha
    have hm0 : (0 : ℝ) ≤ a - (5040 : ℕ) * ⌊a / (5040 : ℕ)⌋ := by
      have := Int.floor_le (a / (5040 : ℕ))
      rw [le_div_iff₀ (by norm_num)] at this
      linarith
    have hm1 : a - (5040 : ℕ) * ⌊a / (5040 : ℕ)⌋ < 5040 := by
      have := Int.lt_floor_add_one (a / (5040 : ℕ))
      rw [div_lt_iff₀ (by norm_num)] at this
      push_cast at this ⊢
      linarith
    unfold floorDivR
    simp only
    set mod := a - (5040 : ℕ) * (⌊a / (5040 : ℕ)⌋ : ℝ) with hmod
    have r1 : R.rnd (a - mod) = a := by
      have := R.eq_of_close (x := a - mod) (k := 7853062194964356) (t := 50) (by norm_num) (by norm_num)
        (by norm_num) (by
          rw [abs_lt, ha]
          push_cast
          have h50 : (2 : ℝ) ^ (50 : ℤ) = 1125899906842624 := by norm_num
          rw [h50]
          constructor <;> norm_num <;> linarith)
      rw [this, ha]
      push_cast
      norm_num
    rw [r1]
    have r2 : R.rnd (a / (5040 : ℕ)) = ((6382171180669445 * 2 ^ 38 : ℕ) : ℝ) := by
      have := R.eq_of_close (x := a / (5040 : ℕ)) (k := 6382171180669445) (t := 38) (by norm_num) (by norm_num)
        (by norm_num) (by
          rw [abs_lt, ha]
          push_cast
          have h50 : (2 : ℝ) ^ (38 : ℤ) = 274877906944 := by norm_num
          rw [h50]
          constructor <;> norm_num)
      rw [this]
      push_cast
      norm_num
    rw [r2]
    rw [Int.floor_natCast]
    simp
  rw [h1]
  rw [floorDivR_floor R 1560779 (by norm_num) (by norm_num) (by norm_num) (by norm_num) (by norm_num)]
  norm_num

/-! ### Binomials -/

theorem pyRound_close {x : ℝ} {k : ℤ} (h : |x - k| < 1 / 2) : pyRound x = k := by
  obtain ⟨h1, h2⟩ := abs_lt.mp h
  unfold pyRound
  simp only
  rcases lt_or_ge x k with hc | hc
  · have hf : ⌊x⌋ = k - 1 := by rw [Int.floor_eq_iff]; push_cast; constructor <;> linarith
    rw [hf]
    push_cast
    rw [if_neg (by linarith), if_pos (by linarith)]
    ring
  · have hf : ⌊x⌋ = k := by rw [Int.floor_eq_iff]; constructor <;> linarith
    rw [hf, if_pos (by linarith)]

theorem isFloat_nat {n : ℕ} (h : n ≤ 2 ^ 53) : IsFloat (n : ℝ) := by
  have := isFloat_mul (k := n) (t := 0) (by rw [abs_of_nonneg (by omega)]; omega) (by norm_num)
  simpa using this

theorem small_le_nat {n : ℕ} (h : 1 ≤ n) : (2 : ℝ) ^ (-1022 : ℤ) ≤ n := by
  have h1 : (2 : ℝ) ^ (-1022 : ℤ) ≤ 1 := zpow_le_one_of_nonpos₀ (by norm_num) (by norm_num)
  exact h1.trans (by exact_mod_cast h)

/-- The products stay far below the rescaling bound. -/
theorem binom_num_small (R : Rounding) {x : ℝ} (h0 : 0 ≤ x) (h : x ≤ 2 ^ 105) : ¬ |x| > R.rnd (10 ^ 50) := by
  rw [not_lt, abs_of_nonneg h0]
  refine h.trans (R.ge_of_ge ?_ (by norm_num))
  exact ⟨1, 105, by norm_num, by norm_num, by norm_num⟩

theorem rho_pow_20 : rho ^ 20 ≤ 1 + 21 / 2 ^ 53 := by unfold rho; norm_num

/-- The loop of `binom`. -/
theorem binom_loop (R : Rounding) {n kx : ℕ} (hk : kx < 20) (hkn : 2 * kx ≤ n) (hC : n.choose kx ≤ 2 ^ 47) :
    ∀ j, j ≤ kx → ∃ num : ℝ, (List.range' 1 j).foldl (binomStepR R n kx) (1, 1) = (num, (j.factorial : ℝ)) ∧
      0 ≤ num ∧ Within (rho ^ j) num ((n - kx + 1).ascFactorial j : ℝ) := by
  have hmono : ∀ j, j ≤ kx → (n - kx + j).choose j ≤ 2 ^ 47 := by
    intro j hj
    refine le_trans ?_ hC
    have e1 : (n - kx + j).choose j = (n - kx + j).choose (n - kx) := by
      rw [Nat.choose_symm_add]
    have e2 : n.choose kx = n.choose (n - kx) := (Nat.choose_symm (by omega)).symm
    rw [e1, e2]
    exact Nat.choose_le_choose _ (by omega)
  intro j
  induction j with
  | zero => intro _; exact ⟨1, by simp, zero_le_one, by simp [Within]⟩
  | succ j ih =>
    intro hj
    obtain ⟨num, h1, h2, h3⟩ := ih (by omega)
    have hn : n - kx + 1 ≤ 2 ^ 47 := by simpa using hmono 1 (by omega)
    rw [List.range'_concat, List.foldl_append, h1]
    simp only [List.foldl_cons, List.foldl_nil, mul_one, one_mul]
    -- the factor
    have f1 : R.rnd (((1 + j : ℕ) : ℝ) + n) = ((1 + j + n : ℕ) : ℝ) := by
      rw [← Nat.cast_add]; exact R.eq_self (isFloat_nat (by omega))
    have f2 : R.rnd (((1 + j + n : ℕ) : ℝ) - kx) = ((n - kx + 1 + j : ℕ) : ℝ) := by
      rw [← Nat.cast_sub (by omega), show 1 + j + n - kx = n - kx + 1 + j by omega]
      exact R.eq_self (isFloat_nat (by omega))
    have f3 : R.rnd ((j.factorial : ℝ) * ((1 + j : ℕ) : ℝ)) = ((j + 1).factorial : ℝ) := by
      rw [← Nat.cast_mul, mul_comm, add_comm 1 j, ← Nat.factorial_succ]
      exact R.eq_self (isFloat_of_dvd (Nat.factorial_dvd_factorial (by omega)))
    set f : ℕ := n - kx + 1 + j with hf
    have hasc : ((n - kx + 1).ascFactorial (j + 1) : ℝ) = (n - kx + 1).ascFactorial j * (f : ℝ) := by
      rw [Nat.ascFactorial_succ]; push_cast; rw [hf]; push_cast; ring
    have hpos1 : 1 ≤ (n - kx + 1).ascFactorial j := Nat.ascFactorial_pos _ _
    have hnum1 : (1 : ℝ) / 2 ≤ num := by
      have ha : (1 : ℝ) ≤ (n - kx + 1).ascFactorial j := by exact_mod_cast hpos1
      have hr : rho ^ j ≤ 2 := by
        have : rho ^ j ≤ rho ^ 20 := pow_le_pow_right₀ one_lt_rho.le (by omega)
        have := rho_pow_20
        have h21 : (1 : ℝ) + 21 / 2 ^ 53 ≤ 2 := by norm_num
        linarith
      have := h3.2
      nlinarith
    have hf1 : (1 : ℝ) ≤ f := by
      have : 1 ≤ f := by omega
      exact_mod_cast this
    have hw1 : Within (rho ^ j * 1) (num * f) ((n - kx + 1).ascFactorial j * (f : ℝ)) :=
      h3.mul (Within.refl le_rfl (by linarith)) (one_le_rho_pow j |>.trans' zero_le_one) h2 (Nat.cast_nonneg _)
        (by linarith) (by linarith)
    have hsm : (2 : ℝ) ^ (-1022 : ℤ) ≤ num * f := by
      have : (2 : ℝ) ^ (-1022 : ℤ) ≤ 1 / 2 := by
        rw [show (1 / 2 : ℝ) = 2 ^ (-1 : ℤ) by norm_num]
        exact zpow_le_zpow_right₀ (by norm_num) (by norm_num)
      exact this.trans (by nlinarith)
    have hw2 := (R.within (Or.inr hsm)).trans hw1 rho_nonneg (by rw [mul_one]; exact (one_le_rho_pow j).trans' zero_le_one)
    rw [mul_one, ← pow_succ', ← hasc] at hw2
    have hnn : 0 ≤ R.rnd (num * f) := R.nonneg (by nlinarith)
    refine ⟨R.rnd (num * f), ?_, hnn, hw2⟩
    unfold binomStepR
    simp only
    rw [f1, f2, f3, if_neg]
    refine binom_num_small R hnn ?_
    have hle : ((n - kx + 1).ascFactorial (j + 1) : ℝ) ≤ 2 ^ 104 := by
      rw [Nat.ascFactorial_eq_factorial_mul_choose]
      have hfac : (j + 1).factorial ≤ 2 ^ 57 := by
        refine (Nat.factorial_le (by omega : j + 1 ≤ 19)).trans ?_
        decide +kernel
      have hch := hmono (j + 1) hj
      have : (j + 1).factorial * (n - kx + (j + 1)).choose (j + 1) ≤ 2 ^ 104 := by
        calc _ ≤ 2 ^ 57 * 2 ^ 47 := Nat.mul_le_mul hfac hch
          _ = 2 ^ 104 := by norm_num
      exact_mod_cast this
    have hr : rho ^ (j + 1) ≤ 2 := by
      have : rho ^ (j + 1) ≤ rho ^ 20 := pow_le_pow_right₀ one_lt_rho.le (by omega)
      have := rho_pow_20
      have h21 : (1 : ℝ) + 21 / 2 ^ 53 ≤ 2 := by norm_num
      linarith
    calc R.rnd (num * f) ≤ rho ^ (j + 1) * ((n - kx + 1).ascFactorial (j + 1) : ℝ) := hw2.1
      _ ≤ 2 * 2 ^ 104 := mul_le_mul hr hle (Nat.cast_nonneg _) (by norm_num)
      _ = 2 ^ 105 := by norm_num

/-- Moderate binomials are right after rounding to an integer. -/
theorem binomR_round (R : Rounding) (beta : ℕ → ℕ → ℝ) {n k : ℕ} (hkn : k ≤ n) (hmin : min k (n - k) < 20)
    (hC : n.choose k ≤ 2 ^ 47) : pyRound (binomR R beta n k) = (n.choose k : ℤ) := by
  unfold binomR
  simp only
  set kx := if n < 2 * k ∧ 0 < n then n - k else k with hkx
  have hk2 : 2 * kx ≤ n := by rw [hkx]; split_ifs <;> omega
  have hk20 : kx < 20 := by rw [hkx]; split_ifs <;> omega
  have hch : n.choose kx = n.choose k := by
    rw [hkx]; split_ifs
    · exact Nat.choose_symm hkn
    · rfl
  rw [if_pos hk20]
  obtain ⟨num, h1, h2, h3⟩ := binom_loop R hk20 hk2 (by rw [hch]; exact hC) kx le_rfl
  rw [h1]
  simp only
  have hasc : (n - kx + 1).ascFactorial kx = kx.factorial * n.choose k := by
    rw [Nat.ascFactorial_eq_factorial_mul_choose, show n - kx + kx = n by omega, hch]
  have hfp : (0 : ℝ) < kx.factorial := by exact_mod_cast kx.factorial_pos
  have hw : Within (rho ^ kx * 1) (num / kx.factorial) (n.choose k : ℝ) := by
    have := h3.div (Within.refl le_rfl hfp.le) ((one_le_rho_pow kx).trans' zero_le_one) h2 (Nat.cast_nonneg _) hfp hfp
    rw [hasc] at this
    push_cast at this
    rwa [mul_div_cancel_left₀ _ hfp.ne'] at this
  rw [mul_one] at hw
  have hCpos : 1 ≤ n.choose k := Nat.choose_pos hkn
  have hC1 : (1 : ℝ) ≤ n.choose k := by exact_mod_cast hCpos
  have hC2 : (n.choose k : ℝ) ≤ 2 ^ 47 := by exact_mod_cast hC
  have hrk : rho ^ kx ≤ 2 := by
    have : rho ^ kx ≤ rho ^ 20 := pow_le_pow_right₀ one_lt_rho.le (by omega)
    have := rho_pow_20
    have h21 : (1 : ℝ) + 21 / 2 ^ 53 ≤ 2 := by norm_num
    linarith
  have hx0 : 0 ≤ num / kx.factorial := div_nonneg h2 hfp.le
  have hsm : (2 : ℝ) ^ (-1022 : ℤ) ≤ num / kx.factorial := by
    have h12 : (2 : ℝ) ^ (-1022 : ℤ) ≤ 1 / 2 := by
      rw [show (1 / 2 : ℝ) = 2 ^ (-1 : ℤ) by norm_num]
      exact zpow_le_zpow_right₀ (by norm_num) (by norm_num)
    refine h12.trans ?_
    have := hw.2
    nlinarith
  have hw2 := (R.within (Or.inr hsm)).trans hw rho_nonneg ((one_le_rho_pow kx).trans' zero_le_one)
  rw [← pow_succ'] at hw2
  have hw3 := hw2.mono (R.nonneg hx0) (Nat.cast_nonneg _)
    ((pow_le_pow_right₀ one_lt_rho.le (by omega : kx + 1 ≤ 20)).trans rho_pow_20)
  set x := R.rnd (num / kx.factorial)
  refine pyRound_close ?_
  have e1 := hw3.1
  have e2 := hw3.2
  rw [add_mul, one_mul] at e1 e2
  have hd : (21 : ℝ) / 2 ^ 53 * (n.choose k : ℝ) ≤ 21 / 64 := by
    calc (21 : ℝ) / 2 ^ 53 * (n.choose k : ℝ) ≤ 21 / 2 ^ 53 * 2 ^ 47 :=
          mul_le_mul_of_nonneg_left hC2 (by norm_num)
      _ = 21 / 64 := by norm_num
  have hd2 : (21 : ℝ) / 2 ^ 53 * x ≤ 22 / 64 := by
    calc (21 : ℝ) / 2 ^ 53 * x ≤ 21 / 2 ^ 53 * (2 ^ 47 + 1) :=
          mul_le_mul_of_nonneg_left (by linarith) (by norm_num)
      _ ≤ 22 / 64 := by norm_num
  rw [Int.cast_natCast, abs_lt]
  constructor <;> linarith

theorem binomR_float (R : Rounding) {beta : ℕ → ℕ → ℝ} (hb : ∀ n k, IsFloat (beta n k)) (n k : ℕ) :
    IsFloat (binomR R beta n k) := by
  unfold binomR
  simp only
  split_ifs <;> first | exact R.isFloat _ | exact hb _ _

/-- A float rounded to an integer is a float. -/
theorem pyRound_float {x : ℝ} (hx : IsFloat x) (h0 : 0 ≤ pyRound x) : IsFloat (pyRound x : ℝ) := by
  have hle : (pyRound x : ℝ) ≤ ⌊x⌋ + 1 := by
    unfold pyRound; simp only; split_ifs <;> push_cast <;> linarith
  rcases lt_or_ge x (2 ^ 53) with h | h
  · have hfl : ⌊x⌋ < 2 ^ 53 := by rw [Int.floor_lt]; exact_mod_cast h
    have h1 : pyRound x ≤ 2 ^ 53 := by
      have : pyRound x ≤ ⌊x⌋ + 1 := by exact_mod_cast hle
      omega
    have := isFloat_mul (k := pyRound x) (t := 0) (by rw [abs_of_nonneg h0]; exact h1) (by norm_num)
    simpa using this
  · obtain ⟨k, hk⟩ := hx.multiple (t := 0) (by
      have h1 : (2 : ℝ) ^ ((52 : ℤ) + 0) ≤ 2 ^ 53 := by norm_num
      exact h1.trans (h.trans (le_abs_self x)))
    rw [zpow_zero, mul_one] at hk
    have : pyRound x = k := pyRound_close (by rw [hk]; simp)
    rw [this, ← hk]
    exact hx

/-- Odd numbers above `2 ^ 53` are not floats. -/
theorem not_isFloat_odd {n : ℕ} (h : 2 ^ 53 ≤ n) (ho : n % 2 = 1) : ¬ IsFloat (n : ℝ) := by
  intro hf
  obtain ⟨k, hk⟩ := hf.multiple (t := 1) (by
    rw [abs_of_nonneg (Nat.cast_nonneg n)]
    have : ((2 ^ 53 : ℕ) : ℝ) ≤ n := by exact_mod_cast h
    refine le_trans ?_ this
    norm_num)
  rw [zpow_one] at hk
  have : (n : ℤ) = k * 2 := by exact_mod_cast hk
  omega

/-- A natural number that is a float. -/
def floatNat (x : ℕ) : Bool := (List.range 64).any fun t => x % 2 ^ t == 0 && decide (x / 2 ^ t ≤ 2 ^ 53)

theorem isFloat_of_floatNat {x : ℕ} (h : floatNat x = true) : IsFloat (x : ℝ) := by
  simp only [floatNat, List.any_eq_true, Bool.and_eq_true, beq_iff_eq, decide_eq_true_eq] at h
  obtain ⟨t, -, h1, h2⟩ := h
  obtain ⟨q, hq⟩ : ∃ q, q = x / 2 ^ t := ⟨_, rfl⟩
  have e : x = q * 2 ^ t := by rw [hq]; exact (Nat.div_mul_cancel (Nat.dvd_of_mod_eq_zero h1)).symm
  rw [← hq] at h2
  have := isFloat_mul (k := (q : ℤ)) (t := t)
    (by rw [abs_of_nonneg (by omega)]; exact_mod_cast h2) (by omega)
  rw [zpow_natCast] at this
  rw [e]
  exact_mod_cast this

/-- The products of `binom` are floats up to 30. -/
theorem products_30 : ∀ n ∈ List.range 31, ∀ kx ∈ List.range 16, 2 * kx ≤ n → ∀ j ∈ List.range (kx + 1),
    floatNat ((n - kx + 1).ascFactorial j) = true ∧ (n - kx + 1).ascFactorial j ≤ 2 ^ 105 := by
  decide +kernel

theorem binom_loop_exact (R : Rounding) {n kx : ℕ} (hk : kx ≤ 15) (hn : n ≤ 30) (hkn : 2 * kx ≤ n) :
    ∀ j, j ≤ kx → (List.range' 1 j).foldl (binomStepR R n kx) (1, 1)
      = (((n - kx + 1).ascFactorial j : ℝ), (j.factorial : ℝ)) := by
  intro j
  induction j with
  | zero => intro _; simp
  | succ j ih =>
    intro hj
    rw [List.range'_concat, List.foldl_append, ih (by omega)]
    simp only [List.foldl_cons, List.foldl_nil, one_mul]
    have f1 : R.rnd (((1 + j : ℕ) : ℝ) + n) = ((1 + j + n : ℕ) : ℝ) := by
      rw [← Nat.cast_add]; exact R.eq_self (isFloat_nat (by omega))
    have f2 : R.rnd (((1 + j + n : ℕ) : ℝ) - kx) = ((n - kx + 1 + j : ℕ) : ℝ) := by
      rw [← Nat.cast_sub (by omega), show 1 + j + n - kx = n - kx + 1 + j by omega]
      exact R.eq_self (isFloat_nat (by omega))
    have f3 : R.rnd ((j.factorial : ℝ) * ((1 + j : ℕ) : ℝ)) = ((j + 1).factorial : ℝ) := by
      rw [← Nat.cast_mul, mul_comm, add_comm 1 j, ← Nat.factorial_succ]
      exact R.eq_self (isFloat_of_dvd (Nat.factorial_dvd_factorial (by omega)))
    obtain ⟨h1, h2⟩ := products_30 n (List.mem_range.mpr (by omega)) kx (List.mem_range.mpr (by omega)) hkn (j + 1)
      (List.mem_range.mpr (by omega))
    have f4 : R.rnd (((n - kx + 1).ascFactorial j : ℝ) * ((n - kx + 1 + j : ℕ) : ℝ))
        = ((n - kx + 1).ascFactorial (j + 1) : ℝ) := by
      rw [← Nat.cast_mul, mul_comm, ← Nat.ascFactorial_succ]
      exact R.eq_self (isFloat_of_floatNat h1)
    unfold binomStepR
    simp only
    rw [f1, f2, f3, f4, if_neg]
    exact binom_num_small R (Nat.cast_nonneg _) (by exact_mod_cast h2)

/-- `scipy.special.binom` is exact up to 30. -/
theorem binomR_30 (R : Rounding) (beta : ℕ → ℕ → ℝ) {n k : ℕ} (hn : n ≤ 30) (hkn : k ≤ n) :
    binomR R beta n k = (n.choose k : ℝ) := by
  unfold binomR
  simp only
  set kx := if n < 2 * k ∧ 0 < n then n - k else k with hkx
  have hk2 : 2 * kx ≤ n := by rw [hkx]; split_ifs <;> omega
  have hch : n.choose kx = n.choose k := by
    rw [hkx]; split_ifs
    · exact Nat.choose_symm hkn
    · rfl
  rw [if_pos (by omega), binom_loop_exact R (by omega) hn hk2 kx le_rfl]
  simp only
  have hfp : (kx.factorial : ℝ) ≠ 0 := by exact_mod_cast kx.factorial_ne_zero
  rw [Nat.ascFactorial_eq_factorial_mul_choose, show n - kx + kx = n by omega, hch]
  push_cast
  rw [mul_div_cancel_left₀ _ hfp]
  refine R.eq_self (isFloat_nat ?_)
  calc n.choose k ≤ 2 ^ n := Nat.choose_le_two_pow n k
    _ ≤ 2 ^ 30 := Nat.pow_le_pow_right (by norm_num) hn
    _ ≤ 2 ^ 53 := by norm_num

end Verif
