import Verif.Spec.ComplexFloats
import Verif.Proofs.Floats

/-! Helper lemmas: propagation of errors through complex floating-point arithmetic. -/
namespace Verif

/-- The factor by which one operation enlarges the error. -/
noncomputable def qf : ℝ := 1 + 1 / 2 ^ 48

theorem one_le_qf : 1 ≤ qf := by unfold qf; norm_num

theorem qf_pos : 0 < qf := lt_of_lt_of_le one_pos one_le_qf

theorem one_le_qf_pow (k : ℕ) : 1 ≤ qf ^ k := one_le_pow₀ one_le_qf

theorem qf_pow_mono {k l : ℕ} (h : k ≤ l) : qf ^ k ≤ qf ^ l := pow_le_pow_right₀ one_le_qf h

theorem tiny_le {X : ℝ} (hX : (2 : ℝ) ^ (-1000 : ℤ) ≤ X) : (2 : ℝ) ^ (-1070 : ℤ) ≤ 1 / 2 ^ 60 * X := by
  have e : (2 : ℝ) ^ (-1070 : ℤ) = 1 / 2 ^ 70 * 2 ^ (-1000 : ℤ) := by
    rw [show (-1070 : ℤ) = -70 + -1000 by norm_num, zpow_add₀ (by norm_num)]
    norm_num
  rw [e]
  have h0 := two_zpow_pos (-1000)
  exact mul_le_mul (by norm_num) hX h0.le (by norm_num)

theorem small_of_one {X : ℝ} (hX : 1 ≤ X) : (2 : ℝ) ^ (-1000 : ℤ) ≤ X :=
  (zpow_le_one_of_nonpos₀ (by norm_num) (by norm_num)).trans hX

/-- `y` is `x` up to `k` operations on numbers of modulus at most `X`. -/
def Close {E : Type} [NormedField E] (k : ℕ) (X : ℝ) (y x : E) : Prop := ‖x‖ ≤ X ∧ ‖y - x‖ ≤ (qf ^ k - 1) * X

namespace Close

variable {E : Type} [NormedField E] {k l : ℕ} {X Y : ℝ} {a a' b b' : E}

theorem bound_nonneg (h : Close k X a' a) : 0 ≤ X := (norm_nonneg a).trans h.1

theorem exact (h : ‖a‖ ≤ X) : Close 0 X a a := ⟨h, by simp⟩

theorem mono (h : Close k X a' a) (hkl : k ≤ l) : Close l X a' a :=
  ⟨h.1, h.2.trans (mul_le_mul_of_nonneg_right (sub_le_sub_right (qf_pow_mono hkl) 1) h.bound_nonneg)⟩

theorem mono' (h : Close k X a' a) (hXY : X ≤ Y) : Close k Y a' a :=
  ⟨h.1.trans hXY, h.2.trans (mul_le_mul_of_nonneg_left hXY (sub_nonneg.mpr (one_le_qf_pow k)))⟩

theorem norm_le (h : Close k X a' a) : ‖a'‖ ≤ qf ^ k * X := by
  calc ‖a'‖ = ‖(a' - a) + a‖ := by rw [sub_add_cancel]
    _ ≤ ‖a' - a‖ + ‖a‖ := norm_add_le _ _
    _ ≤ (qf ^ k - 1) * X + X := add_le_add h.2 h.1
    _ = qf ^ k * X := by ring

theorem mul_exact (h : Close k X a' a) (h' : Close l Y b' b) : Close (k + l) (X * Y) (a' * b') (a * b) := by
  have hX := h.bound_nonneg
  have hY := h'.bound_nonneg
  refine ⟨by rw [norm_mul]; exact mul_le_mul h.1 h'.1 (norm_nonneg _) hX, ?_⟩
  have e : a' * b' - a * b = a' * (b' - b) + (a' - a) * b := by ring
  rw [e]
  refine (norm_add_le _ _).trans ?_
  rw [norm_mul, norm_mul]
  have h1 : ‖a'‖ * ‖b' - b‖ ≤ qf ^ k * X * ((qf ^ l - 1) * Y) :=
    mul_le_mul h.norm_le h'.2 (norm_nonneg _) (mul_nonneg (pow_nonneg qf_pos.le _) hX)
  have h2 : ‖a' - a‖ * ‖b‖ ≤ (qf ^ k - 1) * X * Y :=
    mul_le_mul h.2 h'.1 (norm_nonneg _) (mul_nonneg (sub_nonneg.mpr (one_le_qf_pow k)) hX)
  rw [pow_add]
  nlinarith

theorem pow_exact (h : Close k X a' a) (t : ℕ) : Close (t * k) (X ^ t) (a' ^ t) (a ^ t) := by
  induction t with
  | zero => simp [Close]
  | succ t ih =>
    rw [pow_succ, pow_succ, pow_succ, Nat.succ_mul]
    exact ih.mul_exact h

/-- One more operation: a relative error of `2 ^ -49`. -/
theorem step {c : E} (h : Close k X a' a) (hc : ‖c - a'‖ ≤ 1 / 2 ^ 49 * (qf ^ k * X)) : Close (k + 1) X c a := by
  have hX := h.bound_nonneg
  refine ⟨h.1, ?_⟩
  have e : c - a = (c - a') + (a' - a) := by ring
  rw [e]
  refine (norm_add_le _ _).trans ((add_le_add hc h.2).trans ?_)
  have h1 : 0 ≤ qf ^ k * X := mul_nonneg (pow_nonneg qf_pos.le _) hX
  have e2 : (qf ^ (k + 1) - 1) * X = 1 / 2 ^ 48 * (qf ^ k * X) + (qf ^ k - 1) * X := by
    rw [pow_succ]
    nth_rewrite 2 [qf]
    ring
  rw [e2]
  have : (1 : ℝ) / 2 ^ 49 * (qf ^ k * X) ≤ 1 / 2 ^ 48 * (qf ^ k * X) :=
    mul_le_mul_of_nonneg_right (by norm_num) h1
  linarith

/-- One more operation with the error of the arithmetic. -/
theorem op {c : E} (h : Close k X a' a) (hX : (2 : ℝ) ^ (-1000 : ℤ) ≤ X) {Z : ℝ} (hZ : Z ≤ qf ^ k * X)
    (hc : ‖c - a'‖ ≤ 1 / 2 ^ 50 * Z + 2 ^ (-1070 : ℤ)) : Close (k + 1) X c a := by
  refine h.step (hc.trans ?_)
  have h1 := tiny_le hX
  have h2 : X ≤ qf ^ k * X := le_mul_of_one_le_left h.bound_nonneg (one_le_qf_pow k)
  have h3 : (0 : ℝ) ≤ qf ^ k * X := h.bound_nonneg.trans h2
  linarith

theorem add_exact (h : Close k X a' a) (h' : Close k Y b' b) : Close k (X + Y) (a' + b') (a + b) := by
  refine ⟨(norm_add_le _ _).trans (add_le_add h.1 h'.1), ?_⟩
  have e : a' + b' - (a + b) = (a' - a) + (b' - b) := by ring
  rw [e]
  refine (norm_add_le _ _).trans ((add_le_add h.2 h'.2).trans (le_of_eq ?_))
  ring

/-- Adding something with a small error to a sum that stays below `X`. -/
theorem add_err {c c' : E} (h : Close k X a' a) (hc : ‖c' - c‖ ≤ (qf ^ l - 1) * X) (hs : ‖a + c‖ ≤ X) :
    Close (k + l) X (a' + c') (a + c) := by
  have hX := h.bound_nonneg
  refine ⟨hs, ?_⟩
  have e : a' + c' - (a + c) = (a' - a) + (c' - c) := by ring
  rw [e]
  refine (norm_add_le _ _).trans ((add_le_add h.2 hc).trans ?_)
  have h1 := one_le_qf_pow k
  have h2 := one_le_qf_pow l
  have h3 : (qf ^ l - 1) * X ≤ (qf ^ l - 1) * (qf ^ k * X) :=
    mul_le_mul_of_nonneg_left (le_mul_of_one_le_left hX h1) (by linarith)
  have e2 : (qf ^ (k + l) - 1) * X = (qf ^ l - 1) * (qf ^ k * X) + (qf ^ k - 1) * X := by
    rw [pow_add]; ring
  rw [e2]
  linarith

theorem neg (h : Close k X a' a) : Close k X (-a') (-a) := by
  refine ⟨by rw [norm_neg]; exact h.1, ?_⟩
  rw [neg_sub_neg, norm_sub_rev]; exact h.2

end Close

theorem Close.ofReal {k : ℕ} {X y x : ℝ} (h : Close k X y x) : Close k X (y : ℂ) (x : ℂ) := by
  refine ⟨by simpa using h.1, ?_⟩
  rw [← Complex.ofReal_sub, Complex.norm_real]
  exact h.2

/-! ### Real operations -/

namespace Rounding

variable (R : Rounding)

/-- The error of one rounding, for all numbers. -/
theorem abs_error (x : ℝ) : |R.rnd x - x| ≤ 1 / 2 ^ 53 * |x| + 2 ^ (-1074 : ℤ) := by
  have ht := two_zpow_pos (-1074)
  rcases le_or_gt ((2 : ℝ) ^ (-1022 : ℤ)) |x| with h | h
  · rcases abs_cases x with ⟨h1, h2⟩ | ⟨h1, h2⟩
    · rw [h1] at h ⊢
      have := R.error h
      linarith
    · rw [h1] at h ⊢
      let R' : Rounding := ⟨fun y => -R.rnd (-y), fun y => ⟨(R.isFloat _).neg, fun z hz => by
        have := (R.nearest (-y)).2 (-z) hz.neg
        rw [show -y - R.rnd (-y) = -(y - -R.rnd (-y)) by ring, abs_neg, show -y - -z = -(y - z) by ring, abs_neg] at this
        exact this⟩⟩
      have := R'.error h
      change |-R.rnd (- -x) - -x| ≤ _ at this
      rw [neg_neg, show -R.rnd x - -x = -(R.rnd x - x) by ring, abs_neg] at this
      linarith
  · set k : ℤ := ⌊x / 2 ^ (-1074 : ℤ)⌋ with hk
    have hlo : (k : ℝ) * 2 ^ (-1074 : ℤ) ≤ x := by
      have := Int.floor_le (x / 2 ^ (-1074 : ℤ))
      rwa [le_div_iff₀ ht] at this
    have hhi : x < ((k + 1 : ℤ) : ℝ) * 2 ^ (-1074 : ℤ) := by
      have := Int.lt_floor_add_one (x / 2 ^ (-1074 : ℤ))
      rw [div_lt_iff₀ ht] at this
      push_cast; exact this
    have e : (2 : ℝ) ^ (-1022 : ℤ) = 2 ^ 52 * 2 ^ (-1074 : ℤ) := by
      rw [← zpow_natCast, ← zpow_add₀ (by norm_num)]; norm_num
    rw [e] at h
    have hb := abs_lt.mp h
    have k1 : -2 ^ 52 - 1 < k := by
      have : (-2 ^ 52 : ℝ) * 2 ^ (-1074 : ℤ) < ((k + 1 : ℤ) : ℝ) * 2 ^ (-1074 : ℤ) := by linarith
      have := lt_of_mul_lt_mul_right this ht.le
      have : (-2 ^ 52 : ℤ) < k + 1 := by exact_mod_cast this
      omega
    have k2 : k < 2 ^ 52 := by
      have : (k : ℝ) * 2 ^ (-1074 : ℤ) < (2 ^ 52 : ℝ) * 2 ^ (-1074 : ℤ) := by linarith
      have := lt_of_mul_lt_mul_right this ht.le
      exact_mod_cast this
    have hf : IsFloat ((k : ℝ) * 2 ^ (-1074 : ℤ)) := ⟨k, -1074, abs_lt.mpr ⟨by omega, by omega⟩, le_rfl, rfl⟩
    have := (R.nearest x).2 _ hf
    rw [abs_sub_comm]
    refine this.trans ?_
    rw [abs_of_nonneg (by linarith)]
    push_cast at hhi
    have : 0 ≤ 1 / 2 ^ 53 * |x| := by positivity
    linarith

theorem op_error (x : ℝ) : ‖R.rnd x - x‖ ≤ 1 / 2 ^ 50 * ‖x‖ + 2 ^ (-1070 : ℤ) := by
  have h := R.abs_error x
  have h1 : (2 : ℝ) ^ (-1074 : ℤ) ≤ 2 ^ (-1070 : ℤ) := zpow_le_zpow_right₀ (by norm_num) (by norm_num)
  have h2 : 1 / 2 ^ 53 * |x| ≤ 1 / 2 ^ 50 * |x| := mul_le_mul_of_nonneg_right (by norm_num) (abs_nonneg x)
  rw [Real.norm_eq_abs, Real.norm_eq_abs]
  linarith

theorem close {k : ℕ} {X y x : ℝ} (h : Close k X y x) (hX : (2 : ℝ) ^ (-1000 : ℤ) ≤ X) : Close (k + 1) X (R.rnd y) x :=
  h.op hX h.norm_le (R.op_error y)

end Rounding

/-! ### Complex operations -/

namespace ComplexArith

variable (A : ComplexArith) {k l : ℕ} {X Y : ℝ} {a a' b b' : ℂ}

theorem mul_close (h : Close k X a' a) (h' : Close l Y b' b) (hXY : (2 : ℝ) ^ (-1000 : ℤ) ≤ X * Y) :
    Close (k + l + 1) (X * Y) (A.mul a' b') (a * b) := by
  have h1 := h.mul_exact h'
  refine h1.op hXY ?_ (A.mul_err a' b')
  have := h1.norm_le
  calc ‖a'‖ * ‖b'‖ ≤ (qf ^ k * X) * (qf ^ l * Y) :=
        mul_le_mul h.norm_le h'.norm_le (norm_nonneg _) (mul_nonneg (pow_nonneg qf_pos.le _) h.bound_nonneg)
    _ = qf ^ (k + l) * (X * Y) := by rw [pow_add]; ring

theorem add_close (h : Close k X a' a) (h' : Close k Y b' b) (hXY : (2 : ℝ) ^ (-1000 : ℤ) ≤ X + Y) :
    Close (k + 1) (X + Y) (A.add a' b') (a + b) :=
  (h.add_exact h').op hXY (h.add_exact h').norm_le (A.add_err a' b')

theorem add_fixed (h : Close k X a' a) {l : ℕ} {Y : ℝ} (h' : Close l Y b' b) (hY : Y ≤ X) (hs : ‖a + b‖ ≤ X)
    (hX : 1 ≤ X) : Close (k + l + 1) X (A.add a' b') (a + b) := by
  have h1 := h.add_err (h'.mono' hY).2 hs
  exact h1.op (small_of_one hX) h1.norm_le (A.add_err a' b')

/-- Adding twice something at most as large as `X`. -/
theorem add_double (h : Close k X a' a) {l : ℕ} (h' : Close l 2 b' b) (hs : ‖a + b‖ ≤ X)
    (hX : 1 ≤ X) : Close (k + 2 * l + 1) X (A.add a' b') (a + b) := by
  have h1 := h.add_err (l := 2 * l) (c := b) (c' := b') (h'.2.trans ?_) hs
  · exact h1.op (small_of_one hX) h1.norm_le (A.add_err a' b')
  · have h1 := one_le_qf_pow l
    rw [two_mul l, pow_add]
    nlinarith [mul_nonneg (sub_nonneg.mpr h1) (sub_nonneg.mpr h1)]

theorem sub_double (h : Close k X a' a) {l : ℕ} (h' : Close l 2 b' b) (hs : ‖a - b‖ ≤ X)
    (hX : 1 ≤ X) : Close (k + 2 * l + 1) X (A.sub a' b') (a - b) := by
  have h1 := h.add_err (l := 2 * l) (c := -b) (c' := -b') (h'.neg.2.trans ?_) (by rwa [← sub_eq_add_neg])
  · rw [← sub_eq_add_neg, ← sub_eq_add_neg] at h1
    exact h1.op (small_of_one hX) h1.norm_le (A.sub_err a' b')
  · have h1 := one_le_qf_pow l
    rw [two_mul l, pow_add]
    nlinarith [mul_nonneg (sub_nonneg.mpr h1) (sub_nonneg.mpr h1)]

theorem pow_close (h : Close k X a' a) (hX : 1 ≤ X) (t : ℕ) : Close (t * (k + 1)) (X ^ t) (A.pow a' t) (a ^ t) := by
  have h1 := h.pow_exact t
  refine ⟨h1.1, ?_⟩
  have e : A.pow a' t - a ^ t = (A.pow a' t - a' ^ t) + (a' ^ t - a ^ t) := by ring
  rw [e]
  refine (norm_add_le _ _).trans ((add_le_add (A.pow_err a' t) h1.2).trans ?_)
  have hm : max 1 ‖a'‖ ^ t ≤ (qf ^ k * X) ^ t := by
    refine pow_le_pow_left₀ (by positivity) (max_le ?_ h.norm_le) t
    have := one_le_qf_pow k
    nlinarith
  have hp : (1 + 1 / 2 ^ 49 : ℝ) ^ t ≤ qf ^ t := pow_le_pow_left₀ (by norm_num) (by unfold qf; norm_num) t
  have hq := one_le_qf_pow t
  have hp1 : (1 : ℝ) ≤ (1 + 1 / 2 ^ 49) ^ t := one_le_pow₀ (by norm_num)
  have h2 : ((1 + 1 / 2 ^ 49 : ℝ) ^ t - 1) * max 1 ‖a'‖ ^ t ≤ (qf ^ t - 1) * (qf ^ k * X) ^ t :=
    mul_le_mul (by linarith) hm (by positivity) (by linarith)
  refine (add_le_add_left h2 _).trans (le_of_eq ?_)
  rw [mul_pow, ← pow_mul, mul_comm k t, mul_add, mul_one, pow_add]
  ring

theorem div_close (h : Close k X a' a) {x : ℝ} (hx : 0 < x) (hX : (2 : ℝ) ^ (-1000 : ℤ) ≤ X / x) :
    Close (k + 1) (X / x) (A.div a' x) (a / x) := by
  have e : Close 0 (1 / x) ((1 / x : ℝ) : ℂ) ((1 / x : ℝ) : ℂ) := .exact (by
    rw [Complex.norm_real, Real.norm_eq_abs, abs_of_pos (by positivity)])
  have h1 := h.mul_exact e
  rw [add_zero, mul_one_div] at h1
  have e1 : ∀ z : ℂ, z * ((1 / x : ℝ) : ℂ) = z / x := fun z => by push_cast; ring
  rw [e1, e1] at h1
  exact h1.op hX h1.norm_le (A.div_err a' x hx.ne')

/-- A product of factors. -/
theorem foldl_close {ι : Type} (L : List ι) (f' f : ι → ℂ) (n : ι → ℕ) (B : ι → ℝ) (hB : ∀ j ∈ L, 1 ≤ B j)
    (hf : ∀ j ∈ L, Close (n j) (B j) (f' j) (f j)) :
    ∀ {k : ℕ} {X : ℝ} {a' a : ℂ}, Close k X a' a → (2 : ℝ) ^ (-1000 : ℤ) ≤ X →
      Close (k + (L.map fun j => n j + 1).sum) (X * (L.map B).prod) ((L.map f').foldl A.mul a') (a * (L.map f).prod) := by
  induction L with
  | nil => intro k X a' a h _; simpa using h
  | cons j L ih =>
    intro k X a' a h hX
    have h1 := hB j (by simp)
    have hX1 : (2 : ℝ) ^ (-1000 : ℤ) ≤ X * B j := hX.trans (le_mul_of_one_le_right h.bound_nonneg h1)
    have h2 := A.mul_close h (hf j (by simp)) hX1
    have := ih (fun j hj => hB j (by simp [hj])) (fun j hj => hf j (by simp [hj])) h2 hX1
    simp only [List.map_cons, List.sum_cons, List.prod_cons, List.foldl_cons]
    rw [← mul_assoc, ← mul_assoc]
    exact this.mono (by omega)

end ComplexArith

/-! ### There is such an arithmetic -/

theorem norm_le_abs_add (z : ℂ) : ‖z‖ ≤ |z.re| + |z.im| := Complex.norm_le_abs_re_add_abs_im z

theorem abs_add_abs_le (z : ℂ) : |z.re| + |z.im| ≤ Real.sqrt 2 * ‖z‖ := by
  have h : |z.re| + |z.im| ≤ Real.sqrt (2 * ‖z‖ ^ 2) := by
    refine Real.le_sqrt_of_sq_le ?_
    rw [Complex.sq_norm, Complex.normSq_apply]
    nlinarith [sq_nonneg (|z.re| - |z.im|), sq_abs z.re, sq_abs z.im]
  rwa [Real.sqrt_mul' _ (sq_nonneg _), Real.sqrt_sq (norm_nonneg z)] at h

/-- Rounding both parts. -/
noncomputable def Rounding.rndC (R : Rounding) (z : ℂ) : ℂ := ⟨R.rnd z.re, R.rnd z.im⟩

theorem Rounding.rndC_error (R : Rounding) (z : ℂ) : ‖R.rndC z - z‖ ≤ 1 / 2 ^ 52 * ‖z‖ + 2 * 2 ^ (-1074 : ℤ) := by
  refine (norm_le_abs_add _).trans ?_
  have h1 := R.abs_error z.re
  have h2 := R.abs_error z.im
  have h3 := Complex.abs_re_le_norm z
  have h4 := Complex.abs_im_le_norm z
  simp only [Rounding.rndC, Complex.sub_re, Complex.sub_im]
  linarith

/-- The textbook product. -/
noncomputable def Rounding.mulC (R : Rounding) (a b : ℂ) : ℂ :=
  ⟨R.rnd (R.rnd (a.re * b.re) - R.rnd (a.im * b.im)), R.rnd (R.rnd (a.re * b.im) + R.rnd (a.im * b.re))⟩

theorem Rounding.two_products (R : Rounding) (x y : ℝ) (s : ℝ) (hs : s = 1 ∨ s = -1) :
    |R.rnd (R.rnd x + s * R.rnd y) - (x + s * y)| ≤ 5 / 2 ^ 54 * (|x| + |y|) + 4 * 2 ^ (-1074 : ℤ) := by
  have h1 := R.abs_error x
  have h2 := R.abs_error y
  have h3 := R.abs_error (R.rnd x + s * R.rnd y)
  have ht := two_zpow_pos (-1074)
  have hx := abs_nonneg x
  have hy := abs_nonneg y
  set t : ℝ := 2 ^ (-1074 : ℤ)
  have hsx : |R.rnd x + s * R.rnd y - (x + s * y)| ≤ 1 / 2 ^ 53 * (|x| + |y|) + 2 * t := by
    have e : R.rnd x + s * R.rnd y - (x + s * y) = (R.rnd x - x) + s * (R.rnd y - y) := by ring
    rw [e]
    refine (abs_add_le _ _).trans ?_
    rw [abs_mul, show |s| = 1 by rcases hs with rfl | rfl <;> simp, one_mul]
    linarith
  have hn : |R.rnd x + s * R.rnd y| ≤ (1 + 1 / 2 ^ 53) * (|x| + |y|) + 2 * t := by
    have e : R.rnd x + s * R.rnd y = (R.rnd x + s * R.rnd y - (x + s * y)) + (x + s * y) := by ring
    rw [e]
    refine (abs_add_le _ _).trans ?_
    have : |x + s * y| ≤ |x| + |y| := by
      refine (abs_add_le _ _).trans ?_
      rw [abs_mul, show |s| = 1 by rcases hs with rfl | rfl <;> simp, one_mul]
    linarith
  have e : R.rnd (R.rnd x + s * R.rnd y) - (x + s * y)
      = (R.rnd (R.rnd x + s * R.rnd y) - (R.rnd x + s * R.rnd y)) + (R.rnd x + s * R.rnd y - (x + s * y)) := by ring
  rw [e]
  refine (abs_add_le _ _).trans ?_
  norm_num at h3 hsx hn ⊢
  linarith

theorem Rounding.mulC_error (R : Rounding) (a b : ℂ) :
    ‖R.mulC a b - a * b‖ ≤ 1 / 2 ^ 50 * (‖a‖ * ‖b‖) + 2 ^ (-1071 : ℤ) := by
  refine (norm_le_abs_add _).trans ?_
  have h1 := R.two_products (a.re * b.re) (a.im * b.im) (-1) (.inr rfl)
  have h2 := R.two_products (a.re * b.im) (a.im * b.re) 1 (.inl rfl)
  rw [neg_one_mul, neg_one_mul, ← sub_eq_add_neg, ← sub_eq_add_neg] at h1
  rw [one_mul, one_mul] at h2
  simp only [Rounding.mulC, Complex.sub_re, Complex.sub_im, Complex.mul_re, Complex.mul_im]
  have e : (2 : ℝ) ^ (-1071 : ℤ) = 8 * 2 ^ (-1074 : ℤ) := by
    rw [show (-1071 : ℤ) = 3 + -1074 by norm_num, zpow_add₀ (by norm_num)]; norm_num
  rw [e]
  have h3 : (|a.re| + |a.im|) * (|b.re| + |b.im|) ≤ 2 * (‖a‖ * ‖b‖) := by
    have ha : |a.re| + |a.im| ≤ Real.sqrt 2 * ‖a‖ := abs_add_abs_le a
    have hb : |b.re| + |b.im| ≤ Real.sqrt 2 * ‖b‖ := abs_add_abs_le b
    calc (|a.re| + |a.im|) * (|b.re| + |b.im|) ≤ (Real.sqrt 2 * ‖a‖) * (Real.sqrt 2 * ‖b‖) :=
          mul_le_mul ha hb (by positivity) (by positivity)
      _ = (Real.sqrt 2 * Real.sqrt 2) * (‖a‖ * ‖b‖) := by ring
      _ = 2 * (‖a‖ * ‖b‖) := by rw [Real.mul_self_sqrt (by norm_num)]
  have h4 : |a.re * b.re| + |a.im * b.im| + (|a.re * b.im| + |a.im * b.re|) ≤ 2 * (‖a‖ * ‖b‖) := by
    refine le_trans (le_of_eq ?_) h3
    rw [abs_mul, abs_mul, abs_mul, abs_mul]; ring
  have h5 : 0 ≤ ‖a‖ * ‖b‖ := by positivity
  linarith

/-- The textbook operations. -/
noncomputable def textbookArith (R : Rounding) : ComplexArith where
  add a b := R.rndC (a + b)
  sub a b := R.rndC (a - b)
  mul := R.mulC
  div a x := R.rndC (a / x)
  pow a t := (List.replicate t a).foldl R.mulC 1
  abs a := R.rnd ‖a‖
  add_err a b := by
    have := R.rndC_error (a + b)
    have e : 2 * (2 : ℝ) ^ (-1074 : ℤ) ≤ 2 ^ (-1070 : ℤ) := by
      rw [show (-1070 : ℤ) = 4 + -1074 by norm_num, zpow_add₀ (by norm_num)]
      have := two_zpow_pos (-1074)
      norm_num
    have h2 := norm_nonneg (a + b)
    linarith
  sub_err a b := by
    have := R.rndC_error (a - b)
    have e : 2 * (2 : ℝ) ^ (-1074 : ℤ) ≤ 2 ^ (-1070 : ℤ) := by
      rw [show (-1070 : ℤ) = 4 + -1074 by norm_num, zpow_add₀ (by norm_num)]
      have := two_zpow_pos (-1074)
      norm_num
    have h2 := norm_nonneg (a - b)
    linarith
  mul_err a b := (R.mulC_error a b).trans (by
    have : (2 : ℝ) ^ (-1071 : ℤ) ≤ 2 ^ (-1070 : ℤ) := zpow_le_zpow_right₀ (by norm_num) (by norm_num)
    linarith)
  div_err a x _ := by
    have := R.rndC_error (a / x)
    have e : 2 * (2 : ℝ) ^ (-1074 : ℤ) ≤ 2 ^ (-1070 : ℤ) := by
      rw [show (-1070 : ℤ) = 4 + -1074 by norm_num, zpow_add₀ (by norm_num)]
      have := two_zpow_pos (-1074)
      norm_num
    have h2 := norm_nonneg (a / (x : ℂ))
    linarith
  pow_err a t := by
    have key : ∀ t : ℕ, ∀ c : ℂ, ∀ k : ℕ, ‖c - a ^ k‖ ≤ ((1 + 1 / 2 ^ 49) ^ k - 1) * max 1 ‖a‖ ^ k →
        ‖(List.replicate t a).foldl R.mulC c - a ^ (k + t)‖ ≤ ((1 + 1 / 2 ^ 49) ^ (k + t) - 1) * max 1 ‖a‖ ^ (k + t) := by
      intro t
      induction t with
      | zero => intro c k h; simpa using h
      | succ t ih =>
        intro c k h
        rw [List.replicate_succ, List.foldl_cons, show k + (t + 1) = (k + 1) + t by omega]
        refine ih _ (k + 1) ?_
        set M := max 1 ‖a‖ with hM
        have hM1 : 1 ≤ M := le_max_left _ _
        have hMa : ‖a‖ ≤ M := le_max_right _ _
        have hMk : 1 ≤ M ^ k := one_le_pow₀ hM1
        have hp : (1 : ℝ) ≤ (1 + 1 / 2 ^ 49) ^ k := one_le_pow₀ (by norm_num)
        have hak : ‖a ^ k‖ ≤ M ^ k := by rw [norm_pow]; exact pow_le_pow_left₀ (norm_nonneg a) hMa k
        have hc : ‖c‖ ≤ (1 + 1 / 2 ^ 49) ^ k * M ^ k := by
          calc ‖c‖ = ‖(c - a ^ k) + a ^ k‖ := by rw [sub_add_cancel]
            _ ≤ _ := norm_add_le _ _
            _ ≤ ((1 + 1 / 2 ^ 49) ^ k - 1) * M ^ k + M ^ k := add_le_add h hak
            _ = _ := by ring
        have h1 := R.mulC_error c a
        have e : R.mulC c a - a ^ (k + 1) = (R.mulC c a - c * a) + (c - a ^ k) * a := by rw [pow_succ]; ring
        rw [e]
        refine (norm_add_le _ _).trans ?_
        rw [norm_mul]
        have h2 : ‖c - a ^ k‖ * ‖a‖ ≤ ((1 + 1 / 2 ^ 49) ^ k - 1) * M ^ k * M :=
          mul_le_mul h hMa (norm_nonneg _) (mul_nonneg (by linarith) (by linarith))
        have h3 : ‖c‖ * ‖a‖ ≤ (1 + 1 / 2 ^ 49) ^ k * M ^ k * M :=
          mul_le_mul hc hMa (norm_nonneg _) (mul_nonneg (by linarith) (by linarith))
        have h4 : (2 : ℝ) ^ (-1071 : ℤ) ≤ 1 / 2 ^ 50 := by
          have : (2 : ℝ) ^ (-1071 : ℤ) ≤ 2 ^ (-50 : ℤ) := zpow_le_zpow_right₀ (by norm_num) (by norm_num)
          refine this.trans (le_of_eq ?_)
          rw [zpow_neg, one_div]; norm_cast
        have h5 : 1 ≤ (1 + 1 / 2 ^ 49) ^ k * M ^ k * M :=
          one_le_mul_of_one_le_of_one_le (one_le_mul_of_one_le_of_one_le hp hMk) hM1
        rw [pow_succ (1 + 1 / 2 ^ 49 : ℝ), pow_succ M]
        set P := (1 + 1 / 2 ^ 49 : ℝ) ^ k
        have : (P * (1 + 1 / 2 ^ 49) - 1) * (M ^ k * M) = (P - 1) * M ^ k * M + 1 / 2 ^ 49 * (P * M ^ k * M) := by ring
        rw [this]
        have h6 : (1 : ℝ) / 2 ^ 49 = 1 / 2 ^ 50 + 1 / 2 ^ 50 := by norm_num
        rw [h6]
        linarith
    have := key t 1 0 (by simp)
    simpa using this
  abs_nonneg a := R.nonneg (norm_nonneg a)
  abs_err a := by
    have := R.op_error ‖a‖
    rwa [Real.norm_eq_abs, Real.norm_eq_abs, abs_of_nonneg (norm_nonneg a)] at this

end Verif
