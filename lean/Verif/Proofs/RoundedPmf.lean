import Verif.Proofs.Rounded

/-! Helper lemmas: the pmfs of the generalized Clifford & Clifford sampler in floating-point arithmetic. -/
namespace Verif

open Finset

/-- The absolute error of a rounding near zero. -/
noncomputable def tiny : ℝ := 2 ^ (-1074 : ℤ)

theorem tiny_pos : 0 < tiny := two_zpow_pos _

namespace Near

variable {b b' c d x y z w : ℝ}

theorem symm (h : Near c b x y) : Near c b y x := ⟨h.2, h.1⟩

theorem mono (h : Near c b x y) (hc : 0 ≤ c) (hx : 0 ≤ x) (hy : 0 ≤ y) (hb : 0 ≤ b) (hcd : c ≤ d) (hbb : b ≤ b') :
    Near d b' x y :=
  ⟨h.1.trans (mul_le_mul hcd (by linarith) (by linarith) (hc.trans hcd)),
    h.2.trans (mul_le_mul hcd (by linarith) (by linarith) (hc.trans hcd))⟩

theorem trans_within (h : Near c b x y) (h' : Within d z x) (hc : 1 ≤ c) (hd : 1 ≤ d) (hb : 0 ≤ b)  :
    Near (c * d) b z y := by
  have hd0 : 0 ≤ d := by linarith
  have hc0 : 0 ≤ c := by linarith
  refine ⟨h'.1.trans ?_, h.2.trans ?_⟩
  · calc d * x ≤ d * (c * (y + b)) := mul_le_mul_of_nonneg_left h.1 hd0
      _ = _ := by ring
  · rw [mul_assoc]
    refine mul_le_mul_of_nonneg_left ?_ hc0
    nlinarith [h'.2]

theorem div (h : Near c b x y) (h' : Within d z w) (hc : 0 ≤ c) (hb : 0 ≤ b) (hx : 0 ≤ x)
    (hy : 0 ≤ y) (hz : 1 ≤ z) (hw : 1 ≤ w) : Near (c * d) b (x / z) (y / w) := by
  have h1 : ∀ {x y z w : ℝ}, x ≤ c * (y + b) → w ≤ d * z → 0 ≤ y → 1 ≤ z → 1 ≤ w → x / z ≤ c * d * (y / w + b) := by
    intro x y z w h1 h2 hy hz hw
    have hz0 : 0 < z := by linarith
    have hw0 : 0 < w := by linarith
    have hd : 0 < d := by
      by_contra hcon
      push Not at hcon
      nlinarith
    rw [div_le_iff₀ hz0]
    have e : c * d * (y / w + b) * z = c * ((y + b * w) * (d * z / w)) := by field_simp
    rw [e]
    refine h1.trans (mul_le_mul_of_nonneg_left ?_ hc)
    have h3 : 1 ≤ d * z / w := by rw [le_div_iff₀ hw0]; linarith
    have h4 : b ≤ b * w := by nlinarith
    have h5 : 0 ≤ y + b * w := by nlinarith
    nlinarith
  exact ⟨h1 h.1 h'.2 hy hz hw, h1 h.2 h'.1 hx hw hz⟩

theorem mul (h : Near c b x y) (h' : Within d z w) (hc : 0 ≤ c) (hd : 1 ≤ d) (hb : 0 ≤ b) (hx : 0 ≤ x) (hy : 0 ≤ y)
    (hz : 0 ≤ z) (hw : 0 ≤ w) (hw1 : w ≤ 1) : Near (c * d) b (x * z) (y * w) := by
  constructor
  · calc x * z ≤ c * (y + b) * (d * w) := mul_le_mul h.1 h'.1 hz (by positivity)
      _ = c * d * (y * w + b * w) := by ring
      _ ≤ _ := by
        refine mul_le_mul_of_nonneg_left ?_ (by positivity)
        nlinarith
  · calc y * w ≤ c * (x + b) * w := mul_le_mul_of_nonneg_right h.2 hw
      _ = c * (x * w + b * w) := by ring
      _ ≤ c * (d * (x * z + b)) := by
        refine mul_le_mul_of_nonneg_left ?_ hc
        have h1 : x * w ≤ x * (d * z) := mul_le_mul_of_nonneg_left h'.2 hx
        have h2 : b * w ≤ d * b := by nlinarith
        linarith
      _ = _ := by ring

theorem list_sum {α : Type} {f g : α → ℝ} (l : List α) (h : ∀ a ∈ l, Near c b (f a) (g a)) :
    Near c (l.length * b) (l.map f).sum (l.map g).sum := by
  induction l with
  | nil => simp [Near]
  | cons a l ih =>
    have h1 := h a (by simp)
    have h2 := ih fun b hb => h b (by simp [hb])
    simp only [List.map_cons, List.sum_cons, List.length_cons]
    push_cast
    exact ⟨by linarith [h1.1, h2.1], by linarith [h1.2, h2.2]⟩

/-- The difference of two numbers that nearly agree. -/
theorem close (h : Near c b x y) (hc : 1 ≤ c) (hy : 0 ≤ y) (hb : 0 ≤ b) : |x - y| ≤ (c - 1) * y + c * b := by
  rw [abs_le]
  constructor
  · have h1 := h.2
    have h2 : y ≤ c * (x + b) := h1
    -- `x ≥ y / c - b ≥ y - (c - 1) y - c b`
    by_contra hcon
    push Not at hcon
    have h3 : c * (x - y) < c * -((c - 1) * y + c * b) := mul_lt_mul_of_pos_left hcon (by linarith)
    nlinarith [mul_nonneg (by linarith : 0 ≤ c - 1) hy, mul_nonneg (by linarith : 0 ≤ c - 1) hb,
      mul_nonneg (mul_nonneg (by linarith : 0 ≤ c - 1) hy) (by linarith : 0 ≤ c - 1)]
  · linarith [h.1]

end Near

namespace Rounding

variable (R : Rounding)

theorem near {x : ℝ} (hx : 0 ≤ x) : Near rho tiny (R.rnd x) x := by
  by_cases h : (2 : ℝ) ^ (-1022 : ℤ) ≤ x
  · have h1 := R.within (.inr h)
    have := tiny_pos
    have := one_lt_rho
    exact ⟨h1.1.trans (by nlinarith), h1.2.trans (by nlinarith)⟩
  · push Not at h
    have hk := Int.floor_le (x / tiny)
    have hk' := Int.lt_floor_add_one (x / tiny)
    rw [le_div_iff₀ tiny_pos] at hk
    rw [div_lt_iff₀ tiny_pos] at hk'
    have hf : IsFloat ((⌊x / tiny⌋ : ℝ) * tiny) := by
      refine isFloat_of_small (k := ⌊x / tiny⌋) rfl ?_
      have h0 : 0 ≤ (⌊x / tiny⌋ : ℝ) * tiny := by
        have : (0 : ℤ) ≤ ⌊x / tiny⌋ := Int.floor_nonneg.mpr (div_nonneg hx tiny_pos.le)
        have : (0 : ℝ) ≤ (⌊x / tiny⌋ : ℝ) := by exact_mod_cast this
        exact mul_nonneg this tiny_pos.le
      rw [abs_of_nonneg h0]
      have : (2 : ℝ) ^ (-1022 : ℤ) < 2 ^ (-1021 : ℤ) := by
        rw [zpow_lt_zpow_iff_right₀ (by norm_num)]; norm_num
      linarith
    have hn := (R.nearest x).2 _ hf
    have h1 : |x - (⌊x / tiny⌋ : ℝ) * tiny| ≤ tiny := by
      rw [abs_of_nonneg (by linarith)]
      have : ((⌊x / tiny⌋ : ℝ) + 1) * tiny = (⌊x / tiny⌋ : ℝ) * tiny + tiny := by ring
      linarith
    obtain ⟨h2, h3⟩ := abs_le.mp (hn.trans h1)
    have h4 := R.nonneg hx
    have h5 := one_lt_rho
    have h6 := tiny_pos
    exact ⟨by nlinarith, by nlinarith⟩

end Rounding

variable (R : Rounding)

theorem Near.rnd {c b x y : ℝ} (h : Near c b x y) (hc : 1 ≤ c) (hx : 0 ≤ x)  (hb : 0 ≤ b) :
    Near (c * rho) (b + tiny) (R.rnd x) y := by
  have h1 := R.near hx
  have h2 := one_lt_rho
  have h3 := tiny_pos
  have hc0 : 0 ≤ c := by linarith
  constructor
  · calc R.rnd x ≤ rho * (x + tiny) := h1.1
      _ ≤ rho * (c * (y + b) + c * tiny) := mul_le_mul_of_nonneg_left (by nlinarith [h.1]) rho_nonneg
      _ = _ := by ring
  · calc y ≤ c * (x + b) := h.2
      _ ≤ c * (rho * (R.rnd x + tiny) + rho * b) := mul_le_mul_of_nonneg_left (by nlinarith [h1.2]) hc0
      _ = _ := by ring

theorem isFloat_one : IsFloat 1 := ⟨1, 0, by norm_num, by norm_num, by norm_num⟩

theorem rnd_nat_ge {n : ℕ} (hn : 0 < n) : 1 ≤ R.rnd n :=
  R.ge_of_ge isFloat_one (by exact_mod_cast hn)

theorem rnd_nat_within {n : ℕ} (hn : 0 < n) : Within rho (R.rnd n) n := by
  refine R.within (.inr ?_)
  have h1 : (1 : ℝ) ≤ n := by exact_mod_cast hn
  have h2 : (2 : ℝ) ^ (-1022 : ℤ) ≤ 1 := zpow_le_one_of_nonpos₀ (by norm_num) (by norm_num)
  linarith

/-! ### The probability of one pair of states -/

theorem foldDiv_near (l : List ℕ) (x y c b : ℝ) (h : Near c b x y) (hc : 1 ≤ c) (hx : 0 ≤ x) (hy : 0 ≤ y) (hb : 0 ≤ b) :
    Near (c * rho ^ (2 * l.length)) (b + l.length * tiny)
        (l.foldl (fun (p : ℝ) o => R.rnd (p / R.rnd o.factorial)) x)
        (l.foldl (fun (p : ℝ) o => p / (o.factorial : ℝ)) y) ∧
      0 ≤ l.foldl (fun (p : ℝ) o => R.rnd (p / R.rnd o.factorial)) x ∧
      0 ≤ l.foldl (fun (p : ℝ) o => p / (o.factorial : ℝ)) y := by
  induction l generalizing x y c b with
  | nil => simpa using ⟨h, hx, hy⟩
  | cons o l ih =>
    have hr := one_lt_rho
    have ho := Nat.factorial_pos o
    have h1 := h.div (rnd_nat_within R ho) (by linarith) hb hx hy (rnd_nat_ge R ho) (by exact_mod_cast ho)
    have hx' : 0 ≤ x / R.rnd o.factorial := div_nonneg hx (by linarith [rnd_nat_ge R ho])
    have hcr : 1 ≤ c * rho := by nlinarith
    have h2 := h1.rnd R hcr hx' hb
    have h3 := ih _ _ _ _ h2 (by nlinarith) (R.nonneg hx') (div_nonneg hy (by positivity)) (by linarith [tiny_pos])
    simp only [List.foldl_cons]
    refine ⟨?_, h3.2⟩
    have e1 : c * rho ^ (2 * (o :: l).length) = c * rho * rho * rho ^ (2 * l.length) := by
      rw [List.length_cons]; ring
    have e2 : b + ((o :: l).length : ℝ) * tiny = b + tiny + l.length * tiny := by
      rw [List.length_cons]; push_cast; ring
    rw [e1, e2]
    exact h3.1

/-- What the rounded calculator delivers for the states below `S`: nonnegative floats that agree
with the exact values up to the factor `c` and the absolute error `a`. -/
def SqNear (sq : CalcCfg ℂ → Py ℝ) (U : List (List ℂ)) (S : List ℕ) (c a : ℝ) : Prop :=
  ∀ l T, StateLE l S → T.length = S.length → l.sum = T.sum →
    ∃ x, sq ⟨U, l, T⟩ = .ok x ∧ 0 ≤ x ∧ Near c a x (Complex.normSq (scatteringPermanent U l T))

/-! ### Weights -/

theorem foldMul_within (l : List (ℕ × ℕ)) (hl : ∀ e ∈ l, 0 < e.1.choose e.2) (x y c : ℝ) (h : Within c x y)
    (hc : 1 ≤ c) (hx : (2 : ℝ) ^ (-200 : ℤ) ≤ x) (hy : 0 ≤ y) :
    Within (c * rho ^ (2 * l.length))
        (l.foldl (fun (w : ℝ) e => R.rnd (w * R.rnd (e.1.choose e.2))) x)
        (l.foldl (fun (w : ℝ) e => w * ((e.1.choose e.2 : ℕ) : ℝ)) y) ∧
      (2 : ℝ) ^ (-200 : ℤ) ≤ l.foldl (fun (w : ℝ) e => R.rnd (w * R.rnd (e.1.choose e.2))) x := by
  induction l generalizing x y c with
  | nil => simpa using ⟨h, hx⟩
  | cons e l ih =>
    have hr := one_lt_rho
    have he := hl e (by simp)
    have hge := rnd_nat_ge R he
    have hx0 : 0 < x := lt_of_lt_of_le (two_zpow_pos _) hx
    have h1 := h.mul (rnd_nat_within R he) (by linarith) hx0.le hy (by linarith) (Nat.cast_nonneg _)
    have hge2 : (2 : ℝ) ^ (-200 : ℤ) ≤ x * R.rnd (e.1.choose e.2) := by nlinarith
    have hf : IsFloat ((2 : ℝ) ^ (-200 : ℤ)) := ⟨1, -200, by norm_num, by norm_num, by norm_num⟩
    have h2 := (R.within (x := x * R.rnd (e.1.choose e.2)) (.inr (hge2.trans' (by
      rw [zpow_le_zpow_iff_right₀ (by norm_num)]; norm_num)))).trans h1 (by linarith) (by nlinarith)
    have h3 := ih (fun e he => hl e (by simp [he])) _ _ _ h2 (by nlinarith [mul_nonneg (by linarith : 0 ≤ c - 1) (by linarith : 0 ≤ rho - 1)])
      (R.ge_of_ge hf hge2) (mul_nonneg hy (Nat.cast_nonneg _))
    simp only [List.foldl_cons]
    refine ⟨?_, h3.2⟩
    have e1 : c * rho ^ (2 * (e :: l).length) = rho * (c * rho) * rho ^ (2 * l.length) := by
      rw [List.length_cons]; ring
    rw [e1]
    exact h3.1

/-- The weight of a state before normalisation. -/
noncomputable def rawWeightR (S l : List ℕ) : ℝ :=
  (List.zip S (List.zipWith (· - ·) S l)).foldl (fun (w : ℝ) e => R.rnd (w * R.rnd (e.1.choose e.2)))
    (R.rnd (((List.zipWith (· - ·) S l).sum.factorial : ℝ)
      * ((S.sum - (List.zipWith (· - ·) S l).sum).factorial : ℝ) / (S.sum.factorial : ℝ)))

theorem calculateWeightR_ok (S k : List ℕ) (hlen : k.length = S.length) (hk : k.sum ≤ S.sum) :
    calculateWeightR R S k = .ok ((List.zip S k).foldl (fun (w : ℝ) e => R.rnd (w * R.rnd (e.1.choose e.2)))
      (R.rnd ((k.sum.factorial : ℝ) * ((S.sum - k.sum).factorial : ℝ) / (S.sum.factorial : ℝ)))) := by
  unfold calculateWeightR
  simp only
  rw [if_neg (by omega)]
  rw [foldlM_ok _ (fun w m => R.rnd (w * R.rnd (((S.getD m 0).choose (k.getD m 0) : ℕ) : ℝ)))]
  · congr 1
    have : List.zip S k = (List.range S.length).map fun m => (S.getD m 0, k.getD m 0) := by
      apply List.ext_getElem
      · simp [hlen]
      · intro i h1 h2
        have hi : i < S.length := by simp at h2; exact h2
        have hi' : i < k.length := by rw [hlen]; exact hi
        simp [hi, hi']
    rw [this, List.foldl_map]
  · intro w m hm
    have hm : m < S.length := List.mem_range.mp hm
    have hm' : m < k.length := by rw [hlen]; exact hm
    rw [pyGetN_ok hm, ok_bind, pyGetN_ok hm', ok_bind, getD_of_lt _ _ hm, getD_of_lt _ _ hm']
    rfl

theorem foldl_rnd_float {α : Type} (f : ℝ → α → ℝ) (l : List α) (x : ℝ) (hx : IsFloat x) :
    IsFloat (l.foldl (fun w e => R.rnd (f w e)) x) := by
  induction l generalizing x with
  | nil => exact hx
  | cons a l ih => exact ih _ (R.isFloat _)

theorem choose_zip_pos (S l : List ℕ) : ∀ e ∈ List.zip S (List.zipWith (· - ·) S l), 0 < e.1.choose e.2 := by
  induction S generalizing l with
  | nil => simp
  | cons s S ih =>
    cases l with
    | nil => simp
    | cons a l =>
      simp only [List.zipWith_cons_cons, List.zip_cons_cons]
      intro e he
      rcases List.mem_cons.mp he with rfl | he
      · exact Nat.choose_pos (Nat.sub_le s a)
      · exact ih l e he

theorem rawWeightR_within (S : List ℕ) (hn : S.sum ≤ 200) (k : ℕ) (hk : k ≤ S.sum) (l : List ℕ) (hl : l ∈ subStates S k) :
    Within (rho ^ (2 * S.length + 1)) (rawWeightR R S l)
        (((List.zipWith Nat.choose S l).prod : ℝ) / (S.sum.choose k : ℝ)) ∧
      (2 : ℝ) ^ (-200 : ℤ) ≤ rawWeightR R S l ∧ IsFloat (rawWeightR R S l) := by
  obtain ⟨h1, h2⟩ := (mem_subStates S k l).mp hl
  have h3 := (kVector_sum S l h1).1
  rw [h2] at h3
  have hf : IsFloat ((2 : ℝ) ^ (-200 : ℤ)) := ⟨1, -200, by norm_num, by norm_num, by norm_num⟩
  set y : ℝ := ((S.sum - k).factorial : ℝ) * (k.factorial : ℝ) / (S.sum.factorial : ℝ) with hy
  have hyc : y = 1 / (S.sum.choose k : ℝ) := by
    rw [hy, Nat.cast_choose ℝ hk]
    have := Nat.factorial_pos S.sum
    have := Nat.factorial_pos k
    have := Nat.factorial_pos (S.sum - k)
    field_simp
  have hcpos : (0 : ℝ) < (S.sum.choose k : ℝ) := by exact_mod_cast Nat.choose_pos hk
  have hy200 : (2 : ℝ) ^ (-200 : ℤ) ≤ y := by
    rw [hyc, le_div_iff₀ hcpos]
    have h4 : (S.sum.choose k : ℝ) ≤ 2 ^ (200 : ℤ) := by
      have h5 : S.sum.choose k ≤ 2 ^ 200 := by
        calc S.sum.choose k ≤ 2 ^ S.sum := Nat.choose_le_two_pow _ _
          _ ≤ 2 ^ 200 := Nat.pow_le_pow_right (by norm_num) hn
      have h6 : ((S.sum.choose k : ℕ) : ℝ) ≤ ((2 ^ 200 : ℕ) : ℝ) := Nat.cast_le.mpr h5
      rw [Nat.cast_pow, ← zpow_natCast] at h6
      exact h6
    calc (2 : ℝ) ^ (-200 : ℤ) * (S.sum.choose k : ℝ) ≤ 2 ^ (-200 : ℤ) * 2 ^ (200 : ℤ) :=
          mul_le_mul_of_nonneg_left h4 (two_zpow_pos _).le
      _ = 1 := by rw [← zpow_add₀ (by norm_num)]; norm_num
  have hy0 : 0 ≤ y := (two_zpow_pos _).le.trans hy200
  have hstart : Within rho (R.rnd y) y := R.within (.inr (hy200.trans' (by
      rw [zpow_le_zpow_iff_right₀ (by norm_num)]; norm_num)))
  have hm := foldMul_within R (List.zip S (List.zipWith (· - ·) S l)) (choose_zip_pos S l) _ _ _ hstart one_lt_rho.le
    (R.ge_of_ge hf hy200) hy0
  have hlen : (List.zip S (List.zipWith (· - ·) S l)).length = S.length := by simp [h1.length_eq]
  have e : rawWeightR R S l = (List.zip S (List.zipWith (· - ·) S l)).foldl
      (fun (w : ℝ) e => R.rnd (w * R.rnd (e.1.choose e.2))) (R.rnd y) := by
    unfold rawWeightR
    rw [h3, Nat.sub_sub_self hk]
  rw [foldl_mul_zip, choose_kVector S l h1, hlen] at hm
  refine ⟨?_, ?_, ?_⟩
  · rw [e]
    have := hm.1
    rw [← pow_succ'] at this
    have e3 : ((List.zipWith Nat.choose S l).prod : ℝ) / (S.sum.choose k : ℝ)
        = y * ((List.zipWith Nat.choose S l).prod : ℕ) := by
      rw [hyc]; ring
    rw [e3]
    exact this
  · rw [e]; exact hm.2
  · rw [e]; exact foldl_rnd_float R (fun (w : ℝ) (e : ℕ × ℕ) => w * R.rnd (e.1.choose e.2)) _ _ (R.isFloat _)

/-- The normalised weight. -/
noncomputable def weightR (S : List ℕ) (k : ℕ) (l : List ℕ) : ℝ :=
  R.rnd (rawWeightR R S l / sumR R ((subStates S k).map (rawWeightR R S)))

theorem sum_weights (S : List ℕ) (k : ℕ) (hk : k ≤ S.sum) :
    ((subStates S k).map fun l => ((List.zipWith Nat.choose S l).prod : ℝ) / (S.sum.choose k : ℝ)).sum = 1 := by
  have hc : (S.sum.choose k : ℝ) ≠ 0 := by exact_mod_cast (Nat.choose_pos hk).ne'
  simp only [div_eq_mul_inv]
  rw [List.sum_map_mul_right, sum_choose_subStates, mul_inv_cancel₀ hc]

theorem rawSum_within (S : List ℕ) (hn : S.sum ≤ 200) (k : ℕ) (hk : k ≤ S.sum) :
    Within (rho ^ (2 * S.length + 1 + (subStates S k).length)) (sumR R ((subStates S k).map (rawWeightR R S))) 1 := by
  have h1 : Weights ((subStates S k).map (rawWeightR R S)) := by
    intro x hx
    obtain ⟨l, hl, rfl⟩ := List.mem_map.mp hx
    have := rawWeightR_within R S hn k hk l hl
    exact ⟨this.2.2, (two_zpow_pos _).le.trans this.2.1⟩
  have h2 := sumR_within R h1
  have h3 := Within.list_sum (subStates S k) fun l hl => (rawWeightR_within R S hn k hk l hl).1
  rw [sum_weights S k hk] at h3
  rw [List.length_map] at h2
  have := h2.trans h3 (pow_nonneg rho_nonneg _) (pow_nonneg rho_nonneg _)
  rwa [← pow_add, add_comm] at this

theorem layerWeightsR_ok (S : List ℕ) (hn : S.sum ≤ 200) (k : ℕ) (hk : k ≤ S.sum) :
    layerWeightsR R S (subStates S k) = .ok ((subStates S k).map (weightR R S k)) := by
  unfold layerWeightsR
  rw [mapM_ok _ (fun l => List.zipWith (· - ·) S l) _ (fun l hl => kVector_ok S l ((mem_subStates S k l).mp hl).1),
    ok_bind]
  have hw : ((subStates S k).map fun l => List.zipWith (· - ·) S l).mapM (calculateWeightR R S)
      = .ok ((subStates S k).map (rawWeightR R S)) := by
    have : (subStates S k).map (rawWeightR R S)
        = ((subStates S k).map fun l => List.zipWith (· - ·) S l).map fun v =>
          (List.zip S v).foldl (fun (w : ℝ) e => R.rnd (w * R.rnd (e.1.choose e.2)))
            (R.rnd ((v.sum.factorial : ℝ) * ((S.sum - v.sum).factorial : ℝ) / (S.sum.factorial : ℝ))) := by
      rw [List.map_map]; rfl
    rw [this]
    refine mapM_ok _ _ _ fun v hv => ?_
    obtain ⟨l, hl, rfl⟩ := List.mem_map.mp hv
    obtain ⟨h1, h2⟩ := (mem_subStates S k l).mp hl
    have h3 := kVector_sum S l h1
    exact calculateWeightR_ok R S _ (by simp [h1.length_eq]) (by omega)
  rw [hw, ok_bind]
  have hsum := rawSum_within R S hn k hk
  have hpos : sumR R ((subStates S k).map (rawWeightR R S)) ≠ 0 := by
    intro h
    rw [h] at hsum
    have := hsum.2
    linarith
  have hne : (subStates S k).map (rawWeightR R S) ≠ [] := by
    intro h
    rw [h] at hpos
    exact hpos rfl
  rw [if_neg hne]
  rw [mapM_ok _ (fun w => R.rnd (w / sumR R ((subStates S k).map (rawWeightR R S))))]
  · rw [List.map_map]; rfl
  · intro w _
    rw [if_neg hpos]

theorem weightR_within (S : List ℕ) (hn : S.sum ≤ 200) (k : ℕ) (hk : k ≤ S.sum)
    (h2 : rho ^ (2 * S.length + 1 + (subStates S k).length) ≤ 2) (l : List ℕ) (hl : l ∈ subStates S k) :
    Within (rho ^ (4 * S.length + 3 + (subStates S k).length)) (weightR R S k l)
        (((List.zipWith Nat.choose S l).prod : ℝ) / (S.sum.choose k : ℝ)) ∧ 0 ≤ weightR R S k l := by
  obtain ⟨h3, h4, h5⟩ := rawWeightR_within R S hn k hk l hl
  have hs := rawSum_within R S hn k hk
  have hr0 : 0 < rawWeightR R S l := lt_of_lt_of_le (two_zpow_pos _) h4
  have hs0 : 0 < sumR R ((subStates S k).map (rawWeightR R S)) := by
    have := hs.2
    by_contra hcon
    push Not at hcon
    have := mul_nonpos_of_nonneg_of_nonpos (pow_nonneg rho_nonneg (2 * S.length + 1 + (subStates S k).length)) hcon
    linarith [hs.2]
  have hs2 : sumR R ((subStates S k).map (rawWeightR R S)) ≤ 2 := by linarith [hs.1]
  have hq0 : 0 ≤ ((List.zipWith Nat.choose S l).prod : ℝ) / (S.sum.choose k : ℝ) := by positivity
  have hd := h3.div hs (pow_nonneg rho_nonneg _) hr0.le hq0 hs0 one_pos
  rw [div_one, ← pow_add] at hd
  have hge : (2 : ℝ) ^ (-1022 : ℤ) ≤ rawWeightR R S l / sumR R ((subStates S k).map (rawWeightR R S)) := by
    rw [le_div_iff₀ hs0]
    have e : (2 : ℝ) ^ (-1022 : ℤ) * 2 = 2 ^ (-1021 : ℤ) := by
      rw [← zpow_add_one₀ (by norm_num)]; norm_num
    have e2 : (2 : ℝ) ^ (-1021 : ℤ) ≤ 2 ^ (-200 : ℤ) := by
      rw [zpow_le_zpow_iff_right₀ (by norm_num)]; norm_num
    have := mul_le_mul_of_nonneg_left hs2 (two_zpow_pos (-1022)).le
    linarith
  have h6 := (R.within (.inr hge)).trans hd rho_nonneg (pow_nonneg rho_nonneg _)
  rw [← pow_succ'] at h6
  refine ⟨?_, R.nonneg (by positivity)⟩
  have e : 2 * S.length + 1 + (2 * S.length + 1 + (subStates S k).length) + 1
      = 4 * S.length + 3 + (subStates S k).length := by ring
  rw [← e]
  exact h6

/-! ### Entries of the pmf -/

/-- One entry of the pmf is a nonnegative float close to the exact entry. -/
theorem pmfEntryR_near {sq : CalcCfg ℂ → Py ℝ} {U : List (List ℂ)} {S : List ℕ} {c a : ℝ} (hsq : SqNear sq U S c a)
    (hc : 1 ≤ c) (ha : 0 ≤ a) (hn : S.sum ≤ 200) (k : ℕ) (hk : k ≤ S.sum)
    (h2 : rho ^ (2 * S.length + 1 + (subStates S k).length) ≤ 2) (T : List ℕ) (hT : T.length = S.length)
    (hs : T.sum = k) :
    ∃ x, pmfEntryR R sq U (subStates S k) ((subStates S k).map (weightR R S k)) T = .ok x ∧ IsFloat x ∧ 0 ≤ x ∧
      Near (c * rho ^ (6 * S.length + 6 + 2 * (subStates S k).length))
        ((subStates S k).length * (a + (S.length + 2) * tiny)) x (seqProb (colOf U) S k (particles T)) := by
  classical
  -- the values delivered by the calculator
  set X : List ℕ → ℝ := fun l => match sq ⟨U, l, T⟩ with | .ok x => x | .error _ => 0 with hX
  have hXok : ∀ l ∈ subStates S k, sq ⟨U, l, T⟩ = .ok (X l) ∧ 0 ≤ X l
      ∧ Near c a (X l) (Complex.normSq (scatteringPermanent U l T)) := by
    intro l hl
    obtain ⟨h3, h4⟩ := (mem_subStates S k l).mp hl
    obtain ⟨x, hx1, hx2, hx3⟩ := hsq l T h3 hT (h4.trans hs.symm)
    have : X l = x := by rw [hX]; simp only [hx1]
    rw [this]
    exact ⟨hx1, hx2, hx3⟩
  set t : List ℕ → ℝ := fun l => R.rnd (R.rnd (l.foldl (fun (p : ℝ) o => R.rnd (p / R.rnd o.factorial)) (X l)
    / R.rnd k.factorial) * weightR R S k l) with ht
  set y : List ℕ → ℝ := fun l => l.foldl (fun (p : ℝ) o => p / (o.factorial : ℝ))
    (Complex.normSq (scatteringPermanent U l T)) / (k.factorial : ℝ)
      * (((List.zipWith Nat.choose S l).prod : ℝ) / (S.sum.choose k : ℝ)) with hy
  have hr := one_lt_rho
  have hterm : ∀ l ∈ subStates S k, Near (c * rho ^ (6 * S.length + 6 + (subStates S k).length))
      (a + (S.length + 2) * tiny) (t l) (y l) ∧ 0 ≤ t l := by
    intro l hl
    obtain ⟨hx1, hx2, hx3⟩ := hXok l hl
    have hlen : l.length = S.length := ((mem_subStates S k l).mp hl).1.length_eq
    obtain ⟨n1, n2, n3⟩ := foldDiv_near R l _ _ _ _ hx3 hc hx2 (Complex.normSq_nonneg _) ha
    have hk0 := Nat.factorial_pos k
    have hb1 : 0 ≤ a + l.length * tiny := by have := tiny_pos; positivity
    have hc1 : 1 ≤ c * rho ^ (2 * l.length) := by nlinarith [one_le_rho_pow (2 * l.length)]
    have n4 := n1.div (rnd_nat_within R hk0) (by linarith) hb1 n2 n3 (rnd_nat_ge R hk0) (by exact_mod_cast hk0)
    have hq0 : 0 ≤ l.foldl (fun (p : ℝ) o => R.rnd (p / R.rnd o.factorial)) (X l) / R.rnd k.factorial :=
      div_nonneg n2 (by linarith [rnd_nat_ge R hk0])
    have n5 := n4.rnd R (by nlinarith) hq0 hb1
    obtain ⟨w1, w2⟩ := weightR_within R S hn k hk h2 l hl
    have hwle : ((List.zipWith Nat.choose S l).prod : ℝ) / (S.sum.choose k : ℝ) ≤ 1 := by
      rw [← sum_weights S k hk]
      refine List.single_le_sum ?_ _ (List.mem_map.mpr ⟨l, hl, rfl⟩)
      intro x hx
      obtain ⟨l', -, rfl⟩ := List.mem_map.mp hx
      positivity
    have hb2 : 0 ≤ a + l.length * tiny + tiny := by have := tiny_pos; positivity
    have hc2 : 0 ≤ c * rho ^ (2 * l.length) * rho * rho := by positivity
    have n6 := n5.mul w1 hc2 (one_le_rho_pow _) hb2 (R.nonneg hq0) (div_nonneg n3 (by positivity)) w2 (by positivity) hwle
    have hp0 : 0 ≤ R.rnd (l.foldl (fun (p : ℝ) o => R.rnd (p / R.rnd o.factorial)) (X l) / R.rnd k.factorial)
        * weightR R S k l := mul_nonneg (R.nonneg hq0) w2
    have hc3 : 1 ≤ c * rho ^ (2 * l.length) * rho * rho * rho ^ (4 * S.length + 3 + (subStates S k).length) := by
      have : c * rho ^ (2 * l.length) * rho * rho * rho ^ (4 * S.length + 3 + (subStates S k).length)
          = c * rho ^ (2 * l.length + 2 + (4 * S.length + 3 + (subStates S k).length)) := by ring
      rw [this]
      nlinarith [one_le_rho_pow (2 * l.length + 2 + (4 * S.length + 3 + (subStates S k).length))]
    have n7 := n6.rnd R hc3 hp0 hb2
    have e1 : c * rho ^ (2 * l.length) * rho * rho * rho ^ (4 * S.length + 3 + (subStates S k).length) * rho
        = c * rho ^ (6 * S.length + 6 + (subStates S k).length) := by rw [hlen]; ring
    have e2 : a + l.length * tiny + tiny + tiny = a + (S.length + 2) * tiny := by rw [hlen]; ring
    rw [e1, e2] at n7
    exact ⟨n7, R.nonneg hp0⟩
  refine ⟨sumR R ((subStates S k).map t), ?_, sumR_float R _, ?_, ?_⟩
  · unfold pmfEntryR
    rw [foldlM_ok _ (fun acc i => R.rnd (acc + t ((subStates S k).getD i [])))]
    · congr 1
      unfold sumR
      have : (subStates S k) = (List.range (subStates S k).length).map fun i => (subStates S k).getD i [] := by
        apply List.ext_getElem
        · simp
        · intro i h1 h2
          simp [h1]
      conv_rhs => rw [this]
      rw [List.map_map, List.foldl_map]
      rfl
    · intro acc i hi
      have hi : i < (subStates S k).length := List.mem_range.mp hi
      have hmem := List.getElem_mem hi
      obtain ⟨h3, h4⟩ := (mem_subStates S k _).mp hmem
      rw [pyGetN_ok hi, ok_bind]
      unfold outputsProbabilityR
      rw [(hXok _ hmem).1, ok_bind, pure_eq_ok, ok_bind, pyGetN_ok (by simpa using hi), ok_bind]
      simp only [List.getElem_map, getD_of_lt _ _ hi, pure_eq_ok]
      rw [ht, h4]
  · refine sumR_nonneg R ?_
    intro x hx
    obtain ⟨l, hl, rfl⟩ := List.mem_map.mp hx
    exact ⟨R.isFloat _, (hterm l hl).2⟩
  · have hW : Weights ((subStates S k).map t) := by
      intro x hx
      obtain ⟨l, hl, rfl⟩ := List.mem_map.mp hx
      exact ⟨R.isFloat _, (hterm l hl).2⟩
    have s1 := sumR_within R hW
    rw [List.length_map] at s1
    have s2 := Near.list_sum (subStates S k) fun l hl => (hterm l hl).1
    have hcc : 1 ≤ c * rho ^ (6 * S.length + 6 + (subStates S k).length) := by
      nlinarith [one_le_rho_pow (6 * S.length + 6 + (subStates S k).length)]
    have s3 := s2.trans_within s1 hcc (one_le_rho_pow _) (by have := tiny_pos; positivity)
    have e : c * rho ^ (6 * S.length + 6 + (subStates S k).length) * rho ^ (subStates S k).length
        = c * rho ^ (6 * S.length + 6 + 2 * (subStates S k).length) := by ring
    rw [e] at s3
    -- the exact entry
    have hex : ((subStates S k).map y).sum = seqProb (colOf U) S k (particles T) := by
      have hp : PermOn (fun x : CalcCfg ℂ => .ok (scatteringPermanent x.matrix x.input x.output)) U S := fun l T _ _ _ => rfl
      have h1 := pmfEntry_ok hp k T hT hs
      have h3 : pmfEntry (fun x : CalcCfg ℂ => .ok (scatteringPermanent x.matrix x.input x.output)) U (subStates S k)
          ((subStates S k).map fun l => ((List.zipWith Nat.choose S l).prod : ℝ) / (S.sum.choose k : ℝ)) T
          = .ok ((subStates S k).map y).sum := by
        unfold pmfEntry
        rw [foldlM_ok _ (fun acc i => acc + y ((subStates S k).getD i []))]
        · congr 1
          rw [foldl_add_sum, zero_add]
          congr 1
          apply List.ext_getElem
          · simp
          · intro i h1 h2
            have hi : i < (subStates S k).length := by simpa using h1
            simp [hi]
        · intro acc i hi
          have hi : i < (subStates S k).length := List.mem_range.mp hi
          obtain ⟨h3, h4⟩ := (mem_subStates S k _).mp (List.getElem_mem hi)
          rw [pyGetN_ok hi, ok_bind]
          unfold outputsProbability
          rw [ok_bind, pure_eq_ok, ok_bind, pyGetN_ok (by simpa using hi), ok_bind]
          simp only [List.getElem_map, getD_of_lt _ _ hi, pure_eq_ok]
          rw [hy, h4]
      rw [h3] at h1
      injection h1
    rw [hex] at s3
    exact s3

end Verif
