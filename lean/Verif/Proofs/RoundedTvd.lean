import Verif.Model.RoundedTvd
import Verif.Proofs.RoundedLoss
import Verif.Proofs.QuantumUtilities

/-! Helper lemmas: total variation distances in floating-point arithmetic. -/
namespace Verif

variable (R : Rounding)

theorem countTvdR_ok (d1 d2 : List ℝ) (h : d1.length = d2.length) :
    countTvdR R d1 d2 = .ok (R.rnd (sumR R (List.zipWith (fun a b => |R.rnd (a - b)|) d1 d2) / 2)) := by
  unfold countTvdR
  rw [if_neg (not_not.mpr h)]
  have key : ∀ (n : ℕ) (hn : n ≤ d1.length),
      (List.range n).foldlM (fun (acc : ℝ) i => (do
        let a ← pyGetN d1 i
        let b ← pyGetN d2 i
        pure (R.rnd (acc + |R.rnd (a - b)|)) : Py ℝ)) 0
      = .ok (sumR R ((List.zipWith (fun a b => |R.rnd (a - b)|) d1 d2).take n)) := by
    intro n
    induction n with
    | zero => intro _; rfl
    | succ n ih =>
      intro hn
      rw [List.range_succ, List.foldlM_append, ih (by omega), ok_bind]
      simp only [List.foldlM_cons, List.foldlM_nil]
      rw [pyGetN_ok (show n < d1.length by omega), ok_bind, pyGetN_ok (show n < d2.length by omega),
        ok_bind, List.take_succ_eq_append_getElem (by rw [List.length_zipWith]; omega)]
      simp [sumR, pure_eq_ok]
  rw [key d1.length le_rfl]
  rw [List.take_of_length_le (by rw [List.length_zipWith]; omega)]
  rfl

theorem IsFloat.abs {x : ℝ} (h : IsFloat x) : IsFloat |x| := by
  rcases abs_choice x with e | e <;> rw [e]
  · exact h
  · exact h.neg

/-- The error of a difference of floats. -/
theorem sub_within {x y : ℝ} (hx : IsFloat x) (hy : IsFloat y) :
    Within rho |R.rnd (x - y)| |x - y| := by
  by_cases h : |x - y| < 2 ^ (-1021 : ℤ)
  · obtain ⟨a, ha⟩ := hx.multiple_min
    obtain ⟨b, hb⟩ := hy.multiple_min
    have hf : IsFloat (x - y) := Rounding.isFloat_of_small (k := a - b) (by rw [ha, hb]; push_cast; ring) h
    rw [R.eq_self hf]
    exact Within.refl one_lt_rho.le (abs_nonneg _)
  · push Not at h
    have h' : (2 : ℝ) ^ (-1022 : ℤ) ≤ |x - y| :=
      (zpow_le_zpow_right₀ (by norm_num) (by norm_num)).trans h
    have herr : |R.rnd (x - y) - (x - y)| ≤ |x - y| / 2 ^ 53 := by
      rcases abs_choice (x - y) with e | e
      · rw [e] at h' ⊢; exact R.error h'
      · rw [e] at h' ⊢
        -- the opposite rounding
        let R' : Rounding := ⟨fun z => -R.rnd (-z), fun z => by
          obtain ⟨h1, h2⟩ := R.nearest (-z)
          refine ⟨h1.neg, fun w hw => ?_⟩
          have := h2 _ hw.neg
          rw [← abs_neg, ← abs_neg (z - w)]
          convert this using 2 <;> ring⟩
        have := R'.error h'
        simp only [R', neg_neg] at this
        rw [← abs_neg]
        convert this using 2
        ring
    refine within_of_error (abs_nonneg _) ?_
    exact (abs_abs_sub_abs_le _ _).trans herr

theorem half_error {x : ℝ} (hx : IsFloat x) : |R.rnd (x / 2) - x / 2| ≤ 2 ^ (-1075 : ℤ) := by
  obtain ⟨k, t, hk, ht, rfl⟩ := hx
  by_cases h : -1073 ≤ t
  · have e : (k : ℝ) * 2 ^ t / 2 = k * 2 ^ (t - 1) := by
      rw [zpow_sub₀ (by norm_num)]; ring
    rw [e, R.eq_self ⟨k, t - 1, hk, by omega, rfl⟩, sub_self, abs_zero]
    exact (two_zpow_pos _).le
  · obtain rfl : t = -1074 := by omega
    have e : (2 : ℝ) ^ (-1074 : ℤ) = 2 * 2 ^ (-1075 : ℤ) := by
      rw [← zpow_one_add₀ (by norm_num)]; norm_num
    rcases Int.even_or_odd' k with ⟨m, rfl | rfl⟩
    · rw [R.eq_self ⟨m, -1074, by rw [abs_lt] at hk ⊢; omega, le_rfl, by push_cast; ring⟩, sub_self, abs_zero]
      exact (two_zpow_pos _).le
    · have := (R.nearest (((2 * m + 1 : ℤ) : ℝ) * 2 ^ (-1074 : ℤ) / 2)).2 (m * 2 ^ (-1074 : ℤ))
        ⟨m, -1074, by rw [abs_lt] at hk ⊢; omega, le_rfl, rfl⟩
      rw [abs_sub_comm]
      refine this.trans ?_
      rw [e]
      push_cast
      rw [show (2 * (m : ℝ) + 1) * (2 * 2 ^ (-1075 : ℤ)) / 2 - m * (2 * 2 ^ (-1075 : ℤ)) = 2 ^ (-1075 : ℤ) by ring,
        abs_of_pos (two_zpow_pos _)]

/-- A sum of nonnegative floats: the first addition is exact. -/
theorem sumR_within_pred {l : List ℝ} (h : Weights l) : Within (rho ^ (l.length - 1)) (sumR R l) l.sum := by
  cases l with
  | nil => simpa [sumR] using Within.refl (c := 1) le_rfl le_rfl
  | cons x l =>
    obtain ⟨hx, h0⟩ := h x (by simp)
    have := accR_within R hx h0 l h.tail
    rw [sumR_eq, accR_cons, zero_add, R.eq_self hx, List.sum_cons]
    simpa using this

/-- Half the rounded sum of rounded absolute differences. -/
theorem half_sum_error {ι : Type} (l : List ι) (f g : ι → ℝ) (hf : ∀ i ∈ l, IsFloat (f i))
    (hg : ∀ i ∈ l, IsFloat (g i)) (hl : l.length ≤ 2 ^ 52) :
    |R.rnd (sumR R (l.map fun i => |R.rnd (f i - g i)|) / 2) - (l.map fun i => |f i - g i|).sum / 2|
      ≤ l.length / 2 ^ 52 * ((l.map fun i => |f i - g i|).sum / 2) + 2 ^ (-1075 : ℤ) := by
  have hw : Weights (l.map fun i => |R.rnd (f i - g i)|) := by
    intro x hx
    obtain ⟨i, -, rfl⟩ := List.mem_map.mp hx
    exact ⟨(R.isFloat _).abs, abs_nonneg _⟩
  set s := sumR R (l.map fun i => |R.rnd (f i - g i)|) with hs
  set t := (l.map fun i => |f i - g i|).sum with ht
  have ht0 : 0 ≤ t := List.sum_nonneg (by simp)
  have h1 : Within (rho ^ l.length) s t := by
    rcases Nat.eq_zero_or_pos l.length with h0 | h0
    · rw [List.length_eq_zero_iff] at h0
      subst h0
      simp only [List.map_nil, List.sum_nil, sumR, List.foldl_nil] at hs ht
      rw [hs, ht]
      exact Within.refl (one_le_rho_pow _) le_rfl
    · have a := sumR_within_pred R hw
      have b := Within.list_sum (c := rho) l fun i hi => sub_within R (hf i hi) (hg i hi)
      have := a.trans b (pow_nonneg rho_nonneg _) rho_nonneg
      rwa [← pow_succ, List.length_map, Nat.sub_add_cancel h0] at this
  have h2 := half_error R (sumR_float R (l.map fun i => |R.rnd (f i - g i)|))
  rw [← hs] at h2
  have h3 : |s - t| ≤ l.length / 2 ^ 52 * t := by
    have hc := one_le_rho_pow l.length
    have hb : rho ^ l.length - 1 ≤ l.length / 2 ^ 52 := (rho_pow_le hl).trans_eq (by ring)
    refine le_trans ?_ (mul_le_mul_of_nonneg_right hb ht0)
    rw [abs_le]
    have hs0 : 0 ≤ s := sumR_nonneg R hw
    refine ⟨?_, by linarith [h1.1]⟩
    have := h1.2
    rcases le_total s t with h | h
    · have := mul_le_mul_of_nonneg_left h (sub_nonneg.mpr hc)
      linarith
    · have := mul_nonneg (sub_nonneg.mpr hc) ht0
      linarith
  have := abs_sub_le (R.rnd (s / 2)) (s / 2) (t / 2)
  have e : |s / 2 - t / 2| = |s - t| / 2 := by rw [← sub_div, abs_div, abs_of_pos (a := (2 : ℝ)) (by norm_num)]
  rw [e] at this
  linarith

/-- Half the rounded sum vanishes only if the differences are (almost) zero. -/
theorem half_sum_zero {ι : Type} (l : List ι) (f g : ι → ℝ) (hf : ∀ i ∈ l, IsFloat (f i))
    (hg : ∀ i ∈ l, IsFloat (g i)) (h : R.rnd (sumR R (l.map fun i => |R.rnd (f i - g i)|) / 2) = 0) :
    ∀ i ∈ l, |f i - g i| ≤ 2 ^ (-1074 : ℤ) := by
  have hw : Weights (l.map fun i => |R.rnd (f i - g i)|) := by
    intro x hx
    obtain ⟨i, -, rfl⟩ := List.mem_map.mp hx
    exact ⟨(R.isFloat _).abs, abs_nonneg _⟩
  set s := sumR R (l.map fun i => |R.rnd (f i - g i)|) with hs
  have hs0 : 0 ≤ s := sumR_nonneg R hw
  have h2 := half_error R (sumR_float R (l.map fun i => |R.rnd (f i - g i)|))
  rw [← hs, h, zero_sub, abs_neg, abs_of_nonneg (by positivity)] at h2
  have e : (2 : ℝ) ^ (-1074 : ℤ) = 2 * 2 ^ (-1075 : ℤ) := by
    rw [← zpow_one_add₀ (by norm_num)]; norm_num
  have h3 : s ≤ 2 ^ (-1074 : ℤ) := by rw [e]; linarith
  intro i hi
  have hle : |R.rnd (f i - g i)| ≤ s := by
    obtain ⟨l1, l2, rfl⟩ := List.append_of_mem hi
    rw [hs, List.map_append, List.map_cons, sumR_eq, accR_append, accR_cons]
    set y := |R.rnd (f i - g i)| with hy
    have hy' : IsFloat y := (R.isFloat _).abs
    have w1 : Weights (l1.map fun i => |R.rnd (f i - g i)|) := fun x hx => hw x (by
      rw [List.map_append]; exact List.mem_append_left _ hx)
    have w2 : Weights (l2.map fun i => |R.rnd (f i - g i)|) := fun x hx => hw x (by
      rw [List.map_append]; exact List.mem_append_right _ (List.mem_cons_of_mem _ hx))
    refine le_trans ?_ (accR_ge R (R.isFloat _) _ w2)
    refine R.ge_of_ge hy' ?_
    have := accR_ge R isFloat_zero _ w1
    linarith
  have hr := hle.trans h3
  have hsm : |f i - g i| < 2 ^ (-1021 : ℤ) := by
    have := (sub_within R (hf i hi) (hg i hi)).2
    have hrho : rho ≤ 2 := by unfold rho; norm_num
    have h4 : |f i - g i| ≤ 2 * 2 ^ (-1074 : ℤ) :=
      this.trans (mul_le_mul hrho hr (abs_nonneg _) (by norm_num))
    rw [← zpow_one_add₀ (by norm_num)] at h4
    exact h4.trans_lt (zpow_lt_zpow_right₀ (by norm_num) (by norm_num))
  obtain ⟨a, ha⟩ := (hf i hi).multiple_min
  obtain ⟨b, hb⟩ := (hg i hi).multiple_min
  have hfl : IsFloat (f i - g i) :=
    Rounding.isFloat_of_small (k := a - b) (by rw [ha, hb]; push_cast; ring) hsm
  rwa [R.eq_self hfl] at hr

theorem zipWith_eq_map (f : ℝ → ℝ → ℝ) (p q : List ℝ) (h : p.length = q.length) :
    List.zipWith f p q = (List.finRange p.length).map fun i => f p[i] (q[i]'(h ▸ i.2)) := by
  refine List.ext_getElem (by simp [h]) fun i h1 h2 => ?_
  simp

theorem dictGetZero_table {κ : Type} [DecidableEq κ] (d : List (κ × ℝ)) (f : κ → ℝ)
    (hf : ∀ k, (∀ v, (k, v) ∈ d → f k = v) ∧ (k ∉ d.map Prod.fst → f k = 0)) (k : κ) :
    dictGetZero d k = f k := by
  have key : ∀ d' : List (κ × ℝ), (∀ p ∈ d', p ∈ d) → k ∈ d'.map Prod.fst → dictGetZero d' k = f k := by
    intro d'
    induction d' with
    | nil => intro _ h; simp at h
    | cons p d' ih =>
      intro hsub hk
      rw [dictGetZero]
      by_cases h : p.1 = k
      · rw [if_pos h]
        exact ((hf k).1 p.2 (by rw [← h]; exact hsub p (by simp))).symm
      · rw [if_neg h]
        refine ih (fun q hq => hsub q (by simp [hq])) ?_
        rcases List.mem_cons.mp (by simpa only [List.map_cons] using hk) with h' | h'
        · exact absurd h'.symm h
        · exact h'
  by_cases hk : k ∈ d.map Prod.fst
  · exact key d (fun _ h => h) hk
  · rw [dictGetZero_absent d k hk, (hf k).2 hk]

end Verif
