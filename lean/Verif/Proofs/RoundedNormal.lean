import Verif.Proofs.NumpyChoice
import Verif.Proofs.BoxSum

/-! Helper lemmas: drawing an index from a list of floats that is normalised first. -/
namespace Verif

open Finset
open scoped ENNReal

/-- Dividing by almost the same number. -/
theorem sum_div_dist {m : ℕ} {y a : ℕ → ℝ} {L : ℝ} (hL : 0 < L) (ha : ∀ i < m, 0 ≤ a i) (h1 : ∑ i ∈ range m, a i = 1) :
    ∑ i ∈ range m, |y i / L - a i| ≤ (∑ i ∈ range m, |y i - a i| + |1 - L|) / L := by
  have h : ∀ i ∈ range m, |y i / L - a i| ≤ (|y i - a i| + a i * |1 - L|) / L := by
    intro i hi
    have e : y i / L - a i = ((y i - a i) + a i * (1 - L)) / L := by field_simp; ring
    rw [e, abs_div, abs_of_pos hL]
    refine div_le_div_of_nonneg_right ((abs_add_le _ _).trans ?_) hL.le
    rw [abs_mul, abs_of_nonneg (ha i (mem_range.mp hi))]
  refine (sum_le_sum h).trans (le_of_eq ?_)
  rw [← sum_div, sum_add_distrib, ← sum_mul, h1, one_mul]

/-- Normalising almost the same numbers. -/
theorem normal_dist {m : ℕ} {x' x : ℕ → ℝ} {ε : ℝ} (h' : ∀ i < m, 0 ≤ x' i) (hX' : 0 < ∑ i ∈ range m, x' i)
    (hX : 0 < ∑ i ∈ range m, x i) (hε : ∀ i < m, |x' i - x i| ≤ ε) :
    ∑ i ∈ range m, |x' i / (∑ i ∈ range m, x' i) - x i / ∑ i ∈ range m, x i| ≤ 2 * m * ε / ∑ i ∈ range m, x i := by
  set X' := ∑ i ∈ range m, x' i with hX'def
  set X := ∑ i ∈ range m, x i with hXdef
  have hs : ∑ i ∈ range m, |x' i - x i| ≤ m * ε := by
    refine (sum_le_sum fun i hi => hε i (mem_range.mp hi)).trans ?_
    rw [sum_const, card_range, nsmul_eq_mul]
  have hd : |X - X'| ≤ m * ε := by
    rw [hXdef, hX'def, abs_sub_comm, ← sum_sub_distrib]
    exact (abs_sum_le_sum_abs _ _).trans hs
  have h : ∀ i ∈ range m, |x' i / X' - x i / X| ≤ (|x' i - x i| + x' i / X' * |X - X'|) / X := by
    intro i hi
    have e : x' i / X' - x i / X = ((x' i - x i) + x' i / X' * (X - X')) / X := by field_simp; ring
    rw [e, abs_div, abs_of_pos hX]
    refine div_le_div_of_nonneg_right ((abs_add_le _ _).trans ?_) hX.le
    rw [abs_mul, abs_of_nonneg (div_nonneg (h' i (mem_range.mp hi)) hX'.le)]
  refine (sum_le_sum h).trans ?_
  rw [← sum_div, sum_add_distrib, ← sum_mul, ← sum_div, ← hX'def, div_self hX'.ne', one_mul]
  refine div_le_div_of_nonneg_right ?_ hX.le
  linarith

variable (R : Rounding)

section

variable {y : List ℝ} (hW : Weights y) (hm0 : y ≠ []) (hm : y.length ≤ 2 ^ 20) (hT : sumR R y ≠ 0)
include hW hm hT

/-- The total and its computed value. -/
theorem normal_total : 0 < y.sum ∧ |y.sum / sumR R y - 1| ≤ 2 * y.length / 2 ^ 53 ∧ 0 < sumR R y := by
  have h := sumR_within R hW
  have h0 := sumR_nonneg R hW
  have hpos : 0 < sumR R y := lt_of_le_of_ne h0 (Ne.symm hT)
  have hy : 0 < y.sum := h.symm.pos hpos hW.sum_nonneg
  have hr := rho_pow_le (k := y.length) (hm.trans (by norm_num))
  have h1 := one_le_rho_pow y.length
  refine ⟨hy, ?_, hpos⟩
  refine le_trans (abs_le.mpr ⟨?_, ?_⟩) hr
  · rw [neg_le_sub_iff_le_add, ← sub_le_iff_le_add]
    rw [le_div_iff₀ hpos]
    have h2 := h.1
    have hm' : (y.length : ℝ) ≤ 1048576 := by exact_mod_cast hm
    have h3 : rho ^ y.length ≤ 2 := by
      refine (sub_le_iff_le_add.mp hr).trans ?_
      have : 2 * (y.length : ℝ) / 2 ^ 53 ≤ 1 := by rw [div_le_iff₀ (by positivity)]; norm_num; linarith
      linarith
    nlinarith [mul_nonneg (sub_nonneg.mpr h3) (sub_nonneg.mpr h2), mul_nonneg hy.le (sq_nonneg (rho ^ y.length - 1))]
  · rw [sub_le_sub_iff_right, div_le_iff₀ hpos]
    exact h.2

theorem normal_sum : Weights (y.map fun x => R.rnd (x / sumR R y)) ∧
    ∑ i ∈ range y.length, |(y.map fun x => R.rnd (x / sumR R y)).getD i 0 - y.getD i 0 / y.sum|
      ≤ (2 * y.length + 2) / 2 ^ 53 := by
  obtain ⟨hy, hd, hpos⟩ := normal_total R hW hm hT
  set T := sumR R y with hTdef
  refine ⟨fun x hx => ?_, ?_⟩
  · obtain ⟨z, hz, rfl⟩ := List.mem_map.mp hx
    exact ⟨R.isFloat _, R.nonneg (div_nonneg (hW z hz).2 hpos.le)⟩
  · have hget : ∀ i ∈ range y.length, |(y.map fun x => R.rnd (x / T)).getD i 0 - y.getD i 0 / y.sum|
        ≤ (1 / 2 ^ 53 * (y.getD i 0 / T) + 1 / 2 ^ 80) + y.getD i 0 / y.sum * |y.sum / T - 1| := by
      intro i hi
      have hi := mem_range.mp hi
      rw [getD_of_lt _ _ (by simpa using hi), List.getElem_map, getD_of_lt _ _ hi]
      have h0 := (hW _ (List.getElem_mem hi)).2
      have h1 := R.abs_error (y[i] / T)
      rw [abs_of_nonneg (div_nonneg h0 hpos.le)] at h1
      have h2 : (2 : ℝ) ^ (-1074 : ℤ) ≤ 1 / 2 ^ 80 := by
        refine (zpow_le_zpow_right₀ (n := -80) (by norm_num) (by norm_num)).trans (le_of_eq ?_)
        rw [zpow_neg, one_div]
        norm_cast
      have h3 : |y[i] / T - y[i] / y.sum| = y[i] / y.sum * |y.sum / T - 1| := by
        rw [← abs_of_nonneg (div_nonneg h0 hy.le), ← abs_mul, abs_of_nonneg (div_nonneg h0 hy.le)]
        congr 1
        field_simp
      have h4 := abs_sub_le (R.rnd (y[i] / T)) (y[i] / T) (y[i] / y.sum)
      rw [h3] at h4
      refine h4.trans (add_le_add ?_ le_rfl)
      exact h1.trans (add_le_add le_rfl h2)
    refine (sum_le_sum hget).trans ?_
    have e1 : ∑ i ∈ range y.length, y.getD i 0 / y.sum = 1 := by rw [← sum_div, ← list_sum_getD, div_self hy.ne']
    have e2 : ∑ i ∈ range y.length, 1 / 2 ^ 53 * (y.getD i 0 / T) = 1 / 2 ^ 53 * (y.sum / T) := by
      rw [← mul_sum, ← sum_div, ← list_sum_getD]
    rw [sum_add_distrib, sum_add_distrib, e2, ← sum_mul, e1, one_mul, sum_const, card_range, nsmul_eq_mul]
    have hm' : (y.length : ℝ) ≤ 1048576 := by exact_mod_cast hm
    have h5 : (y.length : ℝ) * (1 / 2 ^ 80) ≤ 1 / 2 ^ 60 := by
      calc (y.length : ℝ) * (1 / 2 ^ 80) ≤ 1048576 * (1 / 2 ^ 80) := by gcongr
        _ = 1 / 2 ^ 60 := by norm_num
    have h6 : 2 * (y.length : ℝ) / 2 ^ 53 ≤ 1 / 2 := by
      rw [div_le_iff₀ (by positivity)]
      norm_num
      linarith
    have h7 := (abs_le.mp hd).2
    have h8 : 1 / 2 ^ 53 * (y.sum / T) ≤ 1 / 2 ^ 53 * (3 / 2) := by
      refine mul_le_mul_of_nonneg_left ?_ (by positivity)
      linarith
    calc 1 / 2 ^ 53 * (y.sum / T) + (y.length : ℝ) * (1 / 2 ^ 80) + |y.sum / T - 1|
        ≤ 1 / 2 ^ 53 * (3 / 2) + 1 / 2 ^ 60 + 2 * y.length / 2 ^ 53 := add_le_add (add_le_add h8 h5) hd
      _ ≤ _ := by
        rw [add_div]
        norm_num
        linarith

/-- What `numpy.random.choice` needs. -/
theorem normal_ok : |(y.map fun x => R.rnd (x / sumR R y)).sum - 1| ≤ (2 * y.length + 2) / 2 ^ 53 ∧
    |sumR R (y.map fun x => R.rnd (x / sumR R y)) - 1| ≤ (5 * y.length + 3) / 2 ^ 53 := by
  obtain ⟨hy, -, hpos⟩ := normal_total R hW hm hT
  obtain ⟨hWp, hd⟩ := normal_sum R hW hm hT
  set p := y.map fun x => R.rnd (x / sumR R y) with hp
  have hlen : p.length = y.length := by simp [hp]
  have h1 : |p.sum - 1| ≤ (2 * y.length + 2) / 2 ^ 53 := by
    have e : p.sum - 1 = ∑ i ∈ range y.length, (p.getD i 0 - y.getD i 0 / y.sum) := by
      rw [sum_sub_distrib, ← sum_div, ← list_sum_getD y, div_self hy.ne', ← hlen, ← list_sum_getD]
    rw [e]
    exact (abs_sum_le_sum_abs _ _).trans hd
  refine ⟨h1, ?_⟩
  have hw := sumR_within R hWp
  have hr := rho_pow_le (k := p.length) (by rw [hlen]; exact hm.trans (by norm_num))
  rw [hlen] at hw hr
  have h2 := one_le_rho_pow y.length
  have hm' : (y.length : ℝ) ≤ 1048576 := by exact_mod_cast hm
  have hs0 := hWp.sum_nonneg
  set w := rho ^ y.length with hwdef
  obtain ⟨h1a, h1b⟩ := abs_le.mp h1
  set b : ℝ := (y.length : ℝ) / 2 ^ 53 with hb
  have hb0 : 0 ≤ b := by positivity
  have hb1 : b ≤ 1 / 1000 := by
    rw [hb, div_le_iff₀ (by positivity)]
    norm_num
    linarith
  set v : ℝ := 1 / 2 ^ 53 with hv
  have hv0 : 0 < v := by positivity
  have hv1 : v ≤ 1 / 1000 := by rw [hv]; norm_num
  have e1 : (2 * (y.length : ℝ) + 2) / 2 ^ 53 = 2 * b + 2 * v := by rw [hb, hv]; ring
  have e2 : (5 * (y.length : ℝ) + 3) / 2 ^ 53 = 5 * b + 3 * v := by rw [hb, hv]; ring
  have e3 : 2 * (y.length : ℝ) / 2 ^ 53 = 2 * b := by rw [hb]; ring
  rw [e1] at h1a h1b
  rw [e3] at hr
  rw [e2]
  clear_value b v w
  clear hv hb hm' e1 e2 e3
  have hL0 := sumR_nonneg R hWp
  have h3 : sumR R p ≤ 3 / 2 := by
    have := hw.1
    nlinarith
  refine abs_le.mpr ⟨?_, ?_⟩
  · have := hw.2
    nlinarith
  · have := hw.1
    nlinarith

/-- The law of an index drawn from normalised floats. -/
theorem normal_choice_dist (hm0 : y ≠ []) :
    ∑ i ∈ range y.length, |drawLaw (fun k => searchRight ((k : ℝ) / 2 ^ 53) (npCdf R (y.map fun x => R.rnd (x / sumR R y)))) i
      - y.getD i 0 / y.sum| ≤ 16 * (y.length + 1) / 2 ^ 53 := by
  obtain ⟨hy, -, hpos⟩ := normal_total R hW hm hT
  obtain ⟨hWp, hd⟩ := normal_sum R hW hm hT
  obtain ⟨-, h2⟩ := normal_ok R hW hm hT
  set p := y.map fun x => R.rnd (x / sumR R y) with hp
  have hlen : p.length = y.length := by simp [hp]
  have hm' : (y.length : ℝ) ≤ 1048576 := by exact_mod_cast hm
  have h3 : (5 * (y.length : ℝ) + 3) / 2 ^ 53 ≤ 1 / 100 := by
    rw [div_le_iff₀ (by positivity)]
    norm_num
    linarith
  obtain ⟨h2a, h2b⟩ := abs_le.mp h2
  have hLpos : 0 < sumR R p := by linarith
  have hdist := npChoice_dist R hWp (by linarith) (by simpa [hp] using hm0) (by linarith)
  rw [hlen] at hdist
  have hdiv := sum_div_dist (m := y.length) (y := fun i => p.getD i 0) (a := fun i => y.getD i 0 / y.sum) hLpos
    (fun i hi => div_nonneg (by rw [getD_of_lt _ _ hi]; exact (hW _ (List.getElem_mem hi)).2) hy.le)
    (by rw [← sum_div, ← list_sum_getD, div_self hy.ne'])
  have h4 : (∑ i ∈ range y.length, |p.getD i 0 - y.getD i 0 / y.sum| + |1 - sumR R p|) / sumR R p
      ≤ (8 * y.length + 8) / 2 ^ 53 := by
    rw [div_le_iff₀ hLpos]
    rw [abs_sub_comm] at h2
    have e : (2 * (y.length : ℝ) + 2) / 2 ^ 53 + (5 * y.length + 3) / 2 ^ 53 = (7 * y.length + 5) / 2 ^ 53 := by ring
    have h5 : (7 * (y.length : ℝ) + 5) / 2 ^ 53 ≤ (8 * y.length + 8) / 2 ^ 53 * (99 / 100) := by
      rw [div_mul_eq_mul_div]
      gcongr
      have : (0 : ℝ) ≤ y.length := Nat.cast_nonneg _
      linarith
    have h6 : (8 * (y.length : ℝ) + 8) / 2 ^ 53 * (99 / 100) ≤ (8 * y.length + 8) / 2 ^ 53 * sumR R p := by
      gcongr
      linarith
    linarith
  have h7 : ∀ i ∈ range y.length, |drawLaw (fun k => searchRight ((k : ℝ) / 2 ^ 53) (npCdf R p)) i - y.getD i 0 / y.sum|
      ≤ |drawLaw (fun k => searchRight ((k : ℝ) / 2 ^ 53) (npCdf R p)) i - p.getD i 0 / sumR R p|
        + |p.getD i 0 / sumR R p - y.getD i 0 / y.sum| := fun i _ => abs_sub_le _ _ _
  refine (sum_le_sum h7).trans ?_
  rw [sum_add_distrib]
  refine (add_le_add hdist (hdiv.trans h4)).trans ?_
  rw [← add_div]
  gcongr
  linarith

end

end Verif
