import Verif.Proofs.Closeness
import Verif.Proofs.RoundedLoss
import Verif.Proofs.RoundedRuns

/-! Helper lemmas: the law of an index drawn with one value of `random()`. -/
namespace Verif

open Finset
open scoped ENNReal

/-- The probability that the index `i` is selected by a value of `random()`. -/
noncomputable def drawLaw (s : ℕ → ℕ) (i : ℕ) : ℝ := ((range (2 ^ 53)).filter fun k => s k = i).card / 2 ^ 53

theorem drawLaw_nonneg (s : ℕ → ℕ) (i : ℕ) : 0 ≤ drawLaw s i := by unfold drawLaw; positivity

/-- The probability that an index below `i` is selected. -/
noncomputable def drawBelow (s : ℕ → ℕ) (i : ℕ) : ℝ := ((range (2 ^ 53)).filter fun k => s k < i).card / 2 ^ 53

theorem drawBelow_zero (s : ℕ → ℕ) : drawBelow s 0 = 0 := by
  unfold drawBelow
  rw [filter_false_of_mem (by simp)]
  simp

theorem drawBelow_succ (s : ℕ → ℕ) (i : ℕ) : drawBelow s (i + 1) = drawBelow s i + drawLaw s i := by
  unfold drawBelow drawLaw
  generalize range (2 ^ 53) = A
  rw [← add_div, ← Nat.cast_add, ← card_union_of_disjoint (disjoint_filter.mpr fun k _ h h' => by omega), ← filter_or]
  rw [filter_congr fun k _ => (by omega : s k < i + 1 ↔ s k < i ∨ s k = i)]

theorem drawBelow_all (s : ℕ → ℕ) (m : ℕ) (hs : ∀ k < 2 ^ 53, s k < m) : drawBelow s m = 1 := by
  unfold drawBelow
  rw [filter_true_of_mem fun k hk => hs k (mem_range.mp hk), card_range, Nat.cast_pow, Nat.cast_ofNat,
    div_self (by positivity)]

theorem drawBelow_eq (s : ℕ → ℕ) (i : ℕ) (Q : ℕ → Prop) [DecidablePred Q] (h : ∀ k, s k ≤ i ↔ Q k) :
    drawBelow s (i + 1) = (((range (2 ^ 53)).filter Q).card : ℝ) / 2 ^ 53 := by
  unfold drawBelow
  generalize range (2 ^ 53) = A
  rw [filter_congr fun k _ => Nat.lt_succ_iff.trans (h k)]

/-- The part of `[0, 1)` below `c`. -/
noncomputable def clip (c : ℝ) : ℝ := max 0 (min 1 c)

theorem card_lt (c : ℝ) : clip c ≤ (((range (2 ^ 53)).filter fun k : ℕ => (k : ℝ) / 2 ^ 53 < c).card : ℝ) / 2 ^ 53 ∧
    (((range (2 ^ 53)).filter fun k : ℕ => (k : ℝ) / 2 ^ 53 < c).card : ℝ) / 2 ^ 53 ≤ clip c + 1 / 2 ^ 53 := by
  have hcount : ((range (2 ^ 53)).filter fun k : ℕ => (k : ℝ) / 2 ^ 53 < c).card = min (2 ^ 53) ⌈c * 2 ^ 53⌉₊ := by
    have : ((range (2 ^ 53)).filter fun k : ℕ => (k : ℝ) / 2 ^ 53 < c) = range (min (2 ^ 53) ⌈c * 2 ^ 53⌉₊) := by
      ext k
      rw [mem_filter, mem_range, mem_range, lt_min_iff, Nat.lt_ceil, div_lt_iff₀ (by positivity)]
    rw [this, card_range]
  rw [hcount]
  rw [le_div_iff₀ (by positivity), div_le_iff₀ (by positivity), add_mul, Nat.cast_min, Nat.cast_pow, Nat.cast_ofNat,
    one_div, inv_mul_cancel₀ (by positivity)]
  unfold clip
  rcases le_or_gt c 0 with h0 | h0
  · rw [Nat.ceil_eq_zero.mpr (by nlinarith), min_eq_right (by linarith), max_eq_left h0]
    simp
  · have h1 := Nat.le_ceil (c * 2 ^ 53)
    have h2 := (Nat.ceil_lt_add_one (by positivity : 0 ≤ c * 2 ^ 53)).le
    rw [max_eq_right (le_min zero_le_one h0.le)]
    rcases le_or_gt c 1 with h3 | h3
    · rw [min_eq_right h3]
      exact ⟨le_min (by nlinarith) h1, (min_le_right _ _).trans h2⟩
    · rw [min_eq_left h3.le]
      refine ⟨le_min (by linarith) (by nlinarith), (min_le_left _ _).trans (by linarith)⟩

theorem card_le' (c : ℝ) (h0 : 0 ≤ c) :
    clip c ≤ (((range (2 ^ 53)).filter fun k : ℕ => (k : ℝ) / 2 ^ 53 ≤ c).card : ℝ) / 2 ^ 53 ∧
    (((range (2 ^ 53)).filter fun k : ℕ => (k : ℝ) / 2 ^ 53 ≤ c).card : ℝ) / 2 ^ 53 ≤ clip c + 1 / 2 ^ 53 := by
  have hcount : ((range (2 ^ 53)).filter fun k : ℕ => (k : ℝ) / 2 ^ 53 ≤ c).card = min (2 ^ 53) (⌊c * 2 ^ 53⌋₊ + 1) := by
    have : ((range (2 ^ 53)).filter fun k : ℕ => (k : ℝ) / 2 ^ 53 ≤ c) = range (min (2 ^ 53) (⌊c * 2 ^ 53⌋₊ + 1)) := by
      ext k
      rw [mem_filter, mem_range, mem_range, lt_min_iff, Nat.lt_succ_iff, Nat.le_floor_iff (by positivity),
        div_le_iff₀ (by positivity)]
    rw [this, card_range]
  rw [hcount]
  rw [le_div_iff₀ (by positivity), div_le_iff₀ (by positivity), add_mul, Nat.cast_min, Nat.cast_pow, Nat.cast_ofNat,
    one_div, inv_mul_cancel₀ (by positivity), Nat.cast_add, Nat.cast_one]
  unfold clip
  have h1 := Nat.floor_le (by positivity : 0 ≤ c * 2 ^ 53)
  have h2 := (Nat.lt_floor_add_one (c * 2 ^ 53)).le
  rw [max_eq_right (le_min zero_le_one h0)]
  rcases le_or_gt c 1 with h3 | h3
  · rw [min_eq_right h3]
    exact ⟨le_min (by nlinarith) h2, (min_le_right _ _).trans (by linarith)⟩
  · rw [min_eq_left h3.le]
    refine ⟨le_min (by linarith) (by nlinarith), (min_le_left _ _).trans (by linarith)⟩

/-- The law of an index selected by comparing `random()` to the increasing bounds `c`. -/
theorem drawLaw_dist {s : ℕ → ℕ} {m : ℕ} (hs : ∀ k < 2 ^ 53, s k ≤ m) {c P : ℕ → ℝ} {r : ℝ} (hc0 : c 0 = 0)
    (hc : ∀ i < m, c i ≤ c (i + 1)) (hr : ∀ i < m, |c (i + 1) - c i - P i| ≤ r)
    (hB : ∀ i ≤ m, clip (c i) ≤ drawBelow s i ∧ drawBelow s i ≤ clip (c i) + 1 / 2 ^ 53) :
    ∑ i ∈ range m, |drawLaw s i - P i| ≤ m * (1 / 2 ^ 53 + r) + max 0 (c m - 1) ∧
    ∑ i ∈ range m, |drawLaw s i - P i| + drawLaw s m ≤ m * (1 / 2 ^ 53 + r) + |c m - 1| := by
  have hpos : ∀ i ≤ m, 0 ≤ c i := by
    intro i hi
    induction i with
    | zero => exact hc0.ge
    | succ i ih => exact (ih (by omega)).trans (hc i (by omega))
  have hlast : drawLaw s m ≤ 1 - clip (c m) := by
    have h1 := drawBelow_succ s m
    rw [drawBelow_all s (m + 1) fun k hk => by have := hs k hk; omega] at h1
    linarith [(hB m le_rfl).1]
  have hex : ∀ i < m, |drawLaw s i - P i| ≤ (1 / 2 ^ 53 + r) + ((c (i + 1) - clip (c (i + 1))) - (c i - clip (c i))) := by
    intro i hi
    have h1 := drawBelow_succ s i
    have h2 := hB i hi.le
    have h3 := hB (i + 1) hi
    have h4 := abs_le.mp (hr i hi)
    have h5 : c i - clip (c i) ≤ c (i + 1) - clip (c (i + 1)) := by
      have a := hpos i hi.le
      have b := hpos (i + 1) hi
      have d := hc i hi
      unfold clip
      rw [max_eq_right (le_min zero_le_one a), max_eq_right (le_min zero_le_one b)]
      rcases le_total 1 (c i) with e | e <;> rcases le_total 1 (c (i + 1)) with f | f <;>
        simp only [min_eq_left, min_eq_right, e, f] <;> linarith
    rw [abs_le]
    constructor <;> linarith
  have htel : ∑ i ∈ range m, ((c (i + 1) - clip (c (i + 1))) - (c i - clip (c i))) = c m - clip (c m) := by
    rw [sum_range_sub (fun i => c i - clip (c i)), hc0]
    simp [clip]
  have h6 : ∑ i ∈ range m, |drawLaw s i - P i| ≤ m * (1 / 2 ^ 53 + r) + (c m - clip (c m)) := by
    refine (sum_le_sum fun i hi => hex i (mem_range.mp hi)).trans (le_of_eq ?_)
    rw [sum_add_distrib, htel, sum_const, card_range, nsmul_eq_mul]
  have h7 : (c m - clip (c m)) + (1 - clip (c m)) = |c m - 1| := by
    have a := hpos m le_rfl
    unfold clip
    rw [max_eq_right (le_min zero_le_one a)]
    rcases le_total 1 (c m) with e | e
    · rw [min_eq_left e, abs_of_nonneg (by linarith)]; ring
    · rw [min_eq_right e, abs_of_nonpos (by linarith)]; ring
  have h8 : c m - clip (c m) ≤ max 0 (c m - 1) := by
    unfold clip
    rw [max_eq_right (le_min zero_le_one (hpos m le_rfl))]
    rcases le_total 1 (c m) with e | e
    · rw [min_eq_left e]; exact le_max_right _ _
    · rw [min_eq_right e, sub_self]; exact le_max_left _ _
  constructor <;> linarith

variable (R : Rounding)

theorem accR_step {P : List ℝ} (hW : Weights P) (hs : sumR R P ≤ 2) (i : ℕ) (hi : i < P.length) :
    accR R 0 (P.take i) ≤ accR R 0 (P.take (i + 1)) ∧
    |accR R 0 (P.take (i + 1)) - accR R 0 (P.take i) - P.getD i 0| ≤ 3 / 2 ^ 53 := by
  have hcf := accR_float R isFloat_zero (P.take i)
  have h0 := accR_ge R isFloat_zero (P.take i) (hW.take _)
  have hp := hW P[i] (List.getElem_mem hi)
  have hcf' := accR_float R isFloat_zero (P.take (i + 1))
  have hle : accR R 0 (P.take (i + 1)) ≤ 2 := by
    refine le_trans ?_ hs
    rw [sumR_eq]
    conv_rhs => rw [← List.take_append_drop (i + 1) P, accR_append]
    exact accR_ge R hcf' _ fun x hx => hW x (List.mem_of_mem_drop hx)
  have e : accR R 0 (P.take (i + 1)) = R.rnd (accR R 0 (P.take i) + P[i]) := by
    rw [List.take_succ_eq_append_getElem hi, accR_append]; rfl
  rw [getD_of_lt _ _ hi]
  have hw := R.add_within hcf hp.1 h0 hp.2
  rw [← e] at hw
  have h1 := accR_ge R isFloat_zero (P.take (i + 1)) (hW.take _)
  refine ⟨?_, ?_⟩
  · rw [e]
    exact R.ge_of_ge hcf (by linarith [hp.2])
  · have h2 : accR R 0 (P.take i) + P[i] ≤ 3 := hw.2.trans (by unfold rho; norm_num; linarith)
    have h3 := R.add_error hcf hp.1 h0 hp.2
    rw [← e] at h3
    rw [sub_sub]
    exact h3.trans (by gcongr)

/-! ### `total > x` -/

theorem scanIndexR_below {P : List ℝ} (hW : Weights P) (i : ℕ) (hi : i ≤ P.length) :
    clip (accR R 0 (P.take i)) ≤ drawBelow (fun k => scanIndexR R ((k : ℝ) / 2 ^ 53) P 0) i ∧
    drawBelow (fun k => scanIndexR R ((k : ℝ) / 2 ^ 53) P 0) i ≤ clip (accR R 0 (P.take i)) + 1 / 2 ^ 53 := by
  cases i with
  | zero =>
    rw [drawBelow_zero, List.take_zero]
    simp [accR, clip]
  | succ i =>
    have h := card_lt (accR R 0 (P.take (i + 1)))
    rw [drawBelow_eq _ i _ fun k : ℕ => scanIndexR_le R ((k : ℝ) / 2 ^ 53) 0 P hW i hi]
    exact h

theorem scanIndexR_dist {P : List ℝ} (hW : Weights P) (hs : sumR R P ≤ 2) :
    ∑ i ∈ range P.length, |drawLaw (fun k => scanIndexR R ((k : ℝ) / 2 ^ 53) P 0) i - P.getD i 0|
      ≤ 4 * P.length / 2 ^ 53 + max 0 (sumR R P - 1) ∧
    ∑ i ∈ range P.length, |drawLaw (fun k => scanIndexR R ((k : ℝ) / 2 ^ 53) P 0) i - P.getD i 0|
      + drawLaw (fun k => scanIndexR R ((k : ℝ) / 2 ^ 53) P 0) P.length
      ≤ 4 * P.length / 2 ^ 53 + |sumR R P - 1| := by
  have h := drawLaw_dist (s := fun k => scanIndexR R ((k : ℝ) / 2 ^ 53) P 0) (m := P.length)
    (fun k _ => scanIndexR_length_le R _ 0 P) (c := fun i => accR R 0 (P.take i)) (P := fun i => P.getD i 0) (r := 3 / 2 ^ 53)
    rfl (fun i hi => (accR_step R hW hs i hi).1) (fun i hi => (accR_step R hW hs i hi).2)
    (fun i hi => scanIndexR_below R hW i hi)
  simp only [List.take_length, ← sumR_eq] at h
  exact ⟨h.1.trans (le_of_eq (by ring)), h.2.trans (le_of_eq (by ring))⟩

/-! ### `x > prob` -/

theorem scanReachR_iff (x p : ℝ) (ps : List ℝ) (h : Weights ps) (hp : IsFloat p) (i : ℕ) (hi : i ≤ ps.length) :
    scanReachR R x ps p ≤ i ↔ x ≤ accR R p (ps.take i) := by
  induction ps generalizing p i with
  | nil =>
    obtain rfl : i = 0 := by simpa using hi
    rw [scanReachR, accR, List.take_nil, List.foldl_nil]
    split
    · rename_i h; simp; linarith
    · rename_i h; simp; linarith
  | cons q ps ih =>
    cases i with
    | zero =>
      rw [scanReachR, List.take_zero]
      simp only [accR, List.foldl_nil]
      split
      · rename_i h; simp; linarith
      · rename_i h; simp; linarith
    | succ i =>
      rw [scanReachR, List.take_succ_cons, accR_cons]
      have h1 := accR_ge R (R.isFloat (p + q)) (ps.take i) (h.tail.take _)
      have h2 := R.ge_of_ge hp (x := p + q) (by have := (h q (by simp)).2; linarith)
      split
      · rw [Nat.add_le_add_iff_right]
        exact ih _ h.tail (R.isFloat _) i (by simpa using hi)
      · rename_i h3
        simp only [Nat.zero_le, true_iff]
        linarith

theorem scanReachR_below {p : ℝ} {ps : List ℝ} (hW : Weights (p :: ps)) (i : ℕ) (hi : i ≤ (p :: ps).length) :
    clip (accR R 0 ((p :: ps).take i)) ≤ drawBelow (fun k => scanReachR R ((k : ℝ) / 2 ^ 53) ps p) i ∧
    drawBelow (fun k => scanReachR R ((k : ℝ) / 2 ^ 53) ps p) i ≤ clip (accR R 0 ((p :: ps).take i)) + 1 / 2 ^ 53 := by
  have hp := (hW p (by simp)).1
  cases i with
  | zero =>
    rw [drawBelow_zero, List.take_zero]
    simp [accR, clip]
  | succ i =>
    have e : accR R 0 ((p :: ps).take (i + 1)) = accR R p (ps.take i) := by
      rw [List.take_succ_cons, accR_cons, zero_add, R.eq_self hp]
    have h := card_le' (accR R p (ps.take i)) ((hW p (by simp)).2.trans (accR_ge R hp _ (hW.tail.take _)))
    rw [e, drawBelow_eq _ i _ fun k : ℕ => scanReachR_iff R ((k : ℝ) / 2 ^ 53) p ps hW.tail hp i (by simpa using hi)]
    exact h

theorem scanReachR_dist {p : ℝ} {ps : List ℝ} (hW : Weights (p :: ps)) (hs : sumR R (p :: ps) ≤ 2) :
    ∑ i ∈ range (p :: ps).length, |drawLaw (fun k => scanReachR R ((k : ℝ) / 2 ^ 53) ps p) i - (p :: ps).getD i 0|
      ≤ 4 * (p :: ps).length / 2 ^ 53 + max 0 (sumR R (p :: ps) - 1) ∧
    ∑ i ∈ range (p :: ps).length, |drawLaw (fun k => scanReachR R ((k : ℝ) / 2 ^ 53) ps p) i - (p :: ps).getD i 0|
      + drawLaw (fun k => scanReachR R ((k : ℝ) / 2 ^ 53) ps p) (p :: ps).length
      ≤ 4 * (p :: ps).length / 2 ^ 53 + |sumR R (p :: ps) - 1| := by
  have h := drawLaw_dist (s := fun k => scanReachR R ((k : ℝ) / 2 ^ 53) ps p) (m := (p :: ps).length)
    (fun k _ => scanReachR_le R _ p ps) (c := fun i => accR R 0 ((p :: ps).take i)) (P := fun i => (p :: ps).getD i 0)
    (r := 3 / 2 ^ 53)
    rfl (fun i hi => (accR_step R hW hs i hi).1) (fun i hi => (accR_step R hW hs i hi).2)
    (fun i hi => scanReachR_below R hW i hi)
  simp only [List.take_length, ← sumR_eq] at h
  exact ⟨h.1.trans (le_of_eq (by ring)), h.2.trans (le_of_eq (by ring))⟩

/-! ### Expectations -/

theorem drawLaw_wp {β : Type} (s : ℕ → ℕ) (m : ℕ) (hs : ∀ k < 2 ^ 53, s k < m) (g : ℝ → Prog β) (F : ℕ → ℝ≥0∞)
    (f : Py β → ℝ≥0∞) (hg : ∀ k : ℕ, k < 2 ^ 53 → (g ((k : ℝ) / 2 ^ 53)).wp f = F (s k)) :
    (randomR.bind g).wp f = ∑ j ∈ range m, ENNReal.ofReal (drawLaw s j) * F j := by
  rw [randomR_wp]
  have e : ∀ j, drawLaw s j = (((range (2 ^ 53)).filter fun k => s k = j).card : ℝ) / ((2 ^ 53 : ℕ) : ℝ) := by
    intro j
    unfold drawLaw
    congr 1
    norm_num
  simp only [e]
  rw [← sum_draws (2 ^ 53) m (by norm_num) s hs F]
  exact congrArg (· / ((2 ^ 53 : ℕ) : ℝ≥0∞)) (sum_congr rfl fun k hk => hg k (mem_range.mp hk))

end Verif
