import Verif.Model.RoundedCliffordsB
import Verif.Proofs.RoundedDraws
import Verif.Proofs.ComplexFloats

/-! Helper lemmas: `numpy.random.choice` in floating-point arithmetic. -/
namespace Verif

open Finset
open scoped ENNReal

variable (R : Rounding)

/-- Rounding numbers that are not large: an absolute error. -/
theorem rnd_abs_le {x b : ℝ} (h : |x| ≤ b) : |R.rnd x - x| ≤ 1 / 2 ^ 53 * b + 1 / 2 ^ 60 * (1 / 2 ^ 53) := by
  have h1 := R.abs_error x
  have h2 : (2 : ℝ) ^ (-1074 : ℤ) ≤ 1 / 2 ^ 113 := by
    refine (zpow_le_zpow_right₀ (n := -113) (by norm_num) (by norm_num)).trans (le_of_eq ?_)
    rw [zpow_neg, one_div]
    norm_cast
  generalize (2 : ℝ) ^ (-1074 : ℤ) = z at h1 h2
  have h3 : 1 / 2 ^ 53 * |x| ≤ 1 / 2 ^ 53 * b := mul_le_mul_of_nonneg_left h (by positivity)
  have e : (1 : ℝ) / 2 ^ 113 = 1 / 2 ^ 60 * (1 / 2 ^ 53) := by norm_num
  rw [e] at h2
  linarith

/-! ### Compensated summation -/

/-- One step of the compensated summation. -/
theorem kahan_step {s c x : ℝ} (hs : |s| ≤ 2) (hc : |c| ≤ 8 / 2 ^ 53) (hx0 : 0 ≤ x) (hx : x ≤ 3 / 2) :
    |R.rnd (s + R.rnd (x - c)) - (s + x)| ≤ 16 / 2 ^ 53 ∧
    |R.rnd (R.rnd (R.rnd (s + R.rnd (x - c)) - s) - R.rnd (x - c))| ≤ 8 / 2 ^ 53 := by
  obtain ⟨v, hv⟩ : ∃ v : ℝ, v = 1 / 2 ^ 53 := ⟨_, rfl⟩
  have hv0 : 0 < v := by rw [hv]; positivity
  have hv1 : v ≤ 1 / 1000 := by rw [hv]; norm_num
  have e8 : (8 : ℝ) / 2 ^ 53 = 8 * v := by rw [hv]; ring
  have e16 : (16 : ℝ) / 2 ^ 53 = 16 * v := by rw [hv]; ring
  rw [e8] at hc ⊢
  rw [e16]
  have hsm : ∀ b, 1 / 2 ^ 53 * b + 1 / 2 ^ 60 * (1 / 2 ^ 53) ≤ v * (b + 1 / 1000) := by
    intro b
    have : (1 : ℝ) / 2 ^ 60 ≤ 1 / 1000 := by norm_num
    rw [← hv]
    nlinarith
  clear hv e8 e16
  obtain ⟨hs1, hs2⟩ := abs_le.mp hs
  obtain ⟨hc1, hc2⟩ := abs_le.mp hc
  have hxc : |x - c| ≤ 8 / 5 := abs_le.mpr ⟨by linarith, by linarith⟩
  have h1 := (rnd_abs_le R hxc).trans (hsm _)
  set y := R.rnd (x - c) with hy
  obtain ⟨h1a, h1b⟩ := abs_le.mp h1
  have hsy : |s + y| ≤ 4 := abs_le.mpr ⟨by linarith, by linarith⟩
  have h2 := (rnd_abs_le R hsy).trans (hsm _)
  set t := R.rnd (s + y) with ht
  obtain ⟨h2a, h2b⟩ := abs_le.mp h2
  have hts : |t - s| ≤ 2 := abs_le.mpr ⟨by linarith, by linarith⟩
  have h3 := (rnd_abs_le R hts).trans (hsm _)
  set d := R.rnd (t - s) with hd
  obtain ⟨h3a, h3b⟩ := abs_le.mp h3
  have hdy : |d - y| ≤ 13 / 2 * v := abs_le.mpr ⟨by linarith, by linarith⟩
  have h4 := (rnd_abs_le R hdy).trans (hsm _)
  obtain ⟨h4a, h4b⟩ := abs_le.mp h4
  obtain ⟨h5a, h5b⟩ := abs_le.mp hdy
  have h6 : v * (13 / 2 * v + 1 / 1000) ≤ v * (1 / 100) := by
    refine mul_le_mul_of_nonneg_left ?_ hv0.le
    linarith
  refine ⟨abs_le.mpr ⟨by linarith, by linarith⟩, abs_le.mpr ⟨by linarith, by linarith⟩⟩

theorem kahanLoop_error (xs : List ℝ) (hx : ∀ x ∈ xs, 0 ≤ x) :
    ∀ (s c σ : ℝ) (k : ℕ), |c| ≤ 8 / 2 ^ 53 → 0 ≤ σ → σ + xs.sum ≤ 3 / 2 → |s - σ| ≤ k * (16 / 2 ^ 53) →
      k + xs.length ≤ 2 ^ 20 → |kahanLoop R xs s c - (σ + xs.sum)| ≤ (k + xs.length : ℕ) * (16 / 2 ^ 53) := by
  induction xs with
  | nil =>
    intro s c σ k _ _ _ h _
    simpa [kahanLoop] using h
  | cons x xs ih =>
    intro s c σ k hc h0 hσ hs hk
    rw [List.sum_cons] at hσ ⊢
    rw [List.length_cons] at hk ⊢
    have hx0 := hx x (by simp)
    have hn : 0 ≤ xs.sum := List.sum_nonneg fun y hy => hx y (by simp [hy])
    have hk' : (k : ℝ) ≤ 2 ^ 20 := by exact_mod_cast (by omega : k ≤ 2 ^ 20)
    have hb : (k : ℝ) * (16 / 2 ^ 53) ≤ 1 / 2 := by
      calc (k : ℝ) * (16 / 2 ^ 53) ≤ 2 ^ 20 * (16 / 2 ^ 53) := by gcongr
        _ ≤ 1 / 2 := by norm_num
    obtain ⟨hs1, hs2⟩ := abs_le.mp hs
    obtain ⟨h1, h2⟩ := kahan_step R (s := s) (c := c) (x := x) (abs_le.mpr ⟨by linarith, by linarith⟩) hc hx0 (by linarith)
    rw [kahanLoop]
    have h3 := ih (fun y hy => hx y (by simp [hy])) (R.rnd (s + R.rnd (x - c)))
      (R.rnd (R.rnd (R.rnd (s + R.rnd (x - c)) - s) - R.rnd (x - c))) (σ + x) (k + 1) h2 (by linarith) (by linarith) ?_
      (by omega)
    · rw [show k + (xs.length + 1) = k + 1 + xs.length by omega, ← add_assoc]
      exact h3
    · push_cast
      obtain ⟨h1a, h1b⟩ := abs_le.mp h1
      exact abs_le.mpr ⟨by linarith, by linarith⟩

theorem kahanSum_error {p : List ℝ} (hp : ∀ x ∈ p, 0 ≤ x) (hs : p.sum ≤ 3 / 2) (hm : p.length ≤ 2 ^ 20) :
    |kahanSum R p - p.sum| ≤ p.length * (16 / 2 ^ 53) := by
  cases p with
  | nil => simp [kahanSum]
  | cons x xs =>
    rw [kahanSum, List.sum_cons]
    rw [List.sum_cons] at hs
    rw [List.length_cons] at hm ⊢
    have h := kahanLoop_error R xs (fun y hy => hp y (by simp [hy])) x 0 x 1 (by rw [abs_zero]; positivity) (hp x (by simp))
      hs (by rw [sub_self, abs_zero]; positivity) (by omega)
    rwa [add_comm 1] at h

theorem npChoiceCheck_ok {p : List ℝ} {m : ℕ} (hm0 : m ≠ 0) (hlen : p.length = m) (hm : m ≤ 2 ^ 20)
    (hp : ∀ x ∈ p, 0 ≤ x) (hs : |p.sum - 1| ≤ 1 / 2 ^ 27) : npChoiceCheck R m p = .ok () := by
  unfold npChoiceCheck
  obtain ⟨hs1, hs2⟩ := abs_le.mp hs
  have h27 : (1 : ℝ) / 2 ^ 27 ≤ 1 / 2 := by norm_num
  have h1 := kahanSum_error R hp (by linarith) (by omega)
  have h2 : (p.length : ℝ) * (16 / 2 ^ 53) ≤ 1 / 2 ^ 27 := by
    have : (p.length : ℝ) ≤ 2 ^ 20 := by exact_mod_cast (by omega : p.length ≤ 2 ^ 20)
    calc (p.length : ℝ) * (16 / 2 ^ 53) ≤ 2 ^ 20 * (16 / 2 ^ 53) := by gcongr
      _ ≤ 1 / 2 ^ 27 := by norm_num
  obtain ⟨h1a, h1b⟩ := abs_le.mp h1
  have hf : IsFloat (1 / 2 ^ 26) := ⟨1, -26, by norm_num, by norm_num, by norm_num [zpow_neg]⟩
  have e26 : (1 : ℝ) / 2 ^ 26 = 2 * (1 / 2 ^ 27) := by norm_num
  have h3 : R.rnd (kahanSum R p - 1) ≤ 1 / 2 ^ 26 := R.le_of_le hf (by linarith)
  have h4 : -(1 / 2 ^ 26) ≤ R.rnd (kahanSum R p - 1) := R.ge_of_ge hf.neg (by linarith)
  rw [if_neg hm0, if_neg (by omega), if_neg (by rintro ⟨x, hx, h⟩; linarith [hp x hx]),
    if_neg (not_lt.mpr (abs_le.mpr ⟨h4, h3⟩))]
  rfl

/-! ### The distribution function -/

theorem cumsumR_length (p : List ℝ) : ∀ cur, (cumsumR R p cur).length = p.length := by
  induction p with
  | nil => intro cur; rfl
  | cons x xs ih => intro cur; rw [cumsumR, List.length_cons, ih, List.length_cons]

theorem cumsumR_getElem (p : List ℝ) : ∀ (cur : ℝ) (i : ℕ) (h : i < (cumsumR R p cur).length),
    (cumsumR R p cur)[i] = accR R cur (p.take (i + 1)) := by
  induction p with
  | nil => intro cur i h; simp [cumsumR] at h
  | cons x xs ih =>
    intro cur i h
    rw [List.take_succ_cons, accR_cons]
    cases i with
    | zero => simp [cumsumR, accR]
    | succ i =>
      simp only [cumsumR, List.getElem_cons_succ]
      exact ih _ i _

theorem npCdf_length (p : List ℝ) : (npCdf R p).length = p.length := by
  rw [npCdf, List.length_map, cumsumR_length]

theorem npCdf_getElem (p : List ℝ) (i : ℕ) (h : i < (npCdf R p).length) :
    (npCdf R p)[i] = R.rnd (accR R 0 (p.take (i + 1)) / sumR R p) := by
  simp only [npCdf, List.getElem_map, cumsumR_getElem]

theorem accR_take_mono {p : List ℝ} (hW : Weights p) {i j : ℕ} (h : i ≤ j) : accR R 0 (p.take i) ≤ accR R 0 (p.take j) := by
  have e : p.take j = p.take i ++ (p.take j).drop i := by
    conv_lhs => rw [← List.take_append_drop i (p.take j), List.take_take, min_eq_left h]
  rw [e, accR_append]
  exact accR_ge R (accR_float R isFloat_zero _) _ fun x hx => hW x (List.mem_of_mem_take (List.mem_of_mem_drop hx))

theorem searchRight_le_length (u : ℝ) (l : List ℝ) : searchRight u l ≤ l.length := by
  induction l with
  | nil => exact le_rfl
  | cons c cs ih =>
    rw [searchRight, List.length_cons]
    split
    · omega
    · omega

theorem searchRight_le (u : ℝ) (l : List ℝ) (h : l.Pairwise (· ≤ ·)) (i : ℕ) (hi : i < l.length) :
    searchRight u l ≤ i ↔ u < l[i] := by
  induction l generalizing i with
  | nil => simp at hi
  | cons c cs ih =>
    rw [searchRight]
    cases i with
    | zero =>
      split
      · rename_i hc; simp [hc]
      · rename_i hc; simpa using hc
    | succ i =>
      simp only [List.getElem_cons_succ]
      have hi' : i < cs.length := by simpa using hi
      split
      · rw [Nat.add_le_add_iff_right]
        exact ih (List.pairwise_cons.mp h).2 i hi'
      · rename_i hc
        have := (List.pairwise_cons.mp h).1 _ (List.getElem_mem hi')
        simp only [Nat.zero_le, true_iff]
        linarith [not_le.mp hc]

section

variable {p : List ℝ} (hW : Weights p) (hL : 3 / 4 ≤ sumR R p)
include hW hL

theorem npCdf_sorted : (npCdf R p).Pairwise (· ≤ ·) := by
  rw [List.pairwise_iff_getElem]
  intro i j hi hj hij
  rw [npCdf_getElem, npCdf_getElem]
  refine R.mono (div_le_div_of_nonneg_right (accR_take_mono R hW (by omega)) (by linarith))

omit hW in
theorem npCdf_last (h : p.length - 1 < (npCdf R p).length) : (npCdf R p)[p.length - 1] = 1 := by
  rw [npCdf_length] at h
  rw [npCdf_getElem, List.take_of_length_le (by omega), ← sumR_eq, div_self (by linarith)]
  exact R.eq_self ⟨1, 0, by norm_num, by norm_num, by norm_num⟩

/-- The index is always in range. -/
theorem searchRight_lt {u : ℝ} (hu : u < 1) (hp : p ≠ []) : searchRight u (npCdf R p) < p.length := by
  have h0 := List.length_pos_iff.mpr hp
  have h1 : p.length - 1 < (npCdf R p).length := by rw [npCdf_length]; omega
  have h2 := (searchRight_le u (npCdf R p) (npCdf_sorted R hW hL) (p.length - 1) h1).mpr
    (by rw [npCdf_last R hL]; exact hu)
  omega

/-- The law of the index drawn from the probabilities `p`. -/
theorem npChoice_dist (hp : p ≠ []) (hL2 : sumR R p ≤ 2) :
    ∑ i ∈ range p.length, |drawLaw (fun k => searchRight ((k : ℝ) / 2 ^ 53) (npCdf R p)) i - p.getD i 0 / sumR R p|
      ≤ 8 * p.length / 2 ^ 53 := by
  have hpos := List.length_pos_iff.mpr hp
  set L := sumR R p with hLdef
  set c : ℕ → ℝ := fun i => R.rnd (accR R 0 (p.take i) / L) with hc
  have hcm : c p.length = 1 := by
    rw [hc]
    simp only [List.take_length, ← sumR_eq]
    rw [← hLdef, div_self (by linarith)]
    exact R.eq_self ⟨1, 0, by norm_num, by norm_num, by norm_num⟩
  have hc0 : c 0 = 0 := by rw [hc]; simp [accR]
  have hmono : ∀ i < p.length, c i ≤ c (i + 1) := fun i hi =>
    R.mono (div_le_div_of_nonneg_right (accR_take_mono R hW (by omega)) (by linarith))
  have hin : ∀ i ≤ p.length, 0 ≤ accR R 0 (p.take i) / L ∧ accR R 0 (p.take i) / L ≤ 1 := by
    intro i hi
    refine ⟨div_nonneg (accR_ge R isFloat_zero _ (hW.take i)) (by linarith), ?_⟩
    rw [div_le_one (by linarith), hLdef, sumR_eq]
    conv_rhs => rw [← List.take_length (l := p)]
    exact accR_take_mono R hW hi
  have herr : ∀ i ≤ p.length, |c i - accR R 0 (p.take i) / L| ≤ 11 / 10 * (1 / 2 ^ 53) := by
    intro i hi
    have h := hin i hi
    refine (rnd_abs_le R (b := 1) (abs_le.mpr ⟨by linarith, h.2⟩)).trans ?_
    norm_num
  have hr : ∀ i < p.length, |c (i + 1) - c i - p.getD i 0 / L| ≤ 7 / 2 ^ 53 := by
    intro i hi
    have h1 := (accR_step R hW hL2 i hi).2
    have h2 := herr i hi.le
    have h3 := herr (i + 1) hi
    have h4 : |accR R 0 (p.take (i + 1)) / L - accR R 0 (p.take i) / L - p.getD i 0 / L| ≤ 4 / 2 ^ 53 := by
      rw [← sub_div, ← sub_div, abs_div, abs_of_pos (by linarith : 0 < L), div_le_iff₀ (by linarith)]
      refine h1.trans ?_
      have : (3 : ℝ) / 2 ^ 53 = 4 / 2 ^ 53 * (3 / 4) := by ring
      rw [this]
      gcongr
    have e1 : c (i + 1) - c i - p.getD i 0 / L = (accR R 0 (p.take (i + 1)) / L - accR R 0 (p.take i) / L - p.getD i 0 / L)
        + (c (i + 1) - accR R 0 (p.take (i + 1)) / L) - (c i - accR R 0 (p.take i) / L) := by ring
    have e2 : (7 : ℝ) / 2 ^ 53 = 4 / 2 ^ 53 + 3 * (1 / 2 ^ 53) := by ring
    have hv : (0 : ℝ) < 1 / 2 ^ 53 := by positivity
    rw [e1, e2]
    refine (abs_sub _ _).trans ((add_le_add (abs_add_le _ _) le_rfl).trans ?_)
    linarith
  have h := drawLaw_dist (s := fun k => searchRight ((k : ℝ) / 2 ^ 53) (npCdf R p)) (m := p.length)
    (fun k _ => by rw [← npCdf_length R p]; exact searchRight_le_length _ _) hc0 hmono hr (fun i hi => ?_)
  · have h1 := h.1
    rw [hcm, sub_self, max_self, add_zero] at h1
    refine h1.trans (le_of_eq ?_)
    ring
  · cases i with
    | zero => rw [drawBelow_zero, hc0]; simp [clip]
    | succ i =>
      have hi' : i < (npCdf R p).length := by rw [npCdf_length]; omega
      have hcard := card_lt (c (i + 1))
      have e : ∀ k : ℕ, searchRight ((k : ℝ) / 2 ^ 53) (npCdf R p) ≤ i ↔ (k : ℝ) / 2 ^ 53 < c (i + 1) := by
        intro k
        rw [searchRight_le _ _ (npCdf_sorted R hW hL) i hi', npCdf_getElem]
      rw [drawBelow_eq _ i _ e]
      exact hcard

/-- Expectations of the index. -/
theorem npChoiceR_wp {m : ℕ} (hm0 : m ≠ 0) (hlen : p.length = m) (hm : m ≤ 2 ^ 20) (hs : |p.sum - 1| ≤ 1 / 2 ^ 27)
    {β : Type} (g : ℕ → Prog β) (f : Py β → ℝ≥0∞) :
    ((npChoiceR R m p).bind g).wp f
      = ∑ j ∈ range m, ENNReal.ofReal (drawLaw (fun k => searchRight ((k : ℝ) / 2 ^ 53) (npCdf R p)) j) * (g j).wp f := by
  unfold npChoiceR
  rw [npChoiceCheck_ok R hm0 hlen hm (fun x hx => (hW x hx).2) hs]
  simp only [Prog.bind_eq, Prog.lift_def, Prog.done_ok_bind, Prog.pure_eq, Prog.bind_assoc]
  refine drawLaw_wp _ m (fun k hk => ?_) _ (fun j => (g j).wp f) f fun k hk => ?_
  · rw [← hlen]
    refine searchRight_lt R hW hL ?_ fun h => hm0 (by rw [← hlen, h]; rfl)
    rw [div_lt_one (by positivity)]
    exact_mod_cast hk
  · rfl

end

end Verif
