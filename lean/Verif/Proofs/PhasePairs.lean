import Verif.Proofs.SampleMeans
import Verif.Proofs.Correlations

/-! Helper lemmas: products of two intensities averaged over random phases. -/
namespace Verif

open Finset MeasureTheory
open scoped ENNReal

theorem integral_phaseOf_sq : ∫ u in (0 : ℝ)..1, phaseOf u ^ 2 = 0 := by
  have hc : (4 * Real.pi * Complex.I : ℂ) ≠ 0 := by
    simp [Real.pi_ne_zero]
  have := integral_exp_mul_complex (a := 0) (b := 1) hc
  have e : ∀ u : ℝ, phaseOf u ^ 2 = Complex.exp (4 * Real.pi * Complex.I * u) := by
    intro u; unfold phaseOf; rw [← Complex.exp_nat_mul]; congr 1; push_cast; ring
  simp only [e]
  rw [this]
  have h1 : Complex.exp (4 * Real.pi * Complex.I) = 1 := by
    rw [show (4 * Real.pi * Complex.I : ℂ) = 2 * Real.pi * Complex.I + 2 * Real.pi * Complex.I by ring, Complex.exp_add,
      Complex.exp_two_pi_mul_I, mul_one]
  simp [h1]

theorem phase_average_sq (C : ℝ) (z w : ℂ) (h : ∀ u : ℝ, 0 ≤ C + (z * phaseOf u).re + (w * phaseOf u ^ 2).re) :
    ∫⁻ u in Set.Ico (0 : ℝ) 1, ENNReal.ofReal (C + (z * phaseOf u).re + (w * phaseOf u ^ 2).re) = ENNReal.ofReal C := by
  have c1 : Continuous fun u : ℝ => z * phaseOf u := continuous_const.mul continuous_phaseOf
  have c2 : Continuous fun u : ℝ => w * phaseOf u ^ 2 := continuous_const.mul (continuous_phaseOf.pow 2)
  have r1 : Continuous fun u : ℝ => (z * phaseOf u).re := Complex.continuous_re.comp c1
  have r2 : Continuous fun u : ℝ => (w * phaseOf u ^ 2).re := Complex.continuous_re.comp c2
  have hcont : Continuous fun u : ℝ => C + (z * phaseOf u).re + (w * phaseOf u ^ 2).re :=
    (continuous_const.add r1).add r2
  have hint := hcont.intervalIntegrable (μ := volume) 0 1
  rw [← ofReal_integral_eq_lintegral_ofReal]
  · congr 1
    rw [integral_Ico_eq_integral_Ioc, ← intervalIntegral.integral_of_le zero_le_one,
      intervalIntegral.integral_add (f := fun u => C + (z * phaseOf u).re)
        ((continuous_const.add r1).intervalIntegrable 0 1) (r2.intervalIntegrable 0 1),
      intervalIntegral.integral_add (by simp) (r1.intervalIntegrable 0 1)]
    have e1 : ∫ u in (0 : ℝ)..1, (z * phaseOf u).re = (∫ u in (0 : ℝ)..1, z * phaseOf u).re := by
      simpa using Complex.reCLM.intervalIntegral_comp_comm (c1.intervalIntegrable (μ := volume) 0 1)
    have e2 : ∫ u in (0 : ℝ)..1, (w * phaseOf u ^ 2).re = (∫ u in (0 : ℝ)..1, w * phaseOf u ^ 2).re := by
      simpa using Complex.reCLM.intervalIntegral_comp_comm (c2.intervalIntegrable (μ := volume) 0 1)
    rw [e1, e2, intervalIntegral.integral_const_mul, intervalIntegral.integral_const_mul, integral_phaseOf,
      integral_phaseOf_sq]
    simp
  · rw [intervalIntegrable_iff_integrableOn_Ico_of_le zero_le_one] at hint
    exact hint
  · exact Filter.Eventually.of_forall h

/-- The average of `|b + ∑ a_i φ_i|² |b' + ∑ a'_i φ_i|²` over independent phases `φ_i`. -/
noncomputable def pairMean {n : ℕ} (b b' : ℂ) (a a' : Fin n → ℂ) : ℝ :=
  (Complex.normSq b + ∑ i, Complex.normSq (a i)) * (Complex.normSq b' + ∑ i, Complex.normSq (a' i))
    + Complex.normSq ((starRingEnd ℂ) b * b' + ∑ i, (starRingEnd ℂ) (a i) * a' i)
    - Complex.normSq b * Complex.normSq b' - ∑ i, Complex.normSq (a i) * Complex.normSq (a' i)

theorem pairMean_nonneg {n : ℕ} (b b' : ℂ) (a a' : Fin n → ℂ) : 0 ≤ pairMean b b' a a' := by
  unfold pairMean
  have h : ∑ i, Complex.normSq (a i) * Complex.normSq (a' i)
      ≤ (∑ i, Complex.normSq (a i)) * ∑ i, Complex.normSq (a' i) := by
    rw [sum_mul]
    exact sum_le_sum fun i _ => mul_le_mul_of_nonneg_left
      (single_le_sum (f := fun i => Complex.normSq (a' i)) (fun _ _ => Complex.normSq_nonneg _) (mem_univ i))
      (Complex.normSq_nonneg _)
  have h1 : 0 ≤ ∑ i, Complex.normSq (a i) := sum_nonneg fun _ _ => Complex.normSq_nonneg _
  have h2 : 0 ≤ ∑ i, Complex.normSq (a' i) := sum_nonneg fun _ _ => Complex.normSq_nonneg _
  have h3 := Complex.normSq_nonneg b
  have h4 := Complex.normSq_nonneg b'
  have h5 := Complex.normSq_nonneg ((starRingEnd ℂ) b * b' + ∑ i, (starRingEnd ℂ) (a i) * a' i)
  nlinarith [mul_nonneg h1 h4, mul_nonneg h3 h2]

theorem normSq_add_unit (b a φ : ℂ) (h : Complex.normSq φ = 1) :
    Complex.normSq (b + a * φ) = Complex.normSq b + Complex.normSq a + 2 * ((starRingEnd ℂ) b * a * φ).re := by
  rw [Complex.normSq_add, Complex.normSq_mul, h, mul_one]
  congr 2
  rw [← Complex.conj_re]
  simp [mul_assoc]

theorem re_mul_re_unit (z z' φ : ℂ) (h : Complex.normSq φ = 1) :
    2 * ((z * φ).re * (z' * φ).re) = (z * z' * φ ^ 2).re + (z * (starRingEnd ℂ) z').re := by
  rw [Complex.normSq_apply] at h
  simp [pow_two]
  linear_combination (z.re * z'.re + z.im * z'.im) * h

theorem cross_unit (b b' a a' g φ : ℂ) (h : Complex.normSq φ = 1) :
    ((starRingEnd ℂ) (b + a * φ) * (b' + a' * φ) * (starRingEnd ℂ) g).re
      = (((starRingEnd ℂ) b * b' + (starRingEnd ℂ) a * a') * (starRingEnd ℂ) g).re
        + ((((starRingEnd ℂ) g * (starRingEnd ℂ) b * a' + g * a * (starRingEnd ℂ) b')) * φ).re := by
  rw [Complex.normSq_apply] at h
  simp
  linear_combination ((a.re * a'.re + a.im * a'.im) * g.re + (a.re * a'.im - a.im * a'.re) * g.im) * h

theorem normSq_two (b b' a a' : ℂ) :
    Complex.normSq ((starRingEnd ℂ) b * b' + (starRingEnd ℂ) a * a')
      = Complex.normSq b * Complex.normSq b' + Complex.normSq a * Complex.normSq a'
        + 2 * ((starRingEnd ℂ) b * a * (starRingEnd ℂ) ((starRingEnd ℂ) b' * a')).re := by
  simp [Complex.normSq_apply]
  ring

/-- One step of the average: the terms with `φ` and `φ²`. -/
theorem pairMean_step (b b' a a' γ : ℂ) (α α' : ℝ) (φ : ℂ) (h : Complex.normSq φ = 1) :
    (Complex.normSq (b + a * φ) + α) * (Complex.normSq (b' + a' * φ) + α')
      + Complex.normSq ((starRingEnd ℂ) (b + a * φ) * (b' + a' * φ) + γ)
      - Complex.normSq (b + a * φ) * Complex.normSq (b' + a' * φ)
    = ((Complex.normSq b + Complex.normSq a + α) * (Complex.normSq b' + Complex.normSq a' + α')
      + Complex.normSq ((starRingEnd ℂ) b * b' + (starRingEnd ℂ) a * a' + γ)
      - Complex.normSq b * Complex.normSq b' - Complex.normSq a * Complex.normSq a')
      + ((2 * (α' * ((starRingEnd ℂ) b * a) + α * ((starRingEnd ℂ) b' * a')
          + (Complex.normSq b + Complex.normSq a) * ((starRingEnd ℂ) b' * a')
          + (Complex.normSq b' + Complex.normSq a') * ((starRingEnd ℂ) b * a)
          + (starRingEnd ℂ) γ * (starRingEnd ℂ) b * a' + γ * a * (starRingEnd ℂ) b')) * φ).re
      + ((2 * ((starRingEnd ℂ) b * a) * ((starRingEnd ℂ) b' * a')) * φ ^ 2).re := by
  rw [Complex.normSq_add (_ * _) γ, Complex.normSq_add (_ + _) γ, Complex.normSq_mul, Complex.normSq_conj,
    normSq_two, cross_unit b b' a a' γ φ h, normSq_add_unit b a φ h, normSq_add_unit b' a' φ h]
  have e := re_mul_re_unit ((starRingEnd ℂ) b * a) ((starRingEnd ℂ) b' * a') φ h
  have f1 : ((2 * (α' * ((starRingEnd ℂ) b * a) + α * ((starRingEnd ℂ) b' * a')
          + (Complex.normSq b + Complex.normSq a) * ((starRingEnd ℂ) b' * a')
          + (Complex.normSq b' + Complex.normSq a') * ((starRingEnd ℂ) b * a)
          + (starRingEnd ℂ) γ * (starRingEnd ℂ) b * a' + γ * a * (starRingEnd ℂ) b')) * φ).re
      = 2 * (α' * ((starRingEnd ℂ) b * a * φ).re + α * ((starRingEnd ℂ) b' * a' * φ).re
        + (Complex.normSq b + Complex.normSq a) * ((starRingEnd ℂ) b' * a' * φ).re
        + (Complex.normSq b' + Complex.normSq a') * ((starRingEnd ℂ) b * a * φ).re
        + (((starRingEnd ℂ) γ * (starRingEnd ℂ) b * a' + γ * a * (starRingEnd ℂ) b') * φ).re) := by
    simp
    ring
  have f2 : ((2 * ((starRingEnd ℂ) b * a) * ((starRingEnd ℂ) b' * a')) * φ ^ 2).re
      = 2 * ((starRingEnd ℂ) b * a * ((starRingEnd ℂ) b' * a') * φ ^ 2).re := by
    rw [mul_assoc 2, mul_assoc 2, show (2 : ℂ) = ((2 : ℝ) : ℂ) by norm_num, Complex.re_ofReal_mul]
  rw [f1, f2]
  linear_combination 2 * e

theorem expUniform_pair (n : ℕ) (b b' : ℂ) (a a' : Fin n → ℂ) (K : ℝ) (hK : 0 ≤ K) :
    expUniform n (fun us => ENNReal.ofReal (K * (Complex.normSq (b + ∑ i, a i * phaseOf (us i)) *
        Complex.normSq (b' + ∑ i, a' i * phaseOf (us i)))))
      = ENNReal.ofReal (K * pairMean b b' a a') := by
  induction n generalizing b b' with
  | zero => simp [expUniform, pairMean, Complex.normSq_mul, Complex.normSq_conj]
  | succ n ih =>
    rw [expUniform]
    have key : ∀ u : ℝ, pairMean (b + a 0 * phaseOf u) (b' + a' 0 * phaseOf u) (fun i => a i.succ) (fun i => a' i.succ)
        = pairMean b b' a a'
          + ((2 * ((∑ i : Fin n, Complex.normSq (a' i.succ) : ℝ) * ((starRingEnd ℂ) b * a 0)
            + (∑ i : Fin n, Complex.normSq (a i.succ) : ℝ) * ((starRingEnd ℂ) b' * a' 0)
            + (Complex.normSq b + Complex.normSq (a 0)) * ((starRingEnd ℂ) b' * a' 0)
            + (Complex.normSq b' + Complex.normSq (a' 0)) * ((starRingEnd ℂ) b * a 0)
            + (starRingEnd ℂ) (∑ i : Fin n, (starRingEnd ℂ) (a i.succ) * a' i.succ) * (starRingEnd ℂ) b * a' 0
            + (∑ i : Fin n, (starRingEnd ℂ) (a i.succ) * a' i.succ) * a 0 * (starRingEnd ℂ) b')) * phaseOf u).re
          + ((2 * ((starRingEnd ℂ) b * a 0) * ((starRingEnd ℂ) b' * a' 0)) * phaseOf u ^ 2).re := by
      intro u
      have := pairMean_step b b' (a 0) (a' 0) (∑ i : Fin n, (starRingEnd ℂ) (a i.succ) * a' i.succ)
        (∑ i : Fin n, Complex.normSq (a i.succ)) (∑ i : Fin n, Complex.normSq (a' i.succ)) (phaseOf u) (normSq_phaseOf u)
      unfold pairMean
      simp only [Fin.sum_univ_succ, ← add_assoc]
      linear_combination this
    have e : ∀ u : ℝ, (expUniform n fun us => ENNReal.ofReal (K *
          (Complex.normSq (b + ∑ i, a i * phaseOf ((Fin.cons u us : Fin (n + 1) → ℝ) i)) *
          Complex.normSq (b' + ∑ i, a' i * phaseOf ((Fin.cons u us : Fin (n + 1) → ℝ) i)))))
        = ENNReal.ofReal K * ENNReal.ofReal (pairMean (b + a 0 * phaseOf u) (b' + a' 0 * phaseOf u) (fun i => a i.succ)
            (fun i => a' i.succ)) := by
      intro u
      have := ih (b + a 0 * phaseOf u) (b' + a' 0 * phaseOf u) (fun i => a i.succ) (fun i => a' i.succ)
      simp only [Fin.sum_univ_succ, Fin.cons_zero, Fin.cons_succ, ← add_assoc]
      rw [this, ENNReal.ofReal_mul hK]
    simp only [e]
    rw [lintegral_const_mul' _ _ ENNReal.ofReal_ne_top, ENNReal.ofReal_mul hK]
    congr 1
    simp only [key]
    exact phase_average_sq _ _ _ fun u => (pairMean_nonneg _ _ _ _).trans_eq (key u)

/-! ### Independent particles -/

/-- The pairs of a single sample. -/
def pairOf (a b : ℕ) : Py (List ℕ) → ℝ≥0∞
  | .ok T => (pairCount T a b : ℕ)
  | .error _ => 0

theorem meanPair_repeatN {p : Prog (List ℕ)} {I : List ℕ → Prop} (h : p.All I fun _ => False) (n i : ℕ) (hi : i < n)
    (a b : ℕ) : meanPair (p.repeatN n) id i a b = p.wp (pairOf a b) :=
  Prog.repeatN_mean h n i hi [] (fun T => (pairCount T a b : ℕ)) _ (fun _ => rfl) _ fun _ => rfl

theorem modify_count (out : List ℕ) (i j : ℕ) (hj : j < out.length) :
    (out.modify i (· + 1)).getD j 0 = out.getD j 0 + if i = j then 1 else 0 := by
  rw [getD_of_lt _ _ (by simp; omega), getD_of_lt _ _ (by omega), List.getElem_modify]
  split_ifs <;> rfl

/-- One more particle, in mode `i`. -/
theorem pairCount_modify (out : List ℕ) (i a b : ℕ) (ha : a < out.length) (hb : b < out.length) :
    pairCount (out.modify i (· + 1)) a b
      = pairCount out a b + (if i = a then out.getD b 0 else 0) + if i = b then out.getD a 0 else 0 := by
  unfold pairCount
  rw [modify_count _ _ _ ha, modify_count _ _ _ hb]
  by_cases hab : a = b
  · subst hab
    by_cases hi : i = a
    · simp only [hi, if_true]
      rcases out.getD a 0 with _ | x
      · rfl
      · simp only [Nat.add_sub_cancel]; ring
    · simp [hi]
  · by_cases hi : i = a
    · subst hi; simp [hab]; ring
    · by_cases hi' : i = b
      · subst hi'; simp [hab, hi]; ring
      · simp [hab, hi, hi']

theorem fixedPhotons_pair (ps : List ℝ) (hne : ps ≠ []) (h : ∀ p ∈ ps, 0 ≤ p) (hs : ps.sum ≤ 1) (k : ℕ) (out : List ℕ)
    (ho : out.length = ps.length) (a b : ℕ) (ha : a < ps.length) (hb : b < ps.length) :
    (fixedPhotons (.vals ps) k out).wp (pairOf a b)
      = (pairCount out a b : ℕ) + k * ((out.getD a 0 : ℕ) * ENNReal.ofReal (ps.getD b 0)
          + (out.getD b 0 : ℕ) * ENNReal.ofReal (ps.getD a 0))
        + (k * (k - 1) : ℕ) * (ENNReal.ofReal (ps.getD a 0) * ENNReal.ofReal (ps.getD b 0)) := by
  induction k generalizing out with
  | zero => simp [fixedPhotons, Prog.wp, pairOf]
  | succ k ih =>
    rw [fixedPhotons_succ ps hne k out ho, Prog.wp,
      reach_uniform ps h hs (fun i => (fixedPhotons (.vals ps) k (out.modify i (· + 1))).wp (pairOf a b))]
    set A := ENNReal.ofReal (ps.getD a 0) with hA
    set B := ENNReal.ofReal (ps.getD b 0) with hB
    have e : ∀ i ∈ range (ps.length + 1), ENNReal.ofReal ((withLoss ps).getD i 0) *
        (fixedPhotons (.vals ps) k (out.modify i (· + 1))).wp (pairOf a b)
        = ENNReal.ofReal ((withLoss ps).getD i 0) * ((pairCount out a b : ℕ) + k * ((out.getD a 0 : ℕ) * B
            + (out.getD b 0 : ℕ) * A) + (k * (k - 1) : ℕ) * (A * B))
          + (if i = a then A * ((out.getD b 0 : ℕ) + k * B) else 0)
          + if i = b then B * ((out.getD a 0 : ℕ) + k * A) else 0 := by
      intro i hi
      rw [ih _ (by simpa using ho), pairCount_modify _ _ _ _ (by omega) (by omega), modify_count _ _ _ (by omega),
        modify_count _ _ _ (by omega)]
      have wa : i = a → ENNReal.ofReal ((withLoss ps).getD i 0) = A := by
        rintro rfl; rw [withLoss, List.getD_append _ _ _ _ ha]
      have wb : i = b → ENNReal.ofReal ((withLoss ps).getD i 0) = B := by
        rintro rfl; rw [withLoss, List.getD_append _ _ _ _ hb]
      by_cases ia : i = a <;> by_cases ib : i = b
      · rw [wa ia]
        have : A = B := by rw [← wa ia, wb ib]
        simp only [if_pos ia, if_pos ib]
        rw [← this]
        push_cast
        ring
      · rw [wa ia]
        simp only [if_pos ia, if_neg ib]
        push_cast
        ring
      · rw [wb ib]
        simp only [if_neg ia, if_pos ib]
        push_cast
        ring
      · simp only [if_neg ia, if_neg ib]
        push_cast
        ring
    rw [sum_congr rfl e, sum_add_distrib, sum_add_distrib, ← sum_mul, withLoss_total ps h hs, one_mul, sum_ite_eq',
      sum_ite_eq', if_pos (by simp; omega), if_pos (by simp; omega)]
    have hk : ((k + 1) * (k + 1 - 1) : ℕ) = k * (k - 1) + 2 * k := by
      rcases k with _ | k
      · rfl
      · simp only [Nat.add_sub_cancel]; ring
    rw [hk]
    push_cast
    ring

section
variable {m : ℕ}

theorem normSq_sum_mul_conj (x y : Fin m → ℂ) :
    Complex.normSq (∑ c, (starRingEnd ℂ) (x c) * y c)
      = ∑ c, ∑ d, (x c * y d * (starRingEnd ℂ) (x d * y c)).re := by
  have h : ((Complex.normSq (∑ c, (starRingEnd ℂ) (x c) * y c) : ℝ) : ℂ)
      = ∑ c, ∑ d, (x c * y d * (starRingEnd ℂ) (x d * y c)) := by
    rw [← Complex.mul_conj, map_sum, sum_mul_sum, sum_comm]
    refine sum_congr rfl fun c _ => sum_congr rfl fun d _ => ?_
    simp
    ring
  have := congrArg Complex.re h
  rw [Complex.ofReal_re, Complex.re_sum] at this
  rw [this]
  exact sum_congr rfl fun c _ => Complex.re_sum _ _

theorem pairs_split (x y : Fin m → ℂ) :
    (∑ c, Complex.normSq (x c)) * (∑ c, Complex.normSq (y c)) + Complex.normSq (∑ c, (starRingEnd ℂ) (x c) * y c)
        - ∑ c, Complex.normSq (x c) * Complex.normSq (y c)
      = (∑ c, ∑ d, if c = d then 0 else Complex.normSq (x c * y d + x d * y c)) / 2
        + ∑ c, Complex.normSq (x c) * Complex.normSq (y c) := by
  have e : ∀ c, (∑ d, if c = d then 0 else Complex.normSq (x c * y d + x d * y c))
      = (∑ d, Complex.normSq (x c * y d + x d * y c)) - 4 * (Complex.normSq (x c) * Complex.normSq (y c)) := by
    intro c
    rw [eq_sub_iff_add_eq, ← sum_erase_add _ _ (mem_univ c), ← sum_erase_add (univ : Finset (Fin m)) (fun d =>
      Complex.normSq (x c * y d + x d * y c)) (mem_univ c), if_pos rfl, add_zero]
    congr 1
    · exact sum_congr rfl fun d hd => if_neg (ne_of_mem_erase hd).symm
    · rw [← two_mul, Complex.normSq_mul, Complex.normSq_mul, Complex.normSq_apply 2]
      norm_num
  have f : ∑ c, ∑ d, Complex.normSq (x c * y d + x d * y c)
      = 2 * ((∑ c, Complex.normSq (x c)) * (∑ c, Complex.normSq (y c)))
        + 2 * Complex.normSq (∑ c, (starRingEnd ℂ) (x c) * y c) := by
    simp only [Complex.normSq_add, sum_add_distrib, Complex.normSq_mul]
    rw [normSq_sum_mul_conj, sum_mul_sum, mul_sum, mul_sum, sum_comm (f := fun c d => Complex.normSq (x d) * _)]
    rw [← sum_add_distrib, ← sum_add_distrib, ← sum_add_distrib]
    refine sum_congr rfl fun c _ => ?_
    rw [← mul_sum, ← mul_sum]
    ring
  rw [sum_congr rfl fun c _ => e c, sum_sub_distrib, f, ← mul_sum]
  ring

/-- The average of the product of two intensities: the rate of coincidences of one particle in each of the first `n` modes,
and the terms in which both particles come from one mode. -/
theorem pairMean_first (A : Matrix (Fin m) (Fin m) ℂ) (n : ℕ) (a b : Fin m) :
    pairMean 0 0 (fun i => A a i * (if (i : ℕ) < n then 1 / (Real.sqrt n : ℂ) else 0))
        (fun i => A b i * (if (i : ℕ) < n then 1 / (Real.sqrt n : ℂ) else 0))
      = (pairRate (rowsOf A) (firstModes m n) a b
          + ∑ c : Fin m, if (c : ℕ) < n then Complex.normSq (A a c) * Complex.normSq (A b c) else 0) / (n : ℝ) ^ 2 := by
  set v : Fin m → ℝ := fun i => if (i : ℕ) < n then 1 else 0 with hv
  have hvv : ∀ i, v i * v i = v i := by intro i; simp only [hv]; split_ifs <;> simp
  have hw : ∀ (j i : Fin m), Complex.normSq (A j i * (if (i : ℕ) < n then 1 / (Real.sqrt n : ℂ) else 0))
      = v i * Complex.normSq (A j i) / n := by
    intro j i
    rw [Complex.normSq_mul]
    simp only [hv]
    split_ifs
    · rw [Complex.normSq_div, Complex.normSq_one, Complex.normSq_ofReal, Real.mul_self_sqrt (by positivity)]
      ring
    · simp
  unfold pairMean
  simp only [map_zero, zero_mul, zero_add, sub_zero]
  rw [pairs_split, pairRate, show (firstModes m n).length = m by simp [firstModes], Finset.sum_range]
  have hS : ∀ c : Fin m, ((firstModes m n).getD c 0 : ℝ) = v c := by
    intro c
    rw [getD_of_lt _ _ (by simp [firstModes])]
    simp only [firstModes, List.getElem_map, List.getElem_range, hv]
    split_ifs <;> simp
  have z : ∑ c ∈ range m, ((firstModes m n).getD c 0 : ℝ) * (((firstModes m n).getD c 0 : ℝ) - 1) *
      (Complex.normSq (mget (rowsOf A) a c) * Complex.normSq (mget (rowsOf A) b c)) = 0 := by
    rw [Finset.sum_range]
    refine sum_eq_zero fun c _ => ?_
    rw [hS, mul_sub, hvv]
    simp
  rw [z, add_zero, add_div, div_right_comm]
  congr 1
  · congr 1
    rw [sum_div]
    refine sum_congr rfl fun c _ => ?_
    rw [Finset.sum_range, sum_div]
    refine sum_congr rfl fun d _ => ?_
    by_cases hcd : c = d
    · simp [hcd]
    · rw [if_neg hcd, if_neg (c := (c : ℕ) = d) (fun h => hcd (Fin.ext h)), hS, hS, mget_rowsOf _ _ _ a.2 c.2, mget_rowsOf _ _ _ b.2 d.2,
        mget_rowsOf _ _ _ a.2 d.2, mget_rowsOf _ _ _ b.2 c.2]
      simp only [hv, Fin.eta]
      by_cases h1 : (c : ℕ) < n <;> by_cases h2 : (d : ℕ) < n
      · simp only [if_pos h1, if_pos h2]
        rw [show A a c * (1 / (Real.sqrt n : ℂ)) * (A b d * (1 / (Real.sqrt n : ℂ)))
            + A a d * (1 / (Real.sqrt n : ℂ)) * (A b c * (1 / (Real.sqrt n : ℂ)))
            = (A a c * A b d + A a d * A b c) / ((Real.sqrt n : ℂ) * (Real.sqrt n : ℂ)) by ring,
          Complex.normSq_div, Complex.normSq_mul, Complex.normSq_ofReal, Real.mul_self_sqrt (by positivity)]
        ring
      · simp [h2]
      · simp [h1]
      · simp [h1]
  · rw [sum_div]
    refine sum_congr rfl fun c _ => ?_
    rw [hw, hw]
    simp only [hv]
    split_ifs
    · ring
    · simp

open Matrix in
theorem smeared_pair (A : Matrix (Fin m) (Fin m) ℂ) (n : ℕ) (K : ℝ) (hK : 0 ≤ K) (a b : Fin m) :
    expUniform m (fun us => ENNReal.ofReal K * (ENNReal.ofReal (Complex.normSq ((A *ᵥ smeared m n us) a))
        * ENNReal.ofReal (Complex.normSq ((A *ᵥ smeared m n us) b))))
      = ENNReal.ofReal (K * ((pairRate (rowsOf A) (firstModes m n) a b
          + ∑ c : Fin m, if (c : ℕ) < n then Complex.normSq (A a c) * Complex.normSq (A b c) else 0) / (n : ℝ) ^ 2)) := by
  rw [← pairMean_first, ← expUniform_pair m 0 0 _ _ K hK]
  refine expUniform_congr _ _ _ fun us => ?_
  rw [ENNReal.ofReal_mul hK, ENNReal.ofReal_mul (Complex.normSq_nonneg _)]
  have e : ∀ j : Fin m, (A *ᵥ smeared m n us) j
      = 0 + ∑ i, A j i * (if (i : ℕ) < n then 1 / (Real.sqrt n : ℂ) else 0) * phaseOf (us i) := by
    intro j
    rw [zero_add]
    unfold Matrix.mulVec dotProduct
    refine sum_congr rfl fun i _ => ?_
    unfold smeared phaseOf
    split_ifs
    · ring
    · simp
  rw [e a, e b]

open Matrix in
theorem fixedSample_pair {net : List ℂ → Py (List ℂ)} {A : Matrix (Fin m) (Fin m) ℂ} (h : NetworkOf net A) (d : Svd m)
    (hd : IsSvd A d) (hs : ∀ i, d.s i ≤ 1) (k : ℤ) (S : List ℕ) (hS : 1 ≤ S.sum) (a b : Fin m) :
    (fixedSample net m k S).wp (pairOf a b)
      = ENNReal.ofReal ((k.toNat * (k.toNat - 1 : ℕ) : ℕ) * ((pairRate (rowsOf A) (firstModes m S.sum) a b
          + ∑ c : Fin m, if (c : ℕ) < S.sum then Complex.normSq (A a c) * Complex.normSq (A b c) else 0)
            / (S.sum : ℝ) ^ 2)) := by
  rw [← smeared_pair _ _ _ (by positivity)]
  unfold fixedSample
  rw [Prog.bind_eq, Prog.wp_bind, randVec_wp]
  refine expUniform_congr _ _ _ fun us => ?_
  rw [Prog.post, preparedState, if_neg (by omega)]
  simp only
  rw [withPhases_ofFn, h]
  simp only [Prog.lift_def, Prog.bind_eq, Prog.done_ok_bind]
  have e : modeProbabilities (List.ofFn (A *ᵥ smeared m S.sum us))
      = List.ofFn fun i => Complex.normSq ((A *ᵥ smeared m S.sum us) i) := by
    rw [modeProbabilities, List.map_ofFn]; rfl
  have hlen : (List.ofFn fun i => Complex.normSq ((A *ᵥ smeared m S.sum us) i)).length = m := by simp
  rw [e, fixedOutcome, fixedPhotons_pair _ (by intro h0; rw [h0] at hlen; simp at hlen; have := a.2; omega)
    (by intro x hx; obtain ⟨i, rfl⟩ := List.mem_ofFn.mp hx; exact Complex.normSq_nonneg _)
    (by rw [List.sum_ofFn]; exact (normSq_contraction A d hd hs _).trans (sum_smeared_le _ us)) _ _ (by simp) a b
    (by rw [hlen]; exact a.2) (by rw [hlen]; exact b.2)]
  simp [pairCount]

theorem binomial_pairs (n : ℕ) (eta : ℝ) :
    ∑ l ∈ range (n + 1), binomialWeight n l eta * (l * (l - 1 : ℕ) : ℕ) = eta ^ 2 * (n * (n - 1 : ℕ) : ℕ) := by
  have e : ∀ l : ℕ, ((l * (l - 1 : ℕ) : ℕ) : ℝ) = 2 * (l.choose 2 : ℝ) := by
    intro l
    rw [Nat.choose_two_right]
    exact_mod_cast (Nat.mul_div_cancel' (Nat.even_mul_pred_self l).two_dvd).symm
  simp only [e, mul_left_comm _ (2 : ℝ), ← mul_sum, binomial_moment]

theorem uniformSample_pair {net : List ℂ → Py (List ℂ)} {A : Matrix (Fin m) (Fin m) ℂ} (h : NetworkOf net A) (d : Svd m)
    (hd : IsSvd A d) (hs : ∀ i, d.s i ≤ 1) {eta : ℝ} (h0 : 0 ≤ eta) (h1 : eta ≤ 1) (S : List ℕ) (hS : 1 ≤ S.sum)
    (a b : Fin m) :
    (uniformSample net m eta S).wp (pairOf a b)
      = ENNReal.ofReal (eta ^ 2 * (1 - 1 / S.sum) * (pairRate (rowsOf A) (firstModes m S.sum) a b
          + ∑ c : Fin m, if (c : ℕ) < S.sum then Complex.normSq (A a c) * Complex.normSq (A b c) else 0)) := by
  rw [uniformSample, Prog.wp, if_pos (separableWeights_prob _ h0 h1), separableWeights_eq, gccbWeights_length]
  have hn : (S.sum : ℝ) ≠ 0 := by exact_mod_cast (by omega : S.sum ≠ 0)
  set Q := pairRate (rowsOf A) (firstModes m S.sum) a b
          + ∑ c : Fin m, if (c : ℕ) < S.sum then Complex.normSq (A a c) * Complex.normSq (A b c) else 0 with hQ
  have hQ0 : 0 ≤ Q / (S.sum : ℝ) ^ 2 := by
    rw [hQ, ← pairMean_first]; exact pairMean_nonneg _ _ _ _
  have e : ∀ l ∈ range (S.sum + 1), ENNReal.ofReal ((gccbWeights S.sum eta).getD l 0) * (fixedSample net m l S).wp (pairOf a b)
      = ENNReal.ofReal (binomialWeight S.sum l eta * (l * (l - 1 : ℕ) : ℕ) * (Q / (S.sum : ℝ) ^ 2)) := by
    intro l hl
    rw [gccbWeights_getD _ _ _ (by have := mem_range.mp hl; omega), fixedSample_pair h d hd hs l S hS a b, Int.toNat_natCast,
      mul_assoc, ENNReal.ofReal_mul (binomialWeight_nonneg _ _ h0 h1)]
  rw [sum_congr rfl e, ← ENNReal.ofReal_sum_of_nonneg fun l _ =>
    mul_nonneg (mul_nonneg (binomialWeight_nonneg _ _ h0 h1) (by positivity)) hQ0, ← sum_mul, binomial_pairs]
  congr 1
  generalize S.sum = n at hS hn ⊢
  rw [Nat.cast_mul, Nat.cast_sub hS, Nat.cast_one]
  field_simp

/-! ### The exact samplers -/

theorem pairCount_pattern (T : List ℕ) (hT : T.length = m) (a b : Fin m) :
    pairCount T a b = (if (a : ℕ) = b then 2 else 1) * patternCount T (pairState m a b) := by
  subst hT
  rw [patternCount_pair T a b a.2 b.2, pairCount]
  split_ifs with h
  · rw [← h, Nat.choose_two_right, Nat.mul_div_cancel' (Nat.even_mul_pred_self _).two_dvd]
  · rw [one_mul]

theorem meanPair_pattern {p : Prog (List (List ℕ))} {𝒯 : Finset (List ℕ)} {q : List ℕ → ℝ≥0∞} {n : ℕ}
    {φ : List (List ℕ) → List (List ℕ)} (hp : ∀ f : Py (List (List ℕ)) → ℝ≥0∞, p.wp f = expIid 𝒯 q n fun l => f (.ok (φ l)))
    (i : ℕ) (hφ : ∀ l, l.length = n → (∀ T ∈ l, T ∈ 𝒯) → ((φ l).getD i []).length = m) (a b : Fin m) :
    meanPair p id i a b = (if (a : ℕ) = b then 2 else 1) * meanPattern p id i (pairState m a b) := by
  unfold meanPair meanPattern
  rw [hp, hp, ← expIid_mul]
  refine expIid_congr _ _ _ fun l hl hl' => ?_
  simp only [id]
  rw [pairCount_pattern _ (hφ l hl hl')]
  push_cast
  rfl

theorem pairs_of_pattern {x : ℝ≥0∞} {c : ℝ} {U : List (List ℂ)} {S : List ℕ} (a b : Fin m)
    (h : x = ENNReal.ofReal (c * correlation U S (pairState m a b))) :
    (if (a : ℕ) = b then 2 else 1) * x = ENNReal.ofReal (c * pairRate U S a b) := by
  rw [h, ← correlation_pair U S m a b a.2 b.2]
  split_ifs
  · rw [← mul_assoc, ENNReal.ofReal_mul' zero_le_two, ENNReal.ofReal_ofNat, mul_comm]
  · rw [one_mul, mul_one]

end

end Verif
