import Verif.Proofs.PhasePairs

/-! Helper lemmas: the mean of a squared modulus of a polynomial in independent random phases. -/
namespace Verif

open Finset MeasureTheory
open scoped ENNReal

theorem integral_phase_pow (j l : ℕ) :
    ∫ u in (0 : ℝ)..1, phaseOf u ^ j * (starRingEnd ℂ) (phaseOf u ^ l) = if j = l then 1 else 0 := by
  split_ifs with h
  · subst h
    have e : ∀ u : ℝ, phaseOf u ^ j * (starRingEnd ℂ) (phaseOf u ^ j) = 1 := by
      intro u
      rw [Complex.mul_conj, map_pow, normSq_phaseOf]
      simp
    simp only [e]
    simp
  · have hc : (2 * Real.pi * Complex.I * ((j : ℂ) - l) : ℂ) ≠ 0 := by
      refine mul_ne_zero (by simp [Real.pi_ne_zero]) (sub_ne_zero.mpr ?_)
      exact_mod_cast h
    have := integral_exp_mul_complex (a := 0) (b := 1) hc
    have e : ∀ u : ℝ, phaseOf u ^ j * (starRingEnd ℂ) (phaseOf u ^ l)
        = Complex.exp (2 * Real.pi * Complex.I * ((j : ℂ) - l) * u) := by
      intro u
      unfold phaseOf
      rw [map_pow, ← Complex.exp_conj, ← Complex.exp_nat_mul, ← Complex.exp_nat_mul, ← Complex.exp_add]
      congr 1
      simp only [map_mul, Complex.conj_I, Complex.conj_ofReal, map_ofNat]
      ring
    simp only [e]
    rw [this]
    have h1 : Complex.exp (2 * Real.pi * Complex.I * ((j : ℂ) - l)) = 1 := by
      have := Complex.exp_int_mul_two_pi_mul_I ((j : ℤ) - l)
      rw [← this]
      congr 1
      push_cast
      ring
    simp [h1]

theorem parseval_one {K : ℕ} (b : Fin K → ℂ) :
    ∫⁻ u in Set.Ico (0 : ℝ) 1, ENNReal.ofReal (Complex.normSq (∑ j, b j * phaseOf u ^ (j : ℕ)))
      = ENNReal.ofReal (∑ j, Complex.normSq (b j)) := by
  have hc : Continuous fun u : ℝ => ∑ j, b j * phaseOf u ^ (j : ℕ) :=
    continuous_finsetSum _ fun j _ => continuous_const.mul (continuous_phaseOf.pow _)
  have hcont : Continuous fun u : ℝ => Complex.normSq (∑ j, b j * phaseOf u ^ (j : ℕ)) := Complex.continuous_normSq.comp hc
  have hint := hcont.intervalIntegrable (μ := volume) 0 1
  rw [← ofReal_integral_eq_lintegral_ofReal]
  · congr 1
    rw [integral_Ico_eq_integral_Ioc, ← intervalIntegral.integral_of_le zero_le_one]
    apply Complex.ofReal_injective
    rw [← intervalIntegral.integral_ofReal]
    have e : ∀ u : ℝ, ((Complex.normSq (∑ j, b j * phaseOf u ^ (j : ℕ)) : ℝ) : ℂ)
        = ∑ j, ∑ l, b j * (starRingEnd ℂ) (b l) * (phaseOf u ^ (j : ℕ) * (starRingEnd ℂ) (phaseOf u ^ (l : ℕ))) := by
      intro u
      rw [← Complex.mul_conj, map_sum, sum_mul_sum]
      refine sum_congr rfl fun j _ => sum_congr rfl fun l _ => ?_
      rw [map_mul]
      ring
    have hcj : ∀ j l : Fin K, Continuous fun u : ℝ =>
        b j * (starRingEnd ℂ) (b l) * (phaseOf u ^ (j : ℕ) * (starRingEnd ℂ) (phaseOf u ^ (l : ℕ))) := fun j l =>
      continuous_const.mul ((continuous_phaseOf.pow _).mul (Complex.continuous_conj.comp (continuous_phaseOf.pow _)))
    simp only [e]
    rw [intervalIntegral.integral_finsetSum fun j _ =>
      (continuous_finsetSum _ fun l _ => hcj j l).intervalIntegrable 0 1, Complex.ofReal_sum]
    refine sum_congr rfl fun j _ => ?_
    rw [intervalIntegral.integral_finsetSum fun l _ => (hcj j l).intervalIntegrable 0 1]
    simp only [intervalIntegral.integral_const_mul, integral_phase_pow]
    simp [Fin.val_inj, Complex.mul_conj]
  · rw [intervalIntegrable_iff_integrableOn_Ico_of_le zero_le_one] at hint
    exact hint
  · exact Filter.Eventually.of_forall fun u => Complex.normSq_nonneg _

theorem parseval_one_sum {ι : Type*} (s : Finset ι) (w : ι → ℝ) (hw : ∀ x ∈ s, 0 ≤ w x) {K : ℕ} (b : ι → Fin K → ℂ) :
    ∫⁻ u in Set.Ico (0 : ℝ) 1, ENNReal.ofReal (∑ x ∈ s, w x * Complex.normSq (∑ j, b x j * phaseOf u ^ (j : ℕ)))
      = ENNReal.ofReal (∑ x ∈ s, w x * ∑ j, Complex.normSq (b x j)) := by
  have e : ∀ u : ℝ, ENNReal.ofReal (∑ x ∈ s, w x * Complex.normSq (∑ j, b x j * phaseOf u ^ (j : ℕ)))
      = ∑ x ∈ s, ENNReal.ofReal (w x) * ENNReal.ofReal (Complex.normSq (∑ j, b x j * phaseOf u ^ (j : ℕ))) := by
    intro u
    rw [ENNReal.ofReal_sum_of_nonneg fun x hx => mul_nonneg (hw x hx) (Complex.normSq_nonneg _)]
    exact sum_congr rfl fun x hx => ENNReal.ofReal_mul (hw x hx)
  have hmeas : ∀ x, Measurable fun u : ℝ => ENNReal.ofReal (Complex.normSq (∑ j, b x j * phaseOf u ^ (j : ℕ))) := fun x =>
    (Complex.continuous_normSq.comp (continuous_finsetSum _ fun j _ =>
      continuous_const.mul (continuous_phaseOf.pow _))).measurable.ennreal_ofReal
  simp only [e]
  rw [lintegral_finsetSum _ fun x _ => (hmeas x).const_mul _,
    ENNReal.ofReal_sum_of_nonneg fun x hx => mul_nonneg (hw x hx) (sum_nonneg fun _ _ => Complex.normSq_nonneg _)]
  refine sum_congr rfl fun x hx => ?_
  rw [lintegral_const_mul _ (hmeas x), parseval_one, ENNReal.ofReal_mul (hw x hx)]

theorem parseval {ι : Type*} (s : Finset ι) (w : ι → ℝ) (hw : ∀ x ∈ s, 0 ≤ w x) (m K : ℕ) (a : ι → (Fin m → Fin K) → ℂ) :
    expUniform m (fun us => ENNReal.ofReal (∑ x ∈ s, w x *
        Complex.normSq (∑ e, a x e * ∏ i, phaseOf (us i) ^ (e i : ℕ))))
      = ENNReal.ofReal (∑ x ∈ s, w x * ∑ e, Complex.normSq (a x e)) := by
  induction m with
  | zero => simp [expUniform]
  | succ m ih =>
    have split : ∀ {M : Type} [AddCommMonoid M] (F : (Fin (m + 1) → Fin K) → M),
        ∑ e, F e = ∑ e' : Fin m → Fin K, ∑ j : Fin K, F (Fin.cons j e') := by
      intro M _ F
      rw [← (Fin.consEquiv fun _ => Fin K).sum_comp, Fintype.sum_prod_type_right]
      rfl
    rw [expUniform]
    have e : ∀ u : ℝ, (expUniform m fun us => ENNReal.ofReal (∑ x ∈ s, w x * Complex.normSq (∑ e, a x e *
          ∏ i, phaseOf ((Fin.cons u us : Fin (m + 1) → ℝ) i) ^ (e i : ℕ))))
        = ENNReal.ofReal (∑ y ∈ s ×ˢ (univ : Finset (Fin m → Fin K)),
            w y.1 * Complex.normSq (∑ j : Fin K, a y.1 (Fin.cons j y.2) * phaseOf u ^ (j : ℕ))) := by
      intro u
      rw [sum_product]
      simp only [← mul_sum]
      rw [← ih]
      refine expUniform_congr _ _ _ fun us => ?_
      congr 1
      refine sum_congr rfl fun x _ => ?_
      congr 2
      rw [split]
      refine sum_congr rfl fun e' _ => ?_
      rw [sum_mul]
      refine sum_congr rfl fun j _ => ?_
      rw [Fin.prod_univ_succ]
      simp only [Fin.cons_zero, Fin.cons_succ]
      ring
    simp only [e]
    rw [parseval_one_sum _ (fun y : ι × (Fin m → Fin K) => w y.1) (fun y hy => hw _ (mem_product.mp hy).1)
      fun y j => a y.1 (Fin.cons j y.2), sum_product]
    simp only [← mul_sum]
    congr 1
    refine sum_congr rfl fun x _ => ?_
    rw [split]

end Verif
