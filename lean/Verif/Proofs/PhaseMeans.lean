import Verif.Proofs.Means
import Verif.Props.FixedLoss
import Mathlib.MeasureTheory.Integral.IntervalIntegral.Basic
import Mathlib.Analysis.SpecialFunctions.Integrals.Basic

/-! Helper lemmas: intensities averaged over random phases. -/
namespace Verif

open Finset MeasureTheory
open scoped ENNReal

/-- The phase factor of a uniform number. -/
noncomputable def phaseOf (u : ℝ) : ℂ := Complex.exp (2 * Real.pi * u * Complex.I)

theorem normSq_phaseOf (u : ℝ) : Complex.normSq (phaseOf u) = 1 := by
  unfold phaseOf
  rw [Complex.normSq_eq_norm_sq]
  have : (2 * Real.pi * u * Complex.I : ℂ) = ((2 * Real.pi * u : ℝ) : ℂ) * Complex.I := by push_cast; ring
  rw [this, Complex.norm_exp_ofReal_mul_I]
  norm_num

theorem continuous_phaseOf : Continuous phaseOf := by
  unfold phaseOf
  fun_prop

theorem integral_phaseOf : ∫ u in (0 : ℝ)..1, phaseOf u = 0 := by
  have hc : (2 * Real.pi * Complex.I : ℂ) ≠ 0 := by
    simp [Real.pi_ne_zero]
  have := integral_exp_mul_complex (a := 0) (b := 1) hc
  have e : ∀ u : ℝ, phaseOf u = Complex.exp (2 * Real.pi * Complex.I * u) := by
    intro u; unfold phaseOf; congr 1; ring
  simp only [e]
  rw [this]
  simp [Complex.exp_two_pi_mul_I]

theorem phase_average (C : ℝ) (z : ℂ) (h : ∀ u : ℝ, 0 ≤ C + (z * phaseOf u).re) :
    ∫⁻ u in Set.Ico (0 : ℝ) 1, ENNReal.ofReal (C + (z * phaseOf u).re) = ENNReal.ofReal C := by
  have hcont : Continuous fun u : ℝ => C + (z * phaseOf u).re :=
    continuous_const.add (Complex.continuous_re.comp (continuous_const.mul continuous_phaseOf))
  have hint : IntervalIntegrable (fun u : ℝ => C + (z * phaseOf u).re) volume 0 1 := hcont.intervalIntegrable 0 1
  have hint' : IntervalIntegrable (fun u : ℝ => z * phaseOf u) volume 0 1 :=
    (continuous_const.mul continuous_phaseOf).intervalIntegrable 0 1
  rw [← ofReal_integral_eq_lintegral_ofReal]
  · congr 1
    rw [integral_Ico_eq_integral_Ioc, ← intervalIntegral.integral_of_le zero_le_one,
      intervalIntegral.integral_add (by simp) ?_]
    · have : ∫ u in (0 : ℝ)..1, (z * phaseOf u).re = (∫ u in (0 : ℝ)..1, z * phaseOf u).re := by
        have := Complex.reCLM.intervalIntegral_comp_comm hint'
        simpa using this
      rw [this, intervalIntegral.integral_const_mul, integral_phaseOf]
      simp
    · exact (Complex.continuous_re.comp (continuous_const.mul continuous_phaseOf)).intervalIntegrable 0 1
  · rw [intervalIntegrable_iff_integrableOn_Ico_of_le zero_le_one] at hint
    exact hint
  · exact Filter.Eventually.of_forall h

theorem normSq_add_phase (b a : ℂ) (u : ℝ) :
    Complex.normSq (b + a * phaseOf u) = Complex.normSq b + Complex.normSq a
      + ((2 * (starRingEnd ℂ) b * a) * phaseOf u).re := by
  rw [Complex.normSq_add, Complex.normSq_mul, normSq_phaseOf, mul_one]
  congr 1
  have : (b * (starRingEnd ℂ) (a * phaseOf u)).re = ((starRingEnd ℂ) b * a * phaseOf u).re := by
    rw [← Complex.conj_re]
    simp [mul_assoc]
  rw [this, show (2 : ℂ) * (starRingEnd ℂ) b * a * phaseOf u = ((2 : ℝ) : ℂ) * ((starRingEnd ℂ) b * a * phaseOf u) by
    push_cast; ring, Complex.re_ofReal_mul]

/-- Weighted sums of intensities lose their interference terms under independent phases. -/
theorem expUniform_normSq {ι : Type*} (s : Finset ι) (w : ι → ℝ) (hw : ∀ t ∈ s, 0 ≤ w t) (n : ℕ) (b : ι → ℂ)
    (a : ι → Fin n → ℂ) :
    expUniform n (fun us => ENNReal.ofReal (∑ t ∈ s, w t * Complex.normSq (b t + ∑ i, a t i * phaseOf (us i))))
      = ENNReal.ofReal (∑ t ∈ s, w t * (Complex.normSq (b t) + ∑ i, Complex.normSq (a t i))) := by
  induction n generalizing b with
  | zero => simp [expUniform]
  | succ n ih =>
    rw [expUniform]
    have e : ∀ u : ℝ, (expUniform n fun us => ENNReal.ofReal (∑ t ∈ s, w t *
          Complex.normSq (b t + ∑ i, a t i * phaseOf ((Fin.cons u us : Fin (n + 1) → ℝ) i))))
        = ENNReal.ofReal (∑ t ∈ s, w t * (Complex.normSq (b t) + ∑ i, Complex.normSq (a t i))
            + ((∑ t ∈ s, w t * (2 * (starRingEnd ℂ) (b t) * a t 0)) * phaseOf u).re) := by
      intro u
      have := ih (fun t => b t + a t 0 * phaseOf u) (fun t i => a t i.succ)
      simp only [Fin.sum_univ_succ, Fin.cons_zero, Fin.cons_succ, ← add_assoc]
      rw [this]
      congr 1
      rw [sum_mul, Complex.re_sum, ← sum_add_distrib]
      refine sum_congr rfl fun t _ => ?_
      rw [normSq_add_phase, mul_assoc (w t : ℂ), Complex.re_ofReal_mul]
      ring
    simp only [e]
    refine phase_average _ _ fun u => ?_
    have : 0 ≤ ∑ t ∈ s, w t * (Complex.normSq (b t + a t 0 * phaseOf u) + ∑ i : Fin n, Complex.normSq (a t i.succ)) :=
      sum_nonneg fun t ht => mul_nonneg (hw t ht) (add_nonneg (Complex.normSq_nonneg _)
        (sum_nonneg fun _ _ => Complex.normSq_nonneg _))
    refine this.trans_eq ?_
    rw [sum_mul, Complex.re_sum, ← sum_add_distrib]
    refine sum_congr rfl fun t _ => ?_
    rw [normSq_add_phase, mul_assoc (w t : ℂ), Complex.re_ofReal_mul, Fin.sum_univ_succ]
    ring

namespace Prog

/-- The mean of one of several independent results. -/
theorem repeatN_mean {α : Type} {p : Prog α} {I : α → Prop} (h : p.All I fun _ => False) (n i : ℕ) (hi : i < n) (dflt : α)
    (F : α → ℝ≥0∞) (f : Py (List α) → ℝ≥0∞) (hf : ∀ l, f (.ok l) = F (l.getD i dflt))
    (g : Py α → ℝ≥0∞) (hg : ∀ x, g (.ok x) = F x) : (p.repeatN n).wp f = p.wp g := by
  induction n generalizing i f with
  | zero => omega
  | succ n ih =>
    rw [repeatN, bind_eq, wp_bind]
    cases i with
    | zero =>
      refine wp_congr _ _ _ fun r hr => ?_
      rcases h r hr with ⟨a, rfl, -⟩ | ⟨_, _, hf⟩
      · rw [post, bind_eq, wp_bind, wp_congr _ _ (fun _ => F a), wp_const, hg]
        intro r' hr'
        rcases repeatN_all h n r' hr' with ⟨l, rfl, -⟩ | ⟨_, _, hf⟩
        · simp [post, wp, hf]
        · exact hf.elim
      · exact hf.elim
    | succ i =>
      refine Eq.trans (wp_congr _ _ (fun _ => p.wp g) fun r hr => ?_) (wp_const _ _)
      rcases h r hr with ⟨a, rfl, -⟩ | ⟨_, _, hf⟩
      · rw [post, bind_eq, wp_bind]
        refine ih i (by omega) _ fun l => ?_
        simp [post, wp, hf]
      · exact hf.elim

end Prog

end Verif
