import Verif.Proofs.SingularValues
import Verif.Proofs.RoundedLoss
import Verif.Model.RoundedTransmissivities

/-! Helper lemmas: distances between matrices in floating-point arithmetic. -/
namespace Verif

open Finset Matrix

variable (R : Rounding) (C : ComplexArith)

/-! ### The norm of a list -/

theorem squares_weights (x : List ℝ) : Weights (x.map fun v => R.rnd (v ^ 2)) := by
  intro y hy
  obtain ⟨v, -, rfl⟩ := List.mem_map.mp hy
  exact ⟨R.isFloat _, R.nonneg (sq_nonneg v)⟩



theorem dotSelfR_near (x : List ℝ) :
    Near (rho ^ (x.length + 1)) (x.length * tiny) (dotSelfR R x) (x.map fun v => v ^ 2).sum := by
  have h1 : Near rho (x.length * tiny) (x.map fun v => R.rnd (v ^ 2)).sum (x.map fun v => v ^ 2).sum :=
    Near.list_sum x fun v _ => R.near (sq_nonneg v)
  have h2 := sumR_within R (squares_weights R x)
  rw [List.length_map] at h2
  have := h1.trans_within h2 one_lt_rho.le (one_le_rho_pow _) (mul_nonneg (Nat.cast_nonneg _) tiny_pos.le)
  rwa [← pow_succ'] at this

/-- The computed norm of a list of complex numbers. -/
noncomputable def normF (x : List ℂ) : ℝ :=
  R.rnd (Real.sqrt (R.rnd (dotSelfR R (x.map fun z => z.re) + dotSelfR R (x.map fun z => z.im))))

theorem sqrt_near {c b x y : ℝ} (hc : 1 ≤ c) (hb : 0 ≤ b) (hx : 0 ≤ x) (hy : 0 ≤ y) (h : Near c b x y) :
    Near c (Real.sqrt b) (Real.sqrt x) (Real.sqrt y) := by
  have : ∀ {x y : ℝ}, 0 ≤ y → x ≤ c * (y + b) → Real.sqrt x ≤ c * (Real.sqrt y + Real.sqrt b) := by
    intro x y hy h
    rw [Real.sqrt_le_left (by positivity)]
    refine h.trans ?_
    have h1 := Real.sq_sqrt hy
    have h2 := Real.sq_sqrt hb
    have h3 : y + b ≤ (Real.sqrt y + Real.sqrt b) ^ 2 := by
      nlinarith [mul_nonneg (Real.sqrt_nonneg y) (Real.sqrt_nonneg b)]
    have h4 : c ≤ c ^ 2 := by nlinarith
    rw [mul_pow]
    exact mul_le_mul h4 h3 (by positivity) (by positivity)
  exact ⟨this hy h.1, this hx h.2⟩

theorem normF_near (x : List ℂ) :
    Near (rho ^ (x.length + 3)) (Real.sqrt (2 * x.length * tiny)) (normF R x)
      (Real.sqrt (x.map fun z => Complex.normSq z).sum) := by
  have hN : (0 : ℝ) ≤ x.length * tiny := mul_nonneg (Nat.cast_nonneg _) tiny_pos.le
  have h1 := dotSelfR_near R (x.map fun z => z.re)
  have h2 := dotSelfR_near R (x.map fun z => z.im)
  rw [List.length_map, List.map_map] at h1 h2
  have f1 : IsFloat (dotSelfR R (x.map fun z => z.re)) := sumR_float R _
  have f2 : IsFloat (dotSelfR R (x.map fun z => z.im)) := sumR_float R _
  have p1 : 0 ≤ dotSelfR R (x.map fun z => z.re) := sumR_nonneg R (squares_weights R _)
  have p2 : 0 ≤ dotSelfR R (x.map fun z => z.im) := sumR_nonneg R (squares_weights R _)
  set u := dotSelfR R (x.map fun z => z.re)
  set v := dotSelfR R (x.map fun z => z.im)
  have hs : (x.map fun z => Complex.normSq z).sum
      = (x.map ((fun v : ℝ => v ^ 2) ∘ fun z => z.re)).sum + (x.map ((fun v : ℝ => v ^ 2) ∘ fun z => z.im)).sum := by
    rw [← List.sum_map_add]
    congr 2
    funext z
    simp only [Function.comp_apply, Complex.normSq_apply]
    ring
  have h3 : Near (rho ^ (x.length + 1)) (2 * x.length * tiny) (u + v) (x.map fun z => Complex.normSq z).sum := by
    rw [hs]
    exact ⟨by linarith [h1.1, h2.1], by linarith [h1.2, h2.2]⟩
  have hb : (0 : ℝ) ≤ 2 * x.length * tiny := by linarith
  have h4 := h3.trans_within (R.add_within f1 f2 p1 p2) (one_le_rho_pow _) one_lt_rho.le hb
  rw [← pow_succ] at h4
  have hq0 : 0 ≤ R.rnd (u + v) := R.nonneg (add_nonneg p1 p2)
  have hS : 0 ≤ (x.map fun z => Complex.normSq z).sum :=
    List.sum_nonneg fun y hy => by obtain ⟨z, -, rfl⟩ := List.mem_map.mp hy; exact Complex.normSq_nonneg z
  have h5 := sqrt_near (one_le_rho_pow _) hb hq0 hS h4
  have h6 : Within rho (normF R x) (Real.sqrt (R.rnd (u + v))) := by
    refine R.within ?_
    obtain ⟨k, hk⟩ := (R.isFloat (u + v)).multiple_min
    rcases hq0.eq_or_lt with h0 | h0
    · left; rw [← h0, Real.sqrt_zero]
    · right
      have hk1 : (1 : ℝ) ≤ k := by
        rw [hk] at h0
        have := (mul_pos_iff_of_pos_right (two_zpow_pos (-1074))).mp h0
        exact_mod_cast Int.cast_pos.mp this
      refine Real.le_sqrt_of_sq_le ?_
      rw [hk, ← zpow_natCast, ← _root_.zpow_mul]
      refine le_trans (zpow_le_zpow_right₀ (by norm_num) (n := -1074) (by norm_num)) ?_
      nlinarith [two_zpow_pos (-1074)]
  have h7 := h5.trans_within h6 (one_le_rho_pow _) one_lt_rho.le (Real.sqrt_nonneg _)
  rwa [← pow_succ] at h7

end Verif
