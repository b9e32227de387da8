import Verif.Model.Cliffords
import Verif.Proofs.Prog

/-! Helper lemmas: sampling by scanning cumulative sums. -/
namespace Verif

open Finset MeasureTheory
open scoped ENNReal

theorem lintegral_scan (s : ℝ) (hs : 0 < s) (ps : List ℝ) (h : ∀ p ∈ ps, 0 ≤ p) (c : ℝ) (F : ℕ → ℝ≥0∞) :
    ∫⁻ u in Set.Ico (c / s) ((c + ps.sum) / s), F (scanIndex (u * s) ps c)
      = ∑ i ∈ range ps.length, ENNReal.ofReal (ps.getD i 0 / s) * F i := by
  induction ps generalizing c F with
  | nil => simp
  | cons p ps ih =>
    have hp : 0 ≤ p := h p (by simp)
    have hps : 0 ≤ ps.sum := List.sum_nonneg fun x hx => h x (by simp [hx])
    have h1 : c / s ≤ (c + p) / s := by gcongr; linarith
    have h2 : (c + p) / s ≤ (c + (p :: ps).sum) / s := by
      rw [List.sum_cons]; gcongr; linarith
    rw [← Set.Ico_union_Ico_eq_Ico h1 h2,
      lintegral_union measurableSet_Ico (Set.Ico_disjoint_Ico_same)]
    have e1 : ∫⁻ u in Set.Ico (c / s) ((c + p) / s), F (scanIndex (u * s) (p :: ps) c)
        = ENNReal.ofReal (p / s) * F 0 := by
      rw [setLIntegral_congr_fun (g := fun _ => F 0) measurableSet_Ico, setLIntegral_const, Real.volume_Ico,
        mul_comm]
      · congr 2; field_simp; ring
      · intro u hu
        have : u * s < c + p := by rw [← lt_div_iff₀ hs]; exact hu.2
        simp only [scanIndex, gt_iff_lt, this, if_true]
    have e2 : ∫⁻ u in Set.Ico ((c + p) / s) ((c + (p :: ps).sum) / s), F (scanIndex (u * s) (p :: ps) c)
        = ∑ i ∈ range ps.length, ENNReal.ofReal (ps.getD i 0 / s) * F (i + 1) := by
      rw [← ih (fun x hx => h x (by simp [hx])) (c + p) (fun i => F (i + 1))]
      rw [List.sum_cons, ← add_assoc]
      refine setLIntegral_congr_fun measurableSet_Ico fun u hu => ?_
      have : ¬ (u * s < c + p) := by rw [← lt_div_iff₀ hs]; exact not_lt.mpr hu.1
      simp only [scanIndex, gt_iff_lt, this, if_false]
    rw [e1, e2, List.length_cons, sum_range_succ', add_comm]
    simp

/-- A value below the total is assigned to an index with positive weight. -/
theorem scanIndex_lt (ps : List ℝ) (x c : ℝ) (hc : c ≤ x) (hx : x < c + ps.sum) :
    scanIndex x ps c < ps.length ∧ 0 < ps.getD (scanIndex x ps c) 0 := by
  induction ps generalizing c with
  | nil => simp at hx; linarith
  | cons p ps ih =>
    unfold scanIndex
    by_cases h : c + p > x
    · rw [if_pos h]; simp; linarith
    · rw [if_neg h]
      have := ih (c + p) (not_lt.mp h) (by rw [List.sum_cons] at hx; linarith)
      simpa using this

theorem scan_uniform (ps : List ℝ) (h : ∀ p ∈ ps, 0 ≤ p) (hs : 0 < ps.sum) (F : ℕ → ℝ≥0∞) :
    ∫⁻ u in Set.Ico (0 : ℝ) 1, F (scanIndex (u * ps.sum) ps 0)
      = ∑ i ∈ range ps.length, ENNReal.ofReal (ps.getD i 0 / ps.sum) * F i := by
  rw [← lintegral_scan ps.sum hs ps h 0 F]
  rw [zero_div, zero_add, div_self hs.ne']

end Verif
