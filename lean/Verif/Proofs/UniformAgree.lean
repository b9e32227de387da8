import Verif.Proofs.LossChannel
import Verif.Proofs.UniformBobsSample

/-! Uniform losses at the input as a lossy network. -/
namespace Verif

open Finset
open scoped ENNReal

variable {m : ℕ}

theorem prod_binomialWeight (eta : ℝ) {L S : List ℕ} (h : StateLE L S) :
    (List.zipWith (fun n l => binomialWeight n l eta) S L).prod
      = ((List.zipWith Nat.choose S L).prod : ℝ) * (eta ^ L.sum * (1 - eta) ^ (S.sum - L.sum)) := by
  unfold StateLE at h
  induction h with
  | nil => simp
  | @cons a b l l' h1 h2 ih =>
    have h3 : l.sum ≤ l'.sum := List.Forall₂.sum_le_sum h2
    simp only [List.zipWith_cons_cons, List.prod_cons, List.sum_cons]
    rw [ih, binomialWeight, show b + l'.sum - (a + l.sum) = (b - a) + (l'.sum - l.sum) by omega, pow_add, pow_add]
    push_cast
    ring

/-- The law of the network `√eta U`: the binomial law of the surviving particles, of which every set is
equally likely. -/
theorem lossyProb_binomial {U : Matrix (Fin m) (Fin m) ℂ} (hU : U ∈ Matrix.unitaryGroup (Fin m) ℂ) (eta : ℝ)
    (h0 : 0 ≤ eta) (h1 : eta ≤ 1) {W : List (List ℂ)} {b : ℕ}
    (hW : IsDilation (rowsOf (((Real.sqrt eta : ℝ) : ℂ) • U)) W m b) (S T : List ℕ) (hS : S.length = m)
    (hT : T.length = m) (hs : T.sum ≤ S.sum) :
    ENNReal.ofReal (lossyProb W b S T)
      = ENNReal.ofReal (binomialWeight S.sum T.sum eta * fixedLossProb (rowsOf U) S T.sum T) := by
  classical
  rw [← lossyProb_uniform U eta h0 h1 (unitary_isDilation hU) hW S T hS hT, expLoss_lowerStates h0 h1,
    ← List.sum_toFinset _ (lowerStates_nodup S)]
  have e : ∀ L ∈ (lowerStates S).toFinset,
      ENNReal.ofReal (List.zipWith (fun n l => binomialWeight n l eta) S L).prod
          * ENNReal.ofReal (lossyProb (rowsOf U) 0 L T)
        = if L.sum = T.sum then ENNReal.ofReal (((List.zipWith Nat.choose S L).prod : ℝ)
            * (eta ^ T.sum * (1 - eta) ^ (S.sum - T.sum) * bosonProb (rowsOf U) L T)) else 0 := by
    intro L hL
    have hle : StateLE L S := (mem_lowerStates S L).mp (by simpa using hL)
    rw [lossyProb_zero]
    by_cases h : L.sum = T.sum
    · rw [if_pos h, if_pos h.symm, prod_binomialWeight eta hle, h, ← ENNReal.ofReal_mul, mul_assoc]
      have : 0 ≤ 1 - eta := by linarith
      positivity
    · rw [if_neg h, if_neg (fun h' => h h'.symm), ENNReal.ofReal_zero, mul_zero]
  rw [sum_congr rfl e, ← sum_filter, ← ENNReal.ofReal_sum_of_nonneg]
  · congr 1
    rw [← sum_stateOf S T.sum _ (fun l => by
      rw [mem_filter, List.mem_toFinset, mem_lowerStates]) (fun L => eta ^ T.sum * (1 - eta) ^ (S.sum - T.sum) * bosonProb (rowsOf U) L T),
      ← mul_sum, fixedLossProb, binomialWeight]
    have : (S.sum.choose T.sum : ℝ) ≠ 0 := by exact_mod_cast (Nat.choose_pos hs).ne'
    field_simp
  · intro L hL
    have : 0 ≤ 1 - eta := by linarith
    have := bosonProb_nonneg (rowsOf U) L T
    positivity

/-- All singular values of `√eta U` are `√eta`. -/
theorem svd_uniform {U : Matrix (Fin m) (Fin m) ℂ} (hU : U ∈ Matrix.unitaryGroup (Fin m) ℂ) (eta : ℝ) (h0 : 0 ≤ eta)
    {d : Svd m} (hd : IsSvd (((Real.sqrt eta : ℝ) : ℂ) • U) d) (i : Fin m) : d.s i ^ 2 = eta := by
  have hp := hd.product
  set D := Matrix.diagonal (fun i => (d.s i : ℂ)) with hD
  have hV := Matrix.mem_unitaryGroup_iff'.mp hd.unitaryV
  have hW := Matrix.mem_unitaryGroup_iff.mp hd.unitaryU
  have hU' := Matrix.mem_unitaryGroup_iff'.mp hU
  have e1 : star (((Real.sqrt eta : ℝ) : ℂ) • U) * (((Real.sqrt eta : ℝ) : ℂ) • U) = ((eta : ℝ) : ℂ) • 1 := by
    rw [star_smul, Matrix.smul_mul, Matrix.mul_smul, hU', smul_smul]
    congr 1
    simp only [RCLike.star_def, Complex.conj_ofReal]
    rw [← Complex.ofReal_mul, Real.mul_self_sqrt h0]
  have e2 : star (d.V * D * d.U) * (d.V * D * d.U) = star d.U * (star D * D) * d.U := by
    rw [star_mul, star_mul]
    calc star d.U * (star D * star d.V) * (d.V * D * d.U)
        = star d.U * (star D * (star d.V * d.V) * D) * d.U := by simp only [Matrix.mul_assoc]
      _ = _ := by rw [hV, Matrix.mul_one]
  rw [hp, e2] at e1
  have e3 : star D * D = ((eta : ℝ) : ℂ) • 1 := by
    calc star D * D = (d.U * star d.U) * (star D * D) * (d.U * star d.U) := by rw [hW, Matrix.one_mul, Matrix.mul_one]
      _ = d.U * (star d.U * (star D * D) * d.U) * star d.U := by simp only [Matrix.mul_assoc]
      _ = _ := by rw [e1, Matrix.mul_smul, Matrix.mul_one, Matrix.smul_mul, hW]
  have e4 := congrFun (congrFun e3 i) i
  rw [hD, Matrix.star_eq_conjTranspose, Matrix.diagonal_conjTranspose, Matrix.diagonal_mul_diagonal] at e4
  simp only [Matrix.diagonal_apply_eq, Pi.star_apply, RCLike.star_def, Complex.conj_ofReal, Matrix.smul_apply,
    Matrix.one_apply_eq, smul_eq_mul, mul_one] at e4
  rw [sq]
  exact_mod_cast e4

end Verif
