import Verif.Proofs.FixedLossRuns

/-! Helper lemmas: norms of evolved states. -/
namespace Verif

open Finset Matrix

variable {m : ℕ}

theorem normSq_sum_eq (x : Fin m → ℂ) : ((∑ i, Complex.normSq (x i) : ℝ) : ℂ) = star x ⬝ᵥ x := by
  rw [dotProduct]
  push_cast
  refine sum_congr rfl fun i _ => ?_
  rw [Complex.normSq_eq_conj_mul_self]
  rfl

theorem normSq_unitary (A : Matrix (Fin m) (Fin m) ℂ) (h : A ∈ unitaryGroup (Fin m) ℂ) (x : Fin m → ℂ) :
    ∑ i, Complex.normSq ((A *ᵥ x) i) = ∑ i, Complex.normSq (x i) := by
  have := mem_unitaryGroup_iff'.mp h
  rw [← Complex.ofReal_inj, normSq_sum_eq, normSq_sum_eq, star_mulVec, ← dotProduct_mulVec, mulVec_mulVec]
  rw [show Aᴴ * A = 1 from this, one_mulVec]

theorem normSq_contraction (M : Matrix (Fin m) (Fin m) ℂ) (d : Svd m) (h : IsSvd M d) (h1 : ∀ i, d.s i ≤ 1)
    (x : Fin m → ℂ) : ∑ i, Complex.normSq ((M *ᵥ x) i) ≤ ∑ i, Complex.normSq (x i) := by
  rw [h.product, mul_assoc, ← mulVec_mulVec, normSq_unitary _ h.unitaryV, ← mulVec_mulVec,
    ← normSq_unitary _ h.unitaryU x]
  refine sum_le_sum fun i _ => ?_
  rw [mulVec_diagonal, Complex.normSq_mul, Complex.normSq_ofReal]
  have := h.nonneg i
  have h2 : d.s i * d.s i ≤ 1 := by nlinarith [h1 i]
  have := Complex.normSq_nonneg ((d.U *ᵥ x) i)
  nlinarith

theorem normSq_smeared (n : ℕ) (us : Fin m → ℝ) (i : Fin m) :
    Complex.normSq (smeared m n us i) = if (i : ℕ) < n then 1 / (n : ℝ) else 0 := by
  unfold smeared
  split_ifs with h
  · rw [Complex.normSq_div, Complex.normSq_ofReal, Real.mul_self_sqrt (Nat.cast_nonneg n), Complex.normSq_eq_norm_sq]
    have : 2 * (Real.pi : ℂ) * (us i : ℂ) * Complex.I = ((2 * Real.pi * us i : ℝ) : ℂ) * Complex.I := by push_cast; ring
    rw [this, Complex.norm_exp_ofReal_mul_I]
    norm_num
  · simp

theorem sum_smeared (n : ℕ) (us : Fin m → ℝ) :
    ∑ i, Complex.normSq (smeared m n us i) = (min n m : ℕ) / (n : ℝ) := by
  simp only [normSq_smeared]
  rw [Fin.sum_univ_eq_sum_range (fun i => if i < n then 1 / (n : ℝ) else 0) m, ← sum_filter, sum_const]
  have : (range m).filter (fun i => i < n) = range (min n m) := by ext i; simp; omega
  rw [this, card_range, nsmul_eq_mul]
  ring

theorem sum_smeared_le (n : ℕ) (us : Fin m → ℝ) : ∑ i, Complex.normSq (smeared m n us i) ≤ 1 := by
  rw [sum_smeared]
  refine div_le_one_of_le₀ ?_ (Nat.cast_nonneg n)
  exact_mod_cast min_le_left n m

theorem sum_map_ofFn (f : Fin m → ℂ) : ((List.ofFn f).map Complex.normSq).sum = ∑ i, Complex.normSq (f i) := by
  rw [List.map_ofFn, List.sum_ofFn]; rfl

end Verif
