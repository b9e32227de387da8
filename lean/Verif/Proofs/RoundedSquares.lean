import Verif.Proofs.RoundedGlynn
import Verif.Proofs.RoundedRuns

/-! Helper lemmas: rounded permanents of all calculators, their squares, and the samplers that use them. -/
namespace Verif

open Finset

variable (R : Rounding) (A : ComplexArith)

/-! ### Bounds -/

theorem xmax_mono {n m : ℕ} (h : n ≤ m) : xmax n ≤ xmax m := max_le_max le_rfl (by exact_mod_cast h)

theorem xmax_pow_mono {n m : ℕ} (h : n ≤ m) : xmax n ^ n ≤ xmax m ^ m :=
  (pow_le_pow_left₀ (by linarith [one_le_xmax n]) (xmax_mono h) n).trans (pow_le_pow_right₀ (one_le_xmax m) h)

theorem xmax_pow (n : ℕ) : xmax n ^ n = (n : ℝ) ^ n := by
  rcases Nat.eq_zero_or_pos n with rfl | h
  · simp
  · rw [show xmax n = n from max_eq_right (by exact_mod_cast h)]

theorem clops_le (e n : ℕ) : clops e n ≤ n * (n + e + 1) := by
  induction n with
  | zero => simp [clops]
  | succ n ih =>
    simp only [clops]
    nlinarith

theorem qf_pow_le {k : ℕ} (hk : k ≤ 2 ^ 47) : qf ^ k - 1 ≤ 2 * k / 2 ^ 48 := by
  have hk' : (k : ℝ) ≤ 2 ^ 47 := by exact_mod_cast hk
  have key : ∀ j : ℕ, (j : ℝ) ≤ 2 ^ 47 → qf ^ j ≤ 1 + 2 * j / 2 ^ 48 := by
    intro j
    induction j with
    | zero => simp
    | succ j ih =>
      intro hj
      push_cast at hj ⊢
      have := ih (by linarith)
      rw [pow_succ]
      have h1 : qf ^ j * qf ≤ (1 + 2 * j / 2 ^ 48) * qf := mul_le_mul_of_nonneg_right this qf_pos.le
      refine h1.trans ?_
      unfold qf
      have h2 : 2 * (j : ℝ) / 2 ^ 48 ≤ 1 := by
        rw [div_le_one (by positivity)]
        norm_num at hj ⊢
        linarith
      have e : (1 + 2 * (j : ℝ) / 2 ^ 48) * (1 + 1 / 2 ^ 48)
          = 1 + 2 * j / 2 ^ 48 + 1 / 2 ^ 48 * (1 + 2 * j / 2 ^ 48) := by ring
      have e2 : 1 + 2 * ((j : ℝ) + 1) / 2 ^ 48 = 1 + 2 * j / 2 ^ 48 + 1 / 2 ^ 48 * 2 := by ring
      rw [e, e2]
      have : (1 : ℝ) / 2 ^ 48 * (1 + 2 * j / 2 ^ 48) ≤ 1 / 2 ^ 48 * 2 :=
        mul_le_mul_of_nonneg_left (by linarith) (by norm_num)
      linarith
  linarith [key k hk']

/-! ### Squares -/

theorem squared_near {k : ℕ} {B : ℝ} {y z : ℂ} (h : Close k B y z) (hB : 1 ≤ B) :
    Close (2 * k + 3) (B ^ 2) (R.rnd (A.abs y ^ 2)) (Complex.normSq z) := by
  have h1 : Close k B ‖y‖ ‖z‖ := by
    refine ⟨by rw [norm_norm]; exact h.1, ?_⟩
    rw [Real.norm_eq_abs]
    exact (abs_norm_sub_norm_le y z).trans h.2
  have h2 : Close (k + 1) B (A.abs y) ‖z‖ := by
    refine h1.op (small_of_one hB) ?_ (A.abs_err y)
    have := h1.norm_le
    rwa [norm_norm] at this
  have h3 := h2.mul_exact h2
  rw [← sq, ← sq, ← sq, ← Complex.normSq_eq_norm_sq] at h3
  exact (R.close h3 (small_of_one (one_le_pow₀ hB))).mono (by omega)

theorem Close.near {k : ℕ} {B x y : ℝ} (h : Close k B x y) : Near 1 ((qf ^ k - 1) * B) x y := by
  have := abs_le.mp (Real.norm_eq_abs (x - y) ▸ h.2)
  exact ⟨by linarith, by linarith⟩

/-! ### The matrix of the sampler -/

theorem fillStepR_matrix (v : GccVariant) (sq : CalcCfg ℂ → Py ℝ) (U' U : List (List ℂ)) :
    fillStepR R v sq U' = fillStepR R v (fun c => sq { c with matrix := U' }) U := rfl

theorem simulateLoopR_matrix (v : GccVariant) (sq : CalcCfg ℂ → Py ℝ) (U' U : List (List ℂ)) (fuel n : ℕ) :
    ∀ o, simulateLoopR R v sq U' fuel n o = simulateLoopR R v (fun c => sq { c with matrix := U' }) U fuel n o := by
  induction n with
  | zero => intro o; rfl
  | succ n ih =>
    intro o
    simp only [simulateLoopR, ih]
    rfl

theorem gccSimulateR_matrix (v : GccVariant) (sq : CalcCfg ℂ → Py ℝ) (U' U : List (List ℂ)) (fuel : ℕ) (o : GccObj)
    (S : List ℕ) (N : ℤ) :
    gccSimulateR R v sq U' fuel o S N = gccSimulateR R v (fun c => sq { c with matrix := U' }) U fuel o S N :=
  simulateLoopR_matrix R v sq U' U fuel N.toNat _

/-! ### Entries of unitary matrices -/

theorem orthonormal_entry {U : List (List ℂ)} {m : ℕ} (h : Orthonormal U m m) {i j : ℕ} (hi : i < m) (hj : j < m) :
    ‖mget U i j‖ ≤ 1 := by
  have h1 := h j hj j hj
  rw [if_pos rfl] at h1
  have h2 : ∑ r ∈ range m, Complex.normSq (mget U r j) = 1 := by
    have : ((∑ r ∈ range m, Complex.normSq (mget U r j) : ℝ) : ℂ) = 1 := by
      rw [← h1]
      push_cast
      exact sum_congr rfl fun r _ => Complex.normSq_eq_conj_mul_self
    exact_mod_cast this
  have h3 : Complex.normSq (mget U i j) ≤ 1 := by
    rw [← h2]
    exact single_le_sum (f := fun r => Complex.normSq (mget U r j)) (fun r _ => Complex.normSq_nonneg _) (mem_range.mpr hi)
  rw [Complex.normSq_eq_norm_sq] at h3
  nlinarith [norm_nonneg (mget U i j)]

theorem mget_out {U : List (List ℂ)} (hU : ∀ r ∈ U, r.length = U.length) {i j : ℕ}
    (h : ¬ (i < U.length ∧ j < U.length)) : mget U i j = 0 := by
  unfold mget
  by_cases hi : i < U.length
  · have hj : ¬ j < U.length := fun hj => h ⟨hi, hj⟩
    rw [getD_of_lt _ _ hi, List.getD_eq_getElem?_getD, List.getElem?_eq_none]
    · rfl
    · rw [hU _ (List.getElem_mem hi)]; omega
  · have : U.getD i [] = [] := by
      rw [List.getD_eq_getElem?_getD, List.getElem?_eq_none (by omega)]; rfl
    rw [this]
    rfl

end Verif
