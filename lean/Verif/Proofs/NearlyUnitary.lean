import Verif.Proofs.NetworkErrors

/-! Helper lemmas: the permanents of nearly unitary networks. -/
namespace Verif

open Finset

section

variable {c c' : ℕ → ℕ → ℂ} {m n : ℕ} {ε κ : ℝ} (hε : 0 ≤ ε) (hκ : 1 ≤ κ) (hc : OpLe c m n κ) (hc' : OrthoCols c' m n)
  (hd : OpLe (fun a r => c a r - c' a r) m n ε)
include hε hκ hc hc' hd

theorem phi_near (k : ℕ) (cs : List ℕ) (hk : cs.length = k) (hcs : ∀ a ∈ cs, a < n) :
    ∑ w ∈ words m k, |phi c w cs - phi c' w cs|
      ≤ (2 * (k * ε * κ ^ (k - 1)) + (k * ε * κ ^ (k - 1)) ^ 2) * k.factorial := by
  have hM : (0 : ℝ) < multFact (cs : Multiset ℕ) := by exact_mod_cast multFact_pos _
  have h1 := amp_diff hκ hc hc' hd k cs hk hcs
  have h3 := phi_total hc' k cs hk hcs
  have hD : 0 ≤ k * ε * κ ^ (k - 1) := by positivity
  unfold phi at h3 ⊢
  rw [← sum_div] at h3
  set D := k * ε * κ ^ (k - 1)
  set M : ℝ := Nat.cast (multFact (cs : Multiset ℕ)) with hMd
  clear_value M D
  set W := words m k
  have hF : (0 : ℝ) < k.factorial := by exact_mod_cast Nat.factorial_pos k
  have e1 : ∑ w ∈ W, |Complex.normSq (amp c w cs) / M - Complex.normSq (amp c' w cs) / M|
      ≤ (2 * (∑ w ∈ W, ‖amp c' w cs‖ * ‖amp c w cs - amp c' w cs‖) + ∑ w ∈ W, ‖amp c w cs - amp c' w cs‖ ^ 2) / M := by
    rw [mul_sum, ← sum_add_distrib, sum_div]
    refine sum_le_sum fun w _ => ?_
    rw [← sub_div, abs_div, abs_of_pos hM]
    refine div_le_div_of_nonneg_right ?_ hM.le
    rw [Complex.normSq_eq_norm_sq, Complex.normSq_eq_norm_sq, sq_sub_sq, abs_mul, abs_of_nonneg (by positivity)]
    have h4 := abs_norm_sub_norm_le (amp c w cs) (amp c' w cs)
    have h5 := (le_abs_self _).trans h4
    have h6 : ‖amp c w cs‖ + ‖amp c' w cs‖ ≤ 2 * ‖amp c' w cs‖ + ‖amp c w cs - amp c' w cs‖ := by linarith
    refine (mul_le_mul h6 h4 (abs_nonneg _) (by positivity)).trans (le_of_eq (by ring))
  have e4 : ∑ w ∈ W, ‖amp c w cs - amp c' w cs‖ ^ 2 ≤ D ^ 2 * (k.factorial * M) := by
    rw [div_le_iff₀ hM] at h1
    rw [← mul_assoc]
    simpa only [Complex.normSq_eq_norm_sq] using h1
  have e3 : ∑ w ∈ W, ‖amp c' w cs‖ ^ 2 = k.factorial * M := by
    rw [div_eq_iff hM.ne'] at h3
    simpa only [Complex.normSq_eq_norm_sq] using h3
  have e2 := sum_mul_sq_le_sq_mul_sq W (fun w => ‖amp c' w cs‖) (fun w => ‖amp c w cs - amp c' w cs‖)
  have e5 : ∑ w ∈ W, ‖amp c' w cs‖ * ‖amp c w cs - amp c' w cs‖ ≤ D * (k.factorial * M) := by
    refine abs_le_of_sq_le_sq' ?_ (by positivity) |>.2
    refine e2.trans ?_
    rw [e3]
    exact (mul_le_mul_of_nonneg_left e4 (by positivity)).trans (le_of_eq (by ring))
  refine e1.trans ?_
  rw [div_le_iff₀ hM]
  linarith

end

/-- The unnormalised probabilities of a nearly unitary network. -/
theorem boson_near {U U' : List (List ℂ)} (S : List ℕ) {m n : ℕ} {ε κ : ℝ} (hε : 0 ≤ ε) (hκ : 1 ≤ κ)
    (hU : OpLe (colOf U) m n κ) (hU' : Orthonormal U' m n) (hd : OpLe (fun a r => colOf U a r - colOf U' a r) m n ε)
    (hS : S.length ≤ n) (𝒯 : Finset (List ℕ)) (h𝒯 : ∀ T ∈ 𝒯, T.length = m ∧ T.sum = S.sum) :
    1 / 2 * ∑ T ∈ 𝒯, |bosonProb U S T - bosonProb U' S T|
      ≤ S.sum * ε * κ ^ (S.sum - 1) + (S.sum * ε * κ ^ (S.sum - 1)) ^ 2 / 2 := by
  have h0 := phi_near hε hκ hU (orthoCols_of U' hU') hd S.sum (particles S) (particlesFrom_length _ _)
    (fun a ha => by have := particlesFrom_range ha; omega)
  rw [sum_words_states m S.sum (statesFin m S.sum) (mem_statesFin m S.sum) _ (fun w w' h => by
    rw [phi_perm_rows _ _ h, phi_perm_rows _ _ h])] at h0
  have hF : (0 : ℝ) < S.sum.factorial := by exact_mod_cast Nat.factorial_pos _
  have h1 : ∑ T ∈ statesFin m S.sum, |bosonProb U S T - bosonProb U' S T| = (∑ T ∈ statesFin m S.sum,
      (S.sum.factorial : ℝ) / factProd T
        * |phi (colOf U) (particles T) (particles S) - phi (colOf U') (particles T) (particles S)|) / S.sum.factorial := by
    rw [sum_div]
    refine sum_congr rfl fun T hT => ?_
    have h2 := ((mem_statesFin _ _ _).mp hT).2.symm
    have h3 : (0 : ℝ) < factProd T := by exact_mod_cast factProd_pos T
    rw [bosonProb_eq_phi U S T h2, bosonProb_eq_phi U' S T h2, ← sub_div, abs_div, abs_of_pos h3]
    field_simp
  have h2 : ∑ T ∈ 𝒯, |bosonProb U S T - bosonProb U' S T| ≤ ∑ T ∈ statesFin m S.sum, |bosonProb U S T - bosonProb U' S T| :=
    sum_le_sum_of_subset_of_nonneg (fun T hT => (mem_statesFin _ _ _).mpr (h𝒯 T hT)) fun _ _ _ => abs_nonneg _
  rw [h1] at h2
  have h3 := div_le_div_of_nonneg_right h0 hF.le
  rw [mul_div_assoc, div_self hF.ne', mul_one] at h3
  linarith

end Verif
