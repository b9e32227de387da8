import Verif.Spec.Means
import Verif.Proofs.Thinning
import Verif.Proofs.Statistics

/-! Helper lemmas: mean numbers of particles of the exact laws. -/
namespace Verif

open Finset
open scoped ENNReal

/-- One particle in mode `j` of `m`. -/
def unitState (m j : ℕ) : List ℕ := (List.range m).map fun i => if i = j then 1 else 0

theorem unitState_length (m j : ℕ) : (unitState m j).length = m := by simp [unitState]

theorem unitState_sum (m j : ℕ) (h : j < m) : (unitState m j).sum = 1 := by
  change ∑ i ∈ range m, (if i = j then 1 else 0) = 1
  simp [h]

theorem unitState_particles (m j : ℕ) (h : j < m) : particles (unitState m j) = [j] := by
  have h1 : (particles (unitState m j)).Perm [j] := by
    rw [List.perm_iff_count]
    intro i
    rw [count_particles]
    by_cases hi : i < m
    · rw [getD_of_lt _ _ (by rw [unitState_length]; exact hi)]
      simp only [unitState, List.getElem_map, List.getElem_range]
      by_cases hij : i = j
      · subst hij; simp
      · simp [hij, Ne.symm hij]
    · rw [List.getD_eq_getElem?_getD, List.getElem?_eq_none (by rw [unitState_length]; omega)]
      have : j ≠ i := by omega
      simp [this]
  exact List.perm_singleton.mp h1

theorem factProd_unit (m j : ℕ) : factProd (unitState m j) = 1 := by
  unfold factProd
  refine List.prod_eq_one fun x hx => ?_
  simp only [unitState, List.map_map, List.mem_map, Function.comp] at hx
  obtain ⟨i, -, rfl⟩ := hx
  split_ifs <;> rfl

theorem choose_unit (T : List ℕ) (j : ℕ) (h : j < T.length) :
    (List.zipWith Nat.choose T (unitState T.length j)).prod = T.getD j 0 := by
  have : List.zipWith Nat.choose T (unitState T.length j)
      = (List.range T.length).map fun i => if i = j then T.getD j 0 else 1 := by
    refine List.ext_getElem (by simp [unitState]) fun i h1 h2 => ?_
    simp only [List.getElem_zipWith, unitState, List.getElem_map, List.getElem_range]
    split_ifs with hij
    · subst hij
      rw [Nat.choose_one_right, getD_of_lt]
    · exact Nat.choose_zero_right _
  rw [this]
  change ∏ i ∈ range T.length, (if i = j then T.getD j 0 else 1) = _
  simp [h]

/-- The mean over one random particle. -/
theorem fixedLossProb_unit (U : List (List ℂ)) (S : List ℕ) (m j : ℕ) (hj : j < m) :
    fixedLossProb U S 1 (unitState m j) = intensity U S j / S.sum := by
  rw [fixedLossProb_eq_seq U S _ 1 (unitState_sum m j hj), factProd_unit, unitState_particles m j hj]
  unfold seqProb intensity
  rw [Nat.choose_one_right]
  simp only [Nat.factorial_one, Nat.cast_one, div_one, one_mul, mul_one]
  congr 1
  rw [powersetCard_one, sum_map]
  have e : ∀ x : Particle S, phi (colOf U) [j] (modesOf {x}) = Complex.normSq (mget U j x.1) := by
    intro x
    have : modesOf ({x} : Finset (Particle S)) = [x.1.1] := by simp [modesOf]
    rw [this]
    unfold phi
    simp [amp, lperm, picks, multFact, colOf]
  simp only [Function.Embedding.coeFn_mk, e]
  rw [Fintype.sum_sigma, Finset.sum_range]
  refine sum_congr rfl fun i _ => ?_
  simp

section
variable {U : List (List ℂ)} {S : List ℕ} {m : ℕ}

theorem keepProb_unit (T : List ℕ) (j : ℕ) (h : j < T.length) :
    keepProb T 1 (unitState T.length j) = (T.getD j 0 : ℝ) / T.sum := by
  have := keepProb_eq T (unitState T.length j) (unitState_length _ _)
  rw [unitState_sum _ _ h, choose_unit T j h, Nat.choose_one_right] at this
  exact this

/-- The mean number of particles in a mode when `l` random particles survive. -/
theorem fixedLoss_mean (hc : UsedOrtho (colOf U) m S) (l : ℕ) (hl : l ≤ S.sum) (j : ℕ) (hj : j < m) :
    ∑ T ∈ statesFin m l, fixedLossProb U S l T * (T.getD j 0 : ℝ) = l / S.sum * intensity U S j := by
  rcases Nat.eq_zero_or_pos l with rfl | hp
  · rw [Nat.cast_zero, zero_div, zero_mul]
    refine sum_eq_zero fun T hT => ?_
    rw [mem_statesFin] at hT
    have : T.getD j 0 = 0 := by
      rw [getD_of_lt _ _ (by omega)]
      exact List.sum_eq_zero_iff.mp hT.2 _ (List.getElem_mem _)
    rw [this, Nat.cast_zero, mul_zero]
  · have h := fixedLoss_thinned hc l hl (unitState m j) (unitState_length m j) (by rw [unitState_sum m j hj]; omega)
    rw [unitState_sum m j hj, fixedLossProb_unit U S m j hj] at h
    have hl0 : (l : ℝ) ≠ 0 := by exact_mod_cast hp.ne'
    rw [div_mul_eq_mul_div, mul_div_assoc, ← h, mul_sum]
    refine sum_congr rfl fun T hT => ?_
    rw [mem_statesFin] at hT
    have e := keepProb_unit T j (by omega)
    rw [hT.1, hT.2] at e
    rw [e]
    field_simp

theorem boson_mean (hc : UsedOrtho (colOf U) m S) (j : ℕ) (hj : j < m) :
    ∑ T ∈ statesFin m S.sum, bosonProb U S T * (T.getD j 0 : ℝ) = intensity U S j := by
  have h := fixedLoss_mean hc S.sum le_rfl j hj
  simp only [fixedLossProb_full] at h
  rw [h]
  rcases Nat.eq_zero_or_pos S.sum with h0 | h0
  · rw [h0, Nat.cast_zero, zero_div, zero_mul]
    symm
    refine sum_eq_zero fun c hc => ?_
    have : S.getD c 0 = 0 := by
      rw [getD_of_lt _ _ (mem_range.mp hc)]
      exact List.sum_eq_zero_iff.mp h0 _ (List.getElem_mem _)
    rw [this, Nat.cast_zero, zero_mul]
  · rw [div_self (by exact_mod_cast h0.ne'), one_mul]

theorem binomial_mean (n : ℕ) (eta : ℝ) : ∑ l ∈ range (n + 1), binomialWeight n l eta * l = eta * n := by
  cases n with
  | zero => simp
  | succ n =>
    rw [sum_range_succ', Nat.cast_zero, mul_zero, add_zero]
    have e : ∀ l ∈ range (n + 1), binomialWeight (n + 1) (l + 1) eta * ((l + 1 : ℕ) : ℝ)
        = eta * ((n + 1 : ℕ) : ℝ) * binomialWeight n l eta := by
      intro l hl
      unfold binomialWeight
      have h : ((n + 1).choose (l + 1) : ℝ) * ((l + 1 : ℕ) : ℝ) = ((n + 1 : ℕ) : ℝ) * (n.choose l : ℝ) := by
        exact_mod_cast (Nat.add_one_mul_choose_eq n l).symm
      rw [Nat.add_sub_add_right, pow_succ]
      linear_combination (eta ^ l * eta * (1 - eta) ^ (n - l)) * h
    rw [sum_congr rfl e, ← mul_sum, binomialWeight_sum, mul_one]

theorem uniformLoss_mean (hc : UsedOrtho (colOf U) m S) (eta : ℝ) (j : ℕ) (hj : j < m) :
    ∑ T ∈ statesUpTo m S.sum, uniformLossProb U S eta T * (T.getD j 0 : ℝ) = eta * intensity U S j := by
  rw [sum_statesUpTo]
  have e : ∀ l ∈ range (S.sum + 1), ∑ T ∈ statesFin m l, uniformLossProb U S eta T * (T.getD j 0 : ℝ)
      = binomialWeight S.sum l eta * l * (intensity U S j / S.sum) := by
    intro l hl
    have := fixedLoss_mean hc l (by have := mem_range.mp hl; omega) j hj
    rw [mul_assoc, mul_div_assoc', mul_div_right_comm, ← this, mul_sum]
    refine sum_congr rfl fun T hT => ?_
    rw [mem_statesFin] at hT
    rw [uniformLossProb, hT.2]
    ring
  rw [sum_congr rfl e, ← sum_mul, binomial_mean]
  rcases Nat.eq_zero_or_pos S.sum with h0 | h0
  · have := boson_mean hc j hj
    rw [h0] at this ⊢
    rw [← this]
    simp only [Nat.cast_zero, mul_zero, zero_mul]
    symm
    refine mul_eq_zero_of_right _ (sum_eq_zero fun T hT => ?_)
    rw [mem_statesFin] at hT
    have : T.getD j 0 = 0 := by
      rw [getD_of_lt _ _ (by omega)]
      exact List.sum_eq_zero_iff.mp hT.2 _ (List.getElem_mem _)
    rw [this, Nat.cast_zero, mul_zero]
  · have : (S.sum : ℝ) ≠ 0 := by exact_mod_cast h0.ne'
    field_simp

/-- Real sums of nonnegative weights as sums of extended numbers. -/
theorem ofReal_sum_count (𝒯 : Finset (List ℕ)) (p : List ℕ → ℝ) (hp : ∀ T ∈ 𝒯, 0 ≤ p T) (j : ℕ) :
    ∑ T ∈ 𝒯, ENNReal.ofReal (p T) * ((T.getD j 0 : ℕ) : ℝ≥0∞) = ENNReal.ofReal (∑ T ∈ 𝒯, p T * (T.getD j 0 : ℝ)) := by
  rw [ENNReal.ofReal_sum_of_nonneg fun T hT => mul_nonneg (hp T hT) (by positivity)]
  refine sum_congr rfl fun T hT => ?_
  rw [ENNReal.ofReal_mul (hp T hT), ENNReal.ofReal_natCast]

end

end Verif
