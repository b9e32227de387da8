import Verif.Proofs.RoundedTransmissivities
import Verif.Props.MatrixDistance
import Verif.Spec.RoundedExpansion
import Verif.Proofs.NumpyChoice

/-!
C123: the transmissivities of nearby networks, and transmissivities and distances in floating-point arithmetic.
-/
namespace Verif

open Finset Matrix

variable (R : Rounding) (C : ComplexArith) {m : ℕ}

/-! ### Nearby networks -/

theorem transmissivities_get (d : Svd m) (k : ℕ) (x : ℝ) (h : (transmissivities d)[k]? = some x) :
    ∃ i : Fin m, (i : ℕ) = m - 1 - k ∧ k < m ∧ x = d.s i ^ 2 := by
  obtain ⟨hk, rfl⟩ := List.getElem?_eq_some_iff.mp h
  have hk' : k < m := by simpa [transmissivities] using hk
  exact ⟨⟨m - 1 - k, by omega⟩, rfl, hk', by simp [transmissivities]⟩

theorem transmissivitiesF_get (d : Svd m) (k : ℕ) (x : ℝ) (h : (transmissivitiesF R d)[k]? = some x) :
    ∃ i : Fin m, (i : ℕ) = m - 1 - k ∧ k < m ∧ x = R.rnd (d.s i ^ 2) := by
  obtain ⟨hk, rfl⟩ := List.getElem?_eq_some_iff.mp h
  have hk' : k < m := by simpa [transmissivitiesF] using hk
  exact ⟨⟨m - 1 - k, by omega⟩, rfl, hk', by simp [transmissivitiesF]⟩

/-- C123: the amplitudes that belong to the transmissivities of two networks differ by at most the distance of the networks. -/
theorem C123_stable {A B : Matrix (Fin m) (Fin m) ℂ} {dA dB : Svd m} (hA : IsSvd A dA) (hB : IsSvd B dB) (k : ℕ) (x y : ℝ)
    (hx : (transmissivities dA)[k]? = some x) (hy : (transmissivities dB)[k]? = some y) :
    |Real.sqrt x - Real.sqrt y| ≤ matrixDistance A B := by
  obtain ⟨i, hi, -, rfl⟩ := transmissivities_get dA k x hx
  obtain ⟨j, hj, -, rfl⟩ := transmissivities_get dB k y hy
  obtain rfl : i = j := Fin.ext (hi.trans hj.symm)
  rw [Real.sqrt_sq (hA.nonneg i), Real.sqrt_sq (hB.nonneg i)]
  exact weyl_abs hA hB (nrm_distance A B) i

/-- C123: for networks without gain the transmissivities differ by at most twice the distance. -/
theorem C123_subunitary {A B : Matrix (Fin m) (Fin m) ℂ} {dA dB : Svd m} (hA : IsSvd A dA) (hB : IsSvd B dB)
    (h1 : ∀ i, dA.s i ≤ 1) (h2 : ∀ i, dB.s i ≤ 1) (k : ℕ) (x y : ℝ)
    (hx : (transmissivities dA)[k]? = some x) (hy : (transmissivities dB)[k]? = some y) :
    |x - y| ≤ 2 * matrixDistance A B := by
  obtain ⟨i, hi, -, rfl⟩ := transmissivities_get dA k x hx
  obtain ⟨j, hj, -, rfl⟩ := transmissivities_get dB k y hy
  obtain rfl : i = j := Fin.ext (hi.trans hj.symm)
  have h := weyl_abs hA hB (nrm_distance A B) i
  rw [sq_sub_sq, abs_mul]
  refine mul_le_mul ?_ h (abs_nonneg _) zero_le_two
  rw [abs_of_nonneg (add_nonneg (hA.nonneg i) (hB.nonneg i))]
  linarith [h1 i, h2 i]

/-- C123: the transmissivities do not depend on which singular value decomposition is used. -/
theorem C123_unique {A : Matrix (Fin m) (Fin m) ℂ} {d d' : Svd m} (h : IsSvd A d) (h' : IsSvd A d') :
    transmissivities d = transmissivities d' := by
  have : d.s = d'.s := funext fun i => by
    have := weyl_abs h h' (c := 0) (fun x => by simp [nrm]) i
    linarith [abs_nonpos_iff.mp this]
  rw [transmissivities, transmissivities, this]

/-! ### Transmissivities in floats -/

/-- C123: the computed transmissivities are as many as modes, in ascending order and not negative. -/
theorem C123_ordered (d : Svd m) (h0 : ∀ i, 0 ≤ d.s i) (hd : ∀ i j, i ≤ j → d.s j ≤ d.s i) :
    (transmissivitiesF R d).length = m ∧ (transmissivitiesF R d).Pairwise (· ≤ ·) ∧ ∀ t ∈ transmissivitiesF R d, 0 ≤ t := by
  refine ⟨by simp [transmissivitiesF], ?_, ?_⟩
  · rw [transmissivitiesF, List.pairwise_map, List.pairwise_reverse, List.pairwise_ofFn]
    exact fun i j hij => R.mono (pow_le_pow_left₀ (h0 j) (hd i j hij.le) 2)
  · intro t ht
    obtain ⟨x, -, rfl⟩ := List.mem_map.mp ht
    exact R.nonneg (sq_nonneg x)

/-- C123: the decomposition of a network without gain is computed by a routine that is backward stable up to `e` operations. The
computed transmissivities are within an explicit bound of the exact ones; for `m` modes it is `2 m e / 2^48` to first order. -/
theorem C123_floats {B : Matrix (Fin m) (Fin m) ℂ} {dB d : Svd m} (hB : IsSvd B dB) (h1 : ∀ i, dB.s i ≤ 1) {e : ℕ}
    (h : SvdBackward B d e) (hd : ∀ i j, i ≤ j → d.s j ≤ d.s i) {ω : ℝ} (hω : ω = m * ((1 + 1 / 2 ^ 48) ^ e - 1)) (k : ℕ)
    (x y : ℝ) (hx : (transmissivitiesF R d)[k]? = some x) (hy : (transmissivities dB)[k]? = some y) :
    |x - y| ≤ (2 + ω) * ω + (1 + ω) ^ 2 / 2 ^ 53 + 2 ^ (-1074 : ℤ) := by
  obtain ⟨i, hi, -, rfl⟩ := transmissivitiesF_get R d k x hx
  obtain ⟨j, hj, -, rfl⟩ := transmissivities_get dB k y hy
  obtain rfl : i = j := Fin.ext (hi.trans hj.symm)
  obtain ⟨h0, V, hV, U, hU, -, -, hp⟩ := h
  have hε : (0 : ℝ) ≤ (1 + 1 / 2 ^ 48) ^ e - 1 := sub_nonneg.mpr (one_le_pow₀ (by norm_num))
  have hω0 : 0 ≤ ω := by rw [hω]; exact mul_nonneg (Nat.cast_nonneg _) hε
  have hS : IsSvd (V * Matrix.diagonal (fun i => (d.s i : ℂ)) * U) ⟨V, d.s, U⟩ := ⟨hV, hU, h0, hd, rfl⟩
  have hw := weyl_abs hS hB (c := ω) (fun x => by rw [hω]; exact nrm_mulVec_entries hε hp x) i
  change |d.s i - dB.s i| ≤ ω at hw
  have hs0 := h0 i
  have ht0 := hB.nonneg i
  have ht1 := h1 i
  generalize d.s i = s at *
  generalize dB.s i = t at *
  obtain ⟨hw1, hw2⟩ := abs_le.mp hw
  have e1 := R.abs_error (s ^ 2)
  rw [abs_of_nonneg (sq_nonneg s)] at e1
  have e2 : |s ^ 2 - t ^ 2| ≤ (2 + ω) * ω := by
    rw [sq_sub_sq, abs_mul, abs_of_nonneg (add_nonneg hs0 ht0)]
    exact mul_le_mul (by linarith) hw (abs_nonneg _) (by linarith)
  have e3 : s ^ 2 ≤ (1 + ω) ^ 2 := pow_le_pow_left₀ hs0 (by linarith) 2
  have e4 := abs_sub_le (R.rnd (s ^ 2)) (s ^ 2) (t ^ 2)
  have e5 : 1 / 2 ^ 53 * s ^ 2 ≤ (1 + ω) ^ 2 / 2 ^ 53 := by
    rw [one_div, inv_mul_eq_div]; exact div_le_div_of_nonneg_right e3 (by norm_num)
  linarith

/-- The decomposition of a single mode without losses, whose singular value is computed as the float above one. -/
noncomputable def aboveOneSvd : Svd 1 := ⟨1, fun _ => 1 + 1 / 2 ^ 52, 1⟩

/-- C123: the computed transmissivity of a network without losses may exceed one: one rounding in the singular value is
enough. -/
theorem C123_exceeds : SvdBackward 1 aboveOneSvd 1 ∧ transmissivitiesF R aboveOneSvd = [1 + 1 / 2 ^ 51] := by
  constructor
  · refine ⟨fun i => by simp only [aboveOneSvd]; norm_num, 1, one_mem _, 1, one_mem _, by simp [aboveOneSvd],
      by simp [aboveOneSvd], fun i j => ?_⟩
    obtain rfl := Subsingleton.elim i 0
    obtain rfl := Subsingleton.elim j 0
    rw [one_mul, mul_one, Matrix.diagonal_apply_eq, Matrix.one_apply_eq, ← Complex.ofReal_one, ← Complex.ofReal_sub,
      Complex.norm_real]
    simp only [aboveOneSvd]
    norm_num
  · have : R.rnd ((1 + 1 / 2 ^ 52) ^ 2) = 1 + 1 / 2 ^ 51 := by
      rw [R.eq_of_close (k := 2 ^ 52 + 2) (t := -52) (by norm_num) (by norm_num) (by norm_num)]
      · rw [_root_.zpow_neg]; norm_num
      · rw [_root_.zpow_neg, abs_lt]; norm_num
    rw [transmissivitiesF, ← this]
    simp [aboveOneSvd]

/-! ### Distances in floats -/

variable {a b : ℕ} (A B : Matrix (Fin a) (Fin b) ℂ)

/-- The computed differences. -/
noncomputable def diffF : Matrix (Fin a) (Fin b) ℂ := fun i j => C.sub (A i j) (B i j)

theorem entries_length (Z : Matrix (Fin a) (Fin b) ℂ) : (List.ofFn fun i => List.ofFn fun j => Z i j).flatten.length = a * b := by
  rw [List.length_flatten, List.map_ofFn]
  simp [List.sum_ofFn]

theorem entries_sum (Z : Matrix (Fin a) (Fin b) ℂ) (f : ℂ → ℝ) :
    ((List.ofFn fun i => List.ofFn fun j => Z i j).flatten.map f).sum = ∑ i, ∑ j, f (Z i j) := by
  rw [List.map_flatten, List.sum_flatten, List.map_map, List.map_ofFn, List.sum_ofFn]
  refine sum_congr rfl fun i _ => ?_
  simp [List.map_ofFn, List.sum_ofFn]

theorem distanceF_near :
    Near (rho ^ (a * b + 3)) (Real.sqrt (2 * (a * b : ℕ) * tiny)) (matrixDistanceF R C A B) (matrixDistance (diffF C A B) 0) := by
  have h := normF_near R (List.ofFn fun i => List.ofFn fun j => diffF C A B i j).flatten
  rw [entries_length, entries_sum] at h
  have e : matrixDistance (diffF C A B) 0 = Real.sqrt (∑ i, ∑ j, Complex.normSq (diffF C A B i j)) := by
    rw [matrixDistance, sub_zero]
    simp only [Complex.normSq_eq_norm_sq]
  rw [e]
  exact h

theorem distance_mono {Z W : Matrix (Fin a) (Fin b) ℂ} (h : ∀ i j, ‖Z i j‖ ≤ ‖W i j‖) : matrixDistance Z 0 ≤ matrixDistance W 0 := by
  refine Real.sqrt_le_sqrt (sum_le_sum fun i _ => sum_le_sum fun j _ => ?_)
  rw [sub_zero, sub_zero]
  exact pow_le_pow_left₀ (norm_nonneg _) (h i j) 2

theorem diff_error : |matrixDistance (diffF C A B) 0 - matrixDistance A B| ≤ 1 / 2 ^ 50 * matrixDistance A B + (a * b : ℕ) * 2 ^ (-1070 : ℤ) := by
  set β : ℝ := 2 ^ (-1070 : ℤ) with hβ
  have hβ0 : 0 < β := two_zpow_pos _
  clear_value β
  have hAB : matrixDistance A B = matrixDistance (A - B) 0 := by rw [matrixDistance, matrixDistance, sub_zero]
  obtain ⟨-, -, -, t1⟩ := C73_metric (diffF C A B) (A - B) 0
  obtain ⟨-, -, -, t2⟩ := C73_metric (A - B) (diffF C A B) 0
  obtain ⟨-, -, t3, -⟩ := C73_metric (A - B) (diffF C A B) 0
  set P : Matrix (Fin a) (Fin b) ℂ := fun i j => ((1 / 2 ^ 50 * ‖(A - B) i j‖ : ℝ) : ℂ) with hP
  set J : Matrix (Fin a) (Fin b) ℂ := fun _ _ => ((β : ℝ) : ℂ) with hJ
  have e1 : matrixDistance (diffF C A B) (A - B) ≤ matrixDistance (P + J) 0 := by
    have : matrixDistance (diffF C A B) (A - B) = matrixDistance (diffF C A B - (A - B)) 0 := by
      rw [matrixDistance, matrixDistance, sub_zero]
    rw [this]
    refine distance_mono fun i j => ?_
    have h := C.sub_err (A i j) (B i j)
    rw [← hβ] at h
    rw [Matrix.add_apply, hP, hJ, ← Complex.ofReal_add, Complex.norm_real, Real.norm_of_nonneg (by positivity)]
    exact h
  obtain ⟨-, -, -, t4⟩ := C73_metric (P + J) J 0
  have e2 : matrixDistance (P + J) J = 1 / 2 ^ 50 * matrixDistance A B := by
    rw [matrixDistance, matrixDistance, add_sub_cancel_right]
    have : ∀ i j, ‖P i j‖ ^ 2 = (1 / 2 ^ 50) ^ 2 * ‖(A - B) i j‖ ^ 2 := fun i j => by
      rw [hP, Complex.norm_real, Real.norm_of_nonneg (by positivity), mul_pow]
    simp only [this, ← mul_sum]
    rw [Real.sqrt_mul (by positivity), Real.sqrt_sq (by positivity)]
  have e3 : matrixDistance J 0 ≤ (a * b : ℕ) * β := by
    rw [matrixDistance, sub_zero, Real.sqrt_le_left (by positivity)]
    have : ∀ i j, ‖J i j‖ ^ 2 = β ^ 2 := fun i j => by
      rw [hJ, Complex.norm_real, Real.norm_of_nonneg hβ0.le]
    simp only [this, sum_const, card_univ, Fintype.card_fin, nsmul_eq_mul]
    have h1 : ((a * b : ℕ) : ℝ) ≤ ((a * b : ℕ) : ℝ) ^ 2 := by
      exact_mod_cast Nat.le_self_pow (by norm_num) _
    rw [mul_pow]
    refine le_trans (le_of_eq ?_) (mul_le_mul_of_nonneg_right h1 (sq_nonneg β))
    push_cast; ring
  rw [abs_le]
  rw [hAB] at e2 ⊢
  constructor <;> linarith

/-- C123: the computed distance of two matrices with `N` entries is within a factor `1 ± (N + 8) / 2^52` of the distance, up to
`N / 2^530`. -/
theorem C123_distance (hN : a * b ≤ 2 ^ 40) :
    |matrixDistanceF R C A B - matrixDistance A B| ≤ (a * b + 8 : ℕ) / 2 ^ 52 * matrixDistance A B + (a * b : ℕ) * 2 ^ (-530 : ℤ) := by
  have h1 := distanceF_near R C A B
  have h2 := diff_error C A B
  have hc := rho_pow_le (k := a * b + 3) (by omega)
  have hc1 := one_le_rho_pow (a * b + 3)
  have hs : Real.sqrt (2 * (a * b : ℕ) * tiny) ≤ (a * b : ℕ) * 2 ^ (-536 : ℤ) := by
    rw [Real.sqrt_le_left (by positivity), mul_pow, tiny, ← zpow_natCast (2 ^ (-536 : ℤ)), ← _root_.zpow_mul,
      show (-536 : ℤ) * ((2 : ℕ) : ℤ) = -1074 + 2 by norm_num, zpow_add₀ (by norm_num)]
    have h1 : ((a * b : ℕ) : ℝ) ≤ ((a * b : ℕ) : ℝ) ^ 2 := by
      exact_mod_cast Nat.le_self_pow (by norm_num) _
    have h2 := two_zpow_pos (-1074)
    generalize (2 : ℝ) ^ (-1074 : ℤ) = t at h2 ⊢
    rw [show ((2 : ℝ) ^ (2 : ℤ)) = 4 by norm_num]
    nlinarith
  have ht : (2 : ℝ) ^ (-1070 : ℤ) ≤ 2 ^ (-536 : ℤ) := zpow_le_zpow_right₀ (by norm_num) (by norm_num)
  have hu : (2 : ℝ) ^ (-530 : ℤ) = 64 * 2 ^ (-536 : ℤ) := by
    rw [show (-530 : ℤ) = -536 + 6 by norm_num, zpow_add₀ (by norm_num)]; norm_num; ring
  rw [hu]
  have hn : ((a * b : ℕ) : ℝ) ≤ 2 ^ 40 := by exact_mod_cast hN
  have hn0 : (0 : ℝ) ≤ ((a * b : ℕ) : ℝ) := Nat.cast_nonneg _
  have hD0 : 0 ≤ matrixDistance A B := Real.sqrt_nonneg _
  have hT0 := two_zpow_pos (-536)
  have hF0 : 0 ≤ matrixDistanceF R C A B := R.nonneg (Real.sqrt_nonneg _)
  have hQ0 : 0 ≤ matrixDistance (diffF C A B) 0 := Real.sqrt_nonneg _
  push_cast at hc
  rw [Nat.cast_add]
  push_cast at hn hn0 hs h2 ⊢
  generalize (2 : ℝ) ^ (-1070 : ℤ) = β at *
  generalize (2 : ℝ) ^ (-536 : ℤ) = τ at *
  generalize matrixDistanceF R C A B = F at *
  generalize matrixDistance (diffF C A B) 0 = Q at *
  generalize matrixDistance A B = D at *
  generalize rho ^ (a * b + 3) = c at *
  obtain ⟨g1, g2⟩ := h1
  push_cast at g1 g2
  generalize Real.sqrt (2 * ((a : ℝ) * b) * tiny) = σ at *
  generalize (a : ℝ) * b = N at *
  obtain ⟨h3, h4⟩ := abs_le.mp h2
  have hc2 : c ≤ 1 + (N + 3) / 2 ^ 52 := by
    have : 2 * (N + 3) / 2 ^ 53 = (N + 3) / 2 ^ 52 := by ring
    linarith
  have hsmall : (N + 3) / 2 ^ 52 ≤ 1 / 2 ^ 10 := by
    rw [div_le_div_iff₀ (by norm_num) (by norm_num)]; norm_num at hn ⊢; linarith
  have hNβ : N * β ≤ N * τ := mul_le_mul_of_nonneg_left ht hn0
  have hNτ : 0 ≤ N * τ := mul_nonneg hn0 hT0.le
  have hx0 : 0 ≤ (N + 3) / 2 ^ 52 := by positivity
  have hgoal : (N + 8) / 2 ^ 52 = (N + 3) / 2 ^ 52 + 4 / 2 ^ 52 + 1 / 2 ^ 52 := by ring
  have hu' : (1 : ℝ) / 2 ^ 50 = 4 / 2 ^ 52 := by norm_num
  rw [hu'] at h2 h3 h4
  rw [hgoal]
  generalize (N + 3) / 2 ^ 52 = x at *
  have hc3 : c ≤ 2 := by norm_num at hsmall; linarith
  have hcτ : c * (N * τ) ≤ 2 * (N * τ) := mul_le_mul_of_nonneg_right hc3 hNτ
  have hxD : x * (4 / 2 ^ 52 * D) ≤ 1 / 2 ^ 52 * D := by
    have : x * (4 / 2 ^ 52) ≤ 1 / 2 ^ 10 * (4 / 2 ^ 52) := mul_le_mul_of_nonneg_right hsmall (by norm_num)
    rw [← mul_assoc]
    refine mul_le_mul_of_nonneg_right (this.trans (by norm_num)) hD0
  have hu0 : 0 ≤ 4 / 2 ^ 52 * D := by positivity
  rw [abs_le]
  constructor
  · rcases le_or_gt F D with hFD | hFD
    · have k1 : c * F ≤ F + x * D := by
        have : (c - 1) * F ≤ x * D := mul_le_mul (by linarith) hFD hF0 hx0
        linarith
      have k2 : c * σ ≤ c * (N * τ) := mul_le_mul_of_nonneg_left hs (by linarith)
      nlinarith
    · nlinarith
  · have k1 : c * (Q + σ) ≤ c * (D + 4 / 2 ^ 52 * D + 2 * (N * τ)) := mul_le_mul_of_nonneg_left (by linarith) (by linarith)
    have k2 : c * (D + 4 / 2 ^ 52 * D) ≤ (1 + x) * (D + 4 / 2 ^ 52 * D) := mul_le_mul_of_nonneg_right hc2 (by linarith)
    nlinarith

/-- C123: matrices whose entries differ by at most `2^-600` have the computed distance zero: the squares of the differences
vanish. -/
theorem C123_vanishes (h : ∀ i j, ‖A i j - B i j‖ ≤ 2 ^ (-600 : ℤ)) : matrixDistanceF R C A B = 0 := by
  have hz : ∀ v : ℝ, |v| ≤ 2 ^ (-599 : ℤ) → R.rnd (v ^ 2) = 0 := by
    intro v hv
    have h1 : v ^ 2 ≤ 2 ^ (-1198 : ℤ) := by
      rw [← sq_abs, show (-1198 : ℤ) = -599 * ((2 : ℕ) : ℤ) by norm_num, _root_.zpow_mul, zpow_natCast]
      exact pow_le_pow_left₀ (abs_nonneg v) hv 2
    obtain ⟨k, hk⟩ := (R.isFloat (v ^ 2)).multiple_min
    have h2 := (R.nearest (v ^ 2)).2 0 isFloat_zero
    rw [sub_zero, abs_of_nonneg (sq_nonneg v)] at h2
    have h3 := (abs_le.mp h2).1
    have h4 : (2 : ℝ) ^ (-1198 : ℤ) ≤ 1 / 4 * 2 ^ (-1074 : ℤ) := by
      rw [show (1 / 4 : ℝ) = 2 ^ (-2 : ℤ) by norm_num, ← zpow_add₀ (by norm_num)]
      exact zpow_le_zpow_right₀ (by norm_num) (by norm_num)
    have h5 := two_zpow_pos (-1074)
    have h6 := R.nonneg (sq_nonneg v)
    rw [hk] at h3 h6 ⊢
    generalize (2 : ℝ) ^ (-1198 : ℤ) = β at *
    generalize (2 : ℝ) ^ (-1074 : ℤ) = τ at *
    have h7 : (k : ℝ) * τ < 1 * τ := by linarith
    have h8 : k < 1 := by exact_mod_cast lt_of_mul_lt_mul_right h7 h5.le
    have h9 : 0 ≤ k := by exact_mod_cast nonneg_of_mul_nonneg_left h6 h5
    rw [show k = 0 by omega, Int.cast_zero, zero_mul]
  have hl : ∀ z ∈ (List.ofFn fun i => List.ofFn fun j => C.sub (A i j) (B i j)).flatten, ‖z‖ ≤ 2 ^ (-599 : ℤ) := by
    intro z hz
    obtain ⟨l, hl, hz⟩ := List.mem_flatten.mp hz
    obtain ⟨i, rfl⟩ := List.mem_ofFn.mp hl
    obtain ⟨j, rfl⟩ := List.mem_ofFn.mp hz
    have h1 := C.sub_err (A i j) (B i j)
    have h2 := norm_add_le (A i j - B i j) (C.sub (A i j) (B i j) - (A i j - B i j))
    rw [add_sub_cancel] at h2
    have h3 := h i j
    have h4 : (2 : ℝ) ^ (-1070 : ℤ) ≤ 1 / 4 * 2 ^ (-600 : ℤ) := by
      rw [show (1 / 4 : ℝ) = 2 ^ (-2 : ℤ) by norm_num, ← zpow_add₀ (by norm_num)]
      exact zpow_le_zpow_right₀ (by norm_num) (by norm_num)
    have h5 : (2 : ℝ) ^ (-599 : ℤ) = 2 * 2 ^ (-600 : ℤ) := by
      rw [show (-599 : ℤ) = 1 + -600 by norm_num, zpow_add₀ (by norm_num), zpow_one]
    rw [h5]
    have h6 := two_zpow_pos (-600)
    generalize (2 : ℝ) ^ (-1070 : ℤ) = β at *
    generalize (2 : ℝ) ^ (-600 : ℤ) = τ at *
    norm_num at h1
    linarith
  have hd : ∀ x : List ℝ, (∀ v ∈ x, |v| ≤ 2 ^ (-599 : ℤ)) → dotSelfR R x = 0 := by
    intro x hx
    have : (x.map fun v => R.rnd (v ^ 2)) = List.replicate x.length 0 := by
      rw [List.eq_replicate_iff]
      exact ⟨by simp, fun y hy => by obtain ⟨v, hv, rfl⟩ := List.mem_map.mp hy; exact hz v (hx v hv)⟩
    rw [dotSelfR, this]
    generalize x.length = n
    unfold sumR
    induction n with
    | zero => rfl
    | succ n ih => rw [List.replicate_succ, List.foldl_cons, add_zero, R.zero]; exact ih
  change normF R (List.ofFn fun i => List.ofFn fun j => C.sub (A i j) (B i j)).flatten = 0
  generalize (List.ofFn fun i => List.ofFn fun j => C.sub (A i j) (B i j)).flatten = x at hl
  unfold normF
  rw [hd _ ?_, hd _ ?_]
  · simp
  · intro v hv
    obtain ⟨z, hz', rfl⟩ := List.mem_map.mp hv
    exact (Complex.abs_im_le_norm z).trans (hl z hz')
  · intro v hv
    obtain ⟨z, hz', rfl⟩ := List.mem_map.mp hv
    exact (Complex.abs_re_le_norm z).trans (hl z hz')

/-- C123: so different matrices may have the computed distance zero, unlike the exact distance (C73). -/
theorem C123_different : ∃ A B : Matrix (Fin 1) (Fin 1) ℂ, A ≠ B ∧ matrixDistance A B ≠ 0 ∧
    ∀ (R : Rounding) (C : ComplexArith), matrixDistanceF R C A B = 0 := by
  have hne : ((fun _ _ => ((2 ^ (-600 : ℤ) : ℝ) : ℂ)) : Matrix (Fin 1) (Fin 1) ℂ) ≠ 0 := by
    intro h
    have := congrFun (congrFun h 0) 0
    exact (two_zpow_pos (-600)).ne' (Complex.ofReal_eq_zero.mp this)
  refine ⟨fun _ _ => ((2 ^ (-600 : ℤ) : ℝ) : ℂ), 0, hne, fun h => hne ((C73_metric _ _ 0).2.1.mp h), fun R C =>
    C123_vanishes R C _ _ fun i j => ?_⟩
  rw [Matrix.zero_apply, sub_zero, Complex.norm_real, Real.norm_of_nonneg (two_zpow_pos (-600)).le]

/-! ### Concrete cases -/

/-- Two modes that transmit the amplitudes `1` and `x`. -/
noncomputable def lossySecond (x : ℝ) : Svd 2 := ⟨1, ![1, x], 1⟩

theorem lossySecond_isSvd {x : ℝ} (h0 : 0 ≤ x) (h1 : x ≤ 1) : IsSvd (Matrix.diagonal ![1, (x : ℂ)]) (lossySecond x) := by
  refine ⟨one_mem _, one_mem _, fun i => ?_, fun i j _ => ?_, ?_⟩
  · fin_cases i <;> simp [lossySecond, h0]
  · fin_cases i <;> fin_cases j <;> simp_all [lossySecond]
  · simp only [lossySecond]
    rw [one_mul, mul_one]
    congr 1
    funext i
    fin_cases i <;> simp

/-- Amplitudes `1/2` and `3/4`: transmissivities `1/4` and `9/16`, distance `1/4`. -/
example : transmissivities (lossySecond (1 / 2)) = [1 / 4, 1] ∧ transmissivities (lossySecond (3 / 4)) = [9 / 16, 1] ∧
    |Real.sqrt (1 / 4) - Real.sqrt (9 / 16)|
      ≤ matrixDistance (Matrix.diagonal ![1, ((1 / 2 : ℝ) : ℂ)]) (Matrix.diagonal ![1, ((3 / 4 : ℝ) : ℂ)]) := by
  have e1 : transmissivities (lossySecond (1 / 2)) = [1 / 4, 1] := by simp [transmissivities, lossySecond]; norm_num
  have e2 : transmissivities (lossySecond (3 / 4)) = [9 / 16, 1] := by simp [transmissivities, lossySecond]; norm_num
  exact ⟨e1, e2, C123_stable (lossySecond_isSvd (by norm_num) (by norm_num)) (lossySecond_isSvd (by norm_num) (by norm_num)) 0 _ _
    (by rw [e1]; rfl) (by rw [e2]; rfl)⟩

/-- One rounding in the decomposition of a single mode changes the computed transmissivity by at most `2^-46`. -/
example (x : ℝ) (hx : (transmissivitiesF R aboveOneSvd)[0]? = some x) : |x - 1| ≤ 1 / 2 ^ 46 := by
  have h1 : IsSvd (1 : Matrix (Fin 1) (Fin 1) ℂ) ⟨1, fun _ => 1, 1⟩ := ⟨one_mem _, one_mem _, by simp, by simp, by simp⟩
  have h := C123_floats R h1 (by simp) (C123_exceeds R).1 (fun _ _ _ => le_rfl) rfl 0 x 1 hx (by simp [transmissivities])
  refine h.trans ?_
  have h2 : (2 : ℝ) ^ (-1074 : ℤ) ≤ 2 ^ (-60 : ℤ) := zpow_le_zpow_right₀ (by norm_num) (by norm_num)
  generalize (2 : ℝ) ^ (-1074 : ℤ) = t at h2 ⊢
  norm_num at h2 ⊢
  linarith

/-- The distance of two beam splitters has four terms. -/
example (A B : Matrix (Fin 2) (Fin 2) ℂ) :
    |matrixDistanceF R C A B - matrixDistance A B| ≤ 12 / 2 ^ 52 * matrixDistance A B + 4 * 2 ^ (-530 : ℤ) := by
  simpa using C123_distance R C A B (by norm_num)

end Verif
