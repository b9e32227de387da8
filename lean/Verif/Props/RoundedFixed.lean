import Verif.Proofs.RoundedUniform
import Verif.Props.RoundedLosses
import Verif.Proofs.UniformBobsRuns

/-!
C102, C103: the samplers of particles that move independently, entirely in floating-point arithmetic. `R : Rounding`
is any way to round to nearest, `C : ComplexArith` any complex arithmetic and `Φ : PhaseArith` any computation of
phases and squared moduli with the usual errors.
-/
namespace Verif

open Finset Prog Matrix
open scoped ENNReal

variable {m : ℕ} (R : Rounding) (C : ComplexArith) (Φ : PhaseArith)

/-- Phases and squared moduli computed as in the code, with every operation rounded: the cosine and the sine, and
`re * re + im * im`. -/
noncomputable def roundedPhases (R : Rounding) : PhaseArith where
  phase u := R.rndC (Complex.exp (2 * Real.pi * u * Complex.I))
  sqabs z := R.rnd (R.rnd (z.re * z.re) + R.rnd (z.im * z.im))
  phase_err u _ _ := by
    have h := R.rndC_error (Complex.exp (2 * Real.pi * u * Complex.I))
    have hp : ‖Complex.exp (2 * Real.pi * u * Complex.I)‖ = 1 := by
      have := Complex.norm_exp_ofReal_mul_I (2 * Real.pi * u)
      push_cast at this
      exact this
    rw [hp] at h
    have ht : (2 : ℝ) ^ (-1074 : ℤ) ≤ 1 / 2 ^ 60 := by
      refine (zpow_le_zpow_right₀ (n := -60) (by norm_num) (by norm_num)).trans (le_of_eq ?_)
      rw [_root_.zpow_neg, one_div]
      norm_cast
    refine h.trans ?_
    norm_num at ht ⊢
    linarith
  sqabs_float z := R.isFloat _
  sqabs_nonneg z := R.nonneg (add_nonneg (R.nonneg (mul_self_nonneg _)) (R.nonneg (mul_self_nonneg _)))
  sqabs_err z := by
    rw [Complex.normSq_apply]
    have t70 : (2 : ℝ) ^ (-1070 : ℤ) = 16 * 2 ^ (-1074 : ℤ) := by
      rw [show (-1070 : ℤ) = 4 + -1074 by norm_num, zpow_add₀ (by norm_num)]; norm_num
    rw [t70]
    have ht := two_zpow_pos (-1074)
    obtain ⟨t, htd⟩ : ∃ t : ℝ, t = 2 ^ (-1074 : ℤ) := ⟨_, rfl⟩
    have ha := R.abs_error (z.re * z.re)
    have hb := R.abs_error (z.im * z.im)
    have ha0 := mul_self_nonneg z.re
    have hb0 := mul_self_nonneg z.im
    have ha1 := R.nonneg ha0
    have hb1 := R.nonneg hb0
    have hc := R.abs_error (R.rnd (z.re * z.re) + R.rnd (z.im * z.im))
    rw [abs_of_nonneg (add_nonneg ha1 hb1)] at hc
    rw [abs_of_nonneg ha0] at ha
    rw [abs_of_nonneg hb0] at hb
    rw [← htd] at ht ha hb hc ⊢
    obtain ⟨a1, a2⟩ := abs_le.mp ha
    obtain ⟨b1, b2⟩ := abs_le.mp hb
    obtain ⟨c1, c2⟩ := abs_le.mp hc
    norm_num at a1 a2 b1 b2 c1 c2 ⊢
    rw [abs_le]
    constructor <;> linarith

/-! ### Fixed losses -/

/-- C102: no run of the fixed-loss sampler in floating-point arithmetic raises; every sample has one entry per mode and
at most `number_of_photons_left` particles. -/
theorem C102_shape {A : Matrix (Fin m) (Fin m) ℂ} {net : List ℂ → Py (List ℂ)} {ε : ℝ} (hnet : NetworkNear net A ε)
    (hm0 : 0 < m) (hm : m ≤ 2 ^ 40) (k : ℤ) (S : List ℕ) (N : ℤ) (r : Py (List (List ℕ)))
    (hr : (fixedSimulateR R C Φ net m k S N).Runs r) :
    ∃ l, r = .ok l ∧ l.length = N.toNat ∧ ∀ T ∈ l, T.length = m ∧ T.sum ≤ k.toNat := by
  rw [fixedSimulateR, fixedLoopR_eq] at hr
  rcases Prog.repeatN_all (fixedSampleR_all R C Φ hnet hm0 hm k S) _ r hr with h | ⟨_, _, h⟩
  · exact h
  · exact h.elim

/-- C102: for every set of lists of samples, rounding changes its probability by at most `k m (12 ε + 2 ^ -40)` per
sample, for `k` particles left in `m` modes; `ε` is the error of the network strategy. The exact sampler draws real
phases, the other one multiples of `2 ^ -53`. -/
theorem C102_fixed {A : Matrix (Fin m) (Fin m) ℂ} (d : Svd m) (hd : IsSvd A d) (hs : ∀ i, d.s i ≤ 1)
    {net net' : List ℂ → Py (List ℂ)} (hex : NetworkOf net A) {ε : ℝ} (hnet : NetworkNear net' A ε) (h0 : 0 ≤ ε)
    (hm0 : 0 < m) (hm : m ≤ 2 ^ 40) (k : ℤ) (S : List ℕ) (hS : 1 ≤ S.sum) (N : ℤ) :
    (fixedSimulateR R C Φ net' m k S N).Close (fixedSimulate net m k S N)
      (N.toNat * (k.toNat * (m * (12 * ε + 1 / 2 ^ 40)))) :=
  (fixedSimulateR_close R C Φ d hd hs hex hnet h0 hm0 hm k S hS N).close
    (mul_nonneg (Nat.cast_nonneg _) (fixedErr_nonneg h0 _ _))

/-- C102: each sample equals `T` with the probability of C38, up to the same bound. -/
theorem C102_sample {A : Matrix (Fin m) (Fin m) ℂ} (d : Svd m) (hd : IsSvd A d) (hs : ∀ i, d.s i ≤ 1)
    {net : List ℂ → Py (List ℂ)} {ε : ℝ} (hnet : NetworkNear net A ε) (h0 : 0 ≤ ε)
    (hm0 : 0 < m) (hm : m ≤ 2 ^ 40) (k : ℤ) (S : List ℕ) (hS : 1 ≤ S.sum) (N : ℤ) (i : ℕ)
    (hi : i < N.toNat) (T : List ℕ) (hT : T.length = m) (hk : T.sum ≤ k.toNat) :
    |((fixedSimulateR R C Φ net m k S N).prob (fun r => ∃ l, r = .ok l ∧ l[i]? = some T)).toReal
      - (expUniform m fun us => ENNReal.ofReal (multinomialProb
          (List.ofFn fun i => Complex.normSq ((A *ᵥ smeared m S.sum us) i)) k.toNat T)).toReal|
      ≤ N.toNat * (k.toNat * (m * (12 * ε + 1 / 2 ^ 40))) := by
  have hex := (networkOf_strategies A d hd (m + 1) (by omega)).2
  rw [← C38_sample hex hm0 d hd hs k S hS N i hi T hT hk]
  exact C102_fixed R C Φ d hd hs hex hnet h0 hm0 hm k S hS N _

/-- C102 (the lossless network strategy): summed one term after the other, the entries of the evolved state have an
error of at most `m (m + 1) / 2 ^ 46`. -/
theorem C102_network (A : Matrix (Fin m) (Fin m) ℂ) (hA : ∀ i j, ‖A i j‖ ≤ 1) (hm : m ≤ 2 ^ 20) :
    NetworkNear (losslessSimulateR C A) A (m * (m + 1) / 2 ^ 46) := losslessSimulateR_near C A hA hm

/-! ### Uniform losses -/

theorem npLeft_all (n : ℕ) (hn : n ≤ 170) {eta : ℝ} (h0 : 0 ≤ eta) (h1 : eta ≤ 1) (hf : IsFloat eta) :
    (npChoiceR R (n + 1) (separableWeightsR R n eta)).All (fun l => l ≤ n) fun _ => False := by
  rw [separableWeightsR_eq]
  obtain ⟨hL, -, hs⟩ := gccbWeightsR_facts R n hn h0 h1 hf
  have hW := gccbWeightsR_weights R n h0 h1
  have hlen := length_gccbWeightsR R n eta
  unfold npChoiceR
  rw [npChoiceCheck_ok R (by omega) hlen (by omega) (fun x hx => (hW x hx).2) hs]
  simp only [Prog.bind_eq, Prog.lift_def, Prog.done_ok_bind, Prog.pure_eq]
  refine all_randomR fun u hu => Prog.all_done_ok ?_
  have hu1 : u < 1 := by
    obtain ⟨k, hk, rfl⟩ := hu
    rw [div_lt_one (by positivity)]
    exact_mod_cast hk
  have := searchRight_lt R hW hL hu1 (fun h => by rw [h] at hlen; simp at hlen)
  omega

/-- C103: numpy's check of the weights never fails for up to 170 particles, and the number of particles left is the
binomial one up to `(18 n + 45) / 2 ^ 53`. -/
theorem C103_left (n : ℕ) (hn : n ≤ 170) {eta : ℝ} (h0 : 0 ≤ eta) (h1 : eta ≤ 1) (hf : IsFloat eta) :
    (∀ r, (npChoiceR R (n + 1) (separableWeightsR R n eta)).Runs r → ∃ l ≤ n, r = .ok l) ∧
    ∀ k, |((npChoiceR R (n + 1) (separableWeightsR R n eta)).prob (fun r => r = .ok k)).toReal - binomialWeight n k eta|
      ≤ (18 * n + 45) / 2 ^ 53 := by
  classical
  refine ⟨fun r hr => ?_, fun k => ?_⟩
  · rcases npLeft_all R n hn h0 h1 hf r hr with ⟨l, h2, h3⟩ | ⟨_, _, h⟩
    · exact ⟨l, h3, h2⟩
    · exact h.elim
  · refine close_known (npLeft_close R n hn h0 h1 hf) (by positivity) _ (binomialWeight_nonneg n k h0 h1) ?_
    unfold Prog.prob
    rw [categorical_wp n h0 h1]
    simp only [Except.ok.injEq, mul_ite, mul_one, mul_zero]
    rw [sum_ite_eq' (range (n + 1)) k]
    split_ifs with h
    · rfl
    · rw [mem_range, not_lt] at h
      simp [binomialWeight, Nat.choose_eq_zero_of_lt (show n < k by omega)]

/-- A concrete case: both of two particles are left, each being kept with probability `0.27`. -/
example : |((npChoiceR R 3 (separableWeightsR R 2 eta27)).prob (fun r => r = .ok 2)).toReal - eta27 ^ 2| ≤ 81 / 2 ^ 53 := by
  have := (C103_left R 2 (by norm_num) (eta := eta27) (by unfold eta27; positivity) (by unfold eta27; norm_num)
    isFloat_eta27).2 2
  simp only [binomialWeight, Nat.choose_self, Nat.cast_one, one_mul, Nat.sub_self, pow_zero, mul_one] at this
  refine this.trans (le_of_eq ?_)
  norm_num

/-- C103: no run of the uniform-loss sampler in floating-point arithmetic raises, for up to 170 particles; every sample
has one entry per mode and at most as many particles as the input. -/
theorem C103_shape {A : Matrix (Fin m) (Fin m) ℂ} {net : List ℂ → Py (List ℂ)} {ε : ℝ} (hnet : NetworkNear net A ε)
    (hm0 : 0 < m) (hm : m ≤ 2 ^ 40) {eta : ℝ} (h0 : 0 ≤ eta) (h1 : eta ≤ 1) (hf : IsFloat eta) (S : List ℕ)
    (hn : S.sum ≤ 170) (N : ℤ) (r : Py (List (List ℕ))) (hr : (uniformSimulateR R C Φ net m eta S N).Runs r) :
    ∃ l, r = .ok l ∧ l.length = N.toNat ∧ ∀ T ∈ l, T.length = m ∧ T.sum ≤ S.sum := by
  rw [uniformSimulateR, uniformLoopR_eq] at hr
  have ha : (uniformSampleR R C Φ net m eta S).All (fun T => T.length = m ∧ T.sum ≤ S.sum) fun _ => False := by
    refine Prog.all_bind (npLeft_all R S.sum hn h0 h1 hf) fun l hl => ?_
    refine Prog.all_mono (fixedSampleR_all R C Φ hnet hm0 hm l S) (fun T hT => ⟨hT.1, ?_⟩) fun _ h => h
    have := hT.2
    rw [Int.toNat_natCast] at this
    omega
  rcases Prog.repeatN_all ha _ r hr with h | ⟨_, _, h⟩
  · exact h
  · exact h.elim

/-- C103: for every set of lists of samples, rounding changes its probability by at most
`(18 n + 45) / 2 ^ 53 + n m (12 ε + 2 ^ -40)` per sample, for `n` particles in `m` modes; `ε` is the error of the network
strategy. -/
theorem C103_uniform {A : Matrix (Fin m) (Fin m) ℂ} (d : Svd m) (hd : IsSvd A d) (hs : ∀ i, d.s i ≤ 1) (fuel : ℕ)
    (hfu : m < fuel) {net : List ℂ → Py (List ℂ)} {ε : ℝ} (hnet : NetworkNear net A ε) (hε : 0 ≤ ε) (hm0 : 0 < m)
    (hm : m ≤ 2 ^ 40) {eta : ℝ} (h0 : 0 ≤ eta) (h1 : eta ≤ 1) (hf : IsFloat eta) (S : List ℕ) (hS : 1 ≤ S.sum)
    (hn : S.sum ≤ 170) (N : ℤ) :
    (uniformSimulateR R C Φ net m eta S N).Close (uniformSimulate fuel d m eta S N)
      (N.toNat * ((18 * S.sum + 45) / 2 ^ 53 + S.sum * (m * (12 * ε + 1 / 2 ^ 40)))) := by
  have hex := (networkOf_strategies A d hd fuel hfu).1
  rw [uniformSimulateR, uniformLoopR_eq, uniformSimulate, uniformLoop_eq]
  have he : 0 ≤ (18 * (S.sum : ℝ) + 45) / 2 ^ 53 + S.sum * (m * (12 * ε + 1 / 2 ^ 40)) := by positivity
  exact ((uniformSampleR_close R C Φ d hd hs hex hnet hε hm0 hm h0 h1 hf S hS hn).repeatN he _).close
    (mul_nonneg (Nat.cast_nonneg _) he)

/-- C103: each sample equals `T` with the probability of C57, up to the same bound. -/
theorem C103_sample {A : Matrix (Fin m) (Fin m) ℂ} (d : Svd m) (hd : IsSvd A d) (hs : ∀ i, d.s i ≤ 1)
    {net : List ℂ → Py (List ℂ)} {ε : ℝ} (hnet : NetworkNear net A ε) (hε : 0 ≤ ε) (hm0 : 0 < m)
    (hm : m ≤ 2 ^ 40) {eta : ℝ} (h0 : 0 ≤ eta) (h1 : eta ≤ 1) (hf : IsFloat eta) (S : List ℕ) (hS : 1 ≤ S.sum)
    (hn : S.sum ≤ 170) (N : ℤ) (i : ℕ) (hi : i < N.toNat) (T : List ℕ) (hT : T.length = m) :
    |((uniformSimulateR R C Φ net m eta S N).prob (fun r => ∃ l, r = .ok l ∧ l[i]? = some T)).toReal
      - (∑ l ∈ Icc T.sum S.sum, ENNReal.ofReal ((S.sum.choose l : ℝ) * eta ^ l * (1 - eta) ^ (S.sum - l)) *
          expUniform m fun us => ENNReal.ofReal (multinomialProb
            (List.ofFn fun i => Complex.normSq ((A *ᵥ smeared m S.sum us) i)) l T)).toReal|
      ≤ N.toNat * ((18 * S.sum + 45) / 2 ^ 53 + S.sum * (m * (12 * ε + 1 / 2 ^ 40))) := by
  rw [← C57_sample hm0 d hd hs (m + 1) (by omega) eta h0 h1 S hS N i hi T hT]
  exact C103_uniform R C Φ d hd hs (m + 1) (by omega) hnet hε hm0 hm h0 h1 hf S hS hn N _

/-! ### Concrete cases -/

/-- A rotation. -/
noncomputable def rotation2 : Matrix (Fin 2) (Fin 2) ℂ := !![3 / 5, 4 / 5; 4 / 5, -3 / 5]

theorem rotation2_isSvd : IsSvd rotation2 ⟨rotation2, fun _ => 1, 1⟩ where
  unitaryV := by
    rw [mem_unitaryGroup_iff]
    ext i j
    fin_cases i <;> fin_cases j <;> simp [rotation2, Matrix.mul_apply, Matrix.star_eq_conjTranspose] <;>
      simp only [map_ofNat] <;> norm_num
  unitaryU := one_mem _
  nonneg _ := by norm_num
  descending _ _ _ := le_rfl
  product := by simp

theorem rotation2_entries (i j : Fin 2) : ‖rotation2 i j‖ ≤ 1 := by
  fin_cases i <;> fin_cases j <;> simp [rotation2] <;> norm_num

theorem rotation2_modes (us : Fin 2 → ℝ) :
    (List.ofFn fun i => Complex.normSq ((rotation2 *ᵥ smeared 2 1 us) i)) = [9 / 25, 16 / 25] := by
  have h0 := normSq_smeared (m := 2) 1 us 0
  have h1 : smeared 2 1 us 1 = 0 := by simp [smeared]
  simp only [Fin.val_zero, zero_lt_one, if_true] at h0
  simp only [List.ofFn_succ, List.ofFn_zero, mulVec, dotProduct, Fin.sum_univ_two, rotation2]
  simp only [Matrix.of_apply, Matrix.cons_val_zero, Matrix.cons_val_one, Fin.succ_zero_eq_one, h1, mul_zero,
    add_zero, Complex.normSq_mul, h0, Matrix.cons_val', Matrix.cons_val_fin_one]
  norm_num [Complex.normSq]

/-- One particle through a rotation: it comes out of the first mode with probability `9 / 25`, up to `17 / 2 ^ 42`. -/
example : |((fixedSimulateR R (textbookArith R) (roundedPhases R) (losslessSimulateR (textbookArith R) rotation2) 2 1 [1, 0] 1).prob
      (fun r => ∃ l, r = .ok l ∧ l[0]? = some [1, 0])).toReal - 9 / 25| ≤ 17 / 2 ^ 42 := by
  have := C102_sample R (textbookArith R) (roundedPhases R) _ rotation2_isSvd (fun _ => le_rfl)
    (C102_network (textbookArith R) rotation2 rotation2_entries (by norm_num)) (by positivity) (by norm_num) (by norm_num)
    1 [1, 0] (by decide) 1 0 (by decide) [1, 0] rfl (by decide)
  rw [show ([1, 0] : List ℕ).sum = 1 from rfl] at this
  simp only [rotation2_modes] at this
  have e : multinomialProb [9 / 25, 16 / 25] (1 : ℤ).toNat [1, 0] = 9 / 25 := by
    simp [multinomialProb, factProd, Nat.factorial]
  rw [e, expUniform_const, ENNReal.toReal_ofReal (by norm_num)] at this
  refine this.trans (le_of_eq ?_)
  norm_num

/-- The same particle, kept before with probability `0.27`. -/
example : |((uniformSimulateR R (textbookArith R) (roundedPhases R) (losslessSimulateR (textbookArith R) rotation2) 2 eta27 [1, 0] 1).prob
      (fun r => ∃ l, r = .ok l ∧ l[0]? = some [1, 0])).toReal - eta27 * (9 / 25)| ≤ 63 / 2 ^ 53 + 17 / 2 ^ 42 := by
  have g0 : 0 ≤ eta27 := by unfold eta27; positivity
  have := C103_sample R (textbookArith R) (roundedPhases R) _ rotation2_isSvd (fun _ => le_rfl)
    (C102_network (textbookArith R) rotation2 rotation2_entries (by norm_num)) (by positivity) (by norm_num) (by norm_num)
    g0 (by unfold eta27; norm_num) isFloat_eta27 [1, 0] (by decide) (by decide) 1 0 (by decide) [1, 0] rfl
  rw [show ([1, 0] : List ℕ).sum = 1 from rfl, Icc_self, sum_singleton] at this
  simp only [rotation2_modes] at this
  have e : multinomialProb [9 / 25, 16 / 25] 1 [1, 0] = 9 / 25 := by
    simp [multinomialProb, factProd, Nat.factorial]
  rw [e, expUniform_const, ← ENNReal.ofReal_mul (by simpa using g0), ENNReal.toReal_ofReal (by simpa using by positivity)] at this
  simp only [Nat.choose_self, Nat.cast_one, one_mul, pow_one, Nat.sub_self, pow_zero, mul_one] at this
  refine this.trans (le_of_eq ?_)
  norm_num

end Verif
