import Verif.Proofs.RoundedExpansion
import Verif.Props.LossStability

/-!
C122: the expanded interferometer in floating-point arithmetic.
-/
namespace Verif

open Finset Prog Matrix

variable (R : Rounding) (C : ComplexArith) (Φ : PhaseArith) {m : ℕ}

/-- Operations behind the top left block, for an argument known up to `e₀` and a decomposition up to `e` operations. -/
def blockOps (e₀ e m : ℕ) : ℕ :=
  2 * m * (3 * (e + 2 * m * (e₀ + e) + 1 + 2 * m) + e + 1 + 2 * m) + 4 * m * (e₀ + e)

/-- Operations behind the whole array. The square roots of small numbers cost half of the digits: an error of `2^-48` becomes
one of `2^-24`. -/
def expandOps (e₀ e m : ℕ) : ℕ :=
  2 * m * (3 * (e + 2 * m * (e₀ + e) + 1 + 2 * m) + e + 1 + 2 * m) + 2 ^ 23 + 2 ^ 24 * (Nat.sqrt (8 * m * (e₀ + e)) + 1)

theorem expandOps_eq (e₀ e m : ℕ) : expandOps e₀ e m = productOps e (2 * m * (e₀ + e)) m + rootOps (e₀ + e) m := by
  rw [expandOps, productOps, rootOps, ← two_mul m, Nat.add_assoc (2 * m * _)]

section

variable {B' B : Matrix (Fin m) (Fin m) ℂ} {dB d : Svd m} {e₀ e : ℕ} (hB : IsSvd B dB) (hd : ∀ i, dB.s i ≤ 1)
  (hB' : ∀ i j, ‖B' i j - B i j‖ ≤ (1 + 1 / 2 ^ 48) ^ e₀ - 1) (h : SvdBackward B' d e) (hm : m + m ≤ 2 ^ 20)
  (hme : 2 * m * (e₀ + e) ≤ 2 ^ 46)
include hB hd hB' h hm hme

/-- C122: let `B` be a sub-unitary network, stored up to `e₀` operations, whose decomposition is computed by a routine that is
backward stable up to `e` operations. The computed array is within `(1 + 2^-48)^(expandOps e₀ e m) - 1` of one that embeds `B`
itself into an interferometer: its top left block is `B`, its first `m` columns are orthonormal. -/
theorem C122_embeds : ∃ W : Matrix (Fin (m + m)) (Fin (m + m)) ℂ, IsDilation (rowsOf B) (rowsOf W) m m ∧
    (∀ i j, ‖W i j‖ ≤ 1) ∧ ∀ i j, ‖expandedMatrixF R C d i j - W i j‖ ≤ (1 + 1 / 2 ^ 48) ^ expandOps e₀ e m - 1 := by
  obtain ⟨X, D, Y, h1, h2, h3, -⟩ := expandedF_near R C hB hd hB' h hm hme
  refine ⟨blockArray B X D Y, dilation_blocks h1, h2, fun i j => (h3 i j).trans (le_of_eq ?_)⟩
  rw [expandOps_eq, qf]

/-- C122: the top left block does not lose digits: it is within `(1 + 2^-48)^(blockOps e₀ e m) - 1` of `B`. -/
theorem C122_block (i j : Fin m) : ‖expandedMatrixF R C d (Fin.castAdd m i) (Fin.castAdd m j) - B i j‖
    ≤ (1 + 1 / 2 ^ 48) ^ blockOps e₀ e m - 1 := by
  obtain ⟨X, D, Y, -, -, -, h4⟩ := expandedF_near R C hB hd hB' h hm hme
  refine (h4 i j).trans (le_of_eq ?_)
  rw [blockOps, productOps, ← two_mul, qf]

end

/-! ### The samplers that use it -/

section

variable {M : Matrix (Fin m) (Fin m) ℂ} {dM d : Svd m} {e : ℕ} (hM : IsSvd M dM) (hd : ∀ i, dM.s i ≤ 1) (h : SvdBackward M d e)
  {S : List ℕ} (hS : S.length = m) (hm0 : 0 < m) (hm : m + m ≤ 2 ^ 20) (hme : 2 * m * e ≤ 2 ^ 46) (hs : S.sum ≤ 1000) (fuel : ℕ)
  (hf : boxSize S ≤ fuel) (hf' : m < fuel)
include hM hd h hS hm0 hm hme hs hf hf'

/-- C122: the sampler for lossy networks, from the computed decomposition of the network `M` to the samples: for every set of
results, the probability of a result in the set differs by at most the bound per sample from that of the exact sampler. -/
theorem C122_network (N : ℕ) :
    (lossyNetSimulateF R C (ryserSubPermanentsR R C fuel) (rowsOf (expandedMatrixF R C d)) fuel S N).Close
      (lossyNetSimulate (ryserSubPermanents fuel) dM fuel S N)
      (N * versionBBound (m + m) S.sum (entryBound (expandOps 0 e m) S.sum (m + m) (boxSize S))) := by
  obtain ⟨W, h1, h2, h3⟩ := C122_embeds R C (e₀ := 0) hM hd (B' := M) (by simp) h hm (by simpa using hme)
  exact (lossyNetF_closeN R C h1 hS hm0 fuel hf hM hd (fun i j => ⟨h2 i j, by rw [mul_one]; exact h3 i j⟩) hm le_rfl hs le_rfl hf'
    N).close (mul_nonneg (Nat.cast_nonneg _) (versionBBound_nonneg _ _ (entryBound_nonneg ..)))

/-- C122: each sample equals `T` with the probability of the network `M`, up to the bound. -/
theorem C122_sample {W : List (List ℂ)} {b : ℕ} (hW : IsDilation (rowsOf M) W m b) (N i : ℕ) (hi : i < N) (T : List ℕ)
    (hT : T.length = m) :
    |((lossyNetSimulateF R C (ryserSubPermanentsR R C fuel) (rowsOf (expandedMatrixF R C d)) fuel S N).prob
        (fun r => ∃ l : List (List ℕ), r = .ok l ∧ l[i]? = some T)).toReal - lossyProb W b S T|
      ≤ N * versionBBound (m + m) S.sum (entryBound (expandOps 0 e m) S.sum (m + m) (boxSize S)) := by
  have := C122_network R C hM hd h hS hm0 hm hme hs fuel hf hf' N (fun r => ∃ l : List (List ℕ), r = .ok l ∧ l[i]? = some T)
  rwa [C35_dilation M dM hM hd W b hW S hS hm0 fuel hf hf' N i (by simpa using hi) T hT,
    ENNReal.toReal_ofReal (by unfold lossyProb; exact sum_nonneg fun _ _ => bosonProb_nonneg ..)] at this

end

/-- C122: what C119, C120 and C121 assume of the embedding holds for the function of the library, if the decomposition of
every array with entries of modulus at most two is backward stable. -/
theorem C122_expands {svd : Matrix (Fin m) (Fin m) ℂ → Svd m} {e : ℕ}
    (hsvd : ∀ B, (∀ i j, ‖B i j‖ ≤ 2) → SvdBackward B (svd B) e) {A : Matrix (Fin m) (Fin m) ℂ} {dA : Svd m} (hA : IsSvd A dA)
    (hd : ∀ i, dA.s i ≤ 1) {K : ℕ} (hK : K ≤ m) (hm : m + m ≤ 2 ^ 20) (e₀ : ℕ) (hme : 2 * m * (e₀ + e) ≤ 2 ^ 46) :
    ExpandsWithin (fun B => expandedMatrixF R C (svd B)) A K e₀ (expandOps e₀ e m) := by
  intro us B' hB'
  obtain ⟨d, hdB⟩ := svd_exists (A * phaseMatrix K m us * dftMatrix K m)
  have hle := network_le_one hA hd (generatePhases_eq K m hK us).2 (generateQft_eq K m hK).2 d hdB
  refine C122_embeds R C hdB hle hB' (hsvd B' fun i j => ?_) hm hme
  have h1 := contraction_entry hdB hle i j
  have h2 := norm_le_norm_add_norm_sub ((A * phaseMatrix K m us * dftMatrix K m) i j) (B' i j)
  have h3 := hB' i j
  have h4 : e₀ ≤ 2 ^ 47 := by
    have := i.2
    have : 1 * e₀ ≤ 2 * m * (e₀ + e) := Nat.mul_le_mul (by omega) (by omega)
    omega
  have h5 : (1 + 1 / 2 ^ 48 : ℝ) ^ e₀ - 1 ≤ 2 * e₀ / 2 ^ 48 := qf_pow_le h4
  have h6 : (2 * e₀ / 2 ^ 48 : ℝ) ≤ 1 := by
    have : (e₀ : ℝ) ≤ 2 ^ 47 := by exact_mod_cast h4
    have h7 : (2 : ℝ) ^ 48 = 2 * 2 ^ 47 := by norm_num
    rw [div_le_one (by norm_num)]
    linarith
  rw [norm_sub_rev] at h2
  linarith

section

variable {d : Svd m} {V U A : Matrix (Fin m) (Fin m) ℂ} {e₀ e c : ℕ} {M : ℝ} (h : SvdWithin d V U e₀) (hm0 : 0 < m)
  (hM : IsGreatest (Set.range fun i => d.s i ^ 2) M) (hM1 : 1 / 2 ^ 48 ≤ M)
include h hm0 hM hM1

/-- C122: the approximate sampler for non-uniform losses, from the computed decomposition of the network to the samples, with
the expanded matrices computed as in the library: constructor, embedding, and `simulate` are all rounded. -/
theorem C122_approximate {svd : Matrix (Fin m) (Fin m) ℂ → Svd m}
    (hsvd : ∀ B, (∀ i j, ‖B i j‖ ≤ 2) → SvdBackward B (svd B) e) (hm : m + m ≤ 2 ^ 20) (hc : 1 ≤ c * M)
    (hA : V * Matrix.diagonal (fun i => (d.s i : ℂ)) * U = ((Real.sqrt M : ℝ) : ℂ) • A) (cpu : ℕ) (hcpu : 0 < cpu) (k t : ℤ)
    (n : ℕ) (hn : n = m * (2 * (splitOps e₀ c m + 3 + m) + (2 * ((max 0 (min k m)).toNat - 1) ^ 2 + 2) + 1 + m))
    (hme : 2 * m * (n + e) ≤ 2 ^ 46) :
    ∃ o, bobsInitF R C d cpu k t = .ok o ∧ (o.k : ℤ) = max 0 (min k m) ∧ o.threads = bobsThreadsNumber cpu t ∧
      ∀ (S : List ℕ) (_ : S.length = m) (_ : S.sum ≤ 170) (fuel : ℕ) (_ : m < fuel) (_ : (S.sum + 1) ^ (m + 1) ≤ fuel)
        (W : (Fin o.k → ℝ) → List (List ℂ)) (b : ℕ)
        (_ : ∀ us, IsDilation (rowsOf (A * phaseMatrix o.k m us * dftMatrix o.k m)) (W us) m b)
        (N : ℤ) (i : ℕ) (_ : i < N.toNat) (T : List ℕ) (_ : T.length = m),
      |((bobsSimulateF R C Φ (fun B => expandedMatrixF R C (svd B)) (ryserSubPermanentsR R C fuel) fuel o S N).prob
          (fun r => ∃ l, r = .ok l ∧ l[i]? = some T)).toReal
        - (approxLaw o.k (S.take o.k).sum (min M 1) W b S T).toReal|
        ≤ (o.threads * (N.toNat / o.threads + 1) : ℕ) * bobsFloatBound (expandOps n e m) m o.k S.sum (S.take o.k).sum S
          + S.sum * (1e-8 + 1 / 2 ^ 51) := by
  obtain ⟨o, h1, h2, h3, h4⟩ := C121_floats R C Φ h hm0 hM hM1 hm hc hA cpu hcpu k t
  have hM0 : 0 < M := lt_of_lt_of_le (by norm_num) hM1
  obtain rfl := split_unique hM1 hA
  have hok : (max 0 (min k (m : ℤ))).toNat = o.k := by omega
  rw [hok] at hn
  refine ⟨o, h1, h2, h3, h4 _ _ ?_⟩
  rw [← hn]
  exact C122_expands R C hsvd (splitMatrix_svd h M) (split_le_one h hM0 hM) (by omega) hm n hme

end

/-! ### Half of the digits are lost -/

/-- The decomposition of a single mode without losses, whose singular value is computed as the float below one. -/
noncomputable def nearOneSvd : Svd 1 := ⟨1, fun _ => 1 - 1 / 2 ^ 53, 1⟩

theorem nearOne_root : lossRootR R (1 - 1 / 2 ^ 53) = 1 / 2 ^ 26 := by
  have e1 : R.rnd ((1 - 1 / 2 ^ 53) ^ 2) = 1 - 1 / 2 ^ 52 := by
    rw [R.eq_of_close (k := 2 ^ 53 - 2) (t := -53) (by norm_num) (by norm_num) (by norm_num)]
    · rw [_root_.zpow_neg]; norm_num
    · rw [_root_.zpow_neg, abs_lt]; norm_num
  have e2 : R.rnd (1 - (1 - 1 / 2 ^ 52)) = 1 / 2 ^ 52 := by
    rw [show (1 : ℝ) - (1 - 1 / 2 ^ 52) = 1 / 2 ^ 52 by ring]
    exact R.eq_self ⟨1, -52, by norm_num, by norm_num, by rw [_root_.zpow_neg]; norm_num⟩
  unfold lossRootR
  rw [e1, e2, if_neg (by norm_num), show (1 : ℝ) / 2 ^ 52 = (1 / 2 ^ 26) ^ 2 by norm_num, Real.sqrt_sq (by norm_num)]
  exact R.eq_self ⟨1, -26, by norm_num, by norm_num, by rw [_root_.zpow_neg]; norm_num⟩

/-- C122: the loss of digits is real: one rounding in the singular value moves the computed array at least `2^-27` away from
every array that embeds the network, with every rounding and every arithmetic. -/
theorem C122_attained : SvdBackward 1 nearOneSvd 1 ∧
    ∀ W : Matrix (Fin 2) (Fin 2) ℂ, IsDilation (rowsOf (1 : Matrix (Fin 1) (Fin 1) ℂ)) (rowsOf W) 1 1 →
      1 / 2 ^ 27 ≤ ‖expandedMatrixF R C nearOneSvd 1 0 - W 1 0‖ := by
  constructor
  · refine ⟨fun i => by simp only [nearOneSvd]; norm_num, 1, one_mem _, 1, one_mem _, by simp [nearOneSvd], by simp [nearOneSvd],
      fun i j => ?_⟩
    obtain rfl := Subsingleton.elim i 0
    obtain rfl := Subsingleton.elim j 0
    rw [one_mul, mul_one, Matrix.diagonal_apply_eq, Matrix.one_apply_eq, ← Complex.ofReal_one, ← Complex.ofReal_sub,
      Complex.norm_real]
    simp only [nearOneSvd]
    norm_num
  · intro W hW
    have h00 : W 0 0 = 1 := by
      have := hW.embeds 0 (by norm_num) 0 (by norm_num)
      rw [mget_rowsOf _ _ _ (by norm_num) (by norm_num), mget_rowsOf _ _ _ (by norm_num) (by norm_num)] at this
      exact this
    have h10 : W 1 0 = 0 := by
      have := hW.isometric 0 (by norm_num) 0 (by norm_num)
      rw [sum_range_succ, sum_range_succ, sum_range_zero, zero_add, if_pos rfl,
        mget_rowsOf _ _ _ (by norm_num) (by norm_num), mget_rowsOf _ _ _ (by norm_num) (by norm_num)] at this
      have h2 : (starRingEnd ℂ) (W 0 0) * W 0 0 + (starRingEnd ℂ) (W 1 0) * W 1 0 = 1 := this
      rw [h00, map_one, one_mul, add_eq_left, mul_comm, Complex.mul_conj] at h2
      exact Complex.normSq_eq_zero.mp (by exact_mod_cast h2)
    have hp := expanded_products C (m := 1) (e := 0) (b := 0) (V' := 1) (V := 1) (U' := 1) (U := 1) (s' := nearOneSvd.s)
      (s := nearOneSvd.s) (x := fun i => lossRootR R (nearOneSvd.s i)) (by norm_num) (one_mem _) (one_mem _) (by simp) (by simp)
      (fun i => by simp only [nearOneSvd]; norm_num) (fun i => by simp only [nearOneSvd]; norm_num) (by simp)
      (fun i => lossRootR_nonneg R _) (fun i => lossRootR_le R _) (finSumFinEquiv (Sum.inr 0)) (finSumFinEquiv (Sum.inl 0))
    have h3 := hp.2
    rw [blockArray_apply, fromBlocks_apply₂₁, Matrix.mul_one, mul_one, Matrix.diagonal_apply_eq] at h3
    have e3 : lossRootR R (nearOneSvd.s 0) = 1 / 2 ^ 26 := nearOne_root R
    rw [e3] at h3
    have h4 : ‖expandedMatrixF R C nearOneSvd 1 0 - ((1 / 2 ^ 26 : ℝ) : ℂ)‖
        ≤ qf ^ ((1 + 1) * (3 * (0 + 0 + 1 + (1 + 1)) + 0 + 1 + (1 + 1))) - 1 := h3
    have h5 := qf_pow_le (k := 24) (by norm_num)
    rw [h10, sub_zero]
    have h6 := norm_le_norm_add_norm_sub (expandedMatrixF R C nearOneSvd 1 0) ((1 / 2 ^ 26 : ℝ) : ℂ)
    rw [Complex.norm_real, Real.norm_of_nonneg (by norm_num)] at h6
    have h7 := h4.trans h5
    norm_num at h6 h7 ⊢
    linarith

/-! ### Concrete cases -/

/-- There is a decomposition without errors. -/
theorem exists_backward : ∃ svd : Matrix (Fin m) (Fin m) ℂ → Svd m, ∀ B, SvdBackward B (svd B) 0 := by
  refine ⟨fun B => (svd_exists B).choose, fun B => ?_⟩
  have h := (svd_exists B).choose_spec
  refine ⟨h.nonneg, _, h.unitaryV, _, h.unitaryU, by simp, by simp, fun i j => ?_⟩
  rw [← h.product]
  simp

/-- Two modes, the second of which transmits the amplitude `1 / 2`. -/
noncomputable def halfSvd₂ : Svd 2 := ⟨1, ![1, 1 / 2], 1⟩

theorem halfSvd₂_isSvd : IsSvd (Matrix.diagonal ![1, 1 / 2]) halfSvd₂ := by
  refine ⟨one_mem _, one_mem _, fun i => by fin_cases i <;> simp [halfSvd₂], fun i j _ => ?_, ?_⟩
  · fin_cases i <;> fin_cases j <;> simp_all [halfSvd₂] <;> norm_num
  · simp only [halfSvd₂]
    rw [one_mul, mul_one]
    congr 1
    funext i
    fin_cases i <;> simp

theorem halfSvd₂_backward : SvdBackward (Matrix.diagonal ![1, 1 / 2]) halfSvd₂ 0 :=
  ⟨halfSvd₂_isSvd.nonneg, _, halfSvd₂_isSvd.unitaryV, _, halfSvd₂_isSvd.unitaryU, by simp, by simp, fun i j => by
    rw [← halfSvd₂_isSvd.product]; simp⟩

/-- A particle enters the second mode. Computed in floats, a sample shows it there with probability `1 / 4`, up to
`2 ^ -10`. -/
example : |((lossyNetSimulateF R C (ryserSubPermanentsR R C 3) (rowsOf (expandedMatrixF R C halfSvd₂)) 3 [0, 1] (2 : ℕ)).prob
    (fun r => ∃ l : List (List ℕ), r = .ok l ∧ l[1]? = some [0, 1])).toReal - 1 / 4| ≤ 1 / 2 ^ 10 := by
  have hW := halfExpand_dilation fun _ => 0
  rw [halfNet, show !![Complex.exp (2 * Real.pi * ((0 : ℝ) : ℂ) * Complex.I), 0; 0, 1 / 2]
    = (Matrix.diagonal ![1, 1 / 2] : Matrix (Fin 2) (Fin 2) ℂ) by
      ext i j; fin_cases i <;> fin_cases j <;> simp] at hW
  have h := C122_sample R C halfSvd₂_isSvd (fun i => by fin_cases i <;> simp [halfSvd₂]; norm_num) halfSvd₂_backward (S := [0, 1])
    rfl (by decide) (by norm_num) (by norm_num) (by decide) 3 (by decide) (by decide) hW 2 1 (by decide) [0, 1] rfl
  have e0 : lossyProb (rowsOf (halfExpand (Matrix.diagonal ![1, 1 / 2]))) 2 [0, 1] [0, 1] = 1 / 4 := by
    rw [← half_prob 1]
    congr 3
    ext i j; fin_cases i <;> fin_cases j <;> simp
  rw [e0] at h
  refine h.trans ?_
  have e1 : expandOps 0 0 2 = 25165904 := by unfold expandOps; norm_num
  have hb := entryBound_le (e := 25165904) (n := 1) (m := 4) (L := 2) (K := 50331900) (by norm_num [ryserSubCount]) (by norm_num)
  rw [e1]
  change ((2 : ℕ) : ℝ) * versionBBound 4 1 (entryBound 25165904 1 4 2) ≤ _
  generalize entryBound 25165904 1 4 2 = a at hb ⊢
  unfold versionBBound
  simp only [sum_range_succ, sum_range_zero, Nat.factorial]
  norm_num at hb ⊢
  linarith

/-- The approximate sampler for the network of C120, with a decomposition without errors. -/
example (svd : Matrix (Fin 2) (Fin 2) ℂ → Svd 2) (hsvd : ∀ B, SvdBackward B (svd B) 0) :
    ∃ o, bobsInitF R C quarterSvd 8 1 2 = .ok o ∧
    |((bobsSimulateF R C Φ (fun B => expandedMatrixF R C (svd B)) (ryserSubPermanentsR R C 8) 8 o [0, 1] 5).prob
      (fun r => ∃ l, r = .ok l ∧ l[3]? = some [0, 1])).toReal - 1 / 16| ≤ 1 / 2 ^ 5 := by
  obtain ⟨o, h1, h2, h3, h4⟩ := C122_approximate R C Φ quarterSvd_within (by decide) quarterSvd_greatest
    (by norm_num) (e := 0) (svd := svd) (fun B _ => hsvd B) (c := 4) (by norm_num) (by norm_num) quarterSvd_split 8 (by decide) 1 2
    166 (by decide) (by norm_num)
  refine ⟨o, h1, ?_⟩
  have hk : o.k = 1 := by omega
  have ht : o.threads = 2 := h3
  clear h1 h2 h3
  rcases o with ⟨ok, ol, oi, ow, ot, os, on⟩
  simp only at hk ht
  subst hk ht
  have h := h4 [0, 1] rfl (by decide) 8 (by decide) (by decide)
    (fun us : Fin 1 → ℝ => rowsOf (halfExpand !![Complex.exp (2 * Real.pi * us 0 * Complex.I), 0; 0, 1 / 2])) 2
    halfExpand_dilation 5 3 (by decide) [0, 1] rfl
  have e0 : approxLaw 1 (List.take 1 [0, 1]).sum (min (1 / 4) 1)
      (fun us : Fin 1 → ℝ => rowsOf (halfExpand !![Complex.exp (2 * Real.pi * us 0 * Complex.I), 0; 0, 1 / 2])) 2 [0, 1] [0, 1]
        = ENNReal.ofReal (1 / 4 / 4) := by
    rw [min_eq_left (by norm_num)]
    exact half_law (by norm_num)
  simp only at h
  rw [e0, ENNReal.toReal_ofReal (by norm_num), show (1 : ℝ) / 4 / 4 = 1 / 16 by norm_num] at h
  refine h.trans ?_
  have es : expandOps 166 0 2 = 880811888 := by
    have : Nat.sqrt 2656 = 51 := (Nat.eq_sqrt.mpr ⟨by norm_num, by norm_num⟩).symm
    unfold expandOps
    norm_num [this]
  have hb := entryBound_le (e := 880811888) (n := 1) (m := 4) (L := 2) (K := 1761624000) (by norm_num [ryserSubCount]) (by norm_num)
  have e1 : bobsFloatBound 880811888 2 1 ([0, 1] : List ℕ).sum (List.take 1 [0, 1]).sum [0, 1]
      = (12 * 1 + 28 * 2) / 2 ^ 53 + versionBBound 4 1 (entryBound 880811888 1 4 2) := by
    simp [bobsFloatBound, boxSize]
  rw [es, e1, show Int.toNat 5 = 5 from rfl]
  generalize entryBound 880811888 1 4 2 = a at hb ⊢
  unfold versionBBound
  simp only [sum_range_succ, sum_range_zero, Nat.factorial]
  norm_num at hb ⊢
  linarith

end Verif
