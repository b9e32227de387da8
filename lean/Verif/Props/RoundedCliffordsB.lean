import Verif.Proofs.RoundedCliffordsB
import Verif.Props.RoundedSubmatrix
import Verif.Props.RoundedLosses
import Verif.Props.LossyNetworks

/-!
C94, C95: version B of the generalized Clifford & Clifford samplers with the matrix, the submatrix permanents, the
conditional probabilities and `numpy.random.choice` in floating-point arithmetic.
-/
namespace Verif

open Finset Prog

/-- How far a computed squared modulus can be from the exact one: `n` particles in `m` modes, `L` states below the input,
entries of the matrix known up to `e` operations. -/
noncomputable def entryBound (e n m L : ℕ) : ℝ :=
  ((1 + 1 / 2 ^ 48) ^ (2 * (ryserSubCount e (n - 1) L + e + 2 + m) + 3) - 1) * ((n + 1) * (2 * n) ^ (n - 1)) ^ 2

/-- How far rounding can move the law of one sample: `t` calls of `numpy.random.choice` among `m` modes, whose weights
are known up to `ε`. -/
noncomputable def versionBBound (m t : ℕ) (ε : ℝ) : ℝ :=
  t * (16 * (m + 1) / 2 ^ 53) + 2 * ε * ∑ i ∈ range t, (m : ℝ) ^ (i + 1) / ((i + 1).factorial : ℝ)

theorem entryErr_eq (e : ℕ) (S : List ℕ) : entryErr e S = entryBound e S.sum S.length (boxSize S) := by
  unfold entryErr entryBound entryOps ryserSubCount boxSize
  rcases Nat.eq_zero_or_pos S.sum with h | h
  · rw [h, Nat.zero_sub, pow_zero, pow_zero]; rfl
  · rw [xmax_pos h]; rfl

theorem entryBound_nonneg (e n m L : ℕ) : 0 ≤ entryBound e n m L :=
  mul_nonneg (sub_nonneg.mpr (one_le_qf_pow _)) (sq_nonneg _)

theorem drawsErr_eq (m t : ℕ) (ε : ℝ) : drawsErr m t ε = versionBBound m t ε := rfl

theorem versionBBound_nonneg (m t : ℕ) {ε : ℝ} (h : 0 ≤ ε) : 0 ≤ versionBBound m t ε := drawsErr_nonneg m t h

section

variable (R : Rounding) (A : ComplexArith)

section

variable {e n : ℕ} {U' U : List (List ℂ)} {S : List ℕ} (h : Interferometer U S) (hrows : ∀ r ∈ U', r.length = n)
  (hlen : S.length ≤ U'.length) (hn : S.length ≤ n) (hU : StoredAs e U' U) (hm : S.length ≤ 2 ^ 20) (hs : S.sum ≤ 1000)
  (fuel : ℕ) (hf : boxSize S ≤ fuel)
include h hrows hlen hn hU hm hs hf

theorem entriesNear_stored : EntriesNear R A (ryserSubPermanentsR R A fuel) U' U S (entryBound e S.sum S.length (boxSize S)) := by
  rw [← entryErr_eq]
  exact entriesNear_ryser R A hrows hlen hn hm hs (storedAs_close hU h.entries) fuel hf

/-- C94: for every set of results, the probability that `simulate` of version B has a result in the set differs by at
most the bound per sample from that of the exact sampler with the exact matrix. -/
theorem C94_law (N : ℤ) : (gccbSimulateF R A (ryserSubPermanentsR R A fuel) U' fuel S N).Close
    (gccbSimulate (ryserSubPermanents fuel) U fuel S N)
    (N.toNat * versionBBound S.length S.sum (entryBound e S.sum S.length (boxSize S))) :=
  (gccbSimulateF_close R A (h.bok fuel hf) (entriesNear_stored R A h hrows hlen hn hU hm hs fuel hf)
    (entryBound_nonneg ..) hm fuel (lt_of_lt_of_le (sum_lt_prod_succ S) hf) N).close
    (mul_nonneg (Nat.cast_nonneg _) (versionBBound_nonneg _ _ (entryBound_nonneg ..)))

/-- C94: each sample equals `T` with the boson-sampling probability of the exact matrix, up to the bound. -/
theorem C94_sample (N : ℤ) (i : ℕ) (hi : i < N.toNat) (T : List ℕ) (hT : T.length = S.length) (hTs : T.sum = S.sum) :
    |((gccbSimulateF R A (ryserSubPermanentsR R A fuel) U' fuel S N).prob
        (fun r => ∃ l : List (List ℕ), r = .ok l ∧ l[i]? = some T)).toReal - bosonProb U S T|
      ≤ N.toNat * versionBBound S.length S.sum (entryBound e S.sum S.length (boxSize S)) := by
  have := C94_law R A h hrows hlen hn hU hm hs fuel hf N (fun r => ∃ l : List (List ℕ), r = .ok l ∧ l[i]? = some T)
  rwa [C28_sample h fuel hf N i hi T hT hTs, ENNReal.toReal_ofReal (bosonProb_nonneg ..)] at this

/-- C94: the probability of a result other than `N` samples with the modes and the particles of the input is at most
the bound. -/
theorem C94_rare (N : ℤ) : ((gccbSimulateF R A (ryserSubPermanentsR R A fuel) U' fuel S N).prob
      (fun r => ¬ ∃ l : List (List ℕ), r = .ok l ∧ l.length = N.toNat ∧ ∀ T ∈ l, T.length = S.length ∧ T.sum = S.sum)).toReal
      ≤ N.toNat * versionBBound S.length S.sum (entryBound e S.sum S.length (boxSize S)) := by
  have := C94_law R A h hrows hlen hn hU hm hs fuel hf N
    (fun r => ¬ ∃ l : List (List ℕ), r = .ok l ∧ l.length = N.toNat ∧ ∀ T ∈ l, T.length = S.length ∧ T.sum = S.sum)
  rw [prob_zero_of_runs (p := gccbSimulate (ryserSubPermanents fuel) U fuel S N) fun r hr => not_not.mpr (by
    obtain ⟨l, h1, h2⟩ := C29_gccb_total h fuel hf N r hr
    exact ⟨l, h1, h2.1, h2.2⟩), ENNReal.toReal_zero, sub_zero] at this
  exact (le_abs_self _).trans this

/-- C95 (uniform losses): for every set of results, the probability that `simulate` of version B with uniform losses has
a result in the set differs by at most the bound per sample from that of the exact sampler. -/
theorem C95_uniform {eta : ℝ} (h0 : 0 ≤ eta) (h1 : eta ≤ 1) (heta : IsFloat eta) (hs' : S.sum ≤ 170) (N : ℤ) :
    (gccbLossySimulateF R A (ryserSubPermanentsR R A fuel) U' fuel eta S N).Close
      (gccbLossySimulate (ryserSubPermanents fuel) U fuel eta S N)
      (N.toNat * ((10 * S.sum + 28) / 2 ^ 53
        + versionBBound S.length S.sum (entryBound e S.sum S.length (boxSize S)))) :=
  (gccbLossySimulateF_close R A (h.bok fuel hf) (entriesNear_stored R A h hrows hlen hn hU hm hs fuel hf)
    (entryBound_nonneg ..) hm fuel (lt_of_lt_of_le (sum_lt_prod_succ S) hf) h0 h1 heta hs' N).close
    (mul_nonneg (Nat.cast_nonneg _) (add_nonneg (by positivity) (versionBBound_nonneg _ _ (entryBound_nonneg ..))))

/-- C95 (uniform losses): each sample equals `T` with the probability of C32, up to the bound. -/
theorem C95_uniform_sample {eta : ℝ} (h0 : 0 ≤ eta) (h1 : eta ≤ 1) (heta : IsFloat eta) (hs' : S.sum ≤ 170) (N : ℤ)
    (i : ℕ) (hi : i < N.toNat) (T : List ℕ) (hT : T.length = S.length) (hTs : T.sum ≤ S.sum) :
    |((gccbLossySimulateF R A (ryserSubPermanentsR R A fuel) U' fuel eta S N).prob
        (fun r => ∃ l : List (List ℕ), r = .ok l ∧ l[i]? = some T)).toReal
      - binomialWeight S.sum T.sum eta * fixedLossProb U S T.sum T|
      ≤ N.toNat * ((10 * S.sum + 28) / 2 ^ 53
        + versionBBound S.length S.sum (entryBound e S.sum S.length (boxSize S))) := by
  have := C95_uniform R A h hrows hlen hn hU hm hs fuel hf h0 h1 heta hs' N
    (fun r => ∃ l : List (List ℕ), r = .ok l ∧ l[i]? = some T)
  rwa [C32_sample h eta h0 h1 fuel hf N i hi T hT hTs,
    ENNReal.toReal_ofReal (mul_nonneg (binomialWeight_nonneg _ _ h0 h1) (fixedLossProb_nonneg ..))] at this

/-- C95 (uniform losses): the probability of a result other than `N` samples of the right shape is at most the bound. -/
theorem C95_uniform_rare {eta : ℝ} (h0 : 0 ≤ eta) (h1 : eta ≤ 1) (heta : IsFloat eta) (hs' : S.sum ≤ 170) (N : ℤ) :
    ((gccbLossySimulateF R A (ryserSubPermanentsR R A fuel) U' fuel eta S N).prob
      (fun r => ¬ ∃ l : List (List ℕ), r = .ok l ∧ l.length = N.toNat ∧ ∀ T ∈ l, T.length = S.length ∧ T.sum ≤ S.sum)).toReal
      ≤ N.toNat * ((10 * S.sum + 28) / 2 ^ 53
        + versionBBound S.length S.sum (entryBound e S.sum S.length (boxSize S))) := by
  have := C95_uniform R A h hrows hlen hn hU hm hs fuel hf h0 h1 heta hs' N
    (fun r => ¬ ∃ l : List (List ℕ), r = .ok l ∧ l.length = N.toNat ∧ ∀ T ∈ l, T.length = S.length ∧ T.sum ≤ S.sum)
  rw [prob_zero_of_runs fun r hr => not_not.mpr (C32_shape h eta fuel hf N r hr), ENNReal.toReal_zero, sub_zero] at this
  exact (le_abs_self _).trans this

end

/-! ### Lossy networks -/

theorem expanded_entries {m : ℕ} {M : Matrix (Fin m) (Fin m) ℂ} {d : Svd m} (h : IsSvd M d) (h1 : ∀ i, d.s i ≤ 1)
    (i j : ℕ) : ‖mget (rowsOf (expandedMatrix d)) i j‖ ≤ 1 := by
  by_cases hij : i < m + m ∧ j < m + m
  · rw [mget_rowsOf _ _ _ hij.1 hij.2]
    have key : ∀ a b : Fin m ⊕ Fin m, ‖expandedBlocks d a b‖ ≤ 1 := by
      intro a b
      have hg := congrFun (congrFun (expanded_gram h h1) b) b
      have hone : ((expandedBlocks d).conjTranspose * expandedBlocks d) b b = 1 := by
        rw [hg]; cases b <;> simp
      rw [Matrix.mul_apply] at hone
      have hsum : ∑ c, ‖expandedBlocks d c b‖ ^ 2 = 1 := by
        have h2 : ((∑ c, ‖expandedBlocks d c b‖ ^ 2 : ℝ) : ℂ) = 1 := by
          rw [← hone]
          push_cast
          refine Finset.sum_congr rfl fun c _ => ?_
          rw [Matrix.conjTranspose_apply, ← Complex.conj_mul', ]
          rfl
        exact_mod_cast h2
      have h3 : ‖expandedBlocks d a b‖ ^ 2 ≤ 1 := by
        rw [← hsum]
        exact Finset.single_le_sum (f := fun c => ‖expandedBlocks d c b‖ ^ 2) (fun c _ => sq_nonneg _) (mem_univ a)
      exact (sq_le_one_iff₀ (norm_nonneg _)).mp h3
    exact key _ _
  · have hl : (rowsOf (expandedMatrix d)).length = m + m := by simp [rowsOf]
    rw [mget_out (fun r hr => by rw [hl]; obtain ⟨i, rfl⟩ := List.mem_ofFn.mp hr; simp) (by rw [hl]; exact hij)]
    simp

section

variable {e m : ℕ} {M : Matrix (Fin m) (Fin m) ℂ} {d : Svd m} (h : IsSvd M d) (h1 : ∀ i, d.s i ≤ 1)
  {W' : List (List ℂ)} (hrows : ∀ r ∈ W', r.length = m + m) (hlen : W'.length = m + m)
  (hU : StoredAs e W' (rowsOf (expandedMatrix d))) {S : List ℕ} (hS : S.length = m) (hm : 0 < m) (hm' : m + m ≤ 2 ^ 20)
  (hs : S.sum ≤ 1000) (fuel : ℕ) (hf : boxSize S ≤ fuel)
include h h1 hrows hlen hU hS hm hm' hs hf

/-- C95 (lossy networks): for every set of results, the probability that `simulate` of the sampler for lossy networks
has a result in the set, the expanded matrix being stored up to `e` operations, differs by at most the bound per sample
from that of the exact sampler. -/
theorem C95_network (N : ℤ) : (lossyNetSimulateF R A (ryserSubPermanentsR R A fuel) W' fuel S N).Close
    (lossyNetSimulate (ryserSubPermanents fuel) d fuel S N)
    (N.toNat * versionBBound (m + m) S.sum (entryBound e S.sum (m + m) (boxSize S))) := by
  have hl : (S ++ S.map fun _ => 0).length = m + m := by rw [expanded_len, hS]
  have hb : boxSize (S ++ S.map fun _ => 0) = boxSize S := expanded_prod S
  have he : EntriesNear R A (ryserSubPermanentsR R A fuel) W' (rowsOf (expandedMatrix d)) (S ++ S.map fun _ => 0)
      (entryBound e S.sum (m + m) (boxSize S)) := by
    have := entriesNear_ryser R A hrows (by rw [hl, hlen]) hl.le (by rw [hl]; exact hm') (by rw [expanded_sum]; exact hs)
      (storedAs_close hU (expanded_entries h h1)) fuel (S := S ++ S.map fun _ => 0) (by
        change boxSize (S ++ S.map fun _ => 0) ≤ fuel; rw [hb]; exact hf)
    rwa [entryErr_eq, expanded_sum, hl, hb] at this
  have hc := gccbSimulateF_close R A (lossyNet_bok h h1 hS hm fuel hf) he (entryBound_nonneg ..) (by rw [hl]; exact hm') fuel
    (by rw [expanded_sum]; exact lt_of_lt_of_le (sum_lt_prod_succ S) hf) N
  rw [expanded_sum, hl] at hc
  have hb0 : 0 ≤ N.toNat * versionBBound (m + m) S.sum (entryBound e S.sum (m + m) (boxSize S)) :=
    mul_nonneg (Nat.cast_nonneg _) (versionBBound_nonneg _ _ (entryBound_nonneg ..))
  rw [drawsErr_eq] at hc
  have hc' := (hc.bind_left fun samples => Prog.done (samples.mapM fun out => trimTo fuel S.length out)).close hb0
  unfold lossyNetSimulateF lossyNetSimulate
  simp only [Prog.bind_eq, Prog.lift_def]
  exact hc'

/-- C95 (lossy networks): each sample equals `T` with the probability of the network `M`, up to the bound. -/
theorem C95_network_sample {W : List (List ℂ)} {b : ℕ} (hW : IsDilation (rowsOf M) W m b) (hf' : m < fuel) (N : ℤ)
    (i : ℕ) (hi : i < N.toNat) (T : List ℕ) (hT : T.length = m) :
    |((lossyNetSimulateF R A (ryserSubPermanentsR R A fuel) W' fuel S N).prob
        (fun r => ∃ l : List (List ℕ), r = .ok l ∧ l[i]? = some T)).toReal - lossyProb W b S T|
      ≤ N.toNat * versionBBound (m + m) S.sum (entryBound e S.sum (m + m) (boxSize S)) := by
  have := C95_network R A h h1 hrows hlen hU hS hm hm' hs fuel hf N
    (fun r => ∃ l : List (List ℕ), r = .ok l ∧ l[i]? = some T)
  rwa [C35_dilation M d h h1 W b hW S hS hm fuel hf hf' N i hi T hT,
    ENNReal.toReal_ofReal (by unfold lossyProb; exact sum_nonneg fun _ _ => bosonProb_nonneg ..)] at this

/-- C95 (lossy networks): the probability of a result other than `N` samples of the right shape is at most the bound. -/
theorem C95_network_rare (hf' : m < fuel) (N : ℤ) :
    ((lossyNetSimulateF R A (ryserSubPermanentsR R A fuel) W' fuel S N).prob
      (fun r => ¬ ∃ l : List (List ℕ), r = .ok l ∧ l.length = N.toNat ∧ ∀ T ∈ l, T.length = m ∧ T.sum ≤ S.sum)).toReal
      ≤ N.toNat * versionBBound (m + m) S.sum (entryBound e S.sum (m + m) (boxSize S)) := by
  have := C95_network R A h h1 hrows hlen hU hS hm hm' hs fuel hf N
    (fun r => ¬ ∃ l : List (List ℕ), r = .ok l ∧ l.length = N.toNat ∧ ∀ T ∈ l, T.length = m ∧ T.sum ≤ S.sum)
  rw [prob_zero_of_runs fun r hr => not_not.mpr (C35_shape M d h h1 S hS hm fuel hf hf' N r hr), ENNReal.toReal_zero,
    sub_zero] at this
  exact (le_abs_self _).trans this

end

/-! ### Concrete cases -/

theorem entryBound_le {e n m L K : ℕ} (hK : 2 * (ryserSubCount e (n - 1) L + e + 2 + m) + 3 ≤ K) (hK' : K ≤ 2 ^ 47) :
    entryBound e n m L ≤ 2 * K / 2 ^ 48 * ((n + 1) * (2 * n) ^ (n - 1)) ^ 2 := by
  have h1 := (qf_pow_mono hK).trans (sub_le_iff_le_add.mp (qf_pow_le hK'))
  unfold entryBound
  refine mul_le_mul_of_nonneg_right ?_ (sq_nonneg _)
  rw [sub_le_iff_le_add]
  exact h1

theorem bound_two : versionBBound 2 2 (entryBound 1 2 2 4) ≤ 1 / 2 ^ 30 := by
  have h := entryBound_le (e := 1) (n := 2) (m := 2) (L := 4) (K := 73) (by decide) (by norm_num)
  generalize entryBound 1 2 2 4 = a at h ⊢
  unfold versionBBound
  simp only [sum_range_succ, sum_range_zero, Nat.factorial]
  norm_num at h ⊢
  linarith

/-- Three samples of two particles through a rotation whose entries are rounded to floats. -/
example : |((gccbSimulateF R (textbookArith R) (ryserSubPermanentsR R (textbookArith R) 4)
      (([[3 / 5, 4 / 5], [4 / 5, -3 / 5]] : List (List ℂ)).map fun r => r.map R.rndC) 4 [1, 1] 3).prob
        (fun r => ∃ l : List (List ℕ), r = .ok l ∧ l[1]? = some [1, 1])).toReal - 49 / 625| ≤ 1 / 2 ^ 28 := by
  have hsq : ∀ r ∈ ([[3 / 5, 4 / 5], [4 / 5, -3 / 5]] : List (List ℂ)).map (fun r => r.map R.rndC), r.length = 2 := by
    simp
  have h := C94_sample R (textbookArith R) (rotation_interferometer [1, 1] rfl) hsq (by simp) (by simp)
    (storedAs_round R rotation_entries) (by simp) (by simp) 4 (by decide) 3 1 (by decide) [1, 1] rfl rfl
  rw [rotation_prob] at h
  refine h.trans ?_
  have hb := bound_two
  change ((3 : ℕ) : ℝ) * versionBBound 2 2 (entryBound 1 2 2 4) ≤ _
  norm_num at hb ⊢
  linarith

/-- The same with losses: each particle is kept with probability `0.27`. -/
example : |((gccbLossySimulateF R (textbookArith R) (ryserSubPermanentsR R (textbookArith R) 4)
      (([[3 / 5, 4 / 5], [4 / 5, -3 / 5]] : List (List ℂ)).map fun r => r.map R.rndC) 4 eta27 [1, 1] 3).prob
        (fun r => ∃ l : List (List ℕ), r = .ok l ∧ l[1]? = some [1, 1])).toReal - eta27 ^ 2 * (49 / 625)| ≤ 1 / 2 ^ 28 := by
  have hsq : ∀ r ∈ ([[3 / 5, 4 / 5], [4 / 5, -3 / 5]] : List (List ℂ)).map (fun r => r.map R.rndC), r.length = 2 := by
    simp
  have e : fixedLossProb [[3 / 5, 4 / 5], [4 / 5, -3 / 5]] [1, 1] 2 [1, 1] = 49 / 625 := by
    rw [← rotation_prob]; exact fixedLossProb_full _ [1, 1] [1, 1]
  have h := C95_uniform_sample R (textbookArith R) (rotation_interferometer [1, 1] rfl) hsq (by simp) (by simp)
    (storedAs_round R rotation_entries) (by simp) (by simp) 4 (by decide) (eta := eta27) (by unfold eta27; positivity)
    (by unfold eta27; norm_num) isFloat_eta27 (by decide) 3 1 (by decide) [1, 1] rfl (by decide)
  simp only [List.sum_cons, List.sum_nil, Nat.reduceAdd, e, binomialWeight, Nat.choose_self, Nat.cast_one, one_mul,
    Nat.sub_self, pow_zero, mul_one] at h
  refine h.trans ?_
  have hb := bound_two
  change ((3 : ℕ) : ℝ) * ((10 * (2 : ℕ) + 28) / 2 ^ 53 + versionBBound 2 2 (entryBound 1 2 2 4)) ≤ _
  norm_num at hb ⊢
  linarith

/-- Two samples of two particles through a single mode that transmits half of the amplitude; the expanded matrix is
rounded to floats. -/
example (W : List (List ℂ)) (b : ℕ) (hW : IsDilation (rowsOf (Matrix.of fun (_ _ : Fin 1) => (1 / 2 : ℂ))) W 1 b) (k : ℕ) :
    |((lossyNetSimulateF R (textbookArith R) (ryserSubPermanentsR R (textbookArith R) 3)
      ((rowsOf (expandedMatrix halfSvd)).map fun r => r.map R.rndC) 3 [2] 2).prob
        (fun r => ∃ l : List (List ℕ), r = .ok l ∧ l[1]? = some [k])).toReal - lossyProb W b [2] [k]| ≤ 1 / 2 ^ 28 := by
  have h1 : ∀ i, halfSvd.s i ≤ 1 := fun i => by simp only [halfSvd]; norm_num
  have hsq : ∀ r ∈ (rowsOf (expandedMatrix halfSvd)).map (fun r => r.map R.rndC), r.length = 1 + 1 := by
    intro r hr
    obtain ⟨r', hr', rfl⟩ := List.mem_map.mp hr
    obtain ⟨i, rfl⟩ := List.mem_ofFn.mp hr'
    simp
  have h := C95_network_sample R (textbookArith R) halfSvd_isSvd h1 hsq (by simp [rowsOf])
    (storedAs_round R (expanded_entries halfSvd_isSvd h1)) (S := [2]) rfl (by decide) (by norm_num) (by simp) 3 (by decide)
    hW (by decide) 2 1 (by decide) [k] rfl
  refine h.trans ?_
  have hb : versionBBound 2 2 (entryBound 1 2 2 3) ≤ 1 / 2 ^ 30 := by
    have h := entryBound_le (e := 1) (n := 2) (m := 2) (L := 3) (K := 73) (by decide) (by norm_num)
    generalize entryBound 1 2 2 3 = a at h ⊢
    unfold versionBBound
    simp only [sum_range_succ, sum_range_zero, Nat.factorial]
    norm_num at h ⊢
    linarith
  change ((2 : ℕ) : ℝ) * versionBBound 2 2 (entryBound 1 2 2 3) ≤ _
  norm_num at hb ⊢
  linarith

end

end Verif
