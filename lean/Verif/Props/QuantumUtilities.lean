import Verif.Proofs.QuantumUtilities
import Verif.Proofs.PrimeFactors
import Mathlib.Analysis.Complex.ExponentialBounds

/-! C47–C52: matrices, distances, sample bounds and prime factors. -/
namespace Verif

/-- C47: `compute_qft_matrix(n)` has the entries `exp(2πi·jk/n)/√n` and is unitary. -/
theorem C47_qft (n : ℕ) :
    (∀ j k : Fin n, computeQft n j k
      = Complex.exp (2 * Real.pi * Complex.I * (j.1 * k.1) / n) / (Real.sqrt n : ℂ)) ∧
    computeQft n ∈ Matrix.unitaryGroup (Fin n) ℂ := by
  refine ⟨fun j k => ?_, qft_unitary n⟩
  simp only [computeQft, horizontalRange, Matrix.transpose_apply, Matrix.of_apply]
  rw [← Complex.exp_nat_mul]
  congr 2
  push_cast
  ring

/-- C47: for `m ≤ M` the block matrix is built, is unitary, equals the QFT on the first `m` modes
and the identity elsewhere. -/
theorem C47_block (m M : ℕ) (h : m ≤ M) :
    ∃ Q, generateQft m M = .ok Q ∧ Q ∈ Matrix.unitaryGroup (Fin M) ℂ ∧
      (∀ (j k : Fin M) (hj : j.1 < m) (hk : k.1 < m), Q j k = computeQft m ⟨j, hj⟩ ⟨k, hk⟩) ∧
      (∀ j k : Fin M, m ≤ j.1 ∨ m ≤ k.1 → Q j k = if j = k then 1 else 0) := by
  refine ⟨_, by rw [generateQft, if_pos (Or.inl h)], corner_unitary h _ (qft_unitary m), ?_, ?_⟩
  · intro j k hj hk; simp [setCorner, hj, hk]
  · intro j k hjk
    rw [setCorner, Matrix.of_apply, dif_neg (by omega), Matrix.one_apply]

/-- C47 is not about trivial matrices: the 2-mode QFT on three modes. -/
example : ∃ Q, generateQft 2 3 = .ok Q ∧ Q 0 0 = 1 / (Real.sqrt 2 : ℂ) ∧ Q 2 2 = 1 ∧ Q 0 2 = 0 := by
  obtain ⟨Q, h1, -, h3, h4⟩ := C47_block 2 3 (by norm_num)
  refine ⟨Q, h1, ?_, ?_, ?_⟩
  · rw [h3 0 0 (by simp) (by simp), (C47_qft 2).1]; simp
  · rw [h4 2 2 (by simp)]; simp
  · rw [h4 0 2 (by simp)]; simp

/-- C48: for every draw of the phases the matrix is built, is diagonal and unitary, carries a
phase of modulus one on each of the first `m` modes and 1 on the others. -/
theorem C48_phases (m M : ℕ) (h : m ≤ M) (r : Fin m → ℝ) :
    ∃ D, generatePhases m M r = .ok D ∧ D ∈ Matrix.unitaryGroup (Fin M) ℂ ∧
      (∀ j k : Fin M, j ≠ k → D j k = 0) ∧ (∀ j : Fin M, m ≤ j.1 → D j j = 1) ∧
      (∀ (j : Fin M) (hj : j.1 < m), D j j = Complex.exp (2 * Real.pi * r ⟨j, hj⟩ * Complex.I) ∧
        Complex.normSq (D j j) = 1) := by
  refine ⟨Matrix.diagonal fun i =>
      if h : i.1 < m then Complex.exp (Complex.I * 2 * Real.pi * r ⟨i, h⟩) else 1,
    by rw [generatePhases, if_pos (Or.inl h)], ?_, ?_, ?_, ?_⟩
  · rw [Matrix.mem_unitaryGroup_iff', Matrix.star_eq_conjTranspose, Matrix.diagonal_conjTranspose,
      Matrix.diagonal_mul_diagonal, ← Matrix.diagonal_one]
    congr 1
    funext j
    simp only [Pi.star_apply]
    by_cases hj : j.1 < m
    · rw [dif_pos hj, Complex.star_def, ← Complex.exp_conj, ← Complex.exp_add]
      simp [Complex.conj_ofNat]
    · rw [dif_neg hj]; simp
  · intro j k hjk; exact Matrix.diagonal_apply_ne _ hjk
  · intro j hj; rw [Matrix.diagonal_apply_eq, dif_neg (by omega)]
  · intro j hj
    rw [Matrix.diagonal_apply_eq, dif_pos hj]
    refine ⟨by congr 1; ring, ?_⟩
    rw [show Complex.I * 2 * Real.pi * r ⟨j, hj⟩ = ((2 * Real.pi * r ⟨j, hj⟩ : ℝ) : ℂ) * Complex.I by
      push_cast; ring]
    rw [Complex.normSq_eq_norm_sq, Complex.norm_exp_ofReal_mul_I, one_pow]

example : ∃ D, generatePhases 1 2 (fun _ => 1 / 2) = .ok D ∧ D 0 0 = -1 ∧ D 1 1 = 1 := by
  obtain ⟨D, h1, -, -, h4, h5⟩ := C48_phases 1 2 (by norm_num) (fun _ => 1 / 2)
  refine ⟨D, h1, ?_, h4 1 (by simp)⟩
  rw [(h5 0 (by simp)).1]
  have : (2 * Real.pi * ((1 / 2 : ℝ) : ℂ) * Complex.I : ℂ) = Real.pi * Complex.I := by push_cast; ring
  rw [this, Complex.exp_pi_mul_I]

section Tvd
variable {R : Type} [Field R] [LinearOrder R] [IsStrictOrderedRing R]

omit [IsStrictOrderedRing R] in
/-- C49: lists of different lengths raise `AssertionError`. -/
theorem C49_assertion (p q : List R) (h : p.length ≠ q.length) :
    countTvd p q = .error .assertionError := by
  unfold countTvd; rw [if_pos h]

omit [IsStrictOrderedRing R] in
/-- C49: on lists of equal length the distance is half the sum of the absolute differences. -/
theorem C49_value (p q : List R) (h : p.length = q.length) :
    countTvd p q = .ok ((∑ i : Fin p.length, |p[i] - q[i]|) / 2) := by
  rw [countTvd_ok p q h]
  congr 2
  rw [← Fin.sum_univ_getElem]
  refine Fintype.sum_equiv (finCongr (by simp [h])) _ _ fun i => ?_
  simp

/-- C49: the distance is a metric bounded by one on probability vectors. -/
theorem C49_metric (p q r : List R) (hpq : p.length = q.length) (hqr : q.length = r.length) :
    ∃ dpq dqp dqr dpr : R,
      countTvd p q = .ok dpq ∧ countTvd q p = .ok dqp ∧ countTvd q r = .ok dqr ∧
      countTvd p r = .ok dpr ∧ dpq = dqp ∧ 0 ≤ dpq ∧ (dpq = 0 ↔ p = q) ∧ dpr ≤ dpq + dqr ∧
      ((∀ x ∈ p, 0 ≤ x) → (∀ x ∈ q, 0 ≤ x) → p.sum = 1 → q.sum = 1 → dpq ≤ 1) := by
  refine ⟨_, _, _, _, C49_value p q hpq, C49_value q p hpq.symm, C49_value q r hqr,
    C49_value p r (hpq.trans hqr), ?_, ?_, ?_, ?_, ?_⟩
  · congr 1
    refine Fintype.sum_equiv (finCongr hpq) _ _ fun i => ?_
    exact abs_sub_comm _ _
  · have : 0 ≤ ∑ i : Fin p.length, |p[i] - q[i]| := Finset.sum_nonneg fun i _ => abs_nonneg _
    positivity
  · constructor
    · intro h
      have h0 : ∑ i : Fin p.length, |p[i] - q[i]| = 0 := by
        rcases div_eq_zero_iff.mp h with h | h
        · exact h
        · norm_num at h
      have h1 := (Finset.sum_eq_zero_iff_of_nonneg fun (i : Fin p.length) _ => abs_nonneg (p[i] - q[i])).mp h0
      refine List.ext_getElem hpq fun i hi _ => ?_
      have := h1 ⟨i, hi⟩ (Finset.mem_univ _)
      exact sub_eq_zero.mp (abs_eq_zero.mp this)
    · rintro rfl; simp
  · rw [← add_div]
    refine div_le_div_of_nonneg_right ?_ (by norm_num)
    have : ∑ i : Fin q.length, |q[i] - r[i]| = ∑ i : Fin p.length, |q[i] - r[i]| :=
      (Fintype.sum_equiv (finCongr hpq) _ _ fun i => rfl).symm
    rw [this, ← Finset.sum_add_distrib]
    exact Finset.sum_le_sum fun i _ => abs_sub_le _ _ _
  · intro hp hq sp sq
    have hp' : ∑ i : Fin p.length, p[i] = 1 := by rw [← sp]; exact Fin.sum_univ_getElem p
    have hq' : ∑ i : Fin p.length, q[i] = 1 := by
      rw [← sq, ← Fin.sum_univ_getElem q]
      exact Fintype.sum_equiv (finCongr hpq) _ _ fun i => rfl
    rw [div_le_one (by norm_num)]
    calc ∑ i : Fin p.length, |p[i] - q[i]| ≤ ∑ i : Fin p.length, (p[i] + q[i]) := by
          refine Finset.sum_le_sum fun i _ => ?_
          have h1 : 0 ≤ p[i] := hp _ (List.getElem_mem _)
          have h2 : 0 ≤ q[i] := hq _ (List.getElem_mem _)
          rw [abs_le]
          constructor <;> linarith
      _ = 2 := by rw [Finset.sum_add_distrib, hp', hq']; norm_num

example : countTvd [1 / 2, 1 / 2, 0] [(1 : ℚ) / 4, 1 / 4, 1 / 2] = .ok (1 / 2) := by decide +kernel

/-- C50: whatever the iteration order of the key set, the dictionary distance of two dictionaries
is the list distance of their tables on any duplicate-free list of outcomes that covers both key
sets, missing keys counting as zero. -/
theorem C50_tabulated {κ : Type} [DecidableEq κ] (setOrder : List κ → List κ)
    (hset : ∀ l, (setOrder l).Nodup ∧ ∀ k, k ∈ setOrder l ↔ k ∈ l) (d1 d2 : List (κ × R))
    (f1 f2 : κ → R)
    (hf1 : ∀ k, (∀ v, (k, v) ∈ d1 → f1 k = v) ∧ (k ∉ d1.map Prod.fst → f1 k = 0))
    (hf2 : ∀ k, (∀ v, (k, v) ∈ d2 → f2 k = v) ∧ (k ∉ d2.map Prod.fst → f2 k = 0))
    (outs : List κ) (ho : outs.Nodup) (hc : ∀ k, k ∈ d1.map Prod.fst ∨ k ∈ d2.map Prod.fst → k ∈ outs) :
    countTvd (outs.map f1) (outs.map f2) = .ok (countTvdDicts setOrder d1 d2) := by
  have hget : ∀ (d : List (κ × R)) (f : κ → R),
      (∀ k, (∀ v, (k, v) ∈ d → f k = v) ∧ (k ∉ d.map Prod.fst → f k = 0)) →
      ∀ k, dictGetZero d k = f k := by
    intro d f hf k
    have key : ∀ d' : List (κ × R), (∀ p ∈ d', p ∈ d) → k ∈ d'.map Prod.fst → dictGetZero d' k = f k := by
      intro d'
      induction d' with
      | nil => intro _ h; simp at h
      | cons p d' ih =>
        intro hsub hk
        rw [dictGetZero]
        by_cases h : p.1 = k
        · rw [if_pos h]
          exact ((hf k).1 p.2 (by rw [← h]; exact hsub p (by simp))).symm
        · rw [if_neg h]
          refine ih (fun q hq => hsub q (by simp [hq])) ?_
          rcases List.mem_cons.mp (by simpa only [List.map_cons] using hk) with h' | h'
          · exact absurd h'.symm h
          · exact h'
    by_cases hk : k ∈ d.map Prod.fst
    · exact key d (fun _ h => h) hk
    · rw [dictGetZero_absent d k hk, (hf k).2 hk]
  rw [countTvd_ok _ _ (by simp), zipWith_map_same, countTvdDicts]
  simp only [hget d1 f1 hf1, hget d2 f2 hf2]
  obtain ⟨hn, hm⟩ := hset (d1.map Prod.fst ++ d2.map Prod.fst)
  rw [sum_cover _ outs _ hn ho]
  · congr 1; ring
  · intro k hk; exact hc k (List.mem_append.mp ((hm k).mp hk))
  · intro k hk
    rw [hm, List.mem_append, not_or] at hk
    rw [(hf1 k).2 hk.1, (hf2 k).2 hk.2, sub_zero, abs_zero]

omit [IsStrictOrderedRing R] in
/-- C50: the dictionary distance is symmetric and independent of the iteration order. -/
theorem C50_symmetric {κ : Type} [DecidableEq κ] (setOrder setOrder' : List κ → List κ)
    (hset : ∀ l, (setOrder l).Nodup ∧ ∀ k, k ∈ setOrder l ↔ k ∈ l)
    (hset' : ∀ l, (setOrder' l).Nodup ∧ ∀ k, k ∈ setOrder' l ↔ k ∈ l) (d1 d2 : List (κ × R)) :
    countTvdDicts setOrder d1 d2 = countTvdDicts setOrder' d2 d1 := by
  simp only [countTvdDicts]
  obtain ⟨hn, hm⟩ := hset (d1.map Prod.fst ++ d2.map Prod.fst)
  obtain ⟨hn', hm'⟩ := hset' (d2.map Prod.fst ++ d1.map Prod.fst)
  have hp : (setOrder (d1.map Prod.fst ++ d2.map Prod.fst)).Perm
      (setOrder' (d2.map Prod.fst ++ d1.map Prod.fst)) := by
    rw [List.perm_ext_iff_of_nodup hn hn']
    intro k
    rw [hm, hm']
    simp only [List.mem_append, or_comm]
  rw [(hp.map _).sum_eq]
  congr 2
  exact List.map_congr_left fun k _ => abs_sub_comm _ _

example : countTvdDicts List.dedup [((0, 1), (1 : ℚ) / 2), ((1, 0), 1 / 2)] [((1, 0), 1)] = 1 / 2 := by
  decide +kernel

end Tvd

/-- C51: the computed number of samples brings the error bound below the desired distance. -/
theorem C51_sufficient (K : ℕ) (p d : ℝ) (h0 : 0 < p) (h1 : p ≤ 1) (hd : 0 < d) :
    ∃ N : ℕ, minimalSamples K p d = N ∧ 1 ≤ N ∧ tvErrorBound K N p < d ∧
      ∀ N' : ℕ, 1 ≤ N' → N' < N → d ≤ tvErrorBound K N' p := by
  set A : ℝ := -Real.log p + Real.log 2 * K with hA
  have hA0 : 0 ≤ A := by
    have := Real.log_nonpos h0.le h1
    have := Real.log_nonneg (show (1 : ℝ) ≤ 2 by norm_num)
    have : 0 ≤ Real.log 2 * (K : ℝ) := by positivity
    linarith
  have hx : 0 ≤ A / (2 * d ^ 2) := by positivity
  have hB : ∀ N : ℕ, tvErrorBound K N p = Real.sqrt (A / (2 * N)) := by
    intro N; unfold tvErrorBound; rw [hA, mul_comm (Real.log 2)]
  refine ⟨⌊A / (2 * d ^ 2)⌋₊ + 1, ?_, by omega, ?_, ?_⟩
  · simp only [minimalSamples, pyInt]
    rw [← hA, if_pos hx]
    push_cast
    rw [Int.natCast_floor_eq_floor hx]
  · rw [hB, Real.sqrt_lt' hd]
    have h2 := Nat.lt_floor_add_one (A / (2 * d ^ 2))
    rw [div_lt_iff₀ (by positivity)] at h2 ⊢
    push_cast
    linarith
  · intro N' h3 h4
    rw [hB]
    refine Real.le_sqrt_of_sq_le ?_
    have h5 : (N' : ℝ) ≤ A / (2 * d ^ 2) := (Nat.le_floor_iff hx).mp (by omega)
    have h6 : (0 : ℝ) < N' := by exact_mod_cast h3
    rw [le_div_iff₀ (by positivity)] at h5 ⊢
    linarith

/-- C51's range of `N'` is not empty in general: 10 outcomes, accuracy 1/10. -/
example : ∃ N : ℕ, minimalSamples 10 1 (1 / 10) = N ∧ 100 < N := by
  obtain ⟨N, h, h1, h2, -⟩ := C51_sufficient 10 1 (1 / 10) one_pos le_rfl (by norm_num)
  refine ⟨N, h, ?_⟩
  by_contra hN
  have hN' : (N : ℝ) ≤ 100 := by exact_mod_cast not_lt.mp hN
  have hpos : (0 : ℝ) < N := by exact_mod_cast h1
  rw [tvErrorBound, Real.sqrt_lt' (by norm_num), Real.log_one] at h2
  have hl := Real.log_two_gt_d9
  rw [div_lt_iff₀ (by positivity)] at h2
  norm_num at h2
  linarith

/-- C52 as stated does not hold: the list always ends with the remaining number, even when that
is 1 (e.g. for 2, where the result is `[2, 1]`). -/
theorem C52_fails : ¬ ∀ n : ℕ, 2 ≤ n → ∃ F, ∀ fuel ≥ F, ∃ l, getPrimeFactors fuel n = .ok l ∧
    ∀ p ∈ l, p.Prime := by
  intro h
  obtain ⟨F, hF⟩ := h 2 le_rfl
  obtain ⟨l, hl, hp⟩ := hF (F + 3) (by omega)
  have hr := getPrimeFactors_ok 1 1 odd_one (F + 3) (by omega)
  rw [if_neg (by rintro ⟨q, hq, hd, -⟩; exact hq.one_lt.ne' (Nat.dvd_one.mp hd))] at hr
  rw [show 2 ^ 1 * 1 = 2 by norm_num, hl] at hr
  have he : l = Nat.primeFactorsList 2 ++ [1] := by simpa using hr
  exact Nat.not_prime_one (hp 1 (by rw [he]; simp))

/-- C52, the part that holds: for every `n = 2^a·o ≥ 1` with `o` odd the function terminates and
returns the prime factors of `n` in non-decreasing order, followed by a superfluous 1 exactly when
no prime factor of `o` exceeds `√o`. Missing for the full claim: the superfluous 1. -/
theorem C52_factors_partial (a o : ℕ) (ho : Odd o) (fuel : ℕ) (hf : 2 ^ a * o < fuel) :
    ((∃ q, q.Prime ∧ q ∣ o ∧ o < q * q) →
      getPrimeFactors fuel (2 ^ a * o) = .ok (2 ^ a * o).primeFactorsList) ∧
    ((¬ ∃ q, q.Prime ∧ q ∣ o ∧ o < q * q) →
      getPrimeFactors fuel (2 ^ a * o) = .ok ((2 ^ a * o).primeFactorsList ++ [1])) := by
  have := getPrimeFactors_ok a o ho fuel hf
  constructor
  · intro h; rw [this, if_pos h, List.append_nil]
  · intro h; rw [this, if_neg h]

/-- C52: independently of the form of `n`: the product of the result is `n`, every element is
prime or the final 1, and the list without it is sorted. -/
theorem C52_product_partial (n : ℕ) (hn : 1 ≤ n) (fuel : ℕ) (hf : n < fuel) :
    ∃ l, ∃ tail : List ℕ, getPrimeFactors fuel n = .ok (l ++ tail) ∧ (tail = [] ∨ tail = [1]) ∧
      (l ++ tail).prod = n ∧ (∀ p ∈ l, p.Prime) ∧ l.Pairwise (· ≤ ·) := by
  obtain ⟨a, o, ho, rfl⟩ := Nat.exists_eq_two_pow_mul_odd (n := n) (by omega)
  refine ⟨(2 ^ a * o).primeFactorsList, _, getPrimeFactors_ok a o ho fuel hf, ?_, ?_,
    fun p hp => Nat.prime_of_mem_primeFactorsList hp, (Nat.primeFactorsList_sorted _).pairwise⟩
  · split_ifs <;> simp
  · rw [List.prod_append, Nat.prod_primeFactorsList (by omega)]
    split_ifs <;> simp

/-- Outside the claim's range: for 0 the loop never ends. -/
theorem C52_zero (fuel : ℕ) : getPrimeFactors fuel 0 = .error .outOfFuel := getPrimeFactors_zero fuel

example : getPrimeFactors 100 42 = .ok [2, 3, 7] := by decide +kernel
example : getPrimeFactors 100 72 = .ok [2, 2, 2, 3, 3, 1] := by decide +kernel

end Verif
