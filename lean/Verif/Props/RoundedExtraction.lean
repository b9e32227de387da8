import Verif.Proofs.RoundedExtraction

/-!
C120: the constructor of the approximate sampler for non-uniform losses in floating-point arithmetic.
-/
namespace Verif

open Finset Prog Matrix

variable (R : Rounding) (C : ComplexArith) (Φ : PhaseArith) {m : ℕ}

/-- How far the stored matrix can be from the exact one, as a number of operations: the factors of the decomposition are known
up to `e₀` operations, the largest squared singular value is at least `1 / c`. -/
def splitOps (e₀ c m : ℕ) : ℕ := m * (2 * (e₀ + c + 1 + m) + e₀ + 1 + m)

section

variable {d : Svd m} {V U A : Matrix (Fin m) (Fin m) ℂ} {e₀ c : ℕ} {M : ℝ} (h : SvdWithin d V U e₀) (hm0 : 0 < m)
  (hM : IsGreatest (Set.range fun i => d.s i ^ 2) M) (hM1 : 1 / 2 ^ 48 ≤ M)

include hM1 in
theorem split_unique (hA : V * Matrix.diagonal (fun i => (d.s i : ℂ)) * U = ((Real.sqrt M : ℝ) : ℂ) • A) :
    A = splitMatrix V U d.s M := by
  have hM0 : 0 < M := lt_of_lt_of_le (by norm_num) hM1
  have hs : ((Real.sqrt M : ℝ) : ℂ) ≠ 0 := by
    exact_mod_cast (Real.sqrt_pos.mpr hM0).ne'
  refine smul_right_injective _ hs ?_
  change ((Real.sqrt M : ℝ) : ℂ) • A = ((Real.sqrt M : ℝ) : ℂ) • splitMatrix V U d.s M
  rw [← hA, splitMatrix, ← Matrix.smul_mul, ← Matrix.mul_smul, ← Matrix.diagonal_smul]
  congr 3
  funext i
  rw [Pi.smul_apply, smul_eq_mul, ← Complex.ofReal_mul, mul_div_cancel₀ _ (Real.sqrt_pos.mpr hM0).ne']

include h hm0 hM hM1 in
/-- C120: let the largest squared singular value `M` be at least `2^-48`, and `A` the network without the factor `√M`. The
stored losses are a float within `3 · 2^-53` of `1 - M`; the stored matrix is within `(1 + 2^-48)^(splitOps e₀ c m) - 1` of
`A`, for every integer `c ≥ 1 / M`, and the largest singular value of `A` is one. -/
theorem C120_split (hm : m ≤ 2 ^ 20) (hc : 1 ≤ c * M)
    (hA : V * Matrix.diagonal (fun i => (d.s i : ℂ)) * U = ((Real.sqrt M : ℝ) : ℂ) • A) :
    (∃ l A', extractLossesF R C d = .ok (l, some A') ∧ IsFloat l ∧ l ≤ 1 ∧ |1 - l - M| ≤ 3 / 2 ^ 53 ∧
      ∀ i j, ‖A' i j - A i j‖ ≤ (1 + 1 / 2 ^ 48) ^ splitOps e₀ c m - 1) ∧
    ∃ d', IsSvd A d' ∧ IsGreatest (Set.range d'.s) 1 := by
  have hM0 : 0 < M := lt_of_lt_of_le (by norm_num) hM1
  obtain rfl := split_unique hM1 hA
  obtain ⟨l, A', e1, e2, e3, -, e5, e6⟩ := extractLossesF_ok R C h hm0 hm hM hM1 hc
  refine ⟨⟨l, A', e1, e2, e3, e5, fun i j => ?_⟩, _, splitMatrix_svd h M, ?_, ?_⟩
  · have := (e6 i j).2
    rwa [mul_one] at this
  · obtain ⟨i, hi⟩ := hM.1
    refine ⟨i, ?_⟩
    change d.s i / Real.sqrt M = 1
    have hi' : d.s i ^ 2 = M := hi
    rw [← hi', Real.sqrt_sq (h.nonneg i), div_self]
    rintro h0
    rw [h0] at hi'
    norm_num at hi'
    linarith
  · rintro _ ⟨i, rfl⟩
    exact split_le_one h hM0 hM i

include h hm0 hM hM1 in
/-- C120: the constructor gives an object to which C119 applies, with losses below zero replaced by zero. The replacement
changes nothing: `simulate` is the same for both objects. -/
theorem C120_object (hm : m + m ≤ 2 ^ 20) (hc : 1 ≤ c * M)
    (hA : V * Matrix.diagonal (fun i => (d.s i : ℂ)) * U = ((Real.sqrt M : ℝ) : ℂ) • A) (cpu : ℕ) (hcpu : 0 < cpu) (k t : ℤ) :
    ∃ o, bobsInitF R C d cpu k t = .ok o ∧ |1 - o.losses - M| ≤ 3 / 2 ^ 53 ∧ o.number = 0 ∧
      (o.k : ℤ) = max 0 (min k m) ∧
      ∀ (expand : Matrix (Fin m) (Fin m) ℂ → Matrix (Fin (m + m)) (Fin (m + m)) ℂ) (e₁ : ℕ),
        ExpandsWithin expand A o.k (m * (2 * (splitOps e₀ c m + 3 + m) + (2 * (o.k - 1) ^ 2 + 2) + 1 + m)) e₁ →
        FloatBobs expand { o with losses := max o.losses 0 } A (splitOps e₀ c m) e₁ ∧
        ∀ sub fuel (S : List ℕ) (N : ℤ), S.length = m → bobsSimulateF R C Φ expand sub fuel o S N
          = bobsSimulateF R C Φ expand sub fuel { o with losses := max o.losses 0 } S N := by
  have hM0 : 0 < M := lt_of_lt_of_le (by norm_num) hM1
  obtain rfl := split_unique hM1 hA
  obtain ⟨l, A', e1, e2, e3, e4, e5, e6⟩ := extractLossesF_ok R C h hm0 (by omega) hM hM1 hc
  have hk : ((bobsModes m k : ℕ) : ℤ) = max 0 (min k m) := by
    unfold bobsModes
    simp only
    split_ifs <;> omega
  refine ⟨⟨bobsModes m k, l, some A', [], bobsThreadsNumber cpu t, [], 0⟩, by unfold bobsInitF; rw [e1]; rfl, e5, rfl, hk,
    fun expand e₁ hex => ⟨⟨hm0, hm, by simp only; omega, ?_, le_max_right _ _, max_le e3 zero_le_one, ?_,
      ⟨_, splitMatrix_svd h M, split_le_one h hM0 hM⟩, ⟨A', rfl, fun i j => ?_⟩, hex⟩, fun sub fuel S N hS => ?_⟩⟩
  · simp only [bobsThreadsNumber]
    split_ifs <;> omega
  · rcases max_cases l 0 with ⟨e, -⟩ | ⟨e, -⟩
    · simp only [e]; exact e2
    · simp only [e]; exact isFloat_zero
  · have := (e6 i j).2
    rwa [mul_one] at this
  · rcases le_or_gt 0 l with h0 | h0
    · simp only [max_eq_left h0]
    · have hne : S ≠ [] := by rintro rfl; simp at hS; omega
      simp only [max_eq_right h0.le]
      exact bobsSimulateF_negative R C Φ sub fuel _ 0 (by simp only; rw [abs_of_neg h0]; linarith) (by norm_num) hne
        (by simp only; omega) N

end

/-- C120: a network with all singular values in `[0, 2^-28]` cannot be treated: the losses become one and the matrix is divided
by zero. In exact arithmetic it is split (C41). -/
theorem C120_fails (d : Svd m) (hm : 0 < m) (h0 : ∀ i, 0 ≤ d.s i) (h1 : ∀ i, d.s i ≤ 1 / 2 ^ 28) :
    extractLossesF R C d = .ok (1, none) := extractLossesF_fails R C hm h0 h1

/-- One mode, of which the amplitude `5 · 2^-28` is transmitted. -/
noncomputable def faintSvd : Svd 1 := ⟨1, fun _ => 5 / 2 ^ 28, 1⟩

/-- C120: the stored matrix need not be sub-unitary. -/
theorem C120_gain : ∃ l A', extractLossesF R (textbookArith R) faintSvd = .ok (l, some A') ∧
    ∀ d', IsSvd A' d' → ∃ i, 1 < d'.s i := by
  have e1 : R.rnd ((5 / 2 ^ 28) ^ 2) = 25 / 2 ^ 56 := by
    rw [show ((5 : ℝ) / 2 ^ 28) ^ 2 = 25 / 2 ^ 56 by norm_num]
    exact R.eq_self ⟨25, -56, by norm_num, by norm_num, by rw [_root_.zpow_neg]; norm_num⟩
  have e2 : R.rnd (1 - 25 / 2 ^ 56) = 1 - 3 / 2 ^ 53 := by
    rw [R.eq_of_close (k := 2 ^ 53 - 3) (t := -53) (by norm_num) (by norm_num) (by norm_num)]
    · rw [_root_.zpow_neg]; norm_num
    · rw [_root_.zpow_neg, abs_lt]; norm_num
  have e3 : R.rnd (1 - (1 - 3 / 2 ^ 53)) = 3 / 2 ^ 53 := by
    rw [show (1 : ℝ) - (1 - 3 / 2 ^ 53) = 3 / 2 ^ 53 by ring]
    exact R.eq_self ⟨3, -53, by norm_num, by norm_num, by rw [_root_.zpow_neg]; norm_num⟩
  have hmin : pyMinR (List.ofFn fun i => R.rnd (1 - R.rnd (faintSvd.s i ^ 2))) = .ok (1 - 3 / 2 ^ 53) := by
    simp only [faintSvd, e1, e2]
    rfl
  set s' := keptR R ((5 / 2 ^ 28) ^ 2) (3 / 2 ^ 53) with hs'
  have hs1 : 1 + 1 / 2 ^ 7 ≤ s' := by
    refine R.ge_of_ge ⟨2 ^ 7 + 1, -7, by norm_num, by norm_num, by rw [_root_.zpow_neg]; norm_num⟩ (Real.le_sqrt_of_sq_le ?_)
    refine R.ge_of_ge ⟨129 ^ 2, -14, by norm_num, by norm_num, by rw [_root_.zpow_neg]; norm_num⟩ ?_
    rw [e1]
    norm_num
  refine ⟨_, _, by rw [extractLossesF_eq R _ hmin, if_neg (by rw [e3]; norm_num)], fun d' hd' => ?_⟩
  by_contra hall
  push Not at hall
  have := contraction_entry hd' hall 0 0
  rw [e3] at this
  have hf : R.rnd s' = s' := R.eq_self (R.isFloat _)
  have hz : R.rnd 0 = 0 := R.eq_self isFloat_zero
  have hmul : ∀ x y : ℝ, (textbookArith R).mul (x : ℂ) (y : ℂ) = ((R.rnd (x * y) : ℝ) : ℂ) := by
    intro x y
    apply Complex.ext <;> simp [textbookArith, Rounding.mulC, hz, R.eq_self (R.isFloat _)]
  have hadd : ∀ x : ℝ, (textbookArith R).add 0 (x : ℂ) = ((R.rnd x : ℝ) : ℂ) := by
    intro x
    apply Complex.ext <;> simp [textbookArith, Rounding.rndC, hz]
  have hone : R.rnd (1 * s') = s' := by rw [one_mul, hf]
  have hone' : R.rnd (s' * 1) = s' := by rw [mul_one, hf]
  have h1 := hmul 1 s'
  have h2 := hmul s' 1
  rw [hone, Complex.ofReal_one] at h1
  rw [hone', Complex.ofReal_one] at h2
  have h3 := hadd s'
  rw [hf] at h3
  simp only [matMulR, faintSvd, Matrix.of_apply, List.finRange_succ, List.finRange_zero, List.map_nil, List.foldl_cons,
    List.foldl_nil, Matrix.one_apply_eq, Matrix.diagonal_apply_eq] at this
  rw [← hs', h1, h3, h2, h3, Complex.norm_real, Real.norm_of_nonneg (by norm_num at *; linarith)] at this
  norm_num at *
  linarith

/-! ### A concrete case -/

/-- Two modes, which transmit the amplitudes `1 / 2` and `1 / 4`. -/
noncomputable def quarterSvd : Svd 2 := ⟨1, ![1 / 2, 1 / 4], 1⟩

theorem quarterSvd_within : SvdWithin quarterSvd 1 1 0 := by
  refine ⟨one_mem _, one_mem _, by simp [quarterSvd], by simp [quarterSvd], fun i => ?_, fun i => ?_, fun i j hij => ?_⟩
  · fin_cases i <;> simp [quarterSvd]
  · fin_cases i <;> simp [quarterSvd] <;> norm_num
  · fin_cases i <;> fin_cases j <;> simp_all [quarterSvd]; norm_num

theorem quarterSvd_greatest : IsGreatest (Set.range fun i => quarterSvd.s i ^ 2) (1 / 4) := by
  constructor
  · exact ⟨0, by simp [quarterSvd]; norm_num⟩
  · rintro _ ⟨i, rfl⟩
    fin_cases i <;> simp [quarterSvd] <;> norm_num

theorem quarterSvd_split : (1 : Matrix (Fin 2) (Fin 2) ℂ) * Matrix.diagonal (fun i => (quarterSvd.s i : ℂ)) * 1
    = ((Real.sqrt (1 / 4) : ℝ) : ℂ) • Matrix.diagonal ![1, 1 / 2] := by
  have h4 : Real.sqrt (1 / 4) = 1 / 2 := by
    rw [show (1 / 4 : ℝ) = (1 / 2) ^ 2 by norm_num, Real.sqrt_sq (by norm_num)]
  rw [h4, one_mul, mul_one, ← Matrix.diagonal_smul]
  congr 1
  funext i
  fin_cases i <;> simp [quarterSvd]
  norm_num

/-- Three quarters of the particles are lost before the network, whose other factor is `diag(1, 1 / 2)`; with one approximated
mode and an embedding as accurate as its argument. -/
example : ∃ o, bobsInitF R C quarterSvd 8 1 2 = .ok o ∧ |o.losses - 3 / 4| ≤ 3 / 2 ^ 53 ∧
    FloatBobs halfExpand { o with losses := max o.losses 0 } (Matrix.diagonal ![1, 1 / 2]) 34 166 := by
  obtain ⟨o, h1, h2, -, h4, h5⟩ := C120_object R C Φ quarterSvd_within (by decide) quarterSvd_greatest (by norm_num) (c := 4)
    (by norm_num) (by norm_num) quarterSvd_split 8 (by decide) 1 2
  have hk : o.k = 1 := by omega
  refine ⟨o, h1, by rw [abs_sub_comm]; convert h2 using 2; ring, (h5 halfExpand 166 ?_).1⟩
  rw [hk]
  exact halfExpands 166

/-- A network that cannot be treated. -/
example : extractLossesF R C ⟨1, ![1 / 2 ^ 28, 1 / 2 ^ 30], 1⟩ = .ok (1, none) :=
  C120_fails R C _ (by decide) (fun i => by fin_cases i <;> simp) fun i => by fin_cases i <;> simp; norm_num

end Verif
