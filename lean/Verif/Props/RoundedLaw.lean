import Verif.Props.Rounded

/-!
C87: how far rounding moves the law of the samples. `R : Rounding` is any way to round to nearest.
-/
namespace Verif

open Finset
open scoped ENNReal

variable (R : Rounding)

theorem selError_le (m : ℕ) (hm : m ≤ 2 ^ 51) : selError m ≤ (4 * m + 1) / 2 ^ 53 := by
  have h := rho_pow_le (k := 2 * m) (by omega)
  unfold selError
  push_cast at h
  have e : (4 * (m : ℝ) + 1) / 2 ^ 53 = 1 / 2 ^ 53 + 2 * (2 * m) / 2 ^ 53 := by ring
  rw [e]
  linarith

/-- C87 (one draw): the probability of an index differs from the exact one by at most `(8 m + 2) / 2 ^ 53`,
for `m` floats whose computed sum is at least `2 ^ -969`. -/
theorem C87_draw {pmf : List ℝ} (h : ∀ x ∈ pmf, IsFloat x ∧ 0 ≤ x) (hs : (2 : ℝ) ^ (-969 : ℤ) ≤ sumR R pmf)
    (hm : pmf.length ≤ 2 ^ 51) (i : ℕ) (hi : i < pmf.length) :
    |((randomR.bind fun u => Prog.done (.ok (gccSelect R u pmf))).prob (fun r => r = .ok i)).toReal
      - pmf.getD i 0 / pmf.sum| ≤ (8 * pmf.length + 2) / 2 ^ 53 := by
  classical
  rw [randomR_prob (fun u => gccSelect R u pmf) (fun r => r = .ok i), ENNReal.toReal_ofReal (div_nonneg (Nat.cast_nonneg _) (by norm_num))]
  have h1 := selLaw_close R h hs i hi
  have h2 := selError_le pmf.length hm
  unfold selLaw at h1
  have e : ((range (2 ^ 53)).filter fun k : ℕ => (.ok (gccSelect R ((k : ℝ) / 2 ^ 53) pmf) : Py ℕ) = .ok i)
      = (range (2 ^ 53)).filter fun k : ℕ => gccSelect R ((k : ℝ) / 2 ^ 53) pmf = i :=
    filter_congr fun k _ => by simp
  rw [e]
  refine h1.trans ?_
  have : (8 * (pmf.length : ℝ) + 2) / 2 ^ 53 = 2 * ((4 * pmf.length + 1) / 2 ^ 53) := by ring
  rw [this]
  linarith

/-- A concrete case: a pmf of two entries. -/
example : |((randomR.bind fun u => Prog.done (.ok (gccSelect R u [1, 2]))).prob (fun r => r = .ok 1)).toReal
      - ([1, 2] : List ℝ).getD 1 0 / ([1, 2] : List ℝ).sum| ≤ (8 * ([1, 2] : List ℝ).length + 2) / 2 ^ 53 := by
  have h2 : IsFloat 2 := ⟨2, 0, by norm_num, by norm_num, by norm_num⟩
  have h3 : IsFloat 3 := ⟨3, 0, by norm_num, by norm_num, by norm_num⟩
  refine C87_draw R ?_ ?_ (by simp) 1 (by simp)
  · intro x hx
    simp only [List.mem_cons, List.not_mem_nil, or_false] at hx
    rcases hx with rfl | rfl
    · exact ⟨isFloat_one, zero_le_one⟩
    · exact ⟨h2, zero_le_two⟩
  · simp only [sumR, List.foldl_cons, List.foldl_nil, zero_add, rnd_one]
    rw [show (1 : ℝ) + 2 = 3 by norm_num, R.eq_self h3]
    have : (2 : ℝ) ^ (-969 : ℤ) ≤ 1 := zpow_le_one_of_nonpos₀ (by norm_num) (by norm_num)
    linarith

/-- The error of one sample: `n` particles, `m` modes, `L` states below the input; the permanent
calculator has the relative error `c` and the absolute error `a`. -/
noncomputable def lawBound (S : List ℕ) (c a : ℝ) : ℝ :=
  let n : ℝ := S.sum
  let m : ℝ := S.length
  let L : ℝ := boxSize S
  n * (2 * (c - 1) + (8 * m ^ 2 + 32 * m + 10 * L + 30) / 2 ^ 53)
    + (∑ i ∈ range S.sum, m ^ i) * (4 * m * L * a + 1 / 2 ^ 200)

theorem sampleErr_le {S : List ℕ} {c a : ℝ} (hc : 1 ≤ c) (hc2 : c ≤ 5 / 4) (ha : 0 ≤ a)
    (hK : 6 * S.length + 6 + 2 * boxSize S ≤ 2 ^ 50) :
    pmfFactor S c ≤ 2 ∧ sampleErr S c a ≤ lawBound S c a := by
  set m : ℝ := (S.length : ℝ) with hm
  set L : ℝ := (boxSize S : ℝ) with hL
  have hm0 : 0 ≤ m := Nat.cast_nonneg _
  have hL0 : 0 ≤ L := Nat.cast_nonneg _
  have hKR : 6 * m + 6 + 2 * L ≤ 2 ^ 50 := by rw [hm, hL]; exact_mod_cast hK
  have hp := rho_pow_le (k := 6 * S.length + 6 + 2 * boxSize S) (hK.trans (by norm_num))
  push_cast at hp
  rw [← hm, ← hL] at hp
  set p := rho ^ (6 * S.length + 6 + 2 * boxSize S) with hpdef
  have hp1 : 1 ≤ p := one_le_rho_pow _
  have hp4 : p ≤ 5 / 4 := by
    have : 2 * (6 * m + 6 + 2 * L) / 2 ^ 53 ≤ 1 / 4 := by
      rw [div_le_iff₀ (by positivity)]; norm_num at hKR ⊢; linarith
    linarith
  have hC : pmfFactor S c = c * p := rfl
  have hC2 : pmfFactor S c ≤ 2 := by rw [hC]; nlinarith
  refine ⟨hC2, ?_⟩
  have hse := selError_le S.length (by omega)
  rw [← hm] at hse
  have hstep : stepErr S.length (pmfFactor S c) ≤ 2 * (c - 1) + (8 * m ^ 2 + 32 * m + 10 * L + 30) / 2 ^ 53 := by
    unfold stepErr
    rw [← hm, hC]
    have h1 : c * p - 1 ≤ (c - 1) + 5 / 4 * (2 * (6 * m + 6 + 2 * L) / 2 ^ 53) := by nlinarith
    have h2 : 2 * m * selError S.length ≤ 2 * m * ((4 * m + 1) / 2 ^ 53) :=
      mul_le_mul_of_nonneg_left hse (by positivity)
    have e : (8 * m ^ 2 + 32 * m + 10 * L + 30) / 2 ^ 53
        = 2 * (5 / 4 * (2 * (6 * m + 6 + 2 * L) / 2 ^ 53)) + 2 * m * ((4 * m + 1) / 2 ^ 53) := by ring
    rw [e]
    linarith
  have habs : absErr S.length (pmfFactor S c) (pmfAbs S a) ≤ 4 * m * L * a + 1 / 2 ^ 200 := by
    unfold absErr pmfAbs
    change 2 * (m * (pmfFactor S c * (L * (a + (m + 2) * tiny)))) + 2 ^ (-968 : ℤ) ≤ _
    have ht := tiny_pos
    have hts : tiny ≤ 1 / 2 ^ 250 * (1 / 2 ^ 160) := by
      unfold tiny
      have : (2 : ℝ) ^ (-1074 : ℤ) ≤ 2 ^ (-410 : ℤ) := zpow_le_zpow_right₀ (by norm_num) (by norm_num)
      refine this.trans (le_of_eq ?_)
      rw [show (-410 : ℤ) = -250 + -160 by norm_num, zpow_add₀ (by norm_num), zpow_neg, zpow_neg, one_div, one_div]
      norm_cast
    have h968 : (2 : ℝ) ^ (-968 : ℤ) ≤ 1 / 2 ^ 201 := by
      have : (2 : ℝ) ^ (-968 : ℤ) ≤ 2 ^ (-201 : ℤ) := zpow_le_zpow_right₀ (by norm_num) (by norm_num)
      refine this.trans (le_of_eq ?_)
      rw [zpow_neg, one_div]
      norm_cast
    have h0 : 0 ≤ L * (a + (m + 2) * tiny) := by positivity
    have h3 : 2 * (m * (pmfFactor S c * (L * (a + (m + 2) * tiny)))) ≤ 2 * (m * (2 * (L * (a + (m + 2) * tiny)))) := by
      gcongr
    have hmK : m ≤ 2 ^ 50 := by linarith
    have hLK : L ≤ 2 ^ 50 := by linarith
    have hm2 : m + 2 ≤ 2 ^ 51 := by linarith
    have h4 : 4 * (m * L * ((m + 2) * tiny)) ≤ 1 / 2 ^ 201 := by
      calc 4 * (m * L * ((m + 2) * tiny)) ≤ 4 * (2 ^ 50 * 2 ^ 50 * (2 ^ 51 * (1 / 2 ^ 250 * (1 / 2 ^ 160)))) := by gcongr
        _ ≤ 1 / 2 ^ 201 := by norm_num
    have e : 2 * (m * (2 * (L * (a + (m + 2) * tiny)))) = 4 * m * L * a + 4 * (m * L * ((m + 2) * tiny)) := by ring
    have e2 : (1 : ℝ) / 2 ^ 200 = 1 / 2 ^ 201 + 1 / 2 ^ 201 := by norm_num
    rw [e2]
    linarith
  unfold sampleErr lawBound
  simp only
  rw [← hm, ← hL]
  have hpc : ((pathCount S.length S.sum : ℕ) : ℝ) = ∑ i ∈ range S.sum, m ^ i := by
    unfold pathCount; push_cast; rfl
  rw [hpc]
  exact add_le_add (mul_le_mul_of_nonneg_left hstep (Nat.cast_nonneg _))
    (mul_le_mul_of_nonneg_left habs (sum_nonneg fun i _ => by positivity))

section

variable (gray : Nat → List Nat) (hgray : ∀ n, IsGrayCode n (gray n)) (t : Int)
include hgray

/-- C87 (version A and the mode-assignment version): for every set of lists of samples, rounding changes the
probability that `simulate` returns a list in the set by at most the bound per sample. -/
theorem C87_law {U : List (List ℂ)} {S : List ℕ} (h : Interferometer U S) (v : GccVariant)
    (hv : v = gccA ∨ v = gccAssignment) {sq : CalcCfg ℂ → Py ℝ} {c a : ℝ} (hsq : SqNear sq U S c a) (hc : 1 ≤ c)
    (hc2 : c ≤ 5 / 4) (ha : 0 ≤ a) (hn : S.sum ≤ 170) (hK : 6 * S.length + 6 + 2 * boxSize S ≤ 2 ^ 50) (fuel : ℕ)
    (hf : boxSize S ≤ fuel) (o o₂ : GccObj) (N : ℤ) (A : List (List ℕ) → Prop) :
    |((gccSimulateR R v sq U fuel o S N).prob (fun r => ∃ l o', r = .ok (l, o') ∧ A l)).toReal
      - ((gccSimulate v (factoryPermanent gray t fuel) U fuel o₂ S N).prob
          (fun r => ∃ l o', r = .ok (l, o') ∧ A l)).toReal|
      ≤ N.toNat * lawBound S c a := by
  classical
  have hp := factory_permOn gray hgray t U S h.square h.len.le h.ne fuel hf
  have hs := lt_of_lt_of_le (sum_lt_prod_succ S) hf
  obtain ⟨h2, hE⟩ := sampleErr_le hc hc2 ha hK
  obtain ⟨V⟩ : Nonempty (VariantOK v S) := by
    rcases hv with rfl | rfl
    · exact ⟨okA S⟩
    · exact ⟨okAssignment S h.ne⟩
  have hfg : ∀ l (o : GccObj), (if ∃ l' o', (.ok (l, o) : Py (List (List ℕ) × GccObj)) = .ok (l', o') ∧ A l' then
      (1 : ℝ≥0∞) else 0) = if A l then 1 else 0 := by
    intro l o
    by_cases hA : A l
    · rw [if_pos hA, if_pos ⟨l, o, rfl, hA⟩]
    · rw [if_neg hA, if_neg]
      rintro ⟨l', o', e, h'⟩
      injection e with e
      injection e with e1 e2
      exact hA (e1 ▸ h')
  have h1 := gccSimulateR_close R V hsq hc ha (hn.trans (by norm_num)) h2 h.used fuel hs N
    (fun l => if A l then 1 else 0) (fun l => by split <;> simp)
    (fun r => if ∃ l o', r = .ok (l, o') ∧ A l then 1 else 0) (fun r => by split <;> simp) hfg o
  have h3 := simulate_wp V hp h.used fuel hs N (fun l => if A l then 1 else 0)
    (fun r => if ∃ l o', r = .ok (l, o') ∧ A l then 1 else 0) hfg o₂
  rw [← h3] at h1
  unfold Prog.prob
  have h4 : (N.toNat : ℝ) * sampleErr S c a ≤ N.toNat * lawBound S c a :=
    mul_le_mul_of_nonneg_left hE (Nat.cast_nonneg _)
  refine le_trans (le_of_eq ?_) (h1.trans h4)
  congr

end

/-- C87: the probability that rounding makes `simulate` raise is at most the bound per sample. -/
theorem C87_raises {U : List (List ℂ)} {S : List ℕ} (h : Interferometer U S) (v : GccVariant)
    (hv : v = gccA ∨ v = gccAssignment) {sq : CalcCfg ℂ → Py ℝ} {c a : ℝ} (hsq : SqNear sq U S c a) (hc : 1 ≤ c)
    (hc2 : c ≤ 5 / 4) (ha : 0 ≤ a) (hn : S.sum ≤ 170) (hK : 6 * S.length + 6 + 2 * boxSize S ≤ 2 ^ 50) (fuel : ℕ)
    (hf : boxSize S ≤ fuel) (o : GccObj) (N : ℤ) :
    ((gccSimulateR R v sq U fuel o S N).prob (fun r => ∃ e, r = .error e)).toReal ≤ N.toNat * lawBound S c a := by
  classical
  have hs := lt_of_lt_of_le (sum_lt_prod_succ S) hf
  obtain ⟨h2, hE⟩ := sampleErr_le hc hc2 ha hK
  obtain ⟨V⟩ : Nonempty (VariantOK v S) := by
    rcases hv with rfl | rfl
    · exact ⟨okA S⟩
    · exact ⟨okAssignment S h.ne⟩
  have h1 := gccSimulateR_close R V hsq hc ha (hn.trans (by norm_num)) h2 h.used fuel hs N
    (fun l => 0) (fun l => by simp)
    (fun r => if ∃ e, r = .error e then 1 else 0) (fun r => by split <;> simp) (fun l o => by simp) o
  have h0 : expIid (statesFin S.length S.sum) (fun T => ENNReal.ofReal (bosonProb U S T)) N.toNat (fun _ => 0) = 0 := by
    generalize N.toNat = n
    induction n with
    | zero => rfl
    | succ n ih => rw [expIid]; simp [ih]
  rw [h0, ENNReal.toReal_zero, sub_zero, abs_of_nonneg ENNReal.toReal_nonneg] at h1
  have h4 : (N.toNat : ℝ) * sampleErr S c a ≤ N.toNat * lawBound S c a :=
    mul_le_mul_of_nonneg_left hE (Nat.cast_nonneg _)
  unfold Prog.prob
  refine le_trans (le_of_eq ?_) (h1.trans h4)
  congr

/-- C87 (one sample): the probability of an output differs from the boson-sampling probability by at most the
bound. -/
theorem C87_sample {U : List (List ℂ)} {S : List ℕ} (h : Interferometer U S) (v : GccVariant)
    (hv : v = gccA ∨ v = gccAssignment) {sq : CalcCfg ℂ → Py ℝ} {c a : ℝ} (hsq : SqNear sq U S c a) (hc : 1 ≤ c)
    (hc2 : c ≤ 5 / 4) (ha : 0 ≤ a) (hn : S.sum ≤ 170) (hK : 6 * S.length + 6 + 2 * boxSize S ≤ 2 ^ 50) (fuel : ℕ)
    (hf : boxSize S ≤ fuel) (o : GccObj) (T : List ℕ) (hT : T.length = S.length) (hTs : T.sum = S.sum) :
    |((gccSimulateR R v sq U fuel o S 1).prob (fun r => ∃ o', r = .ok ([T], o'))).toReal - bosonProb U S T|
      ≤ lawBound S c a := by
  classical
  have hs := lt_of_lt_of_le (sum_lt_prod_succ S) hf
  obtain ⟨h2, hE⟩ := sampleErr_le hc hc2 ha hK
  obtain ⟨V⟩ : Nonempty (VariantOK v S) := by
    rcases hv with rfl | rfl
    · exact ⟨okA S⟩
    · exact ⟨okAssignment S h.ne⟩
  have h1 := gccSimulateR_close R V hsq hc ha (hn.trans (by norm_num)) h2 h.used fuel hs 1
    (fun l => if l = [T] then 1 else 0) (fun l => by split <;> simp)
    (fun r => if ∃ o', r = .ok ([T], o') then 1 else 0) (fun r => by split <;> simp)
    (fun l o => by
      by_cases e : l = [T]
      · subst e; simp
      · rw [if_neg e, if_neg]
        rintro ⟨o', h'⟩
        injection h' with h'
        injection h' with h' _
        exact e h') o
  have h0 : expIid (statesFin S.length S.sum) (fun T => ENNReal.ofReal (bosonProb U S T)) (1 : ℤ).toNat
      (fun l => if l = [T] then 1 else 0) = ENNReal.ofReal (bosonProb U S T) := by
    change ∑ T' ∈ statesFin S.length S.sum, ENNReal.ofReal (bosonProb U S T') * (if [T'] = [T] then 1 else 0) = _
    rw [sum_eq_single T]
    · simp
    · intro b _ hb
      rw [if_neg (by simpa using hb), mul_zero]
    · intro hcon
      exact absurd ((mem_statesFin _ _ T).mpr ⟨hT, hTs⟩) hcon
  rw [h0, ENNReal.toReal_ofReal (bosonProb_nonneg _ _ _)] at h1
  unfold Prog.prob
  have e1 : (((1 : ℤ).toNat : ℕ) : ℝ) = 1 := by norm_num
  rw [e1, one_mul] at h1
  refine le_trans (le_of_eq ?_) (h1.trans hE)
  congr

/-- A calculator that rounds the exact value correctly meets the hypothesis with `c = 1 + 1 / (2 ^ 53 - 1)`
and `a = 2 ^ -1074`. -/
theorem sqNear_rounded (U : List (List ℂ)) (S : List ℕ) :
    SqNear (fun c => .ok (R.rnd (Complex.normSq (scatteringPermanent c.matrix c.input c.output)))) U S rho tiny :=
  fun _ _ _ _ _ => ⟨_, rfl, R.nonneg (Complex.normSq_nonneg _), R.near (Complex.normSq_nonneg _)⟩

/-- A concrete case: two particles through a rotation come out one in each mode with probability `49 / 625`,
up to `2 ^ -40`, if the values of the calculator are rounded correctly. -/
example (o : GccObj) :
    |((gccSimulateR R gccA (fun c => .ok (R.rnd (Complex.normSq (scatteringPermanent c.matrix c.input c.output))))
      [[3 / 5, 4 / 5], [4 / 5, -3 / 5]] 4 o [1, 1] 1).prob (fun r => ∃ o', r = .ok ([[1, 1]], o'))).toReal - 49 / 625|
      ≤ 1 / 2 ^ 40 := by
  have h := C87_sample R (rotation_interferometer [1, 1] rfl) gccA (.inl rfl) (sqNear_rounded R _ [1, 1])
    one_lt_rho.le (by unfold rho; norm_num) tiny_pos.le (by decide) (by decide) 4 (by decide) o [1, 1] rfl rfl
  rw [rotation_prob] at h
  refine h.trans ?_
  have ht : tiny ≤ 1 / 2 ^ 60 := by
    unfold tiny
    refine (zpow_le_zpow_right₀ (n := -60) (by norm_num) (by norm_num)).trans (le_of_eq ?_)
    rw [zpow_neg, one_div]
    norm_cast
  unfold lawBound boxSize rho
  simp [sum_range_succ]
  norm_num at ht ⊢
  linarith

end Verif
