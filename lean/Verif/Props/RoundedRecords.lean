import Verif.Props.RoundedCliffordsU
import Verif.Props.RoundedDistributions
import Verif.Proofs.RoundedRecords

/-!
C98: the distributions the sampler with uniform losses computes up to an accuracy, in floating-point arithmetic.
-/
namespace Verif

open Finset

variable (R : Rounding) (A : ComplexArith)

/-- The number of operations of floats whose relative errors can add up in one recorded value without its weight. -/
def recordOps (S : List ℕ) : ℕ := 8 * S.length + 8 + 2 * boxSize S

/-- The error of a recorded value that does not scale with it: that of the squared permanents, times the factorial that
the value is multiplied by, and what underflow can lose. -/
noncomputable def recordErr (t : ℤ) (e : ℕ) (S : List ℕ) : ℝ :=
  boxSize S * (squareErr t e S + (S.length + 2) * 2 ^ (-1074 : ℤ)) * S.sum.factorial + (S.length + 1) * 2 ^ (-1074 : ℤ)

theorem recordErr_nonneg (t : ℤ) (e : ℕ) (S : List ℕ) : 0 ≤ recordErr t e S := by
  have := squareErr_nonneg t e S
  unfold recordErr
  positivity

theorem gccuRepeatR_matrix (sq : CalcCfg ℂ → Py ℝ) {U' U : List (List ℂ)} (h : U'.length = U.length)
    (cond : GccuObj → Bool) (fuel : ℕ) (o : GccuObj) :
    Prog.loop fuel cond (gccuFillR R sq U') o = Prog.loop fuel cond (gccuFillR R (fun c => sq { c with matrix := U' }) U) o := by
  have : gccuFillR R sq U' = gccuFillR R (fun c => sq { c with matrix := U' }) U := by
    funext o; exact gccuFillR_matrix R sq h o
  rw [this]

/-- The error of a rounded product with a binomial weight. -/
theorem weighted_close (n K : ℕ) {eta b x p : ℝ} (h0 : 0 ≤ eta) (h1 : eta ≤ 1) (hf : IsFloat eta) (hn : n ≤ 1000)
    (hK : K + n + 6 ≤ 2 ^ 52) {l : ℕ} (hl : l ≤ n) (hb : 0 ≤ b) (hx : 0 ≤ x) (hp0 : 0 ≤ p) (hp1 : p ≤ 1)
    (h : Near (rho ^ K) b x p) :
    0 ≤ R.rnd (x * binomWeightR R n eta l) ∧
      |R.rnd (x * binomWeightR R n eta l) - binomialWeight n l eta * p|
        ≤ (K + n + 6) / 2 ^ 52 * (binomialWeight n l eta * p) + (3 * b + 2 ^ ((n : ℤ) + 7 - 1074)) := by
  have ht := tiny_pos
  have hK' : ((K + n + 6 : ℕ) : ℝ) ≤ 2 ^ 52 := by exact_mod_cast hK
  rw [Nat.cast_add, Nat.cast_add] at hK'
  have a2 := rho_pow_le hK
  rw [Nat.cast_add, Nat.cast_add] at a2
  have a3 : ((K : ℝ) + n + 6) / 2 ^ 52 ≤ 1 := (div_le_one (by positivity)).mpr hK'
  have a4 : 2 * ((K : ℝ) + n + 6) / 2 ^ 53 = (K + n + 6) / 2 ^ 52 := by ring
  have r1 : rho ^ (K + n + 6) - 1 ≤ (K + n + 6) / 2 ^ 52 := by
    have := a2
    push_cast at this
    linarith
  have r2 : rho ^ (K + n + 6) ≤ 2 := by linarith
  have hw0 := binomialWeight_nonneg n l h0 h1
  have hw1 : binomialWeight n l eta ≤ 1 := by
    have hbs := binom_list_sum n eta
    rw [list_sum_range] at hbs
    rw [← hbs]
    exact single_le_sum (f := fun l => (n.choose l : ℝ) * eta ^ l * (1 - eta) ^ (n - l)) (s := range (n + 1))
      (fun l _ => binomialWeight_nonneg n l h0 h1) (mem_range.mpr (by omega))
  have hwR0 : 0 ≤ binomWeightR R n eta l := R.nonneg (mul_nonneg (R.nonneg (mul_nonneg
    (R.nonneg (Nat.cast_nonneg _)) (R.nonneg (by positivity)))) (R.nonneg (pow_nonneg (R.nonneg (by linarith)) _)))
  have he0 : 0 ≤ tiny * 2 ^ (n + 5) := by positivity
  have het : tiny * 2 ^ (n + 5) = 2 ^ ((n : ℤ) + 5 - 1074) := by
    unfold tiny
    rw [← zpow_natCast, ← zpow_add₀ (by norm_num)]
    exact congrArg (fun n : ℤ => (2 : ℝ) ^ n) (by rw [Nat.cast_add]; ring)
  have he4 : (2 : ℝ) ^ ((n : ℤ) + 7 - 1074) = 4 * (tiny * 2 ^ (n + 5)) := by
    rw [het, show ((n : ℤ) + 7 - 1074) = 2 + (n + 5 - 1074) by ring, zpow_add₀ (by norm_num)]
    norm_num
  have heb : tiny * 2 ^ (n + 5) ≤ 1 / 2 := by
    rw [het]
    refine (zpow_le_zpow_right₀ (by norm_num) (show (n : ℤ) + 5 - 1074 ≤ -1 by omega)).trans ?_
    norm_num
  have het1 : tiny ≤ tiny * 2 ^ (n + 5) := le_mul_of_one_le_right ht.le (one_le_pow₀ (by norm_num))
  refine ⟨R.nonneg (mul_nonneg hx hwR0), ?_⟩
  have hd := h.mul_rnd R (binomWeightR_near R n h0 h1 hf l hl) (one_le_rho_pow _) (one_le_rho_pow _) hb he0 hx hp0 hwR0
    hw0 hp1 hw1
  have hpow : rho ^ K * rho ^ (n + 5) * rho = rho ^ (K + n + 6) := by ring
  rw [hpow] at hd
  rw [mul_comm (binomialWeight n l eta)]
  refine hd.trans ?_
  rw [he4]
  generalize tiny * 2 ^ (n + 5) = e at he0 heb het1 ⊢
  have hbe : b * e ≤ b * (1 / 2) := mul_le_mul_of_nonneg_left heb hb
  have hsum : 0 ≤ b + e + b * e + tiny := by positivity
  refine add_le_add (mul_le_mul_of_nonneg_right r1 (mul_nonneg hp0 hw0)) ?_
  calc _ ≤ 2 * (b + e + b * e + tiny) := mul_le_mul_of_nonneg_right r2 hsum
    _ ≤ _ := by linarith

/-- The error of a binomial weight. -/
theorem weight_close (n K : ℕ) {eta b : ℝ} (h0 : 0 ≤ eta) (h1 : eta ≤ 1) (hf : IsFloat eta) 
    (hK : K + n + 6 ≤ 2 ^ 52) {l : ℕ} (hl : l ≤ n) (hb : 0 ≤ b) :
    0 ≤ binomWeightR R n eta l ∧ |binomWeightR R n eta l - binomialWeight n l eta|
        ≤ (K + n + 6) / 2 ^ 52 * binomialWeight n l eta + (3 * b + 2 ^ ((n : ℤ) + 7 - 1074)) := by
  have ht := tiny_pos
  have hK' : ((n + 5 : ℕ) : ℝ) ≤ 2 ^ 52 := by exact_mod_cast (by omega : n + 5 ≤ 2 ^ 52)
  have a2 := rho_pow_le (k := n + 5) (by omega)
  have a3 : ((n + 5 : ℕ) : ℝ) / 2 ^ 52 ≤ 1 := (div_le_one (by positivity)).mpr hK'
  have a4 : 2 * ((n + 5 : ℕ) : ℝ) / 2 ^ 53 = (n + 5 : ℕ) / 2 ^ 52 := by ring
  have r2 : rho ^ (n + 5) ≤ 2 := by linarith
  have r1 : rho ^ (n + 5) - 1 ≤ (K + n + 6) / 2 ^ 52 := by
    have : ((n + 5 : ℕ) : ℝ) / 2 ^ 52 ≤ (K + n + 6) / 2 ^ 52 := by
      gcongr
      rw [Nat.cast_add]
      have : (0 : ℝ) ≤ K := Nat.cast_nonneg _
      push_cast
      linarith
    linarith
  have hw0 := binomialWeight_nonneg n l h0 h1
  have hwR0 : 0 ≤ binomWeightR R n eta l := R.nonneg (mul_nonneg (R.nonneg (mul_nonneg
    (R.nonneg (Nat.cast_nonneg _)) (R.nonneg (by positivity)))) (R.nonneg (pow_nonneg (R.nonneg (by linarith)) _)))
  have he0 : 0 ≤ tiny * 2 ^ (n + 5) := by positivity
  have het : tiny * 2 ^ (n + 5) = 2 ^ ((n : ℤ) + 5 - 1074) := by
    unfold tiny
    rw [← zpow_natCast, ← zpow_add₀ (by norm_num)]
    exact congrArg (fun n : ℤ => (2 : ℝ) ^ n) (by rw [Nat.cast_add]; ring)
  have he4 : (2 : ℝ) ^ ((n : ℤ) + 7 - 1074) = 4 * (tiny * 2 ^ (n + 5)) := by
    rw [het, show ((n : ℤ) + 7 - 1074) = 2 + (n + 5 - 1074) by ring, zpow_add₀ (by norm_num)]
    norm_num
  refine ⟨hwR0, ((binomWeightR_near R n h0 h1 hf l hl).close (one_le_rho_pow _) hw0 he0).trans ?_⟩
  refine add_le_add (mul_le_mul_of_nonneg_right r1 hw0) ?_
  rw [he4]
  have : rho ^ (n + 5) * (tiny * 2 ^ (n + 5)) ≤ 2 * (tiny * 2 ^ (n + 5)) := mul_le_mul_of_nonneg_right r2 he0
  linarith

/-- A recorded value with its weight is close to the probability. -/
def WeightedNear (U : List (List ℂ)) (S : List ℕ) (eta : ℝ) (t : ℤ) (e : ℕ) (T : List ℕ) (x : ℝ) : Prop :=
  0 ≤ x ∧ |x - binomialWeight S.sum T.sum eta * fixedLossProb U S T.sum T|
    ≤ (recordOps S + S.sum + 6) / 2 ^ 52 * (binomialWeight S.sum T.sum eta * fixedLossProb U S T.sum T)
      + (3 * recordErr t e S + 2 ^ ((S.sum : ℤ) + 7 - 1074))

/-- A recorded value without its weight is close to the probability. -/
def UnweightedNear (U : List (List ℂ)) (S : List ℕ) (t : ℤ) (e : ℕ) (T : List ℕ) (x : ℝ) : Prop :=
  0 ≤ x ∧ |x - fixedLossProb U S T.sum T| ≤ recordOps S / 2 ^ 52 * fixedLossProb U S T.sum T + 2 * recordErr t e S

theorem records_close {t : ℤ} {e : ℕ} {U : List (List ℂ)} {S : List ℕ} (h : Interferometer U S) {sq : CalcCfg ℂ → Py ℝ}
    (hsq : SqNear sq U S 1 (squareErr t e S)) (hn : S.sum ≤ 170) (hK : recordOps S + S.sum + 6 ≤ 2 ^ 50)
    {eta : ℝ} (h0 : 0 ≤ eta) (h1 : eta ≤ 1) (hfl : IsFloat eta) :
    RecordsOK R S sq U (WeightedNear U S eta t e) (UnweightedNear U S t e) (gccuWeightsR R S.sum eta) := by
  intro r hr hs P hP j hj
  have ht := tiny_pos
  have hK' : 6 * S.length + 6 + 2 * boxSize S ≤ 2 ^ 50 := by unfold recordOps at hK; omega
  have ha := squareErr_nonneg t e S
  obtain ⟨hp2, -⟩ := sampleErr_le (c := 1) le_rfl (by norm_num) ha hK'
  have hseq : (particles r).length = r.sum := particlesFrom_length _ _
  have hns : (particles (r.modify j (· + 1))).Perm (j :: particles r) := modify_particles r j (by omega)
  have hTs := modify_sum r j (by omega)
  have hTl : (r.modify j (· + 1)).length = S.length := by simpa using hr
  obtain ⟨P', hP1, hP2, hP3, hP4⟩ := layerPmfR_near R (okA S) hsq le_rfl ha (hn.trans (by norm_num)) hp2 r hr
    (by change (particles r).length < _; omega)
  rw [hP1] at hP
  injection hP with hP
  subst hP
  have hnear := hP4 j hj
  change Near _ _ _ (seqProb (colOf U) S ((particles r).length + 1) (j :: particles r)) at hnear
  rw [hseq, ← seqProb_perm _ _ _ hns, ← hTs] at hnear
  rw [← hTs]
  generalize r.modify j (· + 1) = T at hTl hTs hnear ⊢
  have hp0 : 0 ≤ P'.getD j 0 := by
    rw [getD_of_lt _ _ (by omega)]
    exact (hP3 _ (List.getElem_mem _)).2
  generalize P'.getD j 0 = p at hp0 hnear ⊢
  have hB := pmfAbs_nonneg S ha
  obtain ⟨n1, n2⟩ := recordValueR_near R U S T (one_le_pmfFactor S le_rfl) hB hp0 hnear
  have hTn : T.sum ≤ S.sum := by omega
  have hfp := fixedLossProb_nonneg U S T.sum T
  have n3 : Near (rho ^ recordOps S) (recordErr t e S) (recordValueR R T p) (fixedLossProb U S T.sum T) := by
    refine n1.mono ?_ n2 hfp (by positivity) ?_ ?_
    · exact mul_nonneg (by linarith [one_le_pmfFactor S (le_refl (1 : ℝ))]) (pow_nonneg rho_nonneg _)
    · have e1 : pmfFactor S 1 * rho ^ (2 * T.length + 2) = rho ^ recordOps S := by
        unfold pmfFactor recordOps
        rw [one_mul, ← pow_add, hTl]
        congr 1
        unfold boxSize
        omega
      exact e1.le
    · rw [hTl]
      have hfac : (T.sum.factorial : ℝ) ≤ S.sum.factorial := by exact_mod_cast Nat.factorial_le hTn
      exact add_le_add (mul_le_mul_of_nonneg_left hfac hB) le_rfl
  have hK52 : recordOps S + S.sum + 6 ≤ 2 ^ 52 := hK.trans (by norm_num)
  constructor
  · rw [gccuWeightsR_get R S.sum eta hTn]
    exact weighted_close R S.sum (recordOps S) h0 h1 hfl (hn.trans (by norm_num)) hK52 hTn (recordErr_nonneg t e S)
      n2 hfp (fixedLossProb_le_one h hTl hTn) n3
  · refine ⟨n2, (n3.close (one_le_rho_pow _) hfp (recordErr_nonneg t e S)).trans ?_⟩
    have hr := rho_pow_le (k := recordOps S) (by omega)
    have hKR : ((recordOps S : ℕ) : ℝ) ≤ 2 ^ 52 := by exact_mod_cast (by omega : recordOps S ≤ 2 ^ 52)
    have h5 : rho ^ recordOps S - 1 ≤ recordOps S / 2 ^ 52 := hr.trans (le_of_eq (by ring))
    have h6 : rho ^ recordOps S ≤ 2 := by
      have : (recordOps S : ℝ) / 2 ^ 52 ≤ 1 := (div_le_one (by positivity)).mpr hKR
      linarith
    exact add_le_add (mul_le_mul_of_nonneg_right h5 hfp) (mul_le_mul_of_nonneg_right h6 (recordErr_nonneg t e S))

theorem accurateR_sum {accuracy s : ℝ} (h : accurateR R accuracy s) : accuracy - (1e-8 + 1 / 2 ^ 78) ≤ s := by
  unfold accurateR IsCloseToZero at h
  rw [abs_of_nonneg (le_max_right _ _)] at h
  have h1 := (le_max_left _ _).trans h
  by_contra hcon
  push Not at hcon
  have hx : (1e-8 : ℝ) + 1 / 2 ^ 78 < accuracy - s := by linarith
  have h2 := (R.within (x := accuracy - s) (.inr (by
    have : (2 : ℝ) ^ (-1022 : ℤ) ≤ 2 ^ (-78 : ℤ) := zpow_le_zpow_right₀ (by norm_num) (by norm_num)
    have h3 : (2 : ℝ) ^ (-78 : ℤ) ≤ 1e-8 + 1 / 2 ^ 78 := by norm_num
    exact this.trans (h3.trans hx.le)))).2
  have h4 : rho * R.rnd (accuracy - s) ≤ rho * 1e-8 := mul_le_mul_of_nonneg_left h1 rho_nonneg
  have h5 : rho * 1e-8 ≤ 1e-8 + 1 / 2 ^ 78 := by unfold rho; norm_num
  linarith

section

variable (gray : ℕ → List ℕ) (hgray : ∀ n, IsGrayCode n (gray n)) (t : ℤ)
  {e : ℕ} {U' U : List (List ℂ)} {S : List ℕ} (h : Interferometer U S)
  (hsq : ∀ r ∈ U', r.length = U'.length) (hlen : U'.length = U.length) (hU : StoredAs e U' U) (hn : S.sum ≤ 170)
  (hK : recordOps S + S.sum + 6 ≤ 2 ^ 50)
include hgray h hsq hlen hU hn hK

/-- C98: whatever the draws, if `compute_distribution_up_to_accuracy` returns, the `i`-th entry of the list is the
placeholder (`0`, or `-1` if missing values are marked) or close to the exact uniform-loss probability, for the exact
matrix, of the `i`-th state of `generate_possible_states(n, m, losses=True)`. The sum of the entries as Python computes
it reaches the accuracy asked for, up to the tolerance of `isclose`. -/
theorem C98_distribution (o : GccuObj) (h0 : 0 ≤ o.eta) (h1 : o.eta ≤ 1) (hfl : IsFloat o.eta) (accuracy : ℝ) :
    ∃ states F, ∀ fuel ≥ F,
      generatePossibleStates fuel S.sum S.length true = .ok states ∧
      ∀ dist o', (gccuDistributionR R (squaredPermanentR R A gray t fuel) U' fuel o S accuracy).Runs (.ok (dist, o')) →
        accuracy - (1e-8 + 1 / 2 ^ 78) ≤ sumR R dist ∧ dist.length = states.length ∧ ∀ i, (h : i < states.length) →
          dist.getD i 0 = (if o.missing then -1 else 0) ∨
          (0 ≤ dist.getD i 0 ∧
            |dist.getD i 0 - binomialWeight S.sum (states[i]).sum o.eta * fixedLossProb U S (states[i]).sum states[i]|
              ≤ (recordOps S + S.sum + 6) / 2 ^ 52
                  * (binomialWeight S.sum (states[i]).sum o.eta * fixedLossProb U S (states[i]).sum states[i])
                + (3 * recordErr t e S + 2 ^ ((S.sum : ℤ) + 7 - 1074))) := by
  classical
  obtain ⟨m, hm⟩ : ∃ m, S.length = m + 1 := ⟨S.length - 1, by have := List.length_pos_of_ne_nil h.ne; omega⟩
  refine ⟨allStates m S.sum true, genFuel m S.sum + boxSize S, fun fuel hfuel => ⟨?_, ?_⟩⟩
  · rw [hm]; exact generatePossibleStates_ok fuel S.sum m true (by omega)
  · intro dist o' hr
    have hp := sqNear_calculators R A gray hgray t h hsq hlen hU (hn.trans (by norm_num)) fuel (by omega)
    have hrec := records_close R h hp hn hK h0 h1 hfl
    have hK' : 6 * S.length + 6 + 2 * boxSize S ≤ 2 ^ 50 := by unfold recordOps at hK; omega
    have ha := squareErr_nonneg t e S
    obtain ⟨hp2, -⟩ := sampleErr_le (c := 1) le_rfl (by norm_num) ha hK'
    obtain ⟨o1, e1, e2⟩ := gccuInitializeR_ok R S _ U (WeightedNear U S o.eta t e) (UnweightedNear U S t e) m hm fuel
      (by omega) o (by
        rw [gccuWeightsR_get R S.sum o.eta (Nat.zero_le _)]
        have hz : (List.replicate (m + 1) 0 : List ℕ).sum = 0 := by simp
        unfold WeightedNear
        rw [hz, fixedLoss_vacuum U S _ hz, mul_one]
        exact weight_close R S.sum (recordOps S) h0 h1 hfl (hK.trans (by norm_num)) (Nat.zero_le _) (recordErr_nonneg t e S))
    unfold gccuDistributionR at hr
    rw [e1] at hr
    simp only [Prog.lift_def, Prog.bind_eq, Prog.done_ok_bind] at hr
    rw [gccuRepeatR_matrix R _ hlen] at hr
    have := Prog.all_bind (gccuRepeatR_all R hp le_rfl ha (hn.trans (by norm_num)) hp2 hrec (by simp [gccuWeightsR])
      h.len.symm (fun o => decide (¬ accurateR R accuracy (sumR R o.dist))) fuel o1 e2) (J := fun x =>
      accuracy - (1e-8 + 1 / 2 ^ 78) ≤ sumR R x.1 ∧ x.1.length = (allStates m S.sum true).length ∧
        ∀ i, (h : i < (allStates m S.sum true).length) →
          x.1.getD i 0 = (if o.missing then -1 else 0) ∨ WeightedNear U S o.eta t e (allStates m S.sum true)[i] (x.1.getD i 0))
      (fun o2 h2 => Prog.all_done_ok (a := (o2.dist, o2)) ⟨accurateR_sum R (by simpa using h2.2), h2.1.dist.len1,
        h2.1.dist.val1⟩) _ hr
    rcases this with ⟨a, h1, h2⟩ | ⟨e, h1, -⟩
    · cases h1; exact h2
    · cases h1

/-- C98 for `compute_unweighted_distribution_up_to_accuracy`: the entries are placeholders or close to the fixed-loss
probabilities. -/
theorem C98_unweighted (o : GccuObj) (h0 : 0 ≤ o.eta) (h1 : o.eta ≤ 1) (hfl : IsFloat o.eta) (accuracy : ℝ) :
    ∃ states F, ∀ fuel ≥ F,
      generatePossibleStates fuel S.sum S.length true = .ok states ∧
      ∀ dist o', (gccuUnweightedR R (squaredPermanentR R A gray t fuel) U' fuel o S accuracy).Runs (.ok (dist, o')) →
        accuracy - (1e-8 + 1 / 2 ^ 78) ≤ R.rnd (sumR R dist / S.sum) ∧
        dist.length = states.length ∧ ∀ i, (h : i < states.length) →
          dist.getD i 0 = (if o.missing then -1 else 0) ∨
          (0 ≤ dist.getD i 0 ∧ |dist.getD i 0 - fixedLossProb U S (states[i]).sum states[i]|
            ≤ recordOps S / 2 ^ 52 * fixedLossProb U S (states[i]).sum states[i] + 2 * recordErr t e S) := by
  classical
  obtain ⟨m, hm⟩ : ∃ m, S.length = m + 1 := ⟨S.length - 1, by have := List.length_pos_of_ne_nil h.ne; omega⟩
  refine ⟨allStates m S.sum true, genFuel m S.sum + boxSize S, fun fuel hfuel => ⟨?_, ?_⟩⟩
  · rw [hm]; exact generatePossibleStates_ok fuel S.sum m true (by omega)
  · intro dist o' hr
    have hp := sqNear_calculators R A gray hgray t h hsq hlen hU (hn.trans (by norm_num)) fuel (by omega)
    have hrec := records_close R h hp hn hK h0 h1 hfl
    have hK' : 6 * S.length + 6 + 2 * boxSize S ≤ 2 ^ 50 := by unfold recordOps at hK; omega
    have ha := squareErr_nonneg t e S
    obtain ⟨hp2, -⟩ := sampleErr_le (c := 1) le_rfl (by norm_num) ha hK'
    obtain ⟨o1, e1, e2⟩ := gccuInitializeR_ok R S _ U (WeightedNear U S o.eta t e) (UnweightedNear U S t e) m hm fuel
      (by omega) o (by
        rw [gccuWeightsR_get R S.sum o.eta (Nat.zero_le _)]
        have hz : (List.replicate (m + 1) 0 : List ℕ).sum = 0 := by simp
        unfold WeightedNear
        rw [hz, fixedLoss_vacuum U S _ hz, mul_one]
        exact weight_close R S.sum (recordOps S) h0 h1 hfl (hK.trans (by norm_num)) (Nat.zero_le _) (recordErr_nonneg t e S))
    unfold gccuUnweightedR at hr
    rw [e1] at hr
    by_cases hz : S.sum = 0
    · rw [if_pos hz] at hr
      cases hr
    · rw [if_neg hz] at hr
      simp only [Prog.lift_def, Prog.bind_eq, Prog.done_ok_bind, Prog.pure_eq, pure_eq_ok] at hr
      rw [gccuRepeatR_matrix R _ hlen] at hr
      have := Prog.all_bind (gccuRepeatR_all R hp le_rfl ha (hn.trans (by norm_num)) hp2 hrec (by simp [gccuWeightsR])
        h.len.symm (fun o => decide (¬ accurateR R accuracy (R.rnd (sumR R o.udist / (S.sum : ℝ))))) fuel o1 e2) (J := fun x =>
        accuracy - (1e-8 + 1 / 2 ^ 78) ≤ R.rnd (sumR R x.1 / S.sum) ∧ x.1.length = (allStates m S.sum true).length ∧
          ∀ i, (h : i < (allStates m S.sum true).length) →
            x.1.getD i 0 = (if o.missing then -1 else 0) ∨ UnweightedNear U S t e (allStates m S.sum true)[i] (x.1.getD i 0))
        (fun o2 h2 => Prog.all_done_ok (a := (o2.udist, o2)) ⟨accurateR_sum R (by simpa using h2.2), h2.1.dist.len2,
          h2.1.dist.val2⟩) _ hr
      rcases this with ⟨a, h1, h2⟩ | ⟨e, h1, -⟩
      · cases h1; exact h2
      · cases h1

end

/-! ### A concrete case -/

/-- Two particles through a rotation whose entries are rounded to floats; each is kept with probability `0.27`: the
fifth entry is that of the state `[1, 1]`, and if it is not the placeholder it is within `2 ^ -27` of the probability
`0.27 ^ 2 * 49 / 625`. -/
example (t : ℤ) (accuracy : ℝ) : ∃ F, ∀ fuel ≥ F, ∀ dist o',
    (gccuDistributionR R (squaredPermanentR R (textbookArith R) reflectedGray t fuel)
      (([[3 / 5, 4 / 5], [4 / 5, -3 / 5]] : List (List ℂ)).map fun r => r.map R.rndC) fuel (gccuInit eta27 false) [1, 1]
      accuracy).Runs (.ok (dist, o')) →
    dist.length = 6 ∧ (dist.getD 4 0 = 0 ∨ |dist.getD 4 0 - eta27 ^ 2 * (49 / 625)| ≤ 1 / 2 ^ 27) := by
  have hsq : ∀ r ∈ ([[3 / 5, 4 / 5], [4 / 5, -3 / 5]] : List (List ℂ)).map (fun r => r.map R.rndC),
      r.length = (([[3 / 5, 4 / 5], [4 / 5, -3 / 5]] : List (List ℂ)).map fun r => r.map R.rndC).length := by
    simp
  have e : fixedLossProb [[3 / 5, 4 / 5], [4 / 5, -3 / 5]] [1, 1] 2 [1, 1] = 49 / 625 := by
    rw [← rotation_prob]; exact fixedLossProb_full _ [1, 1] [1, 1]
  have hall : allStates 1 2 true = [[0, 0], [1, 0], [0, 1], [2, 0], [1, 1], [0, 2]] := by decide
  obtain ⟨states, F, hF⟩ := C98_distribution R (textbookArith R) reflectedGray reflectedGray_isGrayCode t
    (rotation_interferometer [1, 1] rfl) hsq (by simp) (storedAs_round R rotation_entries) (by decide)
    (by decide) (gccuInit eta27 false) (by change 0 ≤ eta27; unfold eta27; positivity)
    (by change eta27 ≤ 1; unfold eta27; norm_num) isFloat_eta27 accuracy
  refine ⟨F + genFuel 1 2, fun fuel hf dist o' hr => ?_⟩
  obtain ⟨h1, h2⟩ := hF fuel (by omega)
  have hs : states = [[0, 0], [1, 0], [0, 1], [2, 0], [1, 1], [0, 2]] := by
    have h3 : generatePossibleStates fuel (([1, 1] : List ℕ).sum : ℤ) (([1, 1] : List ℕ).length : ℤ) true
      = .ok (allStates 1 2 true) := generatePossibleStates_ok fuel 2 1 true (by omega)
    rw [h3, hall] at h1
    injection h1 with h1
    exact h1.symm
  subst hs
  obtain ⟨-, h3, h4⟩ := h2 dist o' hr
  refine ⟨h3, (h4 4 (by decide)).imp id fun h5 => ?_⟩
  have h6 := h5.2
  simp only [List.getElem_cons_succ, List.getElem_cons_zero, List.sum_cons, List.sum_nil, Nat.reduceAdd, e, binomialWeight,
    Nat.choose_self, Nat.cast_one, one_mul, Nat.sub_self, pow_zero, mul_one] at h6
  change |_ - eta27 ^ 2 * (49 / 625)| ≤ _ * (eta27 ^ 2 * (49 / 625)) + _ at h6
  refine h6.trans ?_
  have ha := squareErr_two t
  have ht : (2 : ℝ) ^ (-1074 : ℤ) ≤ 1 / 2 ^ 60 := by
    refine (zpow_le_zpow_right₀ (n := -60) (by norm_num) (by norm_num)).trans ?_
    norm_num
  have hp : (2 : ℝ) ^ (((2 : ℕ) : ℤ) + 7 - 1074) ≤ 1 / 2 ^ 60 := by
    refine (zpow_le_zpow_right₀ (n := -60) (by norm_num) (by norm_num)).trans ?_
    norm_num
  have he : eta27 ^ 2 * (49 / 625) ≤ 1 := by unfold eta27; norm_num
  generalize eta27 ^ 2 * (49 / 625) = q at he ⊢
  have hops : (recordOps [1, 1] : ℝ) = 32 := by exact_mod_cast (by decide : recordOps [1, 1] = 32)
  have herr : recordErr t 1 [1, 1] = 4 * (squareErr t 1 [1, 1] + (2 + 2) * 2 ^ (-1074 : ℤ)) * 2 + (2 + 1) * 2 ^ (-1074 : ℤ) := by
    unfold recordErr
    have hb : ((boxSize [1, 1] : ℕ) : ℝ) = 4 := by exact_mod_cast (by decide : boxSize [1, 1] = 4)
    rw [hb]
    norm_num
  change (((recordOps [1, 1] : ℕ) : ℝ) + ((2 : ℕ) : ℝ) + 6) / 2 ^ 52 * q + (3 * recordErr t 1 [1, 1] + _) ≤ _
  rw [hops, herr]
  change _ + (_ + (2 : ℝ) ^ (((2 : ℕ) : ℤ) + 7 - 1074)) ≤ _
  generalize (2 : ℝ) ^ (((2 : ℕ) : ℤ) + 7 - 1074) = z at hp ⊢
  generalize (2 : ℝ) ^ (-1074 : ℤ) = w at ht ⊢
  generalize squareErr t 1 [1, 1] = a at ha ⊢
  have h7 : ((32 : ℝ) + ((2 : ℕ) : ℝ) + 6) / 2 ^ 52 * q ≤ (32 + ((2 : ℕ) : ℝ) + 6) / 2 ^ 52 * 1 :=
    mul_le_mul_of_nonneg_left he (by positivity)
  norm_num at ha h7 ht hp ⊢
  linarith

end Verif
