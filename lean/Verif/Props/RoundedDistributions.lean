import Verif.Props.RoundedPermanents
import Verif.Props.Distributions
import Verif.Proofs.RoundedDist

/-!
C90 and C91: the exact distribution calculators in floating-point arithmetic, with the permanent calculators of C88.
-/
namespace Verif

open Finset

variable (R : Rounding) (A : ComplexArith)

/-- The number of operations of floats whose relative errors can add up in one probability. -/
def distOps (S : List ℕ) : ℕ := 6 * S.length + 7 + boxSize S

/-- The error of a probability that does not scale with the probability: that of the squared permanents, and what
underflow can lose. -/
noncomputable def distErr (t : ℤ) (e : ℕ) (S : List ℕ) (k : ℕ) : ℝ :=
  squareErr t e S + (2 * S.length + boxSize S + 2 * k.factorial + 1) * 2 ^ (-1074 : ℤ)

theorem distErr_nonneg (t : ℤ) (e : ℕ) (S : List ℕ) (k : ℕ) : 0 ≤ distErr t e S k := by
  have := squareErr_nonneg t e S
  unfold distErr
  positivity

theorem length_subStates_box {S : List ℕ} {k : ℕ} : (subStates S k).length ≤ boxSize S :=
  length_subStates_le S k

theorem fixedLossProb_le_one {U : List (List ℂ)} {S : List ℕ} (h : Interferometer U S) {T : List ℕ}
    (hT : T.length = S.length) (hs : T.sum ≤ S.sum) : fixedLossProb U S T.sum T ≤ 1 := by
  obtain ⟨m, hm⟩ : ∃ m, S.length = m + 1 := ⟨S.length - 1, by have := List.length_pos_of_ne_nil h.ne; omega⟩
  have hmem : ∀ T', T' ∈ (allStates m T.sum false).toFinset ↔ T'.length = S.length ∧ T'.sum = T.sum := by
    intro T'; rw [List.mem_toFinset, mem_allStates, hm]; simp
  rw [← fixedLoss_total U S T.sum h.ortho (le_refl _) hs _ hmem]
  exact single_le_sum (f := fun T' => fixedLossProb U S T.sum T') (fun T' _ => fixedLossProb_nonneg U S T.sum T')
    ((hmem T).mpr ⟨hT, rfl⟩)

theorem list_abs_sum_sub {α : Type} (l : List α) (f g : α → ℝ) :
    |(l.map f).sum - (l.map g).sum| ≤ (l.map fun a => |f a - g a|).sum := by
  induction l with
  | nil => simp
  | cons a l ih =>
    simp only [List.map_cons, List.sum_cons]
    rw [add_sub_add_comm]
    exact (abs_add_le _ _).trans (add_le_add le_rfl ih)

section

variable (gray : ℕ → List ℕ) (hgray : ∀ n, IsGrayCode n (gray n)) (t : ℤ)
include hgray

theorem fixed_near (hash : List ℕ → ℤ) {e : ℕ} {U' U : List (List ℂ)} {S T : List ℕ} (h : Interferometer U S)
    (hsq : ∀ r ∈ U', r.length = U'.length) (hlen : U'.length = U.length) (hU : StoredAs e U' U) (hn : S.sum ≤ 1000)
    (fuel : ℕ) (hf : boxSize S ≤ fuel) {k : ℕ} (hk : k ≤ S.sum) (eta : ℝ) (hT : T.length = S.length) (hTs : T.sum = k)
    (hinj : ∀ a b : List ℕ, StateLE a S → a.sum = k → StateLE b S → b.sum = k → hash a = hash b → a = b) :
    ∃ x, fixedLossOutcomeR R (squaredPermanentR R A gray t fuel) hash (expConfig U' S k eta) T = .ok x ∧ 0 ≤ x ∧
      Near (rho ^ distOps S) (distErr t e S k) x (fixedLossProb U S k T) := by
  obtain ⟨x, h1, h2, h3⟩ := fixedLossOutcomeR_near R hash (expConfig U S k eta) rfl rfl rfl rfl rfl
    (sqNear_calculators R A gray hgray t h hsq hlen hU hn fuel hf) le_rfl (squareErr_nonneg t e S) hT hTs hk hinj
  refine ⟨x, h1, h2, ?_⟩
  have hL := length_subStates_box (S := S) (k := k)
  have hL' : ((subStates S k).length : ℝ) ≤ boxSize S := by exact_mod_cast hL
  have hq := squareErr_nonneg t e S
  have ht := tiny_pos
  rw [one_mul] at h3
  change Near (rho ^ (6 * S.length + 7 + (subStates S k).length))
    (squareErr t e S + (2 * S.length + (subStates S k).length + 2 * k.factorial + 1) * tiny) x (fixedLossProb U S k T) at h3
  refine h3.mono (by linarith [one_le_rho_pow (6 * S.length + 7 + (subStates S k).length)]) h2
    (fixedLossProb_nonneg U S k T) (by positivity) (pow_le_pow_right₀ one_lt_rho.le (by unfold distOps; omega)) ?_
  unfold distErr
  have : (2 * (S.length : ℝ) + (subStates S k).length + 2 * k.factorial + 1) * tiny
      ≤ (2 * S.length + boxSize S + 2 * k.factorial + 1) * 2 ^ (-1074 : ℤ) :=
    mul_le_mul_of_nonneg_right (by linarith) ht.le
  linarith

/-- C90: for a stored matrix, every outcome and every type of permanent calculator, the fixed-loss calculator returns
a nonnegative number. It differs from the exact probability for the exact matrix by the relative rounding errors, twice
the error of a squared permanent, and what underflow can lose. -/
theorem C90_probability (hash : List ℕ → ℤ) {e : ℕ} {U' U : List (List ℂ)} {S T : List ℕ} (h : Interferometer U S)
    (hsq : ∀ r ∈ U', r.length = U'.length) (hlen : U'.length = U.length) (hU : StoredAs e U' U) (hn : S.sum ≤ 1000)
    (hK : distOps S ≤ 2 ^ 52) (fuel : ℕ) (hf : boxSize S ≤ fuel) {k : ℕ} (hk : k ≤ S.sum) (eta : ℝ)
    (hT : T.length = S.length) (hTs : T.sum = k)
    (hinj : ∀ a b : List ℕ, StateLE a S → a.sum = k → StateLE b S → b.sum = k → hash a = hash b → a = b) :
    ∃ x, fixedLossOutcomeR R (squaredPermanentR R A gray t fuel) hash (expConfig U' S k eta) T = .ok x ∧ 0 ≤ x ∧
      |x - fixedLossProb U S k T| ≤ distOps S / 2 ^ 52 * fixedLossProb U S k T + 2 * distErr t e S k := by
  obtain ⟨x, h1, h2, h3⟩ := fixed_near R A gray hgray t hash h hsq hlen hU hn fuel hf hk eta hT hTs hinj
  have hp := fixedLossProb_nonneg U S k T
  have hb := distErr_nonneg t e S k
  refine ⟨x, h1, h2, (h3.close (one_le_rho_pow _) hp hb).trans ?_⟩
  have hr := rho_pow_le hK
  have hK' : ((distOps S : ℕ) : ℝ) ≤ 2 ^ 52 := by exact_mod_cast hK
  have h5 : rho ^ distOps S - 1 ≤ distOps S / 2 ^ 52 := hr.trans (le_of_eq (by ring))
  have h6 : rho ^ distOps S ≤ 2 := by
    have : (distOps S : ℝ) / 2 ^ 52 ≤ 1 := (div_le_one (by positivity)).mpr hK'
    linarith
  exact add_le_add (mul_le_mul_of_nonneg_right h5 hp) (mul_le_mul_of_nonneg_right h6 hb)

/-- C90: `calculate_distribution()` of the fixed-loss calculator returns one number for every state with `k` particles,
in the order of `get_outcomes_in_proper_order()`. The total distance to the exact distribution of the exact matrix, and
that of the sum of the numbers to one, are at most the relative rounding error and the other errors once for every
outcome. -/
theorem C90_distribution (hash : List ℕ → ℤ) {e : ℕ} {U' U : List (List ℂ)} {S : List ℕ} (h : Interferometer U S)
    (hsq : ∀ r ∈ U', r.length = U'.length) (hlen : U'.length = U.length) (hU : StoredAs e U' U) (hn : S.sum ≤ 1000)
    (hK : distOps S ≤ 2 ^ 52) {k : ℕ} (hk : k ≤ S.sum) (eta : ℝ)
    (hinj : ∀ a b : List ℕ, StateLE a S → a.sum = k → StateLE b S → b.sum = k → hash a = hash b → a = b) :
    ∃ outcomes F, outcomes.Nodup ∧ (∀ T, T ∈ outcomes ↔ T.length = S.length ∧ T.sum = k) ∧ ∀ fuel ≥ F,
      fixedLossOutcomes fuel (expConfig U' S k eta) = .ok outcomes ∧
      ∃ x : List ℕ → ℝ, fixedLossDistributionR R (squaredPermanentR R A gray t fuel) hash fuel (expConfig U' S k eta)
          = .ok (outcomes.map x) ∧ (∀ T ∈ outcomes, 0 ≤ x T) ∧
        (outcomes.map fun T => |x T - fixedLossProb U S k T|).sum
          ≤ distOps S / 2 ^ 52 + outcomes.length * (2 * distErr t e S k) ∧
        |(outcomes.map x).sum - 1| ≤ distOps S / 2 ^ 52 + outcomes.length * (2 * distErr t e S k) := by
  obtain ⟨m, hm⟩ : ∃ m, S.length = m + 1 := ⟨S.length - 1, by have := List.length_pos_of_ne_nil h.ne; omega⟩
  have hmem : ∀ T, T ∈ allStates m k false ↔ T.length = S.length ∧ T.sum = k := by
    intro T; rw [mem_allStates, hm]; simp
  refine ⟨allStates m k false, genFuel m k + boxSize S, allStates_nodup _ _ _, hmem, fun fuel hf => ?_⟩
  have hgen : fixedLossOutcomes fuel (expConfig U' S k eta) = .ok (allStates m k false) := by
    have := generatePossibleStates_ok fuel k m false (by omega)
    rw [← hm] at this
    exact this
  have hx := fun T (hT : T ∈ allStates m k false) => C90_probability R A gray hgray t hash h hsq hlen hU hn hK fuel
    (by omega) hk eta ((hmem T).mp hT).1 ((hmem T).mp hT).2 hinj
  set x : List ℕ → ℝ := fun T => if hT : T ∈ allStates m k false then (hx T hT).choose else 0 with hxdef
  have hxe : ∀ T (hT : T ∈ allStates m k false), x T = (hx T hT).choose := fun T hT => by rw [hxdef]; exact dif_pos hT
  have hx' := fun T (hT : T ∈ allStates m k false) => (hx T hT).choose_spec
  have htot : ((allStates m k false).map fun T => fixedLossProb U S k T).sum = 1 := by
    rw [← List.sum_toFinset _ (allStates_nodup _ _ _)]
    exact fixedLoss_total U S k h.ortho (le_refl _) hk _ (fun T => by rw [List.mem_toFinset, hmem])
  have hsum : ((allStates m k false).map fun T => |x T - fixedLossProb U S k T|).sum
      ≤ distOps S / 2 ^ 52 + (allStates m k false).length * (2 * distErr t e S k) := by
    refine (List.sum_le_sum (g := fun T => distOps S / 2 ^ 52 * fixedLossProb U S k T + 2 * distErr t e S k)
      fun T hT => by rw [hxe T hT]; exact (hx' T hT).2.2).trans (le_of_eq ?_)
    rw [List.sum_map_add, List.sum_map_mul_left, htot, List.map_const', List.sum_replicate, nsmul_eq_mul, mul_one]
  refine ⟨hgen, x, ?_, fun T hT => by rw [hxe T hT]; exact (hx' T hT).2.1, hsum, ?_⟩
  · rw [fixedLossDistributionR, hgen, ok_bind, fixedLossProbabilitiesR]
    exact mapM_ok _ _ _ fun T hT => by rw [hxe T hT]; exact (hx' T hT).1
  · refine le_trans ?_ hsum
    rw [← htot]
    exact list_abs_sum_sub _ _ _

/-! ### C91: uniform losses -/

/-- The error of a probability with uniform losses that does not scale with the probability. -/
noncomputable def uniformErr (t : ℤ) (e : ℕ) (S : List ℕ) : ℝ :=
  4 * distErr t e S S.sum + 2 ^ ((S.sum : ℤ) + 7 - 1074)

omit hgray in
theorem uniformErr_nonneg (t : ℤ) (e : ℕ) (S : List ℕ) : 0 ≤ uniformErr t e S := by
  have := distErr_nonneg t e S S.sum
  unfold uniformErr
  positivity

/-- C91: for a stored matrix and a float `eta` between zero and one, the uniform-loss calculator returns for every
outcome a nonnegative number. It differs from the exact probability for the exact matrix by the relative rounding
errors and an error that does not scale with the probability. -/
theorem C91_probability (hash : List ℕ → ℤ) {e : ℕ} {U' U : List (List ℂ)} {S T : List ℕ} (h : Interferometer U S)
    (hsq : ∀ r ∈ U', r.length = U'.length) (hlen : U'.length = U.length) (hU : StoredAs e U' U) (hn : S.sum ≤ 1000)
    (hK : distOps S + S.sum + 6 ≤ 2 ^ 52) (fuel : ℕ) (hf : boxSize S ≤ fuel) (k : ℕ) {eta : ℝ} (h0 : 0 ≤ eta)
    (h1 : eta ≤ 1) (hfl : IsFloat eta) (hT : T.length = S.length) (hTs : T.sum ≤ S.sum)
    (hinj : ∀ a b : List ℕ, StateLE a S → StateLE b S → a.sum = b.sum → hash a = hash b → a = b) :
    ∃ x, uniformOutcomeR R (squaredPermanentR R A gray t fuel) hash (uniformCalcR R (expConfig U' S k eta)) T = .ok x ∧
      0 ≤ x ∧ |x - binomialWeight S.sum T.sum eta * fixedLossProb U S T.sum T|
        ≤ (distOps S + S.sum + 6) / 2 ^ 52 * (binomialWeight S.sum T.sum eta * fixedLossProb U S T.sum T)
          + uniformErr t e S := by
  have ht := tiny_pos
  have hK' : ((distOps S + S.sum + 6 : ℕ) : ℝ) ≤ 2 ^ 52 := by exact_mod_cast hK
  rw [Nat.cast_add, Nat.cast_add] at hK'
  have hrho : ∀ j, j ≤ distOps S + S.sum + 6 → rho ^ j - 1 ≤ (distOps S + S.sum + 6) / 2 ^ 52 ∧ rho ^ j ≤ 2 := by
    intro j hj
    have a1 : rho ^ j ≤ rho ^ (distOps S + S.sum + 6) := pow_le_pow_right₀ one_lt_rho.le hj
    have a2 := rho_pow_le hK
    rw [Nat.cast_add, Nat.cast_add] at a2
    have a3 : ((distOps S : ℝ) + S.sum + 6) / 2 ^ 52 ≤ 1 := (div_le_one (by positivity)).mpr hK'
    have a4 : 2 * ((distOps S : ℝ) + S.sum + 6) / 2 ^ 53 = (distOps S + S.sum + 6) / 2 ^ 52 := by ring
    exact ⟨by linarith, by linarith⟩
  have hw0 : ∀ l, 0 ≤ binomialWeight S.sum l eta := fun l => by
    have : 0 ≤ 1 - eta := by linarith
    unfold binomialWeight
    positivity
  have hwR0 : ∀ l, 0 ≤ binomWeightR R S.sum eta l := fun l => R.nonneg (mul_nonneg (R.nonneg (mul_nonneg
    (R.nonneg (Nat.cast_nonneg _)) (R.nonneg (by positivity)))) (R.nonneg (pow_nonneg (R.nonneg (by linarith)) _)))
  have hwn := fun l (hl : l ≤ S.sum) => binomWeightR_near R S.sum h0 h1 hfl l hl
  have he0 : 0 ≤ tiny * 2 ^ (S.sum + 5) := by positivity
  have het : tiny * 2 ^ (S.sum + 5) = 2 ^ ((S.sum : ℤ) + 5 - 1074) := by
    unfold tiny
    rw [← zpow_natCast, ← zpow_add₀ (by norm_num)]
    exact congrArg (fun n : ℤ => (2 : ℝ) ^ n) (by rw [Nat.cast_add]; ring)
  have he4 : (2 : ℝ) ^ ((S.sum : ℤ) + 7 - 1074) = 4 * (tiny * 2 ^ (S.sum + 5)) := by
    rw [het, show ((S.sum : ℤ) + 7 - 1074) = 2 + (S.sum + 5 - 1074) by ring, zpow_add₀ (by norm_num)]
    norm_num
  have hqn := squareErr_nonneg t e S
  unfold uniformOutcomeR
  simp only [uniformCalcR]
  by_cases hv : T.sum = 0
  · refine ⟨binomWeightR R S.sum eta 0, ?_, hwR0 0, ?_⟩
    · rw [if_pos hv]
      exact initializeWeightsR_get R (expConfig U' S k eta) (Nat.zero_le _)
    · rw [hv, fixedLoss_vacuum U S T hv, mul_one]
      have h2 := (hwn 0 (Nat.zero_le _)).close (one_le_rho_pow _) (hw0 0) he0
      refine h2.trans ?_
      obtain ⟨r1, r2⟩ := hrho (S.sum + 5) (by omega)
      have hd := distErr_nonneg t e S S.sum
      unfold uniformErr
      rw [he4]
      refine add_le_add (mul_le_mul_of_nonneg_right r1 (hw0 0)) ?_
      nlinarith
  · obtain ⟨x, x1, x2, x3⟩ := fixed_near R A gray hgray t hash h hsq hlen hU hn fuel hf hTs eta hT rfl
      fun a b ha ha' hb hb' => hinj a b ha hb (ha'.trans hb'.symm)
    have hfix : fixedLossProbabilitiesR R (squaredPermanentR R A gray t fuel) hash (expConfig U' S T.sum eta) [T]
        = .ok [x] := mapM_ok _ (fun _ => x) _ fun y hy => by rw [List.mem_singleton.mp hy]; exact x1
    have hcfg : ({ expConfig U' S k eta with left := T.sum, lost := ((expConfig U' S k eta).initialNumber : Int) - T.sum }
        : ExpConfig ℂ ℝ) = expConfig U' S T.sum eta := rfl
    refine ⟨R.rnd (x * binomWeightR R S.sum eta T.sum), ?_, R.nonneg (mul_nonneg x2 (hwR0 _)), ?_⟩
    · rw [if_neg hv, hcfg, hfix, ok_bind, initializeWeightsR_get R _ hTs]
      rfl
    · have hp0 := fixedLossProb_nonneg U S T.sum T
      have hp1 := fixedLossProb_le_one h hT hTs
      have hw1 : binomialWeight S.sum T.sum eta ≤ 1 := by
        have hb := binom_list_sum S.sum eta
        rw [list_sum_range] at hb
        rw [← hb]
        exact single_le_sum (f := fun l => (S.sum.choose l : ℝ) * eta ^ l * (1 - eta) ^ (S.sum - l)) (s := range (S.sum + 1))
          (fun l _ => hw0 l) (mem_range.mpr (by omega))
      have hdn := distErr_nonneg t e S T.sum
      have hd := x3.mul_rnd R (hwn T.sum hTs) (one_le_rho_pow _) (one_le_rho_pow _) hdn he0 x2 hp0 (hwR0 _) (hw0 _) hp1 hw1
      have hpow : rho ^ distOps S * rho ^ (S.sum + 5) * rho = rho ^ (distOps S + S.sum + 6) := by ring
      rw [hpow] at hd
      rw [mul_comm (binomialWeight S.sum T.sum eta)]
      refine hd.trans ?_
      obtain ⟨r1, r2⟩ := hrho _ le_rfl
      have hdd : distErr t e S T.sum ≤ distErr t e S S.sum := by
        unfold distErr
        have : (T.sum.factorial : ℝ) ≤ S.sum.factorial := by exact_mod_cast Nat.factorial_le hTs
        gcongr
      have hdt : tiny ≤ distErr t e S S.sum / 2 := by
        have : (2 : ℝ) ≤ 2 * S.length + boxSize S + 2 * S.sum.factorial + 1 := by
          have : (1 : ℝ) ≤ S.sum.factorial := by exact_mod_cast Nat.factorial_pos S.sum
          have : (0 : ℝ) ≤ S.length := Nat.cast_nonneg _
          have : (0 : ℝ) ≤ boxSize S := Nat.cast_nonneg _
          linarith
        have h3 : 2 * tiny ≤ (2 * S.length + boxSize S + 2 * S.sum.factorial + 1) * tiny :=
          mul_le_mul_of_nonneg_right this ht.le
        have h4 : distErr t e S S.sum = squareErr t e S + (2 * S.length + boxSize S + 2 * S.sum.factorial + 1) * tiny := rfl
        linarith
      have heb : tiny * 2 ^ (S.sum + 5) ≤ 1 / 2 := by
        rw [het]
        refine (zpow_le_zpow_right₀ (by norm_num) (show (S.sum : ℤ) + 5 - 1074 ≤ -1 by omega)).trans ?_
        norm_num
      refine add_le_add (mul_le_mul_of_nonneg_right r1 (mul_nonneg hp0 (hw0 _))) ?_
      unfold uniformErr
      rw [he4]
      have : distErr t e S T.sum * (tiny * 2 ^ (S.sum + 5)) ≤ distErr t e S S.sum * (1 / 2) := mul_le_mul hdd heb he0 (by linarith)
      have hsum : 0 ≤ distErr t e S T.sum + tiny * 2 ^ (S.sum + 5) + distErr t e S T.sum * (tiny * 2 ^ (S.sum + 5)) + tiny := by
        positivity
      calc _ ≤ 2 * (distErr t e S T.sum + tiny * 2 ^ (S.sum + 5) + distErr t e S T.sum * (tiny * 2 ^ (S.sum + 5)) + tiny) :=
            mul_le_mul_of_nonneg_right r2 hsum
        _ ≤ _ := by linarith

/-- C91: `calculate_distribution()` of the uniform-loss calculator returns one number for every state with at most `n`
particles, in the order of `get_outcomes_in_proper_order()`. The total distance to the exact distribution, and that of
the sum of the numbers to one, are at most the relative rounding error and the other errors once for every outcome. -/
theorem C91_distribution (hash : List ℕ → ℤ) {e : ℕ} {U' U : List (List ℂ)} {S : List ℕ} (h : Interferometer U S)
    (hsq : ∀ r ∈ U', r.length = U'.length) (hlen : U'.length = U.length) (hU : StoredAs e U' U) (hn : S.sum ≤ 1000)
    (hK : distOps S + S.sum + 6 ≤ 2 ^ 52) (k : ℕ) {eta : ℝ} (h0 : 0 ≤ eta) (h1 : eta ≤ 1) (hfl : IsFloat eta)
    (hinj : ∀ a b : List ℕ, StateLE a S → StateLE b S → a.sum = b.sum → hash a = hash b → a = b) :
    ∃ outcomes F, outcomes.Nodup ∧ (∀ T, T ∈ outcomes ↔ T.length = S.length ∧ T.sum ≤ S.sum) ∧ ∀ fuel ≥ F,
      uniformOutcomes fuel (expConfig U' S k eta) = .ok outcomes ∧
      ∃ x : List ℕ → ℝ, uniformDistributionR R (squaredPermanentR R A gray t fuel) hash fuel
          (uniformCalcR R (expConfig U' S k eta)) = .ok (outcomes.map x) ∧ (∀ T ∈ outcomes, 0 ≤ x T) ∧
        (outcomes.map fun T => |x T - binomialWeight S.sum T.sum eta * fixedLossProb U S T.sum T|).sum
          ≤ (distOps S + S.sum + 6) / 2 ^ 52 + outcomes.length * uniformErr t e S ∧
        |(outcomes.map x).sum - 1| ≤ (distOps S + S.sum + 6) / 2 ^ 52 + outcomes.length * uniformErr t e S := by
  obtain ⟨outs, dist, F, hF, hdist, hnd, hmem, -, htot⟩ := C24_distribution gray hgray t hash U S k eta h0 h1 h.square h.len
    h.ne h.ortho hinj
  rw [hdist] at htot
  refine ⟨outs, F + boxSize S, hnd, hmem, fun fuel hf => ?_⟩
  have hgen : uniformOutcomes fuel (expConfig U' S k eta) = .ok outs := (hF fuel (by omega)).1
  have hx := fun T (hT : T ∈ outs) => C91_probability R A gray hgray t hash h hsq hlen hU hn hK fuel
    (by omega) k h0 h1 hfl ((hmem T).mp hT).1 ((hmem T).mp hT).2 hinj
  set x : List ℕ → ℝ := fun T => if hT : T ∈ outs then (hx T hT).choose else 0 with hxdef
  have hxe : ∀ T (hT : T ∈ outs), x T = (hx T hT).choose := fun T hT => by rw [hxdef]; exact dif_pos hT
  have hx' := fun T (hT : T ∈ outs) => (hx T hT).choose_spec
  have hsum : (outs.map fun T => |x T - binomialWeight S.sum T.sum eta * fixedLossProb U S T.sum T|).sum
      ≤ (distOps S + S.sum + 6) / 2 ^ 52 + outs.length * uniformErr t e S := by
    refine (List.sum_le_sum (g := fun T => (distOps S + S.sum + 6) / 2 ^ 52
      * (binomialWeight S.sum T.sum eta * fixedLossProb U S T.sum T) + uniformErr t e S)
      fun T hT => by rw [hxe T hT]; exact (hx' T hT).2.2).trans (le_of_eq ?_)
    rw [List.sum_map_add, List.sum_map_mul_left, htot, List.map_const', List.sum_replicate, nsmul_eq_mul, mul_one]
  refine ⟨hgen, x, ?_, fun T hT => by rw [hxe T hT]; exact (hx' T hT).2.1, hsum, ?_⟩
  · rw [uniformDistributionR, show (uniformCalcR R (expConfig U' S k eta)).config = expConfig U' S k eta from rfl, hgen,
      ok_bind, uniformProbabilitiesR]
    exact mapM_ok _ _ _ fun T hT => by rw [hxe T hT]; exact (hx' T hT).1
  · refine le_trans ?_ hsum
    conv_lhs => rw [← htot]
    exact list_abs_sum_sub _ _ _

end

/-- C91: after any history of `set_weightless` calls that does not end with `True`, every probability is, bit by bit,
the one of a fresh calculator. -/
theorem C91_weighted (sq : CalcCfg ℂ → Py ℝ) (hash : List ℕ → ℤ) (c : ExpConfig ℂ ℝ) (flags : List Bool)
    (h : flags.getLast? ≠ some true) (T : List ℕ) :
    uniformOutcomeR R sq hash (flags.foldl (setWeightlessR R) (uniformCalcR R c)) T
      = uniformOutcomeR R sq hash (uniformCalcR R c) T := by
  rcases List.eq_nil_or_concat flags with rfl | ⟨fs, f, rfl⟩
  · rfl
  · have hf : f = false := by
      cases f
      · rfl
      · simp at h
    subst hf
    simp only [List.concat_eq_append, List.foldl_append, List.foldl_cons, List.foldl_nil]
    have hc : (fs.foldl (setWeightlessR R) (uniformCalcR R c)).config = c :=
      (foldl_setWeightlessR R fs (uniformCalcR R c) (by simp [uniformCalcR, initializeWeightsR])).1
    generalize fs.foldl (setWeightlessR R) (uniformCalcR R c) = u at hc
    unfold uniformOutcomeR setWeightlessR
    simp only [Bool.not_false, if_true, hc]
    rfl

/-- C91: after any history that ends with `True`, every outcome with `1 ≤ l ≤ n` particles gets, bit by bit, the value
of the fixed-loss calculator for `l` particles, and the vacuum gets 1. -/
theorem C91_weightless (sq : CalcCfg ℂ → Py ℝ) (hash : List ℕ → ℤ) (c : ExpConfig ℂ ℝ) (flags : List Bool)
    (h : flags.getLast? = some true) (T : List ℕ) (hT : T.sum ≤ c.initialNumber) :
    uniformOutcomeR R sq hash (flags.foldl (setWeightlessR R) (uniformCalcR R c)) T
      = if T.sum = 0 then .ok 1
        else fixedLossOutcomeR R sq hash { c with left := T.sum, lost := (c.initialNumber : Int) - T.sum } T := by
  rcases List.eq_nil_or_concat flags with rfl | ⟨fs, f, rfl⟩
  · simp at h
  have hf : f = true := by simpa using h
  subst hf
  simp only [List.concat_eq_append, List.foldl_append, List.foldl_cons, List.foldl_nil]
  obtain ⟨hc, hl⟩ := foldl_setWeightlessR R fs (uniformCalcR R c) (by simp [uniformCalcR, initializeWeightsR])
  generalize fs.foldl (setWeightlessR R) (uniformCalcR R c) = u at hc hl
  have hcc : u.config = c := hc
  have hl' : u.weights.length = c.initialNumber + 1 := hl
  have hw : ∀ l ≤ c.initialNumber, pyGetN (u.weights.map fun _ => (1 : ℝ)) l = .ok 1 := by
    intro l hl2
    have hlen : l < (u.weights.map fun _ => (1 : ℝ)).length := by rw [List.length_map, hl']; omega
    rw [pyGetN_ok hlen, List.getElem_map]
  unfold uniformOutcomeR setWeightlessR
  simp only [Bool.not_true, Bool.false_eq_true, if_false, hcc]
  by_cases h0 : T.sum = 0
  · rw [if_pos h0, if_pos h0, hw 0 (Nat.zero_le _)]
  · rw [if_neg h0, if_neg h0, fixedLossProbabilitiesR, List.mapM_cons, List.mapM_nil]
    cases hx : fixedLossOutcomeR R sq hash { c with left := T.sum, lost := (c.initialNumber : Int) - T.sum } T with
    | error e => rfl
    | ok x =>
      simp only [ok_bind, pure_eq_ok, pyGetN, List.getElem?_cons_zero]
      have := hw T.sum hT
      rw [pyGetN] at this
      rw [this, ok_bind, mul_one, R.eq_self (fixedLossOutcomeR_float R hash _ T hx)]

/-- A concrete case: two particles through a rotation whose entries are rounded to floats come out one in each mode with
probability `49 / 625`, and with probability `49 / 2500` if every particle survives with probability `1 / 2`; both
calculators find this up to `2 ^ -28`, for every type of permanent calculator. -/
example (t : ℤ) :
    (∃ x, fixedLossOutcomeR R (squaredPermanentR R (textbookArith R) reflectedGray t 4) (fun l => (Encodable.encode l : ℤ))
      (expConfig (([[3 / 5, 4 / 5], [4 / 5, -3 / 5]] : List (List ℂ)).map fun r => r.map R.rndC) [1, 1] 2 (1 / 2)) [1, 1]
        = .ok x ∧ |x - 49 / 625| ≤ 1 / 2 ^ 28) ∧
    ∃ x, uniformOutcomeR R (squaredPermanentR R (textbookArith R) reflectedGray t 4) (fun l => (Encodable.encode l : ℤ))
      (uniformCalcR R (expConfig (([[3 / 5, 4 / 5], [4 / 5, -3 / 5]] : List (List ℂ)).map fun r => r.map R.rndC) [1, 1] 2
        (1 / 2))) [1, 1] = .ok x ∧ |x - 49 / 2500| ≤ 1 / 2 ^ 28 := by
  have hsq : ∀ r ∈ ([[3 / 5, 4 / 5], [4 / 5, -3 / 5]] : List (List ℂ)).map (fun r => r.map R.rndC),
      r.length = (([[3 / 5, 4 / 5], [4 / 5, -3 / 5]] : List (List ℂ)).map fun r => r.map R.rndC).length := by
    simp
  have hfull : fixedLossProb [[3 / 5, 4 / 5], [4 / 5, -3 / 5]] [1, 1] 2 [1, 1] = 49 / 625 :=
    (fixedLossProb_full _ [1, 1] [1, 1]).trans rotation_prob
  have hz : ∀ n : ℤ, n ≤ -60 → (2 : ℝ) ^ n ≤ 1 / 2 ^ 60 := fun n hn => by
    refine (zpow_le_zpow_right₀ (by norm_num) hn).trans (le_of_eq ?_)
    rw [zpow_neg, one_div]
    norm_cast
  have ha := squareErr_two t
  have hd : distErr t 1 [1, 1] 2 ≤ 2 * 141 / 2 ^ 48 * 16 ^ 2 + 13 / 2 ^ 60 := by
    have h1 := hz (-1074) (by norm_num)
    have hb : boxSize [1, 1] = 4 := by decide
    unfold distErr
    rw [hb]
    generalize (2 : ℝ) ^ (-1074 : ℤ) = z at h1 ⊢
    generalize squareErr t 1 [1, 1] = a at ha ⊢
    simp only [List.length_cons, List.length_nil, Nat.factorial]
    norm_num at h1 ha ⊢
    linarith
  have hops : distOps [1, 1] = 23 := by decide
  constructor
  · obtain ⟨x, hx, -, hb⟩ := C90_probability R (textbookArith R) reflectedGray reflectedGray_isGrayCode t
      (fun l => (Encodable.encode l : ℤ)) (rotation_interferometer [1, 1] rfl) hsq (by simp)
      (storedAs_round R rotation_entries) (by decide) (by decide) 4 (by decide) (k := 2) (by decide) (1 / 2) (T := [1, 1])
      rfl rfl (fun a b _ _ _ _ hab => Encodable.encode_injective (by exact_mod_cast hab))
    refine ⟨x, hx, ?_⟩
    rw [hfull, hops] at hb
    refine hb.trans ?_
    generalize distErr t 1 [1, 1] 2 = a at hd ⊢
    norm_num at hd ⊢
    linarith
  · obtain ⟨x, hx, -, hb⟩ := C91_probability R (textbookArith R) reflectedGray reflectedGray_isGrayCode t
      (fun l => (Encodable.encode l : ℤ)) (rotation_interferometer [1, 1] rfl) hsq (by simp)
      (storedAs_round R rotation_entries) (by decide) (by decide) 4 (by decide) 2 (eta := 1 / 2) (by norm_num)
      (by norm_num) ⟨1, -1, by norm_num, by norm_num, by norm_num⟩ (T := [1, 1])
      rfl (by decide) (fun a b _ _ _ hab => Encodable.encode_injective (by exact_mod_cast hab))
    refine ⟨x, hx, ?_⟩
    have hu : uniformErr t 1 [1, 1] ≤ 4 * (2 * 141 / 2 ^ 48 * 16 ^ 2 + 13 / 2 ^ 60) + 1 / 2 ^ 60 := by
      have h1 := hz ((([1, 1] : List ℕ).sum : ℤ) + 7 - 1074) (by decide)
      unfold uniformErr
      exact add_le_add (mul_le_mul_of_nonneg_left hd (by norm_num)) h1
    have hw : binomialWeight ([1, 1] : List ℕ).sum ([1, 1] : List ℕ).sum (1 / 2) = 1 / 4 := by
      norm_num [binomialWeight]
    have hf : fixedLossProb [[3 / 5, 4 / 5], [4 / 5, -3 / 5]] [1, 1] ([1, 1] : List ℕ).sum [1, 1] = 49 / 625 := hfull
    rw [hw, hf, hops] at hb
    generalize uniformErr t 1 [1, 1] = a at hu hb
    norm_num at hu hb ⊢
    linarith

end Verif
