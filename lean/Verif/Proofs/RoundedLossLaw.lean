import Verif.Model.RoundedLosses
import Verif.Proofs.RoundedDraws
import Verif.Proofs.RoundedDist
import Verif.Proofs.CliffordsLoss
import Verif.Proofs.CliffordsU
import Verif.Proofs.BobsRuns
import Verif.Proofs.FixedLoss

/-! Helper lemmas: the losses drawn in floating-point arithmetic. -/
namespace Verif

open Finset Prog
open scoped ENNReal

/-! ### Binomial weights -/

/-- The distance of two binomial distributions. -/
theorem binomial_dist (n : ℕ) {x y : ℝ} (hx0 : 0 ≤ x) (hx1 : x ≤ 1) (hy0 : 0 ≤ y) (hy1 : y ≤ 1) :
    ∑ l ∈ range (n + 1), |binomialWeight n l x - binomialWeight n l y| ≤ 2 * n * |x - y| := by
  induction n with
  | zero => simp [binomialWeight]
  | succ n ih =>
    have hz : ∀ e : ℝ, binomialWeight n (n + 1) e = 0 := fun e => by simp [binomialWeight]
    have hs := binomialWeight_sum n y
    set D : ℕ → ℝ := fun l => |binomialWeight n l x - binomialWeight n l y| with hD
    set B : ℕ → ℝ := fun l => binomialWeight n l y with hB
    have hD0 : ∀ l, 0 ≤ D l := fun l => abs_nonneg _
    have hB0 : ∀ l, 0 ≤ B l := fun l => binomialWeight_nonneg n l hy0 hy1
    have hb : ∀ l ≤ n, |binomialWeight (n + 1) (l + 1) x - binomialWeight (n + 1) (l + 1) y|
        ≤ (1 - x) * D (l + 1) + x * D l + |x - y| * (B (l + 1) + B l) := by
      intro l hl
      rw [binomialWeight_succ_succ n l hl, binomialWeight_succ_succ n l hl]
      have e : (1 - x) * binomialWeight n (l + 1) x + x * binomialWeight n l x
          - ((1 - y) * binomialWeight n (l + 1) y + y * binomialWeight n l y)
          = (1 - x) * (binomialWeight n (l + 1) x - binomialWeight n (l + 1) y)
            + x * (binomialWeight n l x - binomialWeight n l y) + (x - y) * (B l - B (l + 1)) := by
        rw [hB]; ring
      rw [e]
      refine (abs_add_le _ _).trans (add_le_add ((abs_add_le _ _).trans (add_le_add ?_ ?_)) ?_)
      · rw [abs_mul, abs_of_nonneg (by linarith : 0 ≤ 1 - x)]
      · rw [abs_mul, abs_of_nonneg hx0]
      · rw [abs_mul]
        refine mul_le_mul_of_nonneg_left ?_ (abs_nonneg _)
        rw [abs_le]
        constructor <;> linarith [hB0 l, hB0 (l + 1)]
    have h0 : |binomialWeight (n + 1) 0 x - binomialWeight (n + 1) 0 y| ≤ (1 - x) * D 0 + |x - y| * B 0 := by
      rw [binomialWeight_succ_zero, binomialWeight_succ_zero]
      have e : (1 - x) * binomialWeight n 0 x - (1 - y) * binomialWeight n 0 y
          = (1 - x) * (binomialWeight n 0 x - binomialWeight n 0 y) + (y - x) * B 0 := by
        rw [hB]; ring
      rw [e]
      refine (abs_add_le _ _).trans (add_le_add ?_ ?_)
      · rw [abs_mul, abs_of_nonneg (by linarith : 0 ≤ 1 - x)]
      · rw [abs_mul, abs_sub_comm, abs_of_nonneg (hB0 0)]
    have eD : ∑ l ∈ range (n + 1), D (l + 1) + D 0 = ∑ l ∈ range (n + 1), D l := by
      rw [← sum_range_succ' D (n + 1), sum_range_succ D (n + 1)]
      simp [hD, hz]
    have eB : ∑ l ∈ range (n + 1), B (l + 1) + B 0 = 1 := by
      rw [← sum_range_succ' B (n + 1), sum_range_succ B (n + 1), hs]
      simp [hB, hz]
    have eB' : ∑ l ∈ range (n + 1), B l = 1 := hs
    rw [sum_range_succ' _ (n + 1)]
    calc _ ≤ ∑ l ∈ range (n + 1), ((1 - x) * D (l + 1) + x * D l + |x - y| * (B (l + 1) + B l))
          + ((1 - x) * D 0 + |x - y| * B 0) := add_le_add (sum_le_sum fun l hl => hb l (by
            have := mem_range.mp hl; omega)) h0
      _ = (1 - x) * (∑ l ∈ range (n + 1), D (l + 1) + D 0) + x * ∑ l ∈ range (n + 1), D l
          + |x - y| * ((∑ l ∈ range (n + 1), B (l + 1) + B 0) + ∑ l ∈ range (n + 1), B l) := by
          rw [sum_add_distrib, sum_add_distrib, ← mul_sum, ← mul_sum, ← mul_sum, sum_add_distrib]
          ring
      _ = ∑ l ∈ range (n + 1), D l + 2 * |x - y| := by rw [eD, eB, eB']; ring
      _ ≤ 2 * n * |x - y| + 2 * |x - y| := by linarith
      _ = _ := by push_cast; ring

variable (R : Rounding)

theorem gccbWeightsR_getD (n : ℕ) (eta : ℝ) (l : ℕ) (hl : l ≤ n) : (gccbWeightsR R n eta).getD l 0 = binomWeightR R n eta l := by
  rw [getD_of_lt _ _ (by rw [length_gccbWeightsR]; omega)]
  simp [gccbWeightsR, binomWeightR]

/-- The computed weights are close to the binomial distribution. -/
theorem gccbWeightsR_dist (n : ℕ) (hn : n ≤ 170) {eta : ℝ} (h0 : 0 ≤ eta) (h1 : eta ≤ 1) (hf : IsFloat eta) :
    ∑ l ∈ range (n + 1), |(gccbWeightsR R n eta).getD l 0 - binomialWeight n l eta| ≤ (2 * n + 11) / 2 ^ 53 := by
  have ht := tiny_pos
  have hp := rho_pow_le (k := n + 5) (by omega)
  have hn' : (n : ℝ) ≤ 170 := by exact_mod_cast hn
  push_cast at hp
  have h2 : rho ^ (n + 5) ≤ 2 := by
    have : 2 * ((n : ℝ) + 5) / 2 ^ 53 ≤ 1 := by
      rw [div_le_one (by positivity)]; norm_num; linarith
    linarith
  have hb : ((n + 1 : ℕ) : ℝ) * (tiny * 2 ^ (n + 5)) ≤ 1 / 2 ^ 60 := by
    have h3 : tiny ≤ 1 / 2 ^ 250 := by
      unfold tiny
      have : (2 : ℝ) ^ (-1074 : ℤ) ≤ 2 ^ (-250 : ℤ) := zpow_le_zpow_right₀ (by norm_num) (by norm_num)
      refine this.trans (le_of_eq ?_)
      rw [zpow_neg, one_div]
      norm_cast
    have h4 : (2 : ℝ) ^ (n + 5) ≤ 2 ^ 175 := pow_le_pow_right₀ (by norm_num) (by omega)
    have h5 : ((n + 1 : ℕ) : ℝ) ≤ 2 ^ 8 := by
      have : n + 1 ≤ 2 ^ 8 := by omega
      exact_mod_cast this
    calc ((n + 1 : ℕ) : ℝ) * (tiny * 2 ^ (n + 5)) ≤ 2 ^ 8 * (1 / 2 ^ 250 * 2 ^ 175) := by gcongr
      _ ≤ 1 / 2 ^ 60 := by norm_num
  calc ∑ l ∈ range (n + 1), |(gccbWeightsR R n eta).getD l 0 - binomialWeight n l eta|
      ≤ ∑ l ∈ range (n + 1), ((rho ^ (n + 5) - 1) * binomialWeight n l eta + 2 * (tiny * 2 ^ (n + 5))) := by
        refine sum_le_sum fun l hl => ?_
        have hl : l ≤ n := by have := mem_range.mp hl; omega
        rw [gccbWeightsR_getD R n eta l hl]
        refine ((binomWeightR_near R n h0 h1 hf l hl).close (one_le_rho_pow _) (binomialWeight_nonneg n l h0 h1)
          (by positivity)).trans (add_le_add_right (mul_le_mul_of_nonneg_right h2 (by positivity)) _)
    _ = (rho ^ (n + 5) - 1) + 2 * (((n + 1 : ℕ) : ℝ) * (tiny * 2 ^ (n + 5))) := by
        rw [sum_add_distrib, ← mul_sum, binomialWeight_sum, sum_const, card_range, nsmul_eq_mul]
        ring
    _ ≤ 2 * (n + 5) / 2 ^ 53 + 2 * (1 / 2 ^ 60) := by linarith
    _ ≤ _ := by
        have h8 : (2 : ℝ) * (1 / 2 ^ 60) ≤ 1 / 2 ^ 53 := by norm_num
        have : (2 * (n : ℝ) + 11) / 2 ^ 53 = 2 * (n + 5) / 2 ^ 53 + 1 / 2 ^ 53 := by ring
        linarith

/-- The number of particles left is drawn from the binomial distribution, up to rounding. -/
theorem left_dist (n : ℕ) (hn : n ≤ 170) {eta : ℝ} (h0 : 0 ≤ eta) (h1 : eta ≤ 1) (hf : IsFloat eta) :
    ∑ l ∈ range (n + 2), |drawLaw (fun k => scanIndexR R ((k : ℝ) / 2 ^ 53) (gccbWeightsR R n eta) 0) l
      - binomialWeight n l eta| ≤ (10 * n + 28) / 2 ^ 53 := by
  have hsum := gccbWeightsR_sum R n hn h0 h1 hf
  have hn' : (n : ℝ) ≤ 170 := by exact_mod_cast hn
  have hle : sumR R (gccbWeightsR R n eta) ≤ 2 := by
    have := (abs_le.mp hsum).2
    have : (4 * (n : ℝ) + 13) / 2 ^ 53 ≤ 1 := by
      rw [div_le_one (by positivity)]; norm_num; linarith
    linarith
  have hd := (scanIndexR_dist R (gccbWeightsR_weights R n h0 h1) hle).2
  rw [length_gccbWeightsR] at hd
  have hw := gccbWeightsR_dist R n hn h0 h1 hf
  have hz : binomialWeight n (n + 1) eta = 0 := by simp [binomialWeight]
  rw [sum_range_succ, hz, sub_zero, abs_of_nonneg (drawLaw_nonneg _ _)]
  set law := drawLaw (fun k => scanIndexR R ((k : ℝ) / 2 ^ 53) (gccbWeightsR R n eta) 0) with hlaw
  have htri : ∑ l ∈ range (n + 1), |law l - binomialWeight n l eta|
      ≤ ∑ l ∈ range (n + 1), |law l - (gccbWeightsR R n eta).getD l 0|
        + ∑ l ∈ range (n + 1), |(gccbWeightsR R n eta).getD l 0 - binomialWeight n l eta| := by
    rw [← sum_add_distrib]
    exact sum_le_sum fun l _ => abs_sub_le _ _ _
  have : (10 * (n : ℝ) + 28) / 2 ^ 53 = 4 * ((n + 1 : ℕ) : ℝ) / 2 ^ 53 + (4 * n + 13) / 2 ^ 53 + (2 * n + 11) / 2 ^ 53 := by
    push_cast; ring
  linarith

theorem leftR_wp (n : ℕ) (eta : ℝ) (f : Py ℕ → ℝ≥0∞) :
    (gccbParticlesLeftR R (gccbWeightsR R n eta)).wp f = ∑ l ∈ range (n + 2),
      ENNReal.ofReal (drawLaw (fun k => scanIndexR R ((k : ℝ) / 2 ^ 53) (gccbWeightsR R n eta) 0) l) * f (.ok l) := by
  unfold gccbParticlesLeftR
  rw [Prog.bind_eq]
  refine drawLaw_wp _ (n + 2) (fun k _ => ?_) _ (fun l => f (.ok l)) f fun k _ => rfl
  have := scanIndexR_length_le R ((k : ℝ) / 2 ^ 53) 0 (gccbWeightsR R n eta)
  rw [length_gccbWeightsR] at this
  omega

theorem leftR_close (n : ℕ) (hn : n ≤ 170) {eta : ℝ} (h0 : 0 ≤ eta) (h1 : eta ≤ 1) (hf : IsFloat eta) :
    CloseF (gccbParticlesLeftR R (gccbWeightsR R n eta)) (gccbParticlesLeft (gccbWeights n eta))
      (ENNReal.ofReal ((10 * n + 28) / 2 ^ 53)) := by
  refine CloseF.of_sums (m := n + 2) (v := fun l => .ok l) (leftR_wp R n eta) (w := fun l => binomialWeight n l eta)
    (fun f => ?_) (fun l _ => drawLaw_nonneg _ l) (fun l _ => binomialWeight_nonneg n l h0 h1) (left_dist R n hn h0 h1 hf)
  have hz : binomialWeight n (n + 1) eta = 0 := by simp [binomialWeight]
  rw [gccbParticlesLeft_wp n h0 h1, sum_range_succ _ (n + 1), hz]
  simp

/-! ### Version B with uniform losses -/

theorem gccbLossyLoopR_close (sub : CalcCfg ℂ → Py (List ℂ)) (U : List (List ℂ)) (fuel : ℕ) (S particles : List ℕ)
    {wR w : List ℝ} {e : ℝ} (he : 0 ≤ e)
    (h : CloseF (gccbParticlesLeftR R wR) (gccbParticlesLeft w) (ENNReal.ofReal e)) (N : ℕ) :
    CloseF (gccbLossyLoopR R sub U fuel S particles wR N) (gccbLossyLoop sub U fuel S particles w N)
      (ENNReal.ofReal (N * e)) := by
  induction N with
  | zero => exact (CloseF.refl _).mono zero_le
  | succ N ih =>
    rw [gccbLossyLoopR, gccbLossyLoop]
    have := h.bind' (g := fun left => (gccbFill sub U fuel S particles left).bind fun s =>
        (gccbLossyLoopR R sub U fuel S particles wR N).bind fun l => .done (.ok (s.r :: l)))
      (g' := fun left => (gccbFill sub U fuel S particles left).bind fun s =>
        (gccbLossyLoop sub U fuel S particles w N).bind fun l => .done (.ok (s.r :: l)))
      (δ := ENNReal.ofReal (N * e)) fun left => CloseF.bind_right _ fun s => ih.bind_left _
    refine this.mono (le_of_eq ?_)
    rw [← ENNReal.ofReal_add he (by positivity)]
    congr 1
    push_cast
    ring

theorem gccbLossySimulateR_close (sub : CalcCfg ℂ → Py (List ℂ)) (U : List (List ℂ)) (fuel : ℕ) {eta : ℝ} (h0 : 0 ≤ eta)
    (h1 : eta ≤ 1) (hf : IsFloat eta) (S : List ℕ) (hn : S.sum ≤ 170) (N : ℤ) :
    CloseF (gccbLossySimulateR R sub U fuel eta S N) (gccbLossySimulate sub U fuel eta S N)
      (ENNReal.ofReal (N.toNat * ((10 * S.sum + 28) / 2 ^ 53))) := by
  unfold gccbLossySimulateR gccbLossySimulate
  exact CloseF.bind_right _ fun particles =>
    gccbLossyLoopR_close R sub U fuel S particles (by positivity) (leftR_close R S.sum hn h0 h1 hf) N.toNat

/-! ### Approximate sampling (BOBS) -/

/-- `choice` with the exception raised for `None`. -/
noncomputable def bobsDrawR (n : ℕ) (w : List ℝ) : Prog ℕ := do
  let x ← bobsChoiceR R (List.range (n + 1)) w
  match x with
  | none => .done (.error .typeError)
  | some x => pure x

theorem bobsDrawR_wp (n : ℕ) (eta : ℝ) (f : Py ℕ → ℝ≥0∞) :
    (bobsDrawR R n (gccbWeightsR R n eta)).wp f = ∑ l ∈ range (n + 2),
      ENNReal.ofReal (drawLaw (fun k => scanIndexR R ((k : ℝ) / 2 ^ 53) (gccbWeightsR R n eta) 0) l)
        * f (if l ≤ n then .ok l else .error .typeError) := by
  unfold bobsDrawR bobsChoiceR
  simp only [Prog.bind_eq, Prog.bind_assoc, Prog.pure_eq, Prog.done_ok_bind]
  refine drawLaw_wp _ (n + 2) (fun k _ => ?_) _ (fun l => f (if l ≤ n then .ok l else .error .typeError)) f fun k _ => ?_
  · have := scanIndexR_length_le R ((k : ℝ) / 2 ^ 53) 0 (gccbWeightsR R n eta)
    rw [length_gccbWeightsR] at this
    omega
  · generalize scanIndexR R ((k : ℝ) / 2 ^ 53) (gccbWeightsR R n eta) 0 = l
    by_cases hl : l ≤ n
    · rw [if_pos hl, List.getElem?_range (by omega)]; rfl
    · rw [if_neg hl, List.getElem?_eq_none (by simp; omega)]; rfl

/-- The error of one draw of the losses of a mode with `n` particles. -/
noncomputable def bobsErr (n : ℕ) : ℝ := (12 * n + 28) / 2 ^ 53

theorem one_sub_error {x : ℝ} (hx0 : 0 ≤ x) (hx1 : x ≤ 1) (hf : IsFloat x) : |R.rnd (1 - x) - (1 - x)| ≤ 1 / 2 ^ 53 := by
  by_cases h : (2 : ℝ) ^ (-1022 : ℤ) ≤ 1 - x
  · refine (R.error h).trans ?_
    gcongr
    linarith
  · push Not at h
    obtain ⟨a, ha⟩ := isFloat_one.multiple_min
    obtain ⟨b, rfl⟩ := hf.multiple_min
    have hf : IsFloat (1 - b * 2 ^ (-1074 : ℤ)) := by
      refine Rounding.isFloat_of_small (k := a - b) (by push_cast; rw [sub_mul, ← ha]) ?_
      rw [abs_of_nonneg (by linarith)]
      refine h.trans_le (zpow_le_zpow_right₀ (by norm_num) (by norm_num))
    rw [R.eq_self hf, sub_self, abs_zero]
    positivity

theorem bobsDrawR_close (n : ℕ) (hn : n ≤ 170) {losses : ℝ} (h0 : 0 ≤ losses) (h1 : losses ≤ 1) (hf : IsFloat losses) :
    CloseF (bobsDrawR R n (bobsWeightsR R losses n)) (bobsChoice (List.range (n + 1)) (gccbWeights n (1 - losses)))
      (ENNReal.ofReal (bobsErr n)) := by
  have g0 := R.nonneg (by linarith : 0 ≤ 1 - losses)
  have g1 := rnd_le_one R (by linarith : 1 - losses ≤ 1)
  rw [bobsWeightsR_eq]
  refine CloseF.of_sums (m := n + 2) (v := fun l => if l ≤ n then .ok l else .error .typeError) (bobsDrawR_wp R n _)
    (w := fun l => binomialWeight n l (1 - losses))
    (fun f => ?_) (fun l _ => drawLaw_nonneg _ l) (fun l _ => binomialWeight_nonneg n l (by linarith) (by linarith)) ?_
  · have hz : binomialWeight n (n + 1) (1 - losses) = 0 := by simp [binomialWeight]
    rw [bobsChoice_wp n (by linarith) (by linarith), sum_range_succ _ (n + 1), hz, ENNReal.ofReal_zero, zero_mul, add_zero]
    exact sum_congr rfl fun l hl => by rw [if_pos (by have := mem_range.mp hl; omega)]
  · have a := left_dist R n hn g0 g1 (R.isFloat (1 - losses))
    have b := binomial_dist n g0 g1 (by linarith : 0 ≤ 1 - losses) (by linarith)
    have hz : ∀ e : ℝ, binomialWeight n (n + 1) e = 0 := fun e => by simp [binomialWeight]
    have c := one_sub_error R h0 h1 hf
    set law := drawLaw (fun k => scanIndexR R ((k : ℝ) / 2 ^ 53) (gccbWeightsR R n (R.rnd (1 - losses))) 0) with hlaw
    have htri : ∑ l ∈ range (n + 2), |law l - binomialWeight n l (1 - losses)|
        ≤ ∑ l ∈ range (n + 2), |law l - binomialWeight n l (R.rnd (1 - losses))|
          + ∑ l ∈ range (n + 2), |binomialWeight n l (R.rnd (1 - losses)) - binomialWeight n l (1 - losses)| := by
      rw [← sum_add_distrib]
      exact sum_le_sum fun l _ => abs_sub_le _ _ _
    have hlast : ∑ l ∈ range (n + 2), |binomialWeight n l (R.rnd (1 - losses)) - binomialWeight n l (1 - losses)|
        = ∑ l ∈ range (n + 1), |binomialWeight n l (R.rnd (1 - losses)) - binomialWeight n l (1 - losses)| := by
      rw [sum_range_succ _ (n + 1), hz, hz, sub_zero, abs_zero, add_zero]
    have hd : 2 * (n : ℝ) * |R.rnd (1 - losses) - (1 - losses)| ≤ 2 * n * (1 / 2 ^ 53) :=
      mul_le_mul_of_nonneg_left c (by positivity)
    unfold bobsErr
    have : (12 * (n : ℝ) + 28) / 2 ^ 53 = (10 * n + 28) / 2 ^ 53 + 2 * n * (1 / 2 ^ 53) := by ring
    linarith

theorem bobsTableR_get (losses : ℝ) (mx a : ℕ) (h : a < mx) :
    assocGetPy (bobsTableR R losses mx) (a + 1) = .ok (bobsWeightsR R losses (a + 1)) := by
  refine assocGetPy_ok ?_
  unfold assocGet bobsTableR
  rw [find_range (fun j => bobsWeightsR R losses (j + 1)) mx a h]
  rfl

/-- The error of the losses of a state. -/
noncomputable def lossesErr (s : List ℕ) : ℝ := (12 * s.sum + 28 * s.length) / 2 ^ 53

theorem lossesErr_nonneg (s : List ℕ) : 0 ≤ lossesErr s := by unfold lossesErr; positivity

theorem lossesErr_cons (a : ℕ) (s : List ℕ) : lossesErr (a :: s) = bobsErr a + lossesErr s := by
  unfold lossesErr bobsErr
  rw [List.sum_cons, List.length_cons]
  push_cast
  ring

theorem bobsLossyModesR_succ (w : List (ℕ × List ℝ)) (a : ℕ) (s : List ℕ) :
    bobsLossyModesR R w ((a + 1) :: s) = (Prog.done (assocGetPy w (a + 1))).bind fun l => (bobsDrawR R (a + 1) l).bind fun x =>
      (bobsLossyModesR R w s).bind fun rest => .done (.ok (x :: rest)) := by
  rw [bobsLossyModesR]
  simp only [Prog.bind_eq, Prog.lift_def, Prog.pure_eq]
  congr 1
  funext l
  unfold bobsDrawR
  rw [Prog.bind_eq, Prog.bind_assoc]
  congr 1
  funext x
  cases x <;> rfl

theorem bobsLossyModesR_close {losses : ℝ} (h0 : 0 ≤ losses) (h1 : losses ≤ 1) (hf : IsFloat losses) (mx : ℕ)
    (s : List ℕ) (hs : ∀ x ∈ s, x ≤ mx) (hn : ∀ x ∈ s, x ≤ 170) :
    CloseF (bobsLossyModesR R (bobsTableR R losses mx) s) (bobsLossyModes (bobsWeights losses mx) s)
      (ENNReal.ofReal (lossesErr s)) := by
  induction s with
  | nil => exact (CloseF.refl _).mono zero_le
  | cons a s ih =>
    have ih := ih (fun x hx => hs x (by simp [hx])) fun x hx => hn x (by simp [hx])
    cases a with
    | zero =>
      rw [bobsLossyModesR, bobsLossyModes]
      refine (ih.bind_left _).mono (ENNReal.ofReal_le_ofReal ?_)
      rw [lossesErr_cons]
      have : 0 ≤ bobsErr 0 := by unfold bobsErr; positivity
      linarith
    | succ a =>
      have hle := hs (a + 1) (by simp)
      rw [bobsLossyModesR_succ, bobsLossyModes, bobsWeights_get _ _ _ (by omega), bobsTableR_get _ _ _ _ (by omega),
        lossesErr_cons, ENNReal.ofReal_add (by unfold bobsErr; positivity) (lossesErr_nonneg s)]
      simp only [Prog.lift_def, Prog.bind_eq, Prog.done_ok_bind]
      exact (bobsDrawR_close R (a + 1) (hn _ (by simp)) h0 h1 hf).bind' fun x => ih.bind_left _

theorem bobsLossyInputR_close {losses : ℝ} (h0 : 0 ≤ losses) (h1 : losses ≤ 1) (hf : IsFloat losses) (mx : ℕ)
    (s : List ℕ) (hs : ∀ x ∈ s, x ≤ mx) (hn : ∀ x ∈ s, x ≤ 170) :
    CloseF (bobsLossyInputR R losses (bobsTableR R losses mx) s) (bobsLossyInput losses (bobsWeights losses mx) s)
      (ENNReal.ofReal (lossesErr s)) := by
  unfold bobsLossyInputR bobsLossyInput
  split
  · exact (CloseF.refl _).mono zero_le
  · exact bobsLossyModesR_close R h0 h1 hf mx s hs hn

theorem bobsPrepareR_ok {m : ℕ} (o : BobsObj m) (S : List ℕ) (hne : S ≠ []) (hk : o.k ≤ S.length) :
    ∃ mx, (∀ x ∈ S, x ≤ mx) ∧ o.number + (S.take o.k).sum ≤ mx ∧
      bobsPrepare o S = .ok { o with
        state := List.replicate o.k 0 ++ S.drop o.k, number := o.number + (S.take o.k).sum,
        weights := bobsWeights o.losses mx } ∧
      bobsPrepareR R o S = .ok { o with
        state := List.replicate o.k 0 ++ S.drop o.k, number := o.number + (S.take o.k).sum,
        weights := bobsTableR R o.losses mx } := by
  obtain ⟨mx, h1, h2, h3⟩ := pyMaxN_ok S hne
  refine ⟨max mx (o.number + (S.take o.k).sum), fun x hx => (h2 x hx).trans (le_max_left _ _), le_max_right _ _, ?_, ?_⟩
  · unfold bobsPrepare
    simp only
    rw [bobsPrepare_loop S o.k hk o, h1]
    rfl
  · unfold bobsPrepareR
    simp only
    rw [bobsPrepare_loop S o.k hk o, h1]
    rfl

theorem entry_le_sum {l : List ℕ} {x : ℕ} (h : x ∈ l) : x ≤ l.sum := List.single_le_sum (by simp) x h

/-- One sample. -/
theorem bobsSampleR_close {m : ℕ} (svd : Matrix (Fin m) (Fin m) ℂ → Svd m) (sub : CalcCfg ℂ → Py (List ℂ)) (fuel : ℕ)
    (o : BobsObj m) (h0 : 0 ≤ o.losses) (h1 : o.losses ≤ 1) (hf : IsFloat o.losses) (S : List ℕ) (mx : ℕ)
    (hmx : ∀ x ∈ S, x ≤ mx) (hmx' : o.number + (S.take o.k).sum ≤ mx) (hk : o.k ≤ S.length)
    (hn : o.number + S.sum ≤ 170) :
    CloseF (bobsSampleR R svd sub fuel { o with
        state := List.replicate o.k 0 ++ S.drop o.k, number := o.number + (S.take o.k).sum,
        weights := bobsTableR R o.losses mx })
      (bobsSample svd sub fuel { o with
        state := List.replicate o.k 0 ++ S.drop o.k, number := o.number + (S.take o.k).sum,
        weights := bobsWeights o.losses mx })
      (ENNReal.ofReal ((12 * (o.number + S.sum) + 28 * S.length) / 2 ^ 53)) := by
  have hsplit : S.sum = (S.take o.k).sum + (S.drop o.k).sum := by
    conv_lhs => rw [← List.take_append_drop o.k S, List.sum_append]
  have key : ∀ st : List ℕ, (∀ x ∈ st, x ≤ mx) → st.sum ≤ o.number + S.sum → st.length = S.length →
      CloseF (bobsLossyInputR R o.losses (bobsTableR R o.losses mx) st) (bobsLossyInput o.losses (bobsWeights o.losses mx) st)
        (ENNReal.ofReal ((12 * (o.number + S.sum) + 28 * S.length) / 2 ^ 53)) := by
    intro st hst hsum hlen
    refine (bobsLossyInputR_close R h0 h1 hf mx st hst fun x hx => (entry_le_sum hx).trans (hsum.trans hn)).mono
      (ENNReal.ofReal_le_ofReal ?_)
    unfold lossesErr
    rw [hlen]
    have : (st.sum : ℝ) ≤ o.number + S.sum := by exact_mod_cast hsum
    gcongr
  have hstate : ∀ x ∈ List.replicate o.k 0 ++ S.drop o.k, x ≤ mx := by
    intro x hx
    rcases List.mem_append.mp hx with hx | hx
    · rw [List.eq_of_mem_replicate hx]; omega
    · exact hmx x (List.mem_of_mem_drop hx)
  unfold bobsSampleR bobsSample
  refine CloseF.bind_right_all _ (I := fun st => (∀ x ∈ st, x ≤ mx) ∧ st.sum ≤ o.number + S.sum ∧ st.length = S.length)
    (E := fun _ => True) ?_ fun st hst => (key st hst.1 hst.2.1 hst.2.2).bind_left _
  simp only
  split
  · refine Prog.all_bind (Prog.all_randint (fun _ => trivial) fun i hi => Prog.all_done_ok hi) fun i hi => ?_
    have hlt : i < (List.replicate o.k 0 ++ S.drop o.k).length := by simp; omega
    rw [pySetN_ok hlt]
    refine Prog.all_done_ok ⟨fun x hx => ?_, ?_, by simp; omega⟩
    · rcases List.mem_or_eq_of_mem_set hx with hx | rfl
      · exact hstate x hx
      · exact hmx'
    · rw [List.set_append_left _ _ (by simpa using hi), List.sum_append]
      have : ((List.replicate o.k 0).set i (o.number + (S.take o.k).sum)).sum = o.number + (S.take o.k).sum := by
        rw [List.sum_set]
        simp [hi]
      omega
  · refine Prog.all_done_ok ⟨hstate, ?_, by simp; omega⟩
    rw [List.sum_append]
    simp
    omega

theorem bobsTaskR_close {m : ℕ} (svd : Matrix (Fin m) (Fin m) ℂ → Svd m) (sub : CalcCfg ℂ → Py (List ℂ)) (fuel : ℕ)
    {o o' : BobsObj m} {e : ℝ} (he : 0 ≤ e)
    (h : CloseF (bobsSampleR R svd sub fuel o) (bobsSample svd sub fuel o') (ENNReal.ofReal e)) (n : ℕ) :
    CloseF (bobsTaskR R svd sub fuel o n) (bobsTask svd sub fuel o' n) (ENNReal.ofReal (n * e)) := by
  induction n with
  | zero => exact (CloseF.refl _).mono zero_le
  | succ n ih =>
    rw [bobsTaskR, bobsTask]
    have := h.bind' (g := fun s => (bobsTaskR R svd sub fuel o n).bind fun l => .done (.ok (s :: l)))
      (g' := fun s => (bobsTask svd sub fuel o' n).bind fun l => .done (.ok (s :: l)))
      (δ := ENNReal.ofReal (n * e)) fun s => ih.bind_left _
    refine this.mono (le_of_eq ?_)
    rw [← ENNReal.ofReal_add he (by positivity)]
    congr 1
    push_cast
    ring

theorem bobsPoolR_close {m : ℕ} (svd : Matrix (Fin m) (Fin m) ℂ → Svd m) (sub : CalcCfg ℂ → Py (List ℂ)) (fuel : ℕ)
    {o o' : BobsObj m} {e : ℝ} (he : 0 ≤ e)
    (h : CloseF (bobsSampleR R svd sub fuel o) (bobsSample svd sub fuel o') (ENNReal.ofReal e)) (ns : List ℕ) :
    CloseF (bobsPoolR R svd sub fuel o ns) (bobsPool svd sub fuel o' ns) (ENNReal.ofReal (ns.sum * e)) := by
  induction ns with
  | nil => exact (CloseF.refl _).mono zero_le
  | cons n ns ih =>
    rw [bobsPoolR, bobsPool]
    have := (bobsTaskR_close R svd sub fuel he h n).bind'
      (g := fun l => (bobsPoolR R svd sub fuel o ns).bind fun ls => .done (.ok (l ++ ls)))
      (g' := fun l => (bobsPool svd sub fuel o' ns).bind fun ls => .done (.ok (l ++ ls)))
      (δ := ENNReal.ofReal (ns.sum * e)) fun s => ih.bind_left _
    refine this.mono (le_of_eq ?_)
    rw [← ENNReal.ofReal_add (by positivity) (by positivity)]
    congr 1
    rw [List.sum_cons, Nat.cast_add]
    ring

theorem bobsSimulateR_close {m : ℕ} (svd : Matrix (Fin m) (Fin m) ℂ → Svd m) (sub : CalcCfg ℂ → Py (List ℂ)) (fuel : ℕ)
    (o : BobsObj m) (h0 : 0 ≤ o.losses) (h1 : o.losses ≤ 1) (hf : IsFloat o.losses) (ht : 0 < o.threads) (S : List ℕ)
    (hne : S ≠ []) (hk : o.k ≤ S.length) (hn : o.number + S.sum ≤ 170) (N : ℤ) :
    CloseF (bobsSimulateR R svd sub fuel o S N) ((bobsSimulate svd sub fuel o S N).bind fun r => .done (.ok r.1))
      (ENNReal.ofReal ((o.threads * (N.toNat / o.threads + 1) : ℕ) * ((12 * (o.number + S.sum) + 28 * S.length) / 2 ^ 53))) := by
  unfold bobsSimulateR bobsSimulate
  split
  · exact (CloseF.refl _).mono zero_le
  · obtain ⟨mx, e1, e2, e3, e4⟩ := bobsPrepareR_ok R o S hne hk
    rw [e3, e4]
    simp only [Prog.lift_def, Prog.bind_eq, Prog.done_ok_bind, Prog.pure_eq, Prog.bind_assoc]
    have := bobsPoolR_close R svd sub fuel (by positivity) (bobsSampleR_close R svd sub fuel o h0 h1 hf S mx e1 e2 hk hn)
      (bobsSplit o.threads N.toNat)
    rw [bobsSplit_sum _ _ ht] at this
    have e : ∀ p : Prog (List (List ℕ)), (p.bind fun a => .done (.ok a)) = p := by
      intro p
      induction p with
      | done r => cases r <;> rfl
      | uniform k ih => simp only [Prog.bind, ih]
      | randint n k ih => simp only [Prog.bind, ih]
      | choice p k ih => simp only [Prog.bind, ih]
      | shuffle n k ih => simp only [Prog.bind, ih]
    rw [e]
    exact this

/-! ### Fixed losses -/

theorem fixedPhotonsR_succ {p : ℝ} {ps : List ℝ} (k : ℕ) (out : List ℕ) (ho : out.length = (p :: ps).length) :
    fixedPhotonsR R (p :: ps) (k + 1) out
      = randomR.bind fun x => fixedPhotonsR R (p :: ps) k (out.modify (scanReachR R x ps p) (· + 1)) := by
  rw [fixedPhotonsR]
  simp only [Prog.bind_eq, Prog.lift_def, Prog.done_ok_bind]
  congr 1
  funext x
  have hle := scanReachR_le R x p ps
  by_cases h : (p :: ps).length = scanReachR R x ps p
  · rw [if_neg (by simpa using h), List.modify_eq_self (by omega)]
  · rw [if_pos (by simpa using h)]
    have hlt : scanReachR R x ps p < out.length := by
      rw [List.length_cons] at h ho; omega
    rw [pyGetN_ok hlt, Prog.done_ok_bind, pySetN_ok hlt, Prog.done_ok_bind, set_eq_modify _ _ hlt]

/-- One photon: the law of the mode for computed probabilities `P` at distance `d` from the probabilities `q`. -/
theorem photonR_close {P q : List ℝ} (hW : Weights P) (hne : P ≠ []) (hlen : q.length = P.length)
    (hq : ∀ x ∈ q, 0 ≤ x) (hqs : q.sum ≤ 1) {d : ℝ} (hd : ∑ i ∈ range P.length, |P.getD i 0 - q.getD i 0| ≤ d)
    (hd2 : d ≤ 1 / 2) (hm : P.length ≤ 2 ^ 50) :
    CloseF (randomR.bind fun x => .done (.ok (scanReachR R x P.tail (P.headD 0))))
      (.uniform fun x => .done (.ok (scanReach x q 0))) (ENNReal.ofReal (14 * P.length / 2 ^ 53 + 4 * d)) := by
  obtain ⟨p, ps, rfl⟩ : ∃ p ps, P = p :: ps := by
    cases P with
    | nil => exact absurd rfl hne
    | cons p ps => exact ⟨p, ps, rfl⟩
  set m := (p :: ps).length with hmdef
  simp only [List.tail_cons, List.headD_cons]
  have hd0 : 0 ≤ d := (sum_nonneg fun i _ => abs_nonneg _).trans hd
  set law := drawLaw (fun k => scanReachR R ((k : ℝ) / 2 ^ 53) ps p) with hlaw
  have hP : (p :: ps).sum ≤ 1 + d := by
    have h1 : (p :: ps).sum - q.sum ≤ d := by
      rw [list_sum_getD (p :: ps), list_sum_getD q, hlen, ← sum_sub_distrib]
      exact (sum_le_sum fun i _ => le_abs_self _).trans hd
    linarith
  have hmR : (m : ℝ) ≤ 2 ^ 50 := by exact_mod_cast hm
  have hr := rho_pow_le (k := m) (hm.trans (by norm_num))
  have hr1 := one_le_rho_pow m
  have hq4 : 2 * (m : ℝ) / 2 ^ 53 ≤ 1 / 4 := by
    rw [div_le_iff₀ (by positivity), show (2 : ℝ) ^ 53 = 8 * 2 ^ 50 by norm_num]
    linarith
  have hsum := (sumR_within R hW).1
  rw [← hmdef] at hsum
  have hPs := hW.sum_nonneg
  have hsR : sumR R (p :: ps) ≤ 1 + d + 3 * m / 2 ^ 53 := by
    have h1 : (rho ^ m - 1) * (p :: ps).sum ≤ 2 * m / 2 ^ 53 * (3 / 2) :=
      mul_le_mul hr (by linarith) hPs (by positivity)
    have h2 : 2 * (m : ℝ) / 2 ^ 53 * (3 / 2) = 3 * m / 2 ^ 53 := by ring
    nlinarith
  have hs2 : sumR R (p :: ps) ≤ 2 := by
    have : 3 * (m : ℝ) / 2 ^ 53 = 3 / 2 * (2 * m / 2 ^ 53) := by ring
    nlinarith
  have hdist := (scanReachR_dist R hW hs2).1
  rw [← hmdef, ← hlaw] at hdist
  have hmax : max 0 (sumR R (p :: ps) - 1) ≤ d + 3 * m / 2 ^ 53 := max_le (by positivity) (by linarith)
  have htri : ∑ i ∈ range m, |law i - q.getD i 0|
      ≤ ∑ i ∈ range m, |law i - (p :: ps).getD i 0| + ∑ i ∈ range m, |(p :: ps).getD i 0 - q.getD i 0| := by
    rw [← sum_add_distrib]
    exact sum_le_sum fun i _ => abs_sub_le _ _ _
  have hA : ∑ i ∈ range m, |law i - q.getD i 0| ≤ 7 * m / 2 ^ 53 + 2 * d := by
    have : 7 * (m : ℝ) / 2 ^ 53 = 4 * m / 2 ^ 53 + 3 * m / 2 ^ 53 := by ring
    linarith
  have hw : ∀ i < m, (withLoss q).getD i 0 = q.getD i 0 := by
    intro i hi
    rw [withLoss, List.getD_append _ _ _ _ (by omega)]
  have hwl : (withLoss q).getD m 0 = 1 - q.sum := by
    rw [withLoss, List.getD_append_right _ _ _ _ (by omega), hlen]
    simp
  have hbelow : ∀ j, drawBelow (fun k => scanReachR R ((k : ℝ) / 2 ^ 53) ps p) j = ∑ i ∈ range j, law i := by
    intro j
    induction j with
    | zero => rw [drawBelow_zero]; simp
    | succ j ih => rw [drawBelow_succ, sum_range_succ, ih]
  have hle : ∀ k : ℕ, k < 2 ^ 53 → scanReachR R ((k : ℝ) / 2 ^ 53) ps p < m + 1 := by
    intro k _
    have := scanReachR_le R ((k : ℝ) / 2 ^ 53) p ps
    rw [hmdef, List.length_cons]
    omega
  have hlast : |law m - (withLoss q).getD m 0| ≤ ∑ i ∈ range m, |law i - q.getD i 0| := by
    have h1 := hbelow (m + 1)
    rw [drawBelow_all _ _ hle, sum_range_succ] at h1
    have h2 : law m - (withLoss q).getD m 0 = ∑ i ∈ range m, (q.getD i 0 - law i) := by
      rw [sum_sub_distrib, ← hlen, ← list_sum_getD q, hlen, hwl]
      linarith
    rw [h2]
    refine (abs_sum_le_sum_abs _ _).trans (le_of_eq (sum_congr rfl fun i _ => abs_sub_comm _ _))
  refine CloseF.of_sums (m := m + 1) (v := fun i => .ok i) (law := law) (w := fun i => (withLoss q).getD i 0)
    (fun f => drawLaw_wp _ (m + 1) hle _ (fun i => f (.ok i)) f fun k _ => rfl) (fun f => ?_) (fun i _ => drawLaw_nonneg _ i)
    (fun i hi => ?_) ?_
  · have := reach_uniform q hq hqs (fun i => f (.ok i))
    rw [hlen] at this
    exact this
  · rcases Nat.lt_succ_iff_lt_or_eq.mp hi with h | rfl
    · rw [hw i h, getD_of_lt _ _ (by omega)]
      exact hq _ (List.getElem_mem _)
    · rw [hwl]; linarith
  · rw [sum_range_succ, sum_congr rfl fun i hi => by rw [hw i (mem_range.mp hi)]]
    have : 14 * (m : ℝ) / 2 ^ 53 + 4 * d = 2 * (7 * m / 2 ^ 53 + 2 * d) := by ring
    linarith

theorem fixedPhotonsR_close {P q : List ℝ} (hW : Weights P) (hne : P ≠ []) (hlen : q.length = P.length)
    (hq : ∀ x ∈ q, 0 ≤ x) (hqs : q.sum ≤ 1) {d : ℝ} (hd : ∑ i ∈ range P.length, |P.getD i 0 - q.getD i 0| ≤ d)
    (hd2 : d ≤ 1 / 2) (hm : P.length ≤ 2 ^ 50) (k : ℕ) (out : List ℕ) (ho : out.length = P.length) :
    CloseF (fixedPhotonsR R P k out) (fixedPhotons (.vals q) k out)
      (ENNReal.ofReal (k * (14 * P.length / 2 ^ 53 + 4 * d))) := by
  have hd0 : 0 ≤ d := (sum_nonneg fun i _ => abs_nonneg _).trans hd
  induction k generalizing out with
  | zero => exact (CloseF.refl _).mono zero_le
  | succ k ih =>
    have h1 := photonR_close R hW hne hlen hq hqs hd hd2 hm
    have h2 := h1.bind' (g := fun i => fixedPhotonsR R P k (out.modify i (· + 1)))
      (g' := fun i => fixedPhotons (.vals q) k (out.modify i (· + 1))) (δ := ENNReal.ofReal (k * (14 * P.length / 2 ^ 53 + 4 * d)))
      fun i => ih (out.modify i (· + 1)) (by simpa using ho)
    rw [fixedPhotons_succ q (by rintro rfl; exact hne (List.length_eq_zero_iff.mp hlen.symm)) k out (by omega)]
    obtain ⟨p, ps, rfl⟩ : ∃ p ps, P = p :: ps := by
      cases P with
      | nil => exact absurd rfl hne
      | cons p ps => exact ⟨p, ps, rfl⟩
    rw [fixedPhotonsR_succ R k out ho]
    rw [Prog.bind_assoc] at h2
    refine CloseF.mono h2 (le_of_eq ?_)
    rw [← ENNReal.ofReal_add (by positivity) (by positivity)]
    congr 1
    push_cast
    ring

end Verif
