import Verif.Proofs.RoundedFixed
import Verif.Proofs.SamplerMemory
import Verif.Proofs.RoundedEntriesB
import Verif.Proofs.RoundedRuns

/-! Helper lemmas: the uniform-loss sampler and networks in floating-point arithmetic. -/
namespace Verif

open Finset Prog Matrix
open scoped ENNReal

variable (R : Rounding) (C : ComplexArith) (Φ : PhaseArith) {m : ℕ}

/-! ### Shapes -/

theorem fixedPhotonsR_shape {probs : List ℝ} (hne : probs ≠ []) (k : ℕ)
    (output : List ℕ) (hl : output.length = probs.length) :
    (fixedPhotonsR R probs k output).All (fun out => out.length = output.length ∧ out.sum ≤ output.sum + k)
      (fun _ => False) := by
  cases probs with
  | nil => exact absurd rfl hne
  | cons p ps =>
    induction k generalizing output with
    | zero => exact Prog.all_done_ok ⟨rfl, le_rfl⟩
    | succ k ih =>
      rw [fixedPhotonsR]
      refine all_randomR fun u hu => ?_
      simp only [Prog.bind_eq, Prog.lift_def, Prog.done_ok_bind]
      have hr := scanReachR_le R u p ps
      by_cases hle : scanReachR R u ps p ≤ ps.length
      · have e := fixedPhotonsR_hit R hl (scanReachR R u ps p) k hle
        simp only [Prog.bind_eq, Prog.lift_def] at e
        rw [e]
        refine Prog.all_mono (ih _ (by simpa using hl)) (fun out ho => ⟨by simpa using ho.1, ?_⟩) fun _ h => h
        have := ho.2
        rw [modify_sum _ _ (by rw [hl, List.length_cons]; omega)] at this
        omega
      · rw [if_neg (by rw [List.length_cons]; omega)]
        exact Prog.all_mono (ih _ hl) (fun out ho => ⟨ho.1, by omega⟩) fun _ h => h

theorem randVecR_all (n : ℕ) :
    (randVecR n).All (fun us => us.length = n ∧ ∀ u ∈ us, IsRandom u) fun _ => False := by
  induction n with
  | zero => exact Prog.all_done_ok ⟨rfl, by simp⟩
  | succ n ih =>
    rw [randVecR]
    refine all_randomR fun u hu => ?_
    refine Prog.all_bind ih fun us hus => Prog.all_done_ok ⟨by simp [hus.1], ?_⟩
    intro x hx
    rcases List.mem_cons.mp hx with rfl | hx
    · exact hu
    · exact hus.2 x hx

theorem fixedSampleR_all {A : Matrix (Fin m) (Fin m) ℂ} {net : List ℂ → Py (List ℂ)} {ε : ℝ} (hnet : NetworkNear net A ε)
    (hm0 : 0 < m) (hm : m ≤ 2 ^ 40) (k : ℤ) (S : List ℕ) :
    (fixedSampleR R C Φ net m k S).All (fun T => T.length = m ∧ T.sum ≤ k.toNat) fun _ => False := by
  unfold fixedSampleR
  refine Prog.all_bind (randVecR_all m) fun us hus => ?_
  unfold preparedStateR
  by_cases h0 : S.sum = 0
  · simp only [h0, if_true]
    obtain ⟨y, h1, -⟩ := hnet (fun _ => 0) (by simp)
    rw [List.ofFn_const] at h1
    rw [h1]
    simp only [Prog.lift_def, Prog.bind_eq, Prog.done_ok_bind]
    rw [List.length_ofFn, fixedOutcome]
    obtain ⟨n, rfl⟩ : ∃ n, m = n + 1 := ⟨m - 1, by omega⟩
    refine Prog.all_mono (fixedPhotons_nan n k.toNat _ (by simp)) ?_ fun _ h => h
    rintro T rfl
    have : ((List.replicate (n + 1) 0).modify 0 (· + k.toNat)).sum = k.toNat := by
      simp [List.replicate_succ]
    exact ⟨by simp, this.le⟩
  · simp only [h0, if_false]
    obtain ⟨us', rfl⟩ : ∃ us' : Fin m → ℝ, us = List.ofFn us' :=
      ⟨fun i => us[i]'(by rw [hus.1]; exact i.2), by
        refine List.ext_getElem (by simp [hus.1]) fun i h1 h2 => by simp⟩
    have hcell : ∀ i, CellOf (us' i) (us' i) := fun i =>
      ⟨hus.2 _ (by simp), le_rfl, by have : (0 : ℝ) < 1 / 2 ^ 53 := by positivity
                                     linarith⟩
    obtain ⟨x', hx, hx2, -⟩ := state_close R C Φ hm (Nat.one_le_iff_ne_zero.mpr h0) hcell
    obtain ⟨y, hy, -⟩ := hnet x' hx2
    rw [hx, hy]
    simp only [Prog.lift_def, Prog.bind_eq, Prog.done_ok_bind]
    have hl : (modeProbabilitiesR Φ (List.ofFn y)).length = m := by simp [modeProbabilitiesR]
    refine Prog.all_mono (fixedPhotonsR_shape R (fun h => by rw [h] at hl; simp at hl; omega) k.toNat (List.replicate m 0)
      (by simp [hl])) (fun T hT => ⟨by simpa using hT.1, by simpa using hT.2⟩) fun _ h => h

/-! ### The number of particles left -/

theorem separableWeightsR_eq (n : ℕ) (eta : ℝ) : separableWeightsR R n eta = gccbWeightsR R n eta := by
  unfold separableWeightsR gccbWeightsR
  refine List.map_congr_left fun l _ => ?_
  rw [mul_comm (R.rnd (eta ^ l))]

/-- The sum of the weights. -/
theorem gccbWeightsR_facts (n : ℕ) (hn : n ≤ 170) {eta : ℝ} (h0 : 0 ≤ eta) (h1 : eta ≤ 1) (hf : IsFloat eta) :
    3 / 4 ≤ sumR R (gccbWeightsR R n eta) ∧ sumR R (gccbWeightsR R n eta) ≤ 2 ∧
      |(gccbWeightsR R n eta).sum - 1| ≤ 1 / 2 ^ 27 := by
  have hlen := length_gccbWeightsR R n eta
  have hn' : (n : ℝ) ≤ 170 := by exact_mod_cast hn
  have hsum := gccbWeightsR_sum R n hn h0 h1 hf
  have hdist := gccbWeightsR_dist R n hn h0 h1 hf
  have hb : ∀ a b : ℝ, a ≤ 4 → b ≤ 100 → (a * (n : ℝ) + b) / 2 ^ 53 ≤ 1 / 2 ^ 27 := by
    intro a b ha hb
    rw [div_le_iff₀ (by positivity)]
    have : a * (n : ℝ) ≤ 4 * n := mul_le_mul_of_nonneg_right ha (Nat.cast_nonneg n)
    norm_num
    linarith
  have h27 : (1 : ℝ) / 2 ^ 27 ≤ 1 / 4 := by norm_num
  have hLd := hsum.trans ((hb 4 13 le_rfl (by norm_num)).trans h27)
  obtain ⟨hL1, hL2⟩ := abs_le.mp hLd
  refine ⟨by linarith, by linarith, ?_⟩
  have hws : (gccbWeightsR R n eta).sum = ∑ l ∈ range (n + 1), (gccbWeightsR R n eta).getD l 0 := by
    rw [← hlen, list_sum_getD]
  refine le_trans ?_ (hdist.trans (hb 2 11 (by norm_num) (by norm_num)))
  rw [hws, ← binomialWeight_sum n eta, ← sum_sub_distrib]
  exact abs_sum_le_sum_abs _ _

theorem categorical_wp (n : ℕ) {eta : ℝ} (h0 : 0 ≤ eta) (h1 : eta ≤ 1) (f : Py ℕ → ℝ≥0∞) :
    (Prog.categorical (separableWeights n eta)).wp f
      = ∑ l ∈ range (n + 1), ENNReal.ofReal (binomialWeight n l eta) * f (.ok l) := by
  rw [Prog.categorical, Prog.wp, if_pos (separableWeights_prob n h0 h1)]
  have e : (separableWeights n eta).length = n + 1 := by rw [separableWeights_eq, gccbWeights_length]
  rw [e]
  refine sum_congr rfl fun l hl => ?_
  have hl := mem_range.mp hl
  have e2 : (separableWeights n eta).getD l 0 = binomialWeight n l eta := by
    rw [getD_of_lt _ _ (by omega)]
    simp only [separableWeights, List.getElem_map, List.getElem_range, binomialWeight]
    ring
  rw [e2]
  rfl

theorem npLeft_close (n : ℕ) (hn : n ≤ 170) {eta : ℝ} (h0 : 0 ≤ eta) (h1 : eta ≤ 1) (hf : IsFloat eta) :
    CloseF (npChoiceR R (n + 1) (separableWeightsR R n eta)) (Prog.categorical (separableWeights n eta))
      (ENNReal.ofReal ((18 * n + 45) / 2 ^ 53)) := by
  rw [separableWeightsR_eq]
  set w := gccbWeightsR R n eta with hw
  have hW : Weights w := gccbWeightsR_weights R n h0 h1
  have hlen : w.length = n + 1 := length_gccbWeightsR R n eta
  have hsum := gccbWeightsR_sum R n hn h0 h1 hf
  have hdist := gccbWeightsR_dist R n hn h0 h1 hf
  obtain ⟨hL1, hL2, hs27⟩ := gccbWeightsR_facts R n hn h0 h1 hf
  rw [← hw] at hsum hdist hL1 hL2 hs27
  have h27 : (1 : ℝ) / 2 ^ 27 ≤ 1 / 4 := by norm_num
  have hws : w.sum = ∑ l ∈ range (n + 1), w.getD l 0 := by rw [← hlen, list_sum_getD]
  refine CloseF.of_sums (m := n + 1) (v := fun l => .ok l)
    (law := drawLaw (fun k => searchRight ((k : ℝ) / 2 ^ 53) (npCdf R w))) (w := fun l => binomialWeight n l eta)
    (fun f => ?_) (fun f => ?_) (fun l _ => drawLaw_nonneg _ l) (fun l _ => binomialWeight_nonneg n l h0 h1) ?_
  · have := npChoiceR_wp R hW (by linarith) (by omega) hlen (by omega) hs27 (fun j => (.done (.ok j) : Prog ℕ)) f
    rw [show (npChoiceR R (n + 1) w).bind (fun j => .done (.ok j)) = npChoiceR R (n + 1) w from bind_pure_prog _] at this
    rw [this]
    rfl
  · exact categorical_wp n h0 h1 f
  · have hd := npChoice_dist R hW (by linarith) (fun h => by rw [h] at hlen; simp at hlen) (by linarith)
    rw [hlen] at hd
    set law := drawLaw (fun k => searchRight ((k : ℝ) / 2 ^ 53) (npCdf R w)) with hlaw
    set L := sumR R w with hL
    have h2 : ∑ l ∈ range (n + 1), |w.getD l 0 / L - w.getD l 0| ≤ 2 * ((4 * n + 13) / 2 ^ 53) := by
      have hL0 : 0 < L := by linarith
      have e : ∀ l, |w.getD l 0 / L - w.getD l 0| = |w.getD l 0| * (|L - 1| / L) := by
        intro l
        have : w.getD l 0 / L - w.getD l 0 = w.getD l 0 * (-(L - 1) / L) := by field_simp; ring
        rw [this, abs_mul, abs_div, abs_neg, abs_of_pos hL0]
      simp only [e]
      rw [← sum_mul]
      have e3 : ∑ l ∈ range (n + 1), |w.getD l 0| = w.sum := by
        rw [hws]
        refine sum_congr rfl fun l hl => abs_of_nonneg ?_
        rw [getD_of_lt _ _ (by rw [hlen]; exact mem_range.mp hl)]
        exact (hW _ (List.getElem_mem _)).2
      rw [e3]
      have hw2 : w.sum ≤ 3 / 2 := by have := (abs_le.mp hs27).2; linarith
      have hw0 : 0 ≤ w.sum := List.sum_nonneg fun x hx => (hW x hx).2
      calc w.sum * (|L - 1| / L) ≤ 3 / 2 * ((4 * n + 13) / 2 ^ 53 / (3 / 4)) := by
            refine mul_le_mul hw2 ?_ (by positivity) (by norm_num)
            exact div_le_div₀ (by positivity) hsum (by norm_num) (by linarith)
        _ = _ := by ring
    have htri : ∑ l ∈ range (n + 1), |law l - binomialWeight n l eta|
        ≤ ∑ l ∈ range (n + 1), |law l - w.getD l 0 / L| + ∑ l ∈ range (n + 1), |w.getD l 0 / L - w.getD l 0|
          + ∑ l ∈ range (n + 1), |w.getD l 0 - binomialWeight n l eta| := by
      rw [← sum_add_distrib, ← sum_add_distrib]
      exact sum_le_sum fun l _ => (abs_sub_le _ _ _).trans (add_le_add_left (abs_sub_le _ _ _) _)
    have : (18 * (n : ℝ) + 45) / 2 ^ 53
        = 8 * ((n + 1 : ℕ) : ℝ) / 2 ^ 53 + 2 * ((4 * n + 13) / 2 ^ 53) + (2 * n + 11) / 2 ^ 53 := by
      push_cast; ring
    linarith

/-! ### Uniform losses -/

/-- One sample of the uniform-loss sampler. -/
noncomputable def uniformSampleR (net : List ℂ → Py (List ℂ)) (M : ℕ) (eta : ℝ) (S : List ℕ) : Prog (List ℕ) :=
  (npChoiceR R (S.sum + 1) (separableWeightsR R S.sum eta)).bind fun l => fixedSampleR R C Φ net M l S

theorem fixedFirstR (net : List ℂ → Py (List ℂ)) (M : ℕ) (k : ℤ) (S : List ℕ) :
    ((fixedSimulateR R C Φ net M k S 1).bind fun res => .done (pyGetN res 0)) = fixedSampleR R C Φ net M k S := by
  rw [fixedSimulateR, fixedLoopR_eq, show (1 : ℤ).toNat = 1 from rfl, Prog.repeatN, Prog.repeatN, Prog.bind_eq,
    Prog.bind_assoc]
  exact bind_pure_prog _

theorem uniformLoopR_eq (net : List ℂ → Py (List ℂ)) (M : ℕ) (eta : ℝ) (S : List ℕ) (n : ℕ) :
    uniformLoopR R C Φ net M eta S n = (uniformSampleR R C Φ net M eta S).repeatN n := by
  induction n with
  | zero => rfl
  | succ n ih =>
    rw [uniformLoopR, ih, Prog.repeatN, uniformSampleR]
    simp only [Prog.bind_eq, Prog.pure_eq, Prog.lift_def, Prog.bind_assoc]
    congr 1
    funext l
    rw [← fixedFirstR, Prog.bind_assoc, ← uniformSampleR]

theorem categorical_runs (n : ℕ) {eta : ℝ} {l : ℕ} (h : (Prog.categorical (separableWeights n eta)).Runs (.ok l)) :
    l ≤ n := by
  rcases h with ⟨_, h⟩ | ⟨_, i, hi, _, h⟩
  · cases h
  · cases h
    rw [separableWeights_eq, gccbWeights_length] at hi
    omega

theorem uniformSampleR_close {A : Matrix (Fin m) (Fin m) ℂ} (d : Svd m) (hd : IsSvd A d) (hs : ∀ i, d.s i ≤ 1)
    {net net' : List ℂ → Py (List ℂ)} (hex : NetworkOf net A) {ε : ℝ} (hnet : NetworkNear net' A ε) (h0 : 0 ≤ ε)
    (hm0 : 0 < m) (hm : m ≤ 2 ^ 40) {eta : ℝ} (he0 : 0 ≤ eta) (he1 : eta ≤ 1) (hf : IsFloat eta) (S : List ℕ)
    (hS : 1 ≤ S.sum) (hn : S.sum ≤ 170) :
    CloseF (uniformSampleR R C Φ net' m eta S) (uniformSample net m eta S)
      (ENNReal.ofReal ((18 * S.sum + 45) / 2 ^ 53 + fixedErr ε m S.sum)) := by
  have e : uniformSample net m eta S
      = (Prog.categorical (separableWeights S.sum eta)).bind fun l => fixedSample net m l S := rfl
  rw [uniformSampleR, e, ENNReal.ofReal_add (by positivity) (fixedErr_nonneg h0 _ _)]
  refine (npLeft_close R S.sum hn he0 he1 hf).bind (I := fun l => l ≤ S.sum) (fun l hl => categorical_runs _ hl) fun l hl => ?_
  refine (fixedSampleR_close R C Φ d hd hs hex hnet h0 hm0 hm l S hS).mono (ENNReal.ofReal_le_ofReal ?_)
  rw [Int.toNat_natCast]
  unfold fixedErr
  have : (l : ℝ) ≤ S.sum := by exact_mod_cast hl
  gcongr

/-! ### Networks -/

theorem losslessSimulateR_near (A : Matrix (Fin m) (Fin m) ℂ) (hA : ∀ i j, ‖A i j‖ ≤ 1) (hm : m ≤ 2 ^ 20) :
    NetworkNear (losslessSimulateR C A) A (m * (m + 1) / 2 ^ 46) := by
  intro x hx
  refine ⟨fun i => (List.finRange m).foldl (fun acc j => C.add acc (C.mul (A i j) (x j))) 0, ?_, fun i => ?_⟩
  · unfold losslessSimulateR
    rw [if_pos (by simp)]
    simp
  · have hxj : ∀ j, ‖x j‖ ≤ 2 := fun j => norm_entry_le x j (by norm_num) (hx.trans (by norm_num))
    have hone : (2 : ℝ) ^ (-1000 : ℤ) ≤ 1 * 2 := (small_of_one (by norm_num : (1 : ℝ) ≤ 1 * 2))
    have h1 := C.foldl_add_close (List.finRange m) (fun j => C.mul (A i j) (x j)) (fun j => A i j * x j) (fun _ => 1 * 2)
      (k := 1) (fun _ _ => hone) (fun j _ => C.mul_close (Close.exact (hA i j)) (Close.exact (hxj j)) hone)
      (X := 0) (a' := 0) (a := 0) (d := 0) ⟨by simp, by simp⟩
    rw [List.map_const', List.length_finRange, List.sum_replicate, nsmul_eq_mul, zero_add, zero_add] at h1
    have e : ((List.finRange m).map fun j => A i j * x j).sum = (A *ᵥ x) i := by
      rw [mulVec, dotProduct, ← List.ofFn_eq_map, List.sum_ofFn]
    rw [e] at h1
    refine h1.2.trans ?_
    have h2 := qf_pow_le (k := 1 + 0 + m) (by omega)
    rw [Nat.cast_add, Nat.cast_add, Nat.cast_one, Nat.cast_zero] at h2
    calc (qf ^ (1 + 0 + m) - 1) * (m * (1 * 2)) ≤ (2 * (1 + 0 + m) / 2 ^ 48) * (m * (1 * 2)) := by gcongr
      _ = m * (m + 1) / 2 ^ 46 := by ring

end Verif
