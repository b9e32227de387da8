import Verif.Model.FixedLoss
import Verif.Spec.Multinomial
import Verif.Proofs.CliffordsBRuns
import Verif.Proofs.FockStates
import Mathlib.Data.List.GetD

/-! Helper lemmas: the fixed-loss sampler. -/
namespace Verif

open Finset MeasureTheory
open scoped ENNReal

/-! ### The scan -/

theorem lintegral_reach (ps : List ℝ) (h : ∀ p ∈ ps, 0 ≤ p) (c b : ℝ) (hb : c + ps.sum ≤ b) (F : ℕ → ℝ≥0∞) :
    ∫⁻ u in Set.Ioc c b, F (scanReach u ps c)
      = ∑ i ∈ range ps.length, ENNReal.ofReal (ps.getD i 0) * F i
        + ENNReal.ofReal (b - c - ps.sum) * F ps.length := by
  induction ps generalizing c F with
  | nil =>
    simp only [scanReach, setLIntegral_const, Real.volume_Ioc]
    simp [mul_comm]
  | cons p ps ih =>
    have hp : 0 ≤ p := h p (by simp)
    have hps : 0 ≤ ps.sum := List.sum_nonneg fun x hx => h x (by simp [hx])
    rw [List.sum_cons] at hb
    rw [← Set.Ioc_union_Ioc_eq_Ioc (show c ≤ c + p by linarith) (show c + p ≤ b by linarith),
      lintegral_union measurableSet_Ioc (Set.Ioc_disjoint_Ioc_of_le le_rfl)]
    have e1 : ∫⁻ u in Set.Ioc c (c + p), F (scanReach u (p :: ps) c) = ENNReal.ofReal p * F 0 := by
      rw [setLIntegral_congr_fun (g := fun _ => F 0) measurableSet_Ioc, setLIntegral_const, Real.volume_Ioc, mul_comm]
      · congr 2; ring
      · intro u hu
        simp only [scanReach, gt_iff_lt, not_lt.mpr hu.2, if_false]
    have e2 : ∫⁻ u in Set.Ioc (c + p) b, F (scanReach u (p :: ps) c)
        = ∑ i ∈ range ps.length, ENNReal.ofReal (ps.getD i 0) * F (i + 1)
          + ENNReal.ofReal (b - (c + p) - ps.sum) * F (ps.length + 1) := by
      rw [← ih (fun x hx => h x (by simp [hx])) (c + p) (by linarith) (fun i => F (i + 1))]
      refine setLIntegral_congr_fun measurableSet_Ioc fun u hu => ?_
      have : u > c + p := hu.1
      simp only [scanReach, this, if_true]
    rw [e1, e2, List.length_cons, sum_range_succ', List.sum_cons]
    simp only [List.getD_cons_succ, List.getD_cons_zero]
    rw [show b - c - (p + ps.sum) = b - (c + p) - ps.sum by ring]
    ring

/-- The weights of the modes, followed by the weight of getting lost. -/
noncomputable def withLoss (ps : List ℝ) : List ℝ := ps ++ [1 - ps.sum]

theorem reach_uniform (ps : List ℝ) (h : ∀ p ∈ ps, 0 ≤ p) (hs : ps.sum ≤ 1) (F : ℕ → ℝ≥0∞) :
    ∫⁻ u in Set.Ico (0 : ℝ) 1, F (scanReach u ps 0)
      = ∑ i ∈ range (ps.length + 1), ENNReal.ofReal ((withLoss ps).getD i 0) * F i := by
  rw [setLIntegral_congr (Ico_ae_eq_Ioc (μ := volume) (a := (0 : ℝ)) (b := 1)), lintegral_reach ps h 0 1 (by linarith) F,
    sum_range_succ]
  congr 1
  · refine sum_congr rfl fun i hi => ?_
    rw [withLoss, List.getD_append _ _ _ _ (mem_range.mp hi)]
  · rw [withLoss, List.getD_append_right _ _ _ _ le_rfl]
    simp

theorem scanReach_le (x : ℝ) (ps : List ℝ) (c : ℝ) : scanReach x ps c ≤ ps.length := by
  induction ps generalizing c with
  | nil => simp [scanReach]
  | cons p ps ih =>
    unfold scanReach
    split_ifs
    · simpa using ih _
    · simp

theorem scanReach_lt (x : ℝ) (ps : List ℝ) (c : ℝ) (hps : ps ≠ []) (h : x ≤ c + ps.sum) :
    scanReach x ps c < ps.length := by
  induction ps generalizing c with
  | nil => simp at hps
  | cons p ps ih =>
    unfold scanReach
    split_ifs with h1
    · rw [List.sum_cons] at h
      have : ps ≠ [] := by rintro rfl; simp at h; linarith
      simpa using ih (c + p) this (by linarith)
    · simp

theorem photonIndex_vals (x : ℝ) (l : List ℝ) (h : l ≠ []) : photonIndex x (.vals l) = .ok (scanReach x l 0) := by
  cases l with
  | nil => exact absurd rfl h
  | cons a l => rfl

/-! ### The photons -/

theorem fixedPhotons_succ (ps : List ℝ) (hne : ps ≠ []) (k : ℕ) (out : List ℕ) (ho : out.length = ps.length) :
    fixedPhotons (.vals ps) (k + 1) out
      = .uniform fun x => fixedPhotons (.vals ps) k (out.modify (scanReach x ps 0) (· + 1)) := by
  rw [fixedPhotons]
  simp only [Prog.random, Prog.bind_eq, Prog.bind, Prog.lift_def, Prog.pure_eq]
  congr 1
  funext x
  rw [photonIndex_vals _ _ hne, Prog.done_ok_bind]
  have hle := scanReach_le x ps 0
  by_cases h : ps.length = scanReach x ps 0
  · rw [if_neg (by simpa [NanList.length] using h), List.modify_eq_self (by omega)]
  · rw [if_pos (by simpa [NanList.length] using h)]
    have hlt : scanReach x ps 0 < out.length := by omega
    rw [pyGetN_ok hlt, Prog.done_ok_bind, pySetN_ok hlt, Prog.done_ok_bind, set_eq_modify _ _ hlt]

theorem fixedPhotons_wp (ps : List ℝ) (hne : ps ≠ []) (h : ∀ p ∈ ps, 0 ≤ p) (hs : ps.sum ≤ 1) (k : ℕ) (out : List ℕ)
    (ho : out.length = ps.length) (f : Py (List ℕ) → ℝ≥0∞) :
    (fixedPhotons (.vals ps) k out).wp f
      = ∑ w ∈ words (ps.length + 1) k, ENNReal.ofReal ((w.map fun i => (withLoss ps).getD i 0).prod)
          * f (.ok (w.foldl (fun o i => o.modify i (· + 1)) out)) := by
  have hnn : ∀ i, 0 ≤ (withLoss ps).getD i 0 := by
    intro i
    by_cases hi : i < (withLoss ps).length
    · rw [getD_of_lt _ _ hi]
      rcases List.mem_append.mp (List.getElem_mem hi) with h1 | h1
      · exact h _ h1
      · rw [List.mem_singleton.mp h1]; linarith
    · rw [List.getD_eq_getElem?_getD, List.getElem?_eq_none (by omega)]; simp
  induction k generalizing out with
  | zero => simp [fixedPhotons, words, Prog.wp]
  | succ k ih =>
    rw [fixedPhotons_succ ps hne k out ho, Prog.wp,
      reach_uniform ps h hs (fun i => (fixedPhotons (.vals ps) k (out.modify i (· + 1))).wp f), sum_words_succ, sum_comm]
    refine sum_congr rfl fun i _ => ?_
    rw [ih _ (by simpa using ho), mul_sum]
    refine sum_congr rfl fun w _ => ?_
    rw [List.map_cons, List.prod_cons, ENNReal.ofReal_mul (hnn i), List.foldl_cons, mul_assoc]

theorem foldl_modify (w out : List ℕ) :
    w.foldl (fun o i => o.modify i (· + 1)) out = List.zipWith (· + ·) out (occOf out.length w) := by
  induction w generalizing out with
  | nil =>
    refine List.ext_getElem (by simp [occOf]) fun i h1 h2 => ?_
    simp [occOf]
  | cons a w ih =>
    rw [List.foldl_cons, ih]
    refine List.ext_getElem (by simp [occOf]) fun i h1 h2 => ?_
    simp only [List.getElem_zipWith, List.getElem_modify, occOf, List.getElem_map, List.getElem_range, List.count_cons]
    by_cases h : a = i
    · subst h; simp; omega
    · simp [h]

theorem foldl_modify_zero (w : List ℕ) (m : ℕ) :
    w.foldl (fun o i => o.modify i (· + 1)) (List.replicate m 0) = occOf m w := by
  rw [foldl_modify]
  refine List.ext_getElem (by simp [occOf]) fun i h1 h2 => ?_
  simp

theorem prod_zipWith_pow (p : List ℝ) (T : List ℕ) (h : T.length = p.length) :
    (List.zipWith (fun x t => x ^ t) p T).prod = ∏ i ∈ range p.length, p.getD i 0 ^ T.getD i 0 := by
  induction p generalizing T with
  | nil => simp
  | cons a p ih =>
    cases T with
    | nil => simp at h
    | cons t T =>
      rw [List.zipWith_cons_cons, List.prod_cons, ih T (by simpa using h), List.length_cons, prod_range_succ', mul_comm]
      simp

open Classical in
/-- The law of the outcome for given mode probabilities. -/
theorem fixedOutcome_law (ps : List ℝ) (hne : ps ≠ []) (h : ∀ p ∈ ps, 0 ≤ p) (hs : ps.sum ≤ 1) (k : ℤ) (T : List ℕ)
    (hT : T.length = ps.length) (hk : T.sum ≤ k.toNat) :
    (fixedOutcome ps.length k (.vals ps)).prob (fun r => r = .ok T)
      = ENNReal.ofReal (multinomialProb ps k.toNat T) := by
  generalize hK : k.toNat = K at *
  rw [Prog.prob, fixedOutcome, hK, fixedPhotons_wp ps hne h hs K _ (by simp)]
  simp only [foldl_modify_zero, Except.ok.injEq]
  have hT' : (T ++ [K - T.sum]).length = ps.length + 1 := by simp [hT]
  have hS' : (T ++ [K - T.sum]).sum = K := by simp; omega
  have hset : (words (ps.length + 1) K).filter (fun w => occOf ps.length w = T)
      = arrangements (particles (T ++ [K - T.sum]) : Multiset ℕ) := by
    ext w
    rw [mem_arr_particles hT', mem_filter, hS']
    refine and_congr_right fun hw => ?_
    have hsum : (occOf (ps.length + 1) w).sum = K := by
      rw [mem_words] at hw
      rw [occOf_sum _ _ hw.2, hw.1]
    have hsplit : occOf (ps.length + 1) w = occOf ps.length w ++ [w.count ps.length] := by
      simp [occOf, List.range_succ]
    rw [hsplit] at hsum ⊢
    constructor
    · rintro rfl
      rw [List.sum_append] at hsum
      simp at hsum
      congr 2
      omega
    · intro he
      exact (List.append_inj he (by rw [occOf_length, hT])).1
  have hpr : ∀ w ∈ arrangements (particles (T ++ [K - T.sum]) : Multiset ℕ),
      (w.map fun i => (withLoss ps).getD i 0).prod
        = (List.zipWith (fun x t => x ^ t) ps T).prod * (1 - ps.sum) ^ (K - T.sum) := by
    intro w hw
    rw [((Multiset.coe_eq_coe.mp (mem_arrangements.mp hw)).map _).prod_eq, prod_particlesFrom, hT', prod_range_succ]
    congr 1
    · rw [prod_zipWith_pow ps T hT]
      refine prod_congr rfl fun i hi => ?_
      have hi := mem_range.mp hi
      rw [withLoss, zero_add, List.getD_append _ _ _ _ hi, List.getD_append _ _ _ _ (by omega)]
    · rw [withLoss, zero_add, List.getD_append_right _ _ _ _ le_rfl, List.getD_append_right _ _ _ _ (by omega)]
      simp [hT]
  rw [sum_congr rfl (g := fun w => if occOf ps.length w = T then
      ENNReal.ofReal ((w.map fun i => (withLoss ps).getD i 0).prod) else 0) fun w _ => by split_ifs <;> simp,
    ← sum_filter, hset, sum_congr rfl fun w hw => by rw [hpr w hw], sum_const, nsmul_eq_mul,
    ← ENNReal.ofReal_natCast, ← ENNReal.ofReal_mul (by positivity)]
  congr 1
  have hc := card_arr_particles (T ++ [K - T.sum])
  have hfp : factProd (T ++ [K - T.sum]) = factProd T * (K - T.sum).factorial := by simp [factProd]
  rw [hS', hfp] at hc
  unfold multinomialProb
  have h1 := (factProd_pos T).ne'
  have h2 := (K - T.sum).factorial_ne_zero
  rw [← hc]
  push_cast
  field_simp

end Verif
