import Verif.Proofs.RoundedUniformBobs
import Verif.Props.RoundedFixed

/-! Helper lemmas: runs of the sampler with uniform losses applied to the input, in floating-point arithmetic. -/
namespace Verif

open Finset Prog Matrix
open scoped ENNReal

variable (R : Rounding) (C : ComplexArith) (Φ : PhaseArith) {m : ℕ}

/-! ### numpy's choice with weights close to a probability vector -/

theorem categorical_sum {q : List ℝ} (hq : IsProbVector q) (f : Py ℕ → ℝ≥0∞) :
    (Prog.categorical q).wp f = ∑ l ∈ range q.length, ENNReal.ofReal (q.getD l 0) * f (.ok l) := by
  rw [Prog.categorical, Prog.wp, if_pos hq]
  rfl

theorem npChoice_close {p q : List ℝ} {M : ℕ} (hW : Weights p) (hp : p.length = M) (hq : q.length = M) (hM0 : M ≠ 0)
    (hM : M ≤ 2 ^ 20) (hprob : IsProbVector q) {δ : ℝ} (hδ : δ ≤ 1 / 2 ^ 28)
    (hd : ∑ j ∈ range M, |p.getD j 0 - q.getD j 0| ≤ δ) :
    CloseF (npChoiceR R M p) (Prog.categorical q) (ENNReal.ofReal (16 * M / 2 ^ 53 + 3 * δ)) := by
  have hps : p.sum = ∑ l ∈ range M, p.getD l 0 := by rw [← hp, list_sum_getD]
  have hqs : (1 : ℝ) = ∑ l ∈ range M, q.getD l 0 := by rw [← hprob.2, ← hq, list_sum_getD]
  have hδ0 : 0 ≤ δ := (sum_nonneg fun _ _ => abs_nonneg _).trans hd
  have h28 : (1 : ℝ) / 2 ^ 28 ≤ 1 / 8 := by norm_num
  have hs : |p.sum - 1| ≤ δ := by
    refine le_trans ?_ hd
    rw [hps, hqs, ← sum_sub_distrib]
    exact abs_sum_le_sum_abs _ _
  have hs27 : |p.sum - 1| ≤ 1 / 2 ^ 27 := hs.trans (hδ.trans (by norm_num))
  obtain ⟨hs1, hs2⟩ := abs_le.mp hs
  have hp0 : 0 ≤ p.sum := List.sum_nonneg fun x hx => (hW x hx).2
  have hwit := sumR_within R hW
  rw [hp] at hwit
  set L := sumR R p with hL
  have hMr : (M : ℝ) ≤ 2 ^ 20 := by exact_mod_cast hM
  set c : ℝ := 2 * M / 2 ^ 53 with hc
  have hc0 : 0 ≤ c := by positivity
  have hc1 : c ≤ 1 / 2 ^ 30 := by
    calc c ≤ 2 * 2 ^ 20 / 2 ^ 53 := by rw [hc]; gcongr
      _ ≤ 1 / 2 ^ 30 := by norm_num
  have h30 : (1 : ℝ) / 2 ^ 30 ≤ 1 / 16 := by norm_num
  have hrho : rho ^ M ≤ 1 + c := by have := rho_pow_le (k := M) (by omega); linarith
  have hL0 : 0 ≤ L := sumR_nonneg R hW
  have hL1 : L ≤ (1 + c) * p.sum := hwit.1.trans (mul_le_mul_of_nonneg_right hrho hp0)
  have hL2 : p.sum ≤ (1 + c) * L := hwit.2.trans (mul_le_mul_of_nonneg_right hrho hL0)
  have hLlo : 3 / 4 ≤ L := by nlinarith
  have hLhi : L ≤ 2 := by nlinarith
  have hLd : |L - 1| ≤ 2 * c + δ := by
    rw [abs_le]
    constructor <;> nlinarith
  refine CloseF.of_sums (m := M) (v := fun l => .ok l)
    (law := drawLaw (fun k => searchRight ((k : ℝ) / 2 ^ 53) (npCdf R p))) (w := fun l => q.getD l 0)
    (fun f => ?_) (fun f => ?_) (fun l _ => drawLaw_nonneg _ l) (fun l hl => ?_) ?_
  · have := npChoiceR_wp R hW (by linarith) hM0 hp hM hs27 (fun j => (.done (.ok j) : Prog ℕ)) f
    rw [show (npChoiceR R M p).bind (fun j => .done (.ok j)) = npChoiceR R M p from bind_pure_prog _] at this
    rw [this]
    rfl
  · rw [categorical_sum hprob f, hq]
  · rw [getD_of_lt _ _ (by omega)]
    exact hprob.1 _ (List.getElem_mem _)
  · have hd1 := npChoice_dist R hW (by linarith) (fun h => hM0 (by rw [← hp, h]; rfl)) (by linarith)
    rw [hp] at hd1
    set law := drawLaw (fun k => searchRight ((k : ℝ) / 2 ^ 53) (npCdf R p)) with hlaw
    have h2 : ∑ l ∈ range M, |p.getD l 0 / L - p.getD l 0| ≤ 2 * (2 * c + δ) := by
      have hLp : 0 < L := by linarith
      have e : ∀ l, |p.getD l 0 / L - p.getD l 0| = |p.getD l 0| * (|L - 1| / L) := by
        intro l
        have : p.getD l 0 / L - p.getD l 0 = p.getD l 0 * (-(L - 1) / L) := by field_simp; ring
        rw [this, abs_mul, abs_div, abs_neg, abs_of_pos hLp]
      simp only [e]
      rw [← sum_mul]
      have e3 : ∑ l ∈ range M, |p.getD l 0| = p.sum := by
        rw [hps]
        refine sum_congr rfl fun l hl => abs_of_nonneg ?_
        rw [getD_of_lt _ _ (by rw [hp]; exact mem_range.mp hl)]
        exact (hW _ (List.getElem_mem _)).2
      rw [e3]
      calc p.sum * (|L - 1| / L) ≤ 3 / 2 * ((2 * c + δ) / (3 / 4)) := by
            refine mul_le_mul (by linarith) ?_ (by positivity) (by norm_num)
            exact div_le_div₀ (by positivity) hLd (by norm_num) (by linarith)
        _ = _ := by ring
    have htri : ∑ l ∈ range M, |law l - q.getD l 0|
        ≤ ∑ l ∈ range M, |law l - p.getD l 0 / L| + ∑ l ∈ range M, |p.getD l 0 / L - p.getD l 0|
          + ∑ l ∈ range M, |p.getD l 0 - q.getD l 0| := by
      rw [← sum_add_distrib, ← sum_add_distrib]
      exact sum_le_sum fun l _ => (abs_sub_le _ _ _).trans (add_le_add_left (abs_sub_le _ _ _) _)
    have : 16 * (M : ℝ) / 2 ^ 53 + 3 * δ = 8 * M / 2 ^ 53 + 2 * (2 * c + δ) + δ := by
      rw [hc]; ring
    linarith

/-! ### Weights of the exactly treated part -/

/-- The computed weight of a lossy state. -/
noncomputable def partWeightR (eta : ℝ) (s l : List ℕ) : ℝ :=
  R.rnd (binomWeightR R s.sum eta l.sum / R.rnd (s.sum.choose l.sum))

theorem uBobsPossibleR_eq (eta : ℝ) (n : ℕ) : uBobsPossibleR R eta n = gccbWeightsR R n eta := rfl

theorem uBobsPartsWeightsR_ok (eta : ℝ) (s : List ℕ) (L : List (List ℕ)) (hp : L.Perm (lowerStates s))
    (hl : pyGet L (-1) = .ok s) : uBobsPartsWeightsR R eta L = .ok (L.map (partWeightR R eta s)) := by
  unfold uBobsPartsWeightsR
  rw [hl, ok_bind]
  refine mapM_ok _ _ _ fun l hl => ?_
  have hle : l.sum ≤ s.sum := ModeLe.sum_le ((mem_lowerStates s l).mp (hp.mem_iff.mp hl))
  rw [pyGetN_ok (show l.sum < (uBobsPossibleR R eta s.sum).length by simp [uBobsPossibleR]; omega), ok_bind]
  simp only [uBobsPossibleR, List.getElem_map, List.getElem_range]
  rfl

theorem uBobsApproximatedR_ok (h : ℕ) (hh : h < m) (eta : ℝ) (part : List ℕ) (hne : part ≠ []) :
    uBobsApproximatedR R m h eta part
      = .ok ((List.range (part.sum + 1)).map (fun l => l :: List.replicate (part.length - 1) 0), gccbWeightsR R part.sum eta) := by
  have := uBobsApproximated_ok m h hh eta part hne
  unfold uBobsApproximated at this
  unfold uBobsApproximatedR
  rw [if_neg (by omega)] at this ⊢
  cases h1 : (List.range (part.sum + 1)).mapM fun left => pySetN (part.map fun _ => 0) 0 left with
  | error e => rw [h1] at this; cases this
  | ok P =>
    rw [h1, ok_bind] at this
    rw [ok_bind]
    cases h2 : pyGet P (-1) with
    | error e => rw [h2] at this; cases this
    | ok last =>
      rw [h2, ok_bind] at this
      rw [ok_bind]
      injection this with this
      injection this with h3 h4
      have h5 : last.sum = part.sum := by
        have := congrArg List.length h4
        simpa [uBobsPossible, gccbWeights_length] using this
      rw [h5, h3]
      rfl

theorem partWeightR_weights {eta : ℝ} (h0 : 0 ≤ eta) (h1 : eta ≤ 1) (s : List ℕ) (L : List (List ℕ))
    (hL : ∀ l ∈ L, l.sum ≤ s.sum) : Weights (L.map (partWeightR R eta s)) := by
  intro x hx
  obtain ⟨l, hl, rfl⟩ := List.mem_map.mp hx
  refine ⟨R.isFloat _, R.nonneg (div_nonneg ?_ (R.nonneg (Nat.cast_nonneg _)))⟩
  have hmem : binomWeightR R s.sum eta l.sum ∈ gccbWeightsR R s.sum eta :=
    List.mem_map.mpr ⟨l.sum, List.mem_range.mpr (by have := hL l hl; omega), rfl⟩
  exact (gccbWeightsR_weights R s.sum h0 h1 _ hmem).2

theorem partWeightR_near {eta : ℝ} (h0 : 0 ≤ eta) (h1 : eta ≤ 1) (hf : IsFloat eta) (s l : List ℕ) (hl : l.sum ≤ s.sum) :
    Near (rho ^ (s.sum + 7)) (tiny * 2 ^ (s.sum + 6)) (partWeightR R eta s l) (partWeight eta s l) := by
  have hN := binomWeightR_near R s.sum h0 h1 hf l.sum hl
  have hcp : 0 < s.sum.choose l.sum := Nat.choose_pos hl
  have hc1 : (1 : ℝ) ≤ s.sum.choose l.sum := by exact_mod_cast hcp
  have hW := rnd_nat_within R hcp
  have hr1 : 1 ≤ R.rnd (s.sum.choose l.sum) := R.ge_of_ge isFloat_one hc1
  have ht := tiny_pos
  have hx0 : 0 ≤ binomWeightR R s.sum eta l.sum := by
    have hmem : binomWeightR R s.sum eta l.sum ∈ gccbWeightsR R s.sum eta :=
      List.mem_map.mpr ⟨l.sum, List.mem_range.mpr (by omega), rfl⟩
    exact (gccbWeightsR_weights R s.sum h0 h1 _ hmem).2
  have hy0 : (0 : ℝ) ≤ s.sum.choose l.sum * eta ^ l.sum * (1 - eta) ^ (s.sum - l.sum) :=
    mul_nonneg (by positivity) (pow_nonneg (by linarith) _)
  have hD := hN.div hW (zero_le_one.trans (one_le_rho_pow _)) (by positivity) hx0 hy0 hr1 hc1
  have e : (s.sum.choose l.sum : ℝ) * eta ^ l.sum * (1 - eta) ^ (s.sum - l.sum) / s.sum.choose l.sum = partWeight eta s l := by
    unfold partWeight
    field_simp
  rw [e, ← pow_succ] at hD
  have hE := hD.rnd R (one_le_rho_pow _) (by positivity) (by positivity)
  rw [← pow_succ] at hE
  refine hE.mono (zero_le_one.trans (one_le_rho_pow _)) (R.nonneg (by positivity)) (partWeight_nonneg h0 h1 s l) (by positivity) le_rfl ?_
  have h1 : (1 : ℝ) ≤ 2 ^ (s.sum + 5) := one_le_pow₀ (by norm_num)
  rw [pow_succ 2 (s.sum + 5)]
  nlinarith

theorem partWeightR_dist {eta : ℝ} (h0 : 0 ≤ eta) (h1 : eta ≤ 1) (hf : IsFloat eta) (s : List ℕ) (L : List (List ℕ))
    (hL : L.Perm (lowerStates s)) (hn : s.sum ≤ 170) (hM : L.length ≤ 2 ^ 20) :
    ∑ j ∈ range L.length, |(L.map (partWeightR R eta s)).getD j 0 - (L.map (partWeight eta s)).getD j 0|
      ≤ (2 * s.sum + 15) / 2 ^ 53 := by
  have ht := tiny_pos
  have hp := rho_pow_le (k := s.sum + 7) (by omega)
  have hn' : (s.sum : ℝ) ≤ 170 := by exact_mod_cast hn
  rw [Nat.cast_add, Nat.cast_ofNat] at hp
  have h2 : rho ^ (s.sum + 7) ≤ 2 := by
    have : 2 * ((s.sum : ℝ) + 7) / 2 ^ 53 ≤ 1 := by
      rw [div_le_one (by positivity)]
      calc 2 * ((s.sum : ℝ) + 7) ≤ 2 * (170 + 7) := by gcongr
        _ ≤ 2 ^ 53 := by norm_num
    linarith
  have hsum : ∑ j ∈ range L.length, (L.map (partWeight eta s)).getD j 0 ≤ 1 := by
    have h3 := list_sum_getD (L.map (partWeight eta s))
    rw [List.length_map] at h3
    rw [← h3]
    exact (partsWeights_sum eta s L hL).trans_le (prodTotal_le h0 h1 s)
  have htin : (L.length : ℝ) * (tiny * 2 ^ (s.sum + 6)) ≤ 1 / 2 ^ 60 := by
    have hMr : (L.length : ℝ) ≤ 2 ^ (20 : ℤ) := by exact_mod_cast hM
    have h3 : (2 : ℝ) ^ (s.sum + 6) ≤ 2 ^ (176 : ℤ) := by
      have : (2 : ℝ) ^ (s.sum + 6) ≤ 2 ^ (176 : ℕ) := pow_le_pow_right₀ (by norm_num) (by omega)
      exact_mod_cast this
    calc (L.length : ℝ) * (tiny * 2 ^ (s.sum + 6)) ≤ 2 ^ (20 : ℤ) * (2 ^ (-1074 : ℤ) * 2 ^ (176 : ℤ)) := by
          unfold tiny; gcongr
      _ = 2 ^ (-878 : ℤ) := by
          rw [← zpow_add₀ (by norm_num : (2 : ℝ) ≠ 0), ← zpow_add₀ (by norm_num : (2 : ℝ) ≠ 0)]; norm_num
      _ ≤ 2 ^ (-60 : ℤ) := zpow_le_zpow_right₀ (by norm_num) (by norm_num)
      _ = 1 / 2 ^ 60 := by norm_num
  calc ∑ j ∈ range L.length, |(L.map (partWeightR R eta s)).getD j 0 - (L.map (partWeight eta s)).getD j 0|
      ≤ ∑ j ∈ range L.length, ((rho ^ (s.sum + 7) - 1) * (L.map (partWeight eta s)).getD j 0 + 2 * (tiny * 2 ^ (s.sum + 6))) := by
        refine sum_le_sum fun j hj => ?_
        have hj := mem_range.mp hj
        rw [getD_of_lt _ _ (by simpa using hj), getD_of_lt _ _ (by simpa using hj), List.getElem_map, List.getElem_map]
        have hle : (L[j]).sum ≤ s.sum := ModeLe.sum_le ((mem_lowerStates s _).mp (hL.mem_iff.mp (List.getElem_mem hj)))
        exact ((partWeightR_near R h0 h1 hf s _ hle).close (one_le_rho_pow _) (partWeight_nonneg h0 h1 s _)
          (by positivity)).trans (add_le_add_right (mul_le_mul_of_nonneg_right h2 (by positivity)) _)
    _ ≤ (rho ^ (s.sum + 7) - 1) * 1 + 2 * (L.length * (tiny * 2 ^ (s.sum + 6))) := by
        rw [sum_add_distrib, ← mul_sum, sum_const, card_range, nsmul_eq_mul]
        have h4 := sub_nonneg.mpr (one_le_rho_pow (s.sum + 7))
        refine add_le_add (mul_le_mul_of_nonneg_left hsum h4) (le_of_eq (by ring))
    _ ≤ 2 * (s.sum + 7) / 2 ^ 53 + 2 * (1 / 2 ^ 60) := by linarith
    _ ≤ (2 * s.sum + 15) / 2 ^ 53 := by
        have : (2 * (s.sum : ℝ) + 15) / 2 ^ 53 = 2 * (s.sum + 7) / 2 ^ 53 + 1 / 2 ^ 53 := by ring
        rw [this]
        norm_num

/-- numpy refuses weights that do not sum to 1. -/
theorem npChoiceCheck_refuses {p : List ℝ} (M : ℕ) (hp : ∀ x ∈ p, 0 ≤ x) (hM : p.length ≤ 2 ^ 20)
    (hs : p.sum ≤ 1 - 3 / 2 ^ 27) : npChoiceCheck R M p = .error .valueError := by
  have h1 := kahanSum_error R hp (by have : (0 : ℝ) ≤ 3 / 2 ^ 27 := by positivity
                                     linarith) hM
  have h2 : (p.length : ℝ) * (16 / 2 ^ 53) ≤ 1 / 2 ^ 29 := by
    have : (p.length : ℝ) ≤ 2 ^ 20 := by exact_mod_cast hM
    calc (p.length : ℝ) * (16 / 2 ^ 53) ≤ 2 ^ 20 * (16 / 2 ^ 53) := by gcongr
      _ ≤ 1 / 2 ^ 29 := by norm_num
  obtain ⟨-, h1b⟩ := abs_le.mp h1
  have hf : IsFloat (-(5 / 2 ^ 28)) := IsFloat.neg ⟨5, -28, by norm_num, by norm_num, by norm_num [_root_.zpow_neg]⟩
  have h3 : R.rnd (kahanSum R p - 1) ≤ -(5 / 2 ^ 28) := R.le_of_le hf (by norm_num at hs h2 ⊢; linarith)
  unfold npChoiceCheck
  split_ifs with g1 g2 g3 g4
  · rfl
  · rfl
  · rfl
  · rfl
  · exfalso
    refine g4 ?_
    rw [gt_iff_lt, lt_abs]
    right
    norm_num at h3 ⊢
    linarith

theorem partWeightR_refused {eta : ℝ} (h0 : 0 ≤ eta) (h1 : eta ≤ 1) (hf : IsFloat eta) (s : List ℕ) (L : List (List ℕ))
    (hL : L.Perm (lowerStates s)) (hn : s.sum ≤ 170) (hM : L.length ≤ 2 ^ 20)
    (ht : (s.map (modeTotal eta)).prod ≤ 1 - 1 / 2 ^ 25) (M : ℕ) :
    npChoiceCheck R M (L.map (partWeightR R eta s)) = .error .valueError := by
  have hW := partWeightR_weights R h0 h1 s L fun l hl => ModeLe.sum_le ((mem_lowerStates s l).mp (hL.mem_iff.mp hl))
  refine npChoiceCheck_refuses R M (fun x hx => (hW x hx).2) (by rwa [List.length_map]) ?_
  have hd := partWeightR_dist R h0 h1 hf s L hL hn hM
  have hn' : (s.sum : ℝ) ≤ 170 := by exact_mod_cast hn
  have hδ : (2 * (s.sum : ℝ) + 15) / 2 ^ 53 ≤ 1 / 2 ^ 28 := by
    calc (2 * (s.sum : ℝ) + 15) / 2 ^ 53 ≤ (2 * 170 + 15) / 2 ^ 53 := by gcongr
      _ ≤ 1 / 2 ^ 28 := by norm_num
  have h3 := list_sum_getD (L.map (partWeight eta s))
  have h4 := list_sum_getD (L.map (partWeightR R eta s))
  rw [List.length_map] at h3 h4
  have h5 : (L.map (partWeight eta s)).sum = (s.map (modeTotal eta)).prod := partsWeights_sum eta s L hL
  have h6 := (le_abs_self _).trans ((abs_sum_le_sum_abs _ _).trans hd)
  rw [sum_sub_distrib, ← h3, ← h4, h5] at h6
  have e : (1 : ℝ) / 2 ^ 25 = 3 / 2 ^ 27 + 1 / 2 ^ 28 + 1 / 2 ^ 28 := by norm_num
  have : (0 : ℝ) ≤ 1 / 2 ^ 28 := by positivity
  linarith

/-! ### The input state -/

theorem categorical_lt {q : List ℝ} {j : ℕ} (h : (Prog.categorical q).Runs (.ok j)) : j < q.length := by
  rcases h with ⟨_, h⟩ | ⟨_, i, hi, _, h⟩
  · cases h
  · cases h; exact hi

/-- How far the computed law of the input state can be from the exact one: `M` states of the exactly treated part, which
has `a` particles, and `b` particles in the approximated modes. -/
noncomputable def uBobsInputErr (M a b : ℕ) : ℝ := (18 * b + 45) / 2 ^ 53 + (16 * M + 6 * a + 45) / 2 ^ 53

theorem uBobsInputErr_nonneg (M a b : ℕ) : 0 ≤ uBobsInputErr M a b := by unfold uBobsInputErr; positivity

theorem uBobsInputR_close {eta : ℝ} (h0 : 0 ≤ eta) (h1 : eta ≤ 1) (hf : IsFloat eta) (s : List ℕ) (L : List (List ℕ))
    (hL : L.Perm (lowerStates s)) (hg : GoodPart eta s) (hs : s.sum ≤ 170) (hM : L.length ≤ 2 ^ 20) (A : List (List ℕ))
    (b : ℕ) (hA : A.length = b + 1) (hb : b ≤ 170) :
    CloseF (uBobsInputR R L (L.map (partWeightR R eta s)) A (gccbWeightsR R b eta))
      (uBobsInput L (L.map (partWeight eta s)) A (gccbWeights b eta))
      (ENNReal.ofReal (uBobsInputErr L.length s.sum b)) := by
  have hs' : (s.sum : ℝ) ≤ 170 := by exact_mod_cast hs
  unfold uBobsInputR uBobsInput uBobsInputErr
  simp only [Prog.bind_eq, Prog.lift_def, Prog.pure_eq]
  rw [ENNReal.ofReal_add (by positivity) (by positivity)]
  have hleft := npLeft_close R b hb h0 h1 hf
  rw [separableWeightsR_eq, separableWeights_eq] at hleft
  rw [hA]
  refine hleft.bind' fun i => CloseF.bind_right _ fun a => ?_
  have hL0 : L.length ≠ 0 := by
    have : s ∈ L := hL.mem_iff.mpr ((mem_lowerStates s s).mpr (List.forall₂_same.mpr fun _ _ => le_rfl))
    exact (List.length_pos_of_mem this).ne'
  have hδ : (2 * (s.sum : ℝ) + 15) / 2 ^ 53 ≤ 1 / 2 ^ 28 := by
    calc (2 * (s.sum : ℝ) + 15) / 2 ^ 53 ≤ (2 * 170 + 15) / 2 ^ 53 := by gcongr
      _ ≤ 1 / 2 ^ 28 := by norm_num
  have hparts := npChoice_close R (p := L.map (partWeightR R eta s)) (q := L.map (partWeight eta s)) (M := L.length)
    (partWeightR_weights R h0 h1 s L fun l hl => ModeLe.sum_le ((mem_lowerStates s l).mp (hL.mem_iff.mp hl))) (by simp) (by simp)
    hL0 hM ((partWeight_prob h0 h1 s L hL).mpr hg) hδ (partWeightR_dist R h0 h1 hf s L hL hs hM)
  have e : 16 * (L.length : ℝ) / 2 ^ 53 + 3 * ((2 * s.sum + 15) / 2 ^ 53) = (16 * L.length + 6 * s.sum + 45) / 2 ^ 53 := by ring
  rw [e] at hparts
  exact hparts.bind_left _

/-- The possible input states. -/
theorem uBobsInput_all {eta : ℝ} (h0 : 0 ≤ eta) (h1 : eta ≤ 1) (s : List ℕ) (L : List (List ℕ))
    (hL : L.Perm (lowerStates s)) (hg : GoodPart eta s) (b : ℕ) (v : ℕ → List ℕ) :
    (uBobsInput L (L.map (partWeight eta s)) ((List.range (b + 1)).map v) (gccbWeights b eta)).All
      (fun st => ∃ p ∈ L, ∃ l ≤ b, st = hstackState p (v l)) fun _ => False := by
  unfold uBobsInput
  simp only [Prog.bind_eq, Prog.lift_def, Prog.pure_eq]
  rw [gccbWeights_eq]
  refine choice_all _ _ _ _ (fun h => h ?_) fun l hl _ => ?_
  · rw [← gccbWeights_eq]
    exact ⟨gccbWeights_nonneg _ h0 h1, gccbWeights_sum _ _⟩
  · have := choice_all (β := NpState) L id (partWeight eta s) (fun p => .done (.ok (hstackState p (v l))))
      (I := fun st => ∃ p ∈ L, ∃ l ≤ b, st = hstackState p (v l)) (E := fun _ => False)
      (fun h => h ((partWeight_prob h0 h1 _ L hL).mpr hg)) fun p hp _ =>
        Prog.all_done_ok ⟨p, hp, l, by have := List.mem_range.mp hl; omega, rfl⟩
    rwa [List.map_id] at this

/-! ### The matrix -/

theorem generatePhasesR_ok {k : ℕ} (hk : k ≤ m) {us' us : Fin k → ℝ} (h : ∀ i, CellOf (us' i) (us i)) :
    ∃ P, generatePhasesR Φ k m us' = .ok P ∧ (∀ i, Close 2 1 (P i i) (phaseMatrix k m us i i)) ∧ ∀ i j, i ≠ j → P i j = 0 := by
  refine ⟨_, by unfold generatePhasesR; rw [if_pos (.inl hk)], fun i => ?_, fun i j hij => Matrix.diagonal_apply_ne _ hij⟩
  rw [phaseMatrix, Matrix.diagonal_apply_eq, Matrix.diagonal_apply_eq]
  split_ifs with hi
  · refine close_of_norm (exp_norm _).le ((phase_close Φ (h ⟨i, hi⟩)).trans ?_)
    norm_num
  · exact (Close.exact (by simp)).mono (Nat.zero_le _)

theorem uBobsMatrixR_close {α : Type} {e : ℕ} {o' o : UBobsObj m} (hh : o'.h = o.h) (hq : o.qft = dftMatrix (m - o.h) m)
    (hm : m ≤ 2 ^ 20) (hU : ∀ i j, ‖o'.U i j - o.U i j‖ ≤ (1 + 1 / 2 ^ 48) ^ e - 1) (hu : o.U ∈ unitaryGroup (Fin m) ℂ)
    (hQ : ∀ i j, Close (qftOps (m - o.h)) 1 (o'.qft i j) (dftMatrix (m - o.h) m i j))
    {F G : Matrix (Fin m) (Fin m) ℂ → Prog α} {ε : ℝ≥0∞}
    (h : ∀ (B' : Matrix (Fin m) (Fin m) ℂ) us σ, (∀ i j, Close (uBobsOps e (m - o.h) m) 1 (B' i j) (uBobsNet o.U o.h us σ i j)) →
      CloseF (F B') (G (uBobsNet o.U o.h us σ)) ε) :
    CloseF ((uBobsMatrixR C Φ o').bind F) ((uBobsMatrix o).bind G) ε := by
  unfold uBobsMatrixR uBobsMatrix
  rw [hh]
  simp only [Prog.bind_eq, Prog.lift_def, Prog.pure_eq, Prog.bind_assoc]
  refine randVec_close (m - o.h) fun us' us hl hus => ?_
  obtain ⟨v', v, rfl, rfl, hv⟩ := forall₂_ofFn hl hus
  have e1 : ∀ w : Fin (m - o.h) → ℝ, (fun i : Fin (m - o.h) => (List.ofFn w).getD i 0) = w := by
    intro w; funext i; simp
  rw [e1, e1]
  obtain ⟨P, hP, hPd, hP0⟩ := generatePhasesR_ok (m := m) Φ (Nat.sub_le m o.h) hv
  rw [hP, (generatePhases_eq (m - o.h) m (Nat.sub_le _ _) v).1, Prog.done_ok_bind, Prog.done_ok_bind]
  have hperm : (Prog.permutation m).All (fun l => ∃ σ : Equiv.Perm (Fin m), l = List.ofFn fun i => (σ i : ℕ)) fun _ => False :=
    all_shuffle fun σ => Prog.all_done_ok ⟨σ, rfl⟩
  refine CloseF.bind_right_all _ hperm ?_
  rintro l ⟨σ, rfl⟩
  rw [Prog.done_ok_bind, Prog.done_ok_bind, permCols_ofFn, permCols_ofFn, hq]
  refine h _ v σ fun i j => ?_
  refine uBobsNet_close C (Nat.sub_le _ _) hm (A' := o'.U.submatrix id σ) (A := o.U.submatrix id σ) (fun i j => ?_)
    (submatrix_unitary hu σ) hPd hP0 hQ i j
  exact ⟨entry_norm_bound_of_unitary hu _ _, by rw [mul_one]; exact hU _ _⟩

/-! ### One sample -/

theorem pow_factor_mono {n' n : ℕ} (h : n' ≤ n) :
    ((n' : ℝ) + 1) * (2 * n') ^ (n' - 1) ≤ (n + 1) * (2 * n) ^ (n - 1) := by
  have hc : (n' : ℝ) ≤ n := by exact_mod_cast h
  rcases Nat.eq_zero_or_pos n' with rfl | h0
  · rcases Nat.eq_zero_or_pos n with rfl | hn
    · exact le_rfl
    · have hn' : (1 : ℝ) ≤ n := by exact_mod_cast hn
      have : (1 : ℝ) ≤ (2 * n) ^ (n - 1) := one_le_pow₀ (by linarith)
      simp
      nlinarith
  · have h1 : (1 : ℝ) ≤ n' := by exact_mod_cast h0
    have h2 : (2 * (n' : ℝ)) ^ (n' - 1) ≤ (2 * n) ^ (n - 1) :=
      (pow_le_pow_left₀ (by positivity) (by linarith) _).trans (pow_le_pow_right₀ (by linarith) (by omega))
    gcongr

theorem entryBound_mono {e n' n m L' L : ℕ} (hn : n' ≤ n) (hL : L' ≤ L) : entryBound e n' m L' ≤ entryBound e n m L := by
  have h1 : ryserSubCount e (n' - 1) L' ≤ ryserSubCount e (n - 1) L := by
    unfold ryserSubCount
    have : n' - 1 ≤ n - 1 := by omega
    gcongr
  unfold entryBound
  have h2 : (1 : ℝ) ≤ (1 + 1 / 2 ^ 48) ^ (2 * (ryserSubCount e (n - 1) L + e + 2 + m) + 3) := one_le_pow₀ (by norm_num)
  refine mul_le_mul (sub_le_sub_right (pow_le_pow_right₀ (by norm_num) (by omega)) 1)
    (pow_le_pow_left₀ (by positivity) (pow_factor_mono hn) 2) (sq_nonneg _) (by linarith)

theorem versionBBound_mono {m t' t : ℕ} {ε' ε : ℝ} (ht : t' ≤ t) (h0 : 0 ≤ ε') (h : ε' ≤ ε) :
    versionBBound m t' ε' ≤ versionBBound m t ε := by
  have h1 := drawsErr_mono m ht h0
  rw [drawsErr_eq, drawsErr_eq] at h1
  refine h1.trans ?_
  unfold versionBBound
  have : 0 ≤ ∑ i ∈ range t, (m : ℝ) ^ (i + 1) / ((i + 1).factorial : ℝ) := sum_nonneg fun i _ => by positivity
  gcongr

theorem gccbOnArrayF_close {e n K : ℕ} {B' B : Matrix (Fin m) (Fin m) ℂ} (hB : B ∈ unitaryGroup (Fin m) ℂ) (hm0 : 0 < m)
    (hm : m ≤ 2 ^ 20) (hc : ∀ i j, Close e 1 (B' i j) (B i j)) (st : List ℕ) (hst : st.length = m) (hn : st.sum ≤ n)
    (hn' : n ≤ 1000) (hK : boxSize st ≤ K) (fuel : ℕ) (hf : K ≤ fuel) :
    CloseF (gccbOnArrayF R C (ryserSubPermanentsR R C fuel) B' fuel (.ints st))
      (gccbOnArray (ryserSubPermanents fuel) B fuel (.ints st))
      (ENNReal.ofReal (versionBBound m n (entryBound e n m K))) := by
  have hI := rowsOf_interferometer hB hm0 st hst
  have hstored : StoredAs e (rowsOf B') (rowsOf B) := by
    intro i j
    by_cases hij : i < m ∧ j < m
    · rw [mget_rowsOf _ _ _ hij.1 hij.2, mget_rowsOf _ _ _ hij.1 hij.2]
      have := (hc ⟨i, hij.1⟩ ⟨j, hij.2⟩).2
      rwa [mul_one] at this
    · rw [mget_rowsOf_out _ _ _ hij, mget_rowsOf_out _ _ _ hij, sub_self, norm_zero]
      exact sub_nonneg.mpr (one_le_qf_pow e)
  have hrows : ∀ r ∈ rowsOf B', r.length = m := by
    intro r hr
    obtain ⟨i, rfl⟩ := List.mem_ofFn.mp hr
    simp
  have hE := entriesNear_stored R C hI hrows (by simp [rowsOf, hst]) hst.le hstored (by omega) (by omega) fuel (hK.trans hf)
  have h1 := gccbSimulateF_close R C (hI.bok fuel (hK.trans hf)) hE (entryBound_nonneg ..) (by omega) fuel
    (lt_of_lt_of_le (sum_lt_prod_succ st) (hK.trans hf)) 1
  rw [drawsErr_eq, hst, show ((1 : ℤ).toNat : ℝ) = 1 by simp, one_mul] at h1
  refine ((h1.bind_left fun res => .done (pyGetN res 0)).mono (ENNReal.ofReal_le_ofReal ?_))
  exact versionBBound_mono hn (entryBound_nonneg ..) (entryBound_mono hn hK)

theorem length_lowerStates (s : List ℕ) : (lowerStates s).length = boxSize s := by
  induction s with
  | nil => rfl
  | cons a s ih =>
    simp [lowerStates, boxSize, List.length_flatMap] at ih ⊢
    rw [ih]

theorem boxSize_le {l s : List ℕ} (h : l ∈ lowerStates s) : boxSize l ≤ boxSize s := by
  induction s generalizing l with
  | nil => simp [lowerStates] at h; rw [h]
  | cons a s ih =>
    simp only [lowerStates, List.mem_flatMap, List.mem_range, List.mem_map] at h
    obtain ⟨b, hb, l', hl', rfl⟩ := h
    simp only [boxSize, List.map_cons, List.prod_cons]
    exact Nat.mul_le_mul (by omega) (ih hl')

theorem boxSize_approx (p : List ℕ) (l k : ℕ) : boxSize (p ++ l :: List.replicate k 0) = boxSize p * (l + 1) := by
  simp [boxSize]

/-- Error of a sample: `e` roundings of the stored matrix, input `S` of which the first `h` modes are treated exactly. -/
noncomputable def uBobsErr (e m h : ℕ) (S : List ℕ) : ℝ :=
  uBobsInputErr (boxSize (S.take h)) (S.take h).sum (S.drop h).sum
    + versionBBound m S.sum (entryBound (uBobsOps e (m - h) m) S.sum m (boxSize (S.take h) * ((S.drop h).sum + 1)))

theorem uBobsErr_nonneg (e m h : ℕ) (S : List ℕ) : 0 ≤ uBobsErr e m h S :=
  add_nonneg (uBobsInputErr_nonneg ..) (versionBBound_nonneg _ _ (entryBound_nonneg ..))

theorem uBobsSampleR_close {e : ℕ} {o' o : UBobsObj m} (hh : o'.h = o.h)
    (hq : o.qft = dftMatrix (m - o.h) m) (hm : m ≤ 2 ^ 20)
    (hU : ∀ i j, ‖o'.U i j - o.U i j‖ ≤ (1 + 1 / 2 ^ 48) ^ e - 1) (hu : o.U ∈ unitaryGroup (Fin m) ℂ)
    (hQ : ∀ i j, Close (qftOps (m - o.h)) 1 (o'.qft i j) (dftMatrix (m - o.h) m i j))
    (h0 : 0 ≤ o.eta) (h1 : o.eta ≤ 1) (hf : IsFloat o.eta) (hh1 : 1 ≤ o.h) (hh2 : o.h < m)
    (S : List ℕ) (hS : S.length = m) (hn : S.sum ≤ 170) (hM : boxSize (S.take o.h) ≤ 2 ^ 20) (L : List (List ℕ))
    (hL : L.Perm (lowerStates (S.take o.h))) (hg : GoodPart o.eta (S.take o.h)) (fuel : ℕ)
    (hfu : boxSize (S.take o.h) * ((S.drop o.h).sum + 1) ≤ fuel) :
    CloseF (uBobsSampleR R C Φ (ryserSubPermanentsR R C fuel) fuel o' L (L.map (partWeightR R o.eta (S.take o.h)))
        (approxStates o.h S) (gccbWeightsR R (S.drop o.h).sum o.eta))
      (uBobsSample (ryserSubPermanents fuel) fuel o L (L.map (partWeight o.eta (S.take o.h))) (approxStates o.h S)
        (gccbWeights (S.drop o.h).sum o.eta))
      (ENNReal.ofReal (uBobsErr e m o.h S)) := by
  have hsum : (S.take o.h).sum + (S.drop o.h).sum = S.sum := by rw [← List.sum_append, List.take_append_drop]
  have hlen : L.length = boxSize (S.take o.h) := by rw [hL.length_eq, length_lowerStates]
  unfold uBobsSampleR uBobsSample uBobsErr
  simp only [Prog.bind_eq]
  rw [ENNReal.ofReal_add (uBobsInputErr_nonneg ..) (versionBBound_nonneg _ _ (entryBound_nonneg ..)), ← hlen]
  refine (uBobsInputR_close R h0 h1 hf (S.take o.h) L hL hg (by omega) (by omega) (approxStates o.h S) (S.drop o.h).sum
    (by simp [approxStates]) (by omega)).bind_all (uBobsInput_all h0 h1 _ L hL hg _ _) ?_
  rintro st ⟨p, hp, l, hl, rfl⟩
  have hp' := hL.mem_iff.mp hp
  obtain ⟨e1, e2, e3⟩ := uBobs_state hh1 hh2 hS hp' hl
  rw [hstack_ints e1 (by simp)]
  refine uBobsMatrixR_close C Φ hh hq hm hU hu hQ fun B' us σ hB => ?_
  have hK : boxSize (p ++ l :: List.replicate ((S.drop o.h).length - 1) 0) ≤ boxSize (S.take o.h) * ((S.drop o.h).sum + 1) := by
    rw [boxSize_approx]
    exact Nat.mul_le_mul (boxSize_le hp') (by omega)
  rw [hlen]
  exact gccbOnArrayF_close R C (uBobsNet_unitary hu o.h us σ) (by omega) hm hB _ e2 e3 (by omega) hK fuel hfu

/-! ### Runs -/

theorem uBobsSimulateR_eq (hash : List ℕ → ℤ) (sub : CalcCfg ℂ → Py (List ℂ)) (fuel : ℕ) (o : UBobsObj m) (S : List ℕ)
    (hS : S.length = m) (ht : 0 < o.threads) (N : ℤ) (hN : 1 ≤ N) (hm : o.h < m) {L : List (List ℕ)}
    (h1 : uBobsParts hash (S.take o.h) = .ok L) (h2 : L.Perm (lowerStates (S.take o.h))) (h3 : pyGet L (-1) = .ok (S.take o.h)) :
    uBobsSimulateR R C Φ hash sub fuel o S N
      = (uBobsSampleR R C Φ sub fuel o L (L.map (partWeightR R o.eta (S.take o.h))) (approxStates o.h S)
          (gccbWeightsR R (S.drop o.h).sum o.eta)).repeatN N.toNat := by
  unfold uBobsSimulateR
  rw [if_neg (by omega), h1, uBobsApproximatedR_ok R o.h hm o.eta (S.drop o.h) (by
    intro h; have := congrArg List.length h; simp at this; omega), distributeUniformly_ok _ _ ht]
  simp only [Prog.lift_def, Prog.bind_eq, Prog.done_ok_bind, uBobsPartsWeightsR_ok R _ _ L h2 h3]
  rw [uBobsPool_eq, distribute_sum _ _ ht]
  rfl

theorem uBobsSimulate_eq' (hash : List ℕ → ℤ) (sub : CalcCfg ℂ → Py (List ℂ)) (fuel : ℕ) (o : UBobsObj m) (S : List ℕ)
    (hS : S.length = m) (ht : 0 < o.threads) (N : ℤ) (hN : 1 ≤ N) (hm : o.h < m) {L : List (List ℕ)}
    (h1 : uBobsParts hash (S.take o.h) = .ok L) (h2 : L.Perm (lowerStates (S.take o.h))) (h3 : pyGet L (-1) = .ok (S.take o.h)) :
    uBobsSimulate hash sub fuel o S N
      = (uBobsSample sub fuel o L (L.map (partWeight o.eta (S.take o.h))) (approxStates o.h S)
          (gccbWeights (S.drop o.h).sum o.eta)).repeatN N.toNat := by
  rw [uBobsSimulate_def]
  rw [if_neg (by omega), h1, uBobsApproximated_ok m o.h hm o.eta (S.drop o.h) (by
    intro h; have := congrArg List.length h; simp at this; omega), distributeUniformly_ok _ _ ht]
  simp only [Prog.lift_def, Prog.bind_eq, Prog.done_ok_bind, uBobsPartsWeights_ok _ _ L h2 h3]
  rw [uBobsPool_eq, distribute_sum _ _ ht]
  rfl

/-- The sampler built by the constructor, in floating-point arithmetic. -/
theorem uBobsInitR_ok {U : Matrix (Fin m) (Fin m) ℂ} {cpu : ℕ} {eta : ℝ} {h : ℕ} {t : ℤ} {o : UBobsObj m} (hm : m ≤ 2 ^ 20)
    (ho : uBobsInitR R C Φ U cpu eta h t = .ok o) : o.h = h ∧ o.eta = eta ∧ o.U = U ∧ o.threads = uBobsThreadsNumber cpu t ∧
      ∀ i j, Close (qftOps (m - h)) 1 (o.qft i j) (dftMatrix (m - h) m i j) := by
  obtain ⟨Q, h1, h2⟩ := generateQftR_close R C Φ (Nat.sub_le m h) (by omega)
  unfold uBobsInitR at ho
  rw [h1, ok_bind] at ho
  injection ho with ho
  subst ho
  exact ⟨rfl, rfl, rfl, rfl, h2⟩

theorem uBobsSimulateR_close (hash : List ℕ → ℤ) {e : ℕ} {U' U : Matrix (Fin m) (Fin m) ℂ} (hu : U ∈ unitaryGroup (Fin m) ℂ)
    (hU : ∀ i j, ‖U' i j - U i j‖ ≤ (1 + 1 / 2 ^ 48) ^ e - 1) (hm : m ≤ 2 ^ 20) (cpu : ℕ) (hc : 0 < cpu) {eta : ℝ}
    (h0 : 0 ≤ eta) (h1 : eta ≤ 1) (hf : IsFloat eta) {h : ℕ} (hh1 : 1 ≤ h) (hh2 : h < m) (t : ℤ) {o' o : UBobsObj m}
    (ho' : uBobsInitR R C Φ U' cpu eta h t = .ok o') (ho : uBobsInit U cpu eta h t = .ok o) (S : List ℕ) (hS : S.length = m)
    (hg : GoodPart eta (S.take h)) (hhash : HashOk hash (S.take h)) (hn : S.sum ≤ 170) (hM : boxSize (S.take h) ≤ 2 ^ 20)
    (fuel : ℕ) (hfu : boxSize (S.take h) * ((S.drop h).sum + 1) ≤ fuel) (N : ℤ) :
    CloseF (uBobsSimulateR R C Φ hash (ryserSubPermanentsR R C fuel) fuel o' S N)
      (uBobsSimulate hash (ryserSubPermanents fuel) fuel o S N) (ENNReal.ofReal (N.toNat * uBobsErr e m h S)) := by
  obtain ⟨rfl, rfl, rfl, e4, e5⟩ := uBobsInitR_ok R C Φ hm ho'
  obtain rfl := uBobsInit_ok ho
  by_cases hN : N < 1
  · unfold uBobsSimulateR uBobsSimulate
    rw [if_pos hN, if_pos hN]
    exact (CloseF.refl _).mono zero_le
  obtain ⟨L, g1, g2, g3⟩ := uBobsParts_ok hash (S.take o'.h) hhash
  have ht := uBobsThreadsNumber_pos cpu hc t
  rw [uBobsSimulateR_eq R C Φ hash _ fuel o' S hS (by rw [e4]; exact ht) N (by omega) hh2 g1 g2 g3,
    uBobsSimulate_eq' hash _ fuel (uBobsNew U cpu o'.eta o'.h t) S hS ht N (by omega) hh2 g1 g2 g3]
  exact CloseF.repeatN (uBobsErr_nonneg ..) (uBobsSampleR_close (o' := o') (o := uBobsNew U cpu o'.eta o'.h t) R C Φ rfl rfl hm hU hu
    e5 h0 h1 hf hh1 hh2 S hS hn hM L g2 hg fuel hfu) N.toNat

/-- Weights refused by numpy: every run that draws a sample raises `ValueError`. -/
theorem uBobsSimulateR_refused (hash : List ℕ → ℤ) (sub : CalcCfg ℂ → Py (List ℂ)) (fuel : ℕ) (o : UBobsObj m) (S : List ℕ)
    (hS : S.length = m) (hhash : HashOk hash (S.take o.h)) (h0 : 0 ≤ o.eta) (h1 : o.eta ≤ 1) (hf : IsFloat o.eta)
    (hn : S.sum ≤ 170) (hM : boxSize (S.take o.h) ≤ 2 ^ 20) (hh : o.h < m) (ht : 0 < o.threads) (N : ℤ) (hN : 1 ≤ N)
    (htot : ((S.take o.h).map (modeTotal o.eta)).prod ≤ 1 - 1 / 2 ^ 25) :
    (uBobsSimulateR R C Φ hash sub fuel o S N).All (fun _ => False) (· = .valueError) := by
  have hsum : (S.take o.h).sum + (S.drop o.h).sum = S.sum := by rw [← List.sum_append, List.take_append_drop]
  obtain ⟨L, g1, g2, g3⟩ := uBobsParts_ok hash (S.take o.h) hhash
  rw [uBobsSimulateR_eq R C Φ hash _ fuel o S hS ht N hN hh g1 g2 g3]
  refine repeatN_raise ?_ _ (by omega)
  have hlen : L.length = boxSize (S.take o.h) := by rw [g2.length_eq, length_lowerStates]
  unfold uBobsSampleR uBobsInputR
  simp only [Prog.bind_eq, Prog.lift_def, Prog.pure_eq, Prog.bind_assoc]
  refine Prog.all_bind (I := fun i => i ≤ (S.drop o.h).sum) ?_ fun i hi => ?_
  · have := npLeft_all R (S.drop o.h).sum (by omega) h0 h1 hf
    rw [separableWeightsR_eq] at this
    refine Prog.all_mono (E := fun _ => False) ?_ (fun _ h => h) fun _ h => h.elim
    convert this using 2
    simp [approxStates]
  · rw [pyGetN_ok (by simp [approxStates]; omega), Prog.done_ok_bind]
    unfold npChoiceR
    rw [partWeightR_refused R h0 h1 hf _ L g2 (by omega) (by omega) htot]
    exact Prog.all_done_error rfl

end Verif
