import Verif.Proofs.BlockNetworks
import Verif.Proofs.Thinning
import Verif.Proofs.UniformAgree

/-! Helper lemmas: losses after a lossy network. -/
namespace Verif

open Finset
open scoped ENNReal

theorem expLoss_const {eta : ℝ} (h0 : 0 ≤ eta) (h1 : eta ≤ 1) (S : List ℕ) (c : ℝ≥0∞) : expLoss eta S (fun _ => c) = c := by
  induction S with
  | nil => rfl
  | cons a S ih =>
    rw [expLoss]
    simp only [ih]
    rw [← sum_mul, ← ENNReal.ofReal_sum_of_nonneg fun l _ => binomialWeight_nonneg _ _ h0 h1]
    have : ∑ l ∈ range (a + 1), binomialWeight a l eta = 1 := by
      have := add_pow eta (1 - eta) a
      rw [add_sub_cancel, one_pow] at this
      rw [this]
      exact sum_congr rfl fun l _ => by rw [binomialWeight]; ring
    rw [this]; simp

theorem expLoss_append (eta : ℝ) (S S' : List ℕ) (g : List ℕ → ℝ≥0∞) :
    expLoss eta (S ++ S') g = expLoss eta S fun L => expLoss eta S' fun L' => g (L ++ L') := by
  induction S generalizing g with
  | nil => rfl
  | cons a S ih =>
    rw [List.cons_append, expLoss, expLoss]
    refine sum_congr rfl fun l _ => ?_
    rw [ih]
    rfl

theorem expLoss_sum (eta : ℝ) (S : List ℕ) {ι : Type*} (s : Finset ι) (g : ι → List ℕ → ℝ≥0∞) :
    expLoss eta S (fun L => ∑ i ∈ s, g i L) = ∑ i ∈ s, expLoss eta S (g i) := by
  induction S generalizing g with
  | nil => rfl
  | cons a S ih =>
    simp only [expLoss, ih, mul_sum]
    rw [sum_comm]

theorem expLoss_take {eta : ℝ} (h0 : 0 ≤ eta) (h1 : eta ≤ 1) (T E : List ℕ) (g : List ℕ → ℝ≥0∞) :
    expLoss eta (T ++ E) (fun L => g (L.take T.length)) = expLoss eta T g := by
  rw [expLoss_append]
  refine expLoss_congr eta T _ _ fun L hL => ?_
  have : ∀ L', (L ++ L').take T.length = L := fun L' => by rw [← hL.length_eq]; simp
  simp only [this]
  exact expLoss_const h0 h1 E _

/-- The law of uniform losses as an expectation over the lost particles. -/
theorem uniformLoss_input {eta : ℝ} (h0 : 0 ≤ eta) (h1 : eta ≤ 1) (U : List (List ℂ)) (S T : List ℕ) :
    ENNReal.ofReal (uniformLossProb U S eta T) = expLoss eta S fun L => ENNReal.ofReal (bosonProb0 U L T) := by
  classical
  by_cases hs : T.sum ≤ S.sum
  swap
  · rw [uniformLossProb, binomialWeight, Nat.choose_eq_zero_of_lt (by omega)]
    symm
    rw [expLoss_congr eta S _ (fun _ => 0) fun L hL => ?_, expLoss_zero]
    · simp
    · have := ModeLe.sum_le hL
      rw [bosonProb0_of_ne (by omega), ENNReal.ofReal_zero]
  rw [expLoss_lowerStates h0 h1, ← List.sum_toFinset _ (lowerStates_nodup S)]
  have e : ∀ L ∈ (lowerStates S).toFinset,
      ENNReal.ofReal (List.zipWith (fun n l => binomialWeight n l eta) S L).prod
          * ENNReal.ofReal (bosonProb0 U L T)
        = if L.sum = T.sum then ENNReal.ofReal (((List.zipWith Nat.choose S L).prod : ℝ)
            * (eta ^ T.sum * (1 - eta) ^ (S.sum - T.sum) * bosonProb U L T)) else 0 := by
    intro L hL
    have hle : StateLE L S := (mem_lowerStates S L).mp (by simpa using hL)
    by_cases h : L.sum = T.sum
    · rw [if_pos h, bosonProb0_of_eq h, prod_binomialWeight eta hle, h, ← ENNReal.ofReal_mul, mul_assoc]
      have : 0 ≤ 1 - eta := by linarith
      positivity
    · rw [if_neg h, bosonProb0_of_ne h, ENNReal.ofReal_zero, mul_zero]
  rw [sum_congr rfl e, ← sum_filter, ← ENNReal.ofReal_sum_of_nonneg]
  · congr 1
    rw [← sum_stateOf S T.sum _ (fun l => by
      rw [mem_filter, List.mem_toFinset, mem_lowerStates]) (fun L => eta ^ T.sum * (1 - eta) ^ (S.sum - T.sum) * bosonProb U L T),
      ← mul_sum, uniformLossProb, fixedLossProb, binomialWeight]
    have : (S.sum.choose T.sum : ℝ) ≠ 0 := by exact_mod_cast (Nat.choose_pos hs).ne'
    field_simp
  · intro L hL
    have : 0 ≤ 1 - eta := by linarith
    have := bosonProb_nonneg U L T
    positivity

/-- Sums over the states of `m + b` modes, split into the first modes and the others. -/
theorem sum_statesUpTo_split (m b n : ℕ) (p : List ℕ → ℝ≥0∞) (hp : ∀ X, n < X.sum → p X = 0) :
    ∑ X ∈ statesUpTo (m + b) n, p X = ∑ T ∈ statesUpTo m n, ∑ E ∈ statesUpTo b n, p (T ++ E) := by
  rw [← sum_product']
  refine sum_bij_ne_zero (fun X _ _ => (X.take m, X.drop m)) ?_ ?_ ?_ ?_
  · intro X hX _
    rw [mem_statesUpTo] at hX
    have := congrArg List.sum (List.take_append_drop m X)
    rw [List.sum_append] at this
    simp only [mem_product, mem_statesUpTo, List.length_take, List.length_drop]
    omega
  · intro X _ _ Y _ _ h
    rw [← List.take_append_drop m X, ← List.take_append_drop m Y, (Prod.mk.inj h).1, (Prod.mk.inj h).2]
  · rintro ⟨T, E⟩ h hne
    simp only [mem_product, mem_statesUpTo] at h
    simp only at hne
    refine ⟨T ++ E, ?_, hne, ?_⟩
    · rw [mem_statesUpTo, List.length_append]
      refine ⟨by omega, ?_⟩
      by_contra hlt
      exact hne (hp _ (by omega))
    · simp [← h.1.1]
  · intro X _ _
    simp only [List.take_append_drop]

/-- Losses after a lossy network are losses of the network. -/
theorem lossyProb_expLoss {m : ℕ} {A : Matrix (Fin m) (Fin m) ℂ} {y : ℝ} (h0 : 0 ≤ y) (h1 : y ≤ 1) {W W' : List (List ℂ)} {b b' : ℕ}
    (hW : IsDilation (rowsOf A) W m b) (hW' : IsDilation (rowsOf (((Real.sqrt y : ℝ) : ℂ) • A)) W' m b') (S : List ℕ)
    (hS : S.length = m) (g : List ℕ → ℝ≥0∞) :
    ∑ T ∈ statesUpTo m S.sum, ENNReal.ofReal (lossyProb W b S T) * expLoss y T g
      = ∑ T ∈ statesUpTo m S.sum, ENNReal.ofReal (lossyProb W' b' S T) * g T := by
  have hu : UsedOrtho (colOf W) (m + b) S := ⟨m, orthoCols_of _ hW.isometric, fun x hx => by
    have := particlesFrom_range hx; omega⟩
  have nn : ∀ L X, 0 ≤ bosonProb0 W L X := fun L X => by
    unfold bosonProb0; split_ifs
    · exact bosonProb_nonneg _ _ _
    · exact le_rfl
  have e1 : ∑ T ∈ statesUpTo m S.sum, ENNReal.ofReal (lossyProb W b S T) * expLoss y T g
      = ∑ X ∈ statesUpTo (m + b) S.sum, ENNReal.ofReal (bosonProb0 W S X) * expLoss y X fun L => g (L.take m) := by
    rw [sum_statesUpTo_split]
    · refine sum_congr rfl fun T hT => ?_
      rw [mem_statesUpTo] at hT
      rw [lossyProb_eq_upTo W b S T S.sum le_rfl, ENNReal.ofReal_sum_of_nonneg fun E _ => nn _ _, sum_mul]
      refine sum_congr rfl fun E _ => ?_
      rw [← hT.1, expLoss_take h0 h1]
    · intro X hX
      rw [bosonProb0_of_ne (by omega)]; simp
  have e2 : ∑ X ∈ statesUpTo (m + b) S.sum, ENNReal.ofReal (bosonProb0 W S X) * expLoss y X (fun L => g (L.take m))
      = ∑ X ∈ statesFin (m + b) S.sum, ENNReal.ofReal (bosonProb W S X) * expLoss y X fun L => g (L.take m) := by
    symm
    refine sum_subset_zero_on_sdiff (fun T hT => ?_) (fun T hT => ?_) fun T hT => ?_
    · rw [mem_statesFin] at hT
      rw [mem_statesUpTo]
      exact ⟨hT.1, hT.2.le⟩
    · rw [mem_sdiff, mem_statesUpTo, mem_statesFin] at hT
      rw [bosonProb0_of_ne fun h => hT.2 ⟨hT.1.1, h.symm⟩]
      simp
    · rw [mem_statesFin] at hT
      rw [bosonProb0_of_eq hT.2.symm]
  rw [e1, e2, boson_expLoss hu h0 h1, sum_statesUpTo_split]
  · refine sum_congr rfl fun T hT => ?_
    rw [mem_statesUpTo] at hT
    rw [← lossyProb_uniform A y h0 h1 hW hW' S T hS hT.1]
    rw [expLoss_congr y S _ (fun L => ∑ E ∈ statesUpTo b S.sum, ENNReal.ofReal (bosonProb0 W L (T ++ E))) fun L hL => by
      rw [lossyProb_eq_upTo W b L T S.sum (ModeLe.sum_le hL), ENNReal.ofReal_sum_of_nonneg fun E _ => nn _ _], expLoss_sum,
      sum_mul]
    refine sum_congr rfl fun E _ => ?_
    rw [uniformLoss_input h0 h1, ← hT.1, List.take_left]
  · intro X hX
    rw [uniformLossProb, binomialWeight, Nat.choose_eq_zero_of_lt hX]
    simp

end Verif
