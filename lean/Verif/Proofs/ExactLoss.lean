import Verif.Proofs.ThrownLoss

/-! Helper lemmas: losses as a random number of survivors. -/
namespace Verif

open Finset
open scoped ENNReal

/-- Expectations over losses: a binomial number of particles survives, each set of this size equally likely. -/
theorem expLoss_survivors {eta : ℝ} (h0 : 0 ≤ eta) (h1 : eta ≤ 1) (S : List ℕ) (g : List ℕ → ℝ) (hg : ∀ L, 0 ≤ g L) :
    expLoss eta S (fun L => ENNReal.ofReal (g L))
      = ENNReal.ofReal (∑ l ∈ range (S.sum + 1), binomialWeight S.sum l eta *
          ((∑ A ∈ powersetCard l (univ : Finset (Particle S)), g (stateOf A)) / (S.sum.choose l : ℝ))) := by
  classical
  have h2 : 0 ≤ 1 - eta := by linarith
  rw [expLoss_lowerStates h0 h1, ← List.sum_toFinset _ (lowerStates_nodup S)]
  have hle : ∀ L ∈ (lowerStates S).toFinset, StateLE L S := fun L hL => (mem_lowerStates S L).mp (by simpa using hL)
  have e : ∀ L ∈ (lowerStates S).toFinset,
      ENNReal.ofReal (List.zipWith (fun n l => binomialWeight n l eta) S L).prod * ENNReal.ofReal (g L)
        = ENNReal.ofReal (((List.zipWith Nat.choose S L).prod : ℝ) * (eta ^ L.sum * (1 - eta) ^ (S.sum - L.sum) * g L)) := by
    intro L hL
    rw [prod_binomialWeight eta (hle L hL), ← ENNReal.ofReal_mul (by positivity)]
    congr 1
    ring
  rw [sum_congr rfl e, ← ENNReal.ofReal_sum_of_nonneg fun L _ => by have := hg L; positivity]
  congr 1
  rw [← sum_fiberwise_of_maps_to (g := List.sum) (t := range (S.sum + 1)) fun L hL => by
    have := ModeLe.sum_le (hle L hL)
    rw [mem_range]; omega]
  refine sum_congr rfl fun l hl => ?_
  rw [mem_range] at hl
  rw [sum_congr rfl (g := fun L => ((List.zipWith Nat.choose S L).prod : ℝ) * (eta ^ l * (1 - eta) ^ (S.sum - l) * g L))
    fun L hL => by rw [(mem_filter.mp hL).2],
    ← sum_stateOf S l _ (fun L => by rw [mem_filter, List.mem_toFinset, mem_lowerStates])
      (fun L => eta ^ l * (1 - eta) ^ (S.sum - l) * g L), ← mul_sum, binomialWeight]
  have : (S.sum.choose l : ℝ) ≠ 0 := by exact_mod_cast (Nat.choose_pos (by omega)).ne'
  field_simp

theorem firstModes_ones (K : ℕ) : FirstModes K (List.replicate K 1) := by
  unfold FirstModes
  refine List.ext_getElem (by simp) fun i h1 h2 => ?_
  have : i < K := by simpa using h1
  simp [this]

/-- One particle in each of `K` modes: the survivors are in different modes. -/
theorem expLoss_ones {eta : ℝ} (h0 : 0 ≤ eta) (h1 : eta ≤ 1) (K : ℕ) (g : List ℕ → ℝ) (hg : ∀ L, 0 ≤ g L) :
    expLoss eta (List.replicate K 1) (fun L => ENNReal.ofReal (g L))
      = ENNReal.ofReal (∑ l ∈ range (K + 1), binomialWeight K l eta *
          ((∑ f : Fin l → Fin K with Function.Injective f, g (thrown K f)) / K.descFactorial l)) := by
  have hs : (List.replicate K 1).sum = K := by simp
  rw [expLoss_survivors h0 h1 _ g hg]
  have e : ∀ l, (∑ f : Fin l → Fin (List.replicate K 1).sum with Function.Injective f, g (thrown K f))
        / ((List.replicate K 1).sum.descFactorial l : ℝ)
      = (∑ A ∈ powersetCard l (univ : Finset (Particle (List.replicate K 1))), g (stateOf A)) /
        ((List.replicate K 1).sum.choose l : ℝ) := by
    intro l
    rw [sum_injective (firstModes_ones K) hs.le l g, Nat.descFactorial_eq_factorial_mul_choose]
    push_cast
    rw [mul_div_mul_left _ _ (by exact_mod_cast l.factorial_ne_zero)]
  simp only [← e]
  rw [hs]

end Verif
