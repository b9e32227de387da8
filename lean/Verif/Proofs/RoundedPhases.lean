import Verif.Model.RoundedFixed
import Verif.Proofs.RoundedLossLaw
import Verif.Proofs.NumpyChoice
import Verif.Proofs.NormKept
import Mathlib.Analysis.SpecialFunctions.Trigonometric.Bounds

/-! Helper lemmas: random phases in floating-point arithmetic. -/
namespace Verif

open Finset Prog MeasureTheory
open scoped ENNReal

/-! ### Uniform numbers and multiples of `2 ^ -53` -/

/-- The unit interval cut into cells. -/
theorem lintegral_cells (K : ℕ) (hK : 0 < K) (g : ℝ → ℝ≥0∞) (j : ℕ) :
    ∫⁻ u in Set.Ico (0 : ℝ) ((j : ℝ) / K), g u
      = ∑ k ∈ range j, ∫⁻ u in Set.Ico ((k : ℝ) / K) (((k : ℝ) + 1) / K), g u := by
  have hK' : (0 : ℝ) < K := by exact_mod_cast hK
  induction j with
  | zero => simp
  | succ j ih =>
    rw [sum_range_succ, ← ih, ← lintegral_union measurableSet_Ico]
    · rw [Set.Ico_union_Ico_eq_Ico (by positivity) (by gcongr; linarith)]
      push_cast
      rfl
    · rw [Set.disjoint_left]
      intro x h1 h2
      exact absurd h1.2 (not_lt.mpr h2.1)

theorem lintegral_cell_const (K : ℕ) (hK : 0 < K) (k : ℕ) (c : ℝ≥0∞) :
    ∫⁻ _ in Set.Ico ((k : ℝ) / K) (((k : ℝ) + 1) / K), c = c / K := by
  have hK' : (0 : ℝ) < K := by exact_mod_cast hK
  rw [setLIntegral_const, Real.volume_Ico]
  have e : ((k : ℝ) + 1) / K - k / K = 1 / K := by ring
  rw [e, ENNReal.ofReal_div_of_pos hK', ENNReal.ofReal_one, ENNReal.ofReal_natCast, mul_one_div]

/-- A mean over the cells, each value near those of a function of the cell. -/
theorem mean_cells (K : ℕ) (hK : 0 < K) (F : ℕ → ℝ≥0∞) (g : ℝ → ℝ≥0∞) (e : ℝ≥0∞)
    (h : ∀ k < K, ∀ u : ℝ, (k : ℝ) / K ≤ u → u < ((k : ℝ) + 1) / K → F k ≤ g u + e ∧ g u ≤ F k + e) :
    (∑ k ∈ range K, F k) / K ≤ (∫⁻ u in Set.Ico (0 : ℝ) 1, g u) + e ∧
    ∫⁻ u in Set.Ico (0 : ℝ) 1, g u ≤ (∑ k ∈ range K, F k) / K + e := by
  have hK' : (0 : ℝ) < K := by exact_mod_cast hK
  have hK0 : (K : ℝ≥0∞) ≠ 0 := by exact_mod_cast hK.ne'
  have hKt : (K : ℝ≥0∞) ≠ ⊤ := ENNReal.natCast_ne_top K
  have h1 := lintegral_cells K hK g K
  rw [div_self hK'.ne'] at h1
  have he : (∑ _k ∈ range K, e / (K : ℝ≥0∞)) = e := by
    rw [sum_const, card_range, nsmul_eq_mul, ENNReal.mul_div_cancel hK0 hKt]
  have hs : (∑ k ∈ range K, F k) / (K : ℝ≥0∞) = ∑ k ∈ range K, F k / (K : ℝ≥0∞) := by
    simp only [div_eq_mul_inv, sum_mul]
  have hm : ∀ k, MeasurableSet (Set.Ico ((k : ℝ) / K) (((k : ℝ) + 1) / K)) := fun k => measurableSet_Ico
  rw [h1, hs]
  constructor
  · rw [← he, ← sum_add_distrib]
    refine sum_le_sum fun k hk => ?_
    rw [← lintegral_cell_const K hK k (F k), ← lintegral_cell_const K hK k e, ← lintegral_add_right _ measurable_const]
    exact setLIntegral_mono_ae' (hm k) (Filter.Eventually.of_forall fun u hu => (h k (mem_range.mp hk) u hu.1 hu.2).1)
  · rw [← he, ← sum_add_distrib]
    refine sum_le_sum fun k hk => ?_
    rw [← lintegral_cell_const K hK k (F k), ← lintegral_cell_const K hK k e, ← lintegral_add_right _ measurable_const]
    exact setLIntegral_mono_ae' (hm k) (Filter.Eventually.of_forall fun u hu => (h k (mem_range.mp hk) u hu.1 hu.2).2)

/-- `random()` returns a multiple of `2 ^ -53`; it can be taken to be a uniform number rounded down. -/
theorem random_close {α : Type} {F G : ℝ → Prog α} {e : ℝ≥0∞}
    (h : ∀ u' u : ℝ, IsRandom u' → u' ≤ u → u < u' + 1 / 2 ^ 53 → u < 1 → CloseF (F u') (G u) e) :
    CloseF (randomR.bind F) (Prog.random.bind G) e := by
  intro f hf
  have e2 : (Prog.random.bind G).wp f = ∫⁻ u in Set.Ico (0 : ℝ) 1, (G u).wp f := rfl
  rw [randomR_wp, e2]
  refine mean_cells (2 ^ 53) (by norm_num) (fun k => (F ((k : ℝ) / 2 ^ 53)).wp f) (fun u => (G u).wp f) e fun k hk u h1 h2 => ?_
  have hc : ((2 ^ 53 : ℕ) : ℝ) = 2 ^ 53 := by norm_num
  rw [hc] at h1 h2
  have hk' : (k : ℝ) + 1 ≤ 2 ^ 53 := by
    have : k + 1 ≤ 2 ^ 53 := hk
    exact_mod_cast this
  have hu1 : u < 1 := h2.trans_le ((div_le_one (by positivity)).mpr hk')
  exact h ((k : ℝ) / 2 ^ 53) u ⟨k, hk, rfl⟩ h1 (by rw [← add_div]; exact h2) hu1 f hf

/-- The numbers returned by `rand` and uniform numbers. -/
def CellOf (u' u : ℝ) : Prop := IsRandom u' ∧ u' ≤ u ∧ u < u' + 1 / 2 ^ 53

theorem randVec_close {α : Type} (m : ℕ) : ∀ {F G : List ℝ → Prog α} {e : ℝ≥0∞},
    (∀ us' us : List ℝ, us.length = m → List.Forall₂ CellOf us' us → CloseF (F us') (G us) e) →
    CloseF ((randVecR m).bind F) ((randVec m).bind G) e := by
  induction m with
  | zero => intro F G e h; exact h [] [] rfl .nil
  | succ m ih =>
    intro F G e h
    rw [randVecR, randVec]
    simp only [Prog.bind_eq, Prog.bind_assoc]
    refine random_close fun u' u h1 h2 h3 _ => ?_
    refine ih (F := fun us => F (u' :: us)) (G := fun us => G (u :: us)) fun us' us hl hus => ?_
    exact h _ _ (by simp [hl]) (.cons ⟨h1, h2, h3⟩ hus)

end Verif
