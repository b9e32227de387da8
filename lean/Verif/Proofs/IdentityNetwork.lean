import Verif.Proofs.PhaseMeasurement
import Verif.Proofs.UniformBobsSample
import Verif.Props.Bobs

/-! Helper lemmas: modes that are not coupled, and the exact distance between placements with and without coincidences. -/
namespace Verif

open Finset

/-- Modes that are not coupled: the input is what is observed. -/
theorem lossyProb_identity {m : ℕ} (R T : List ℕ) (hR : R.length = m) (hT : T.length = m) :
    lossyProb (rowsOf (1 : Matrix (Fin m) (Fin m) ℂ)) 0 R T = if R = T then 1 else 0 := by
  have h0 : ∀ T : List ℕ, T.length = m → T.sum = R.sum → R ≠ T →
      bosonProb (rowsOf (1 : Matrix (Fin m) (Fin m) ℂ)) R T = 0 := by
    intro T hT hs hne
    rw [bosonProb_entry _ R T hR hT hs.symm]
    have : amp (entryNat (1 : Matrix (Fin m) (Fin m) ℂ)) (particles R) (particles T) = 0 := by
      by_contra hc
      refine hne ?_
      have := amp_fixed (entryNat (1 : Matrix (Fin m) (Fin m) ℂ)) 0 (fun j x _ h => ?_) R T (by rw [hR, hT]) hs.symm hc
      · simpa using this.symm
      · unfold entryNat
        split_ifs
        · exact Matrix.one_apply_ne fun e => h (congrArg Fin.val e)
        · rfl
    rw [this]
    simp
  rw [lossyProb_zero]
  by_cases hs : T.sum = R.sum
  · rw [if_pos hs]
    by_cases hne : R = T
    · subst hne
      have h1 := boson_total (rowsOf (1 : Matrix (Fin m) (Fin m) ℂ)) R (m := m) (n := m)
        (unitary_isDilation (one_mem _)).isometric hR.le (statesFin m R.sum) fun T => mem_statesFin _ _ T
      rw [sum_eq_single R] at h1
      · rw [h1, if_pos rfl]
      · intro T hT hne
        obtain ⟨h2, h3⟩ := (mem_statesFin _ _ T).mp hT
        exact h0 T h2 h3 (Ne.symm hne)
      · intro h
        exact absurd ((mem_statesFin _ _ R).mpr ⟨hR, rfl⟩) h
    · rw [if_neg hne, h0 T hT hs hne]
  · rw [if_neg hs, if_neg fun e => hs (by rw [e])]

/-- Whether a placement has no coincidences can be read off the state. -/
theorem thrown_injective {m k n : ℕ} (hn : n ≤ m) {f g : Fin k → Fin n} (h : thrown m f = thrown m g)
    (hf : Function.Injective f) : Function.Injective g := by
  have hc : ∀ j : Fin n, (univ.filter fun i => g i = j).card = (univ.filter fun i => f i = j).card := by
    intro j
    have hj : (j : ℕ) < m := by omega
    have := congrArg (fun l => l[(j : ℕ)]?) h
    simp only [thrown, List.getElem?_map, List.getElem?_range hj, Option.map_some, Option.some.injEq, Fin.val_inj] at this
    exact this.symm
  intro a b hab
  have h1 : (univ.filter fun i => g i = g b).card ≤ 1 := by
    rw [hc, card_le_one]
    intro x hx y hy
    exact hf ((mem_filter.mp hx).2.trans (mem_filter.mp hy).2.symm)
  exact card_le_one.mp h1 a (mem_filter.mpr ⟨mem_univ _, hab⟩) b (mem_filter.mpr ⟨mem_univ _, rfl⟩)

/-- The distance between the placements of `k` particles in `n` modes and those without coincidences. -/
theorem placements_distance {m k n : ℕ} (hn : n ≤ m) (h0 : 0 < n) (hk : k ≤ n) :
    ∑ T ∈ statesFin m k, |(∑ f : Fin k → Fin n, if thrown m f = T then (1 : ℝ) else 0) / (n : ℝ) ^ k
        - (∑ f : Fin k → Fin n with Function.Injective f, if thrown m f = T then (1 : ℝ) else 0) / n.descFactorial k|
      = 2 * (1 - n.descFactorial k / (n : ℝ) ^ k) := by
  classical
  set D : ℝ := ((n.descFactorial k : ℕ) : ℝ) with hD
  set P : ℝ := (n : ℝ) ^ k with hP
  have hD0 : 0 < D := by rw [hD]; exact_mod_cast Nat.descFactorial_pos.mpr hk
  have hP0 : 0 < P := by rw [hP]; have : (0 : ℝ) < n := by exact_mod_cast h0
                         positivity
  have hDP : D ≤ P := by rw [hD, hP]; exact_mod_cast Nat.descFactorial_le_pow n k
  have hmem : ∀ f : Fin k → Fin n, thrown m f ∈ statesFin m k := fun f =>
    (mem_statesFin _ _ _).mpr ⟨thrown_length m f, thrown_sum hn f⟩
  have e : ∀ T ∈ statesFin m k, |(∑ f : Fin k → Fin n, if thrown m f = T then (1 : ℝ) else 0) / P
        - (∑ f : Fin k → Fin n with Function.Injective f, if thrown m f = T then (1 : ℝ) else 0) / D|
      = (∑ f : Fin k → Fin n with ¬ Function.Injective f, if thrown m f = T then (1 : ℝ) else 0) / P
        + (∑ f : Fin k → Fin n with Function.Injective f, if thrown m f = T then (1 : ℝ) else 0) * (1 / D - 1 / P) := by
    intro T _
    rw [← sum_filter_add_sum_filter_not univ (fun f : Fin k → Fin n => Function.Injective f)]
    set a := ∑ f : Fin k → Fin n with Function.Injective f, if thrown m f = T then (1 : ℝ) else 0 with ha
    set c := ∑ f : Fin k → Fin n with ¬ Function.Injective f, if thrown m f = T then (1 : ℝ) else 0 with hc
    have ha0 : 0 ≤ a := sum_nonneg fun _ _ => by split_ifs <;> norm_num
    have hc0 : 0 ≤ c := sum_nonneg fun _ _ => by split_ifs <;> norm_num
    have hinv : 1 / P ≤ 1 / D := one_div_le_one_div_of_le hD0 hDP
    by_cases h : ∃ f : Fin k → Fin n, Function.Injective f ∧ thrown m f = T
    · obtain ⟨f, hf, rfl⟩ := h
      have hcz : c = 0 := sum_eq_zero fun g hg => if_neg fun h => (mem_filter.mp hg).2 (thrown_injective hn h.symm hf)
      rw [hcz, add_zero, zero_div, zero_add, abs_of_nonpos]
      · ring
      · have : a / P - a / D = a * (1 / P - 1 / D) := by ring
        rw [this]
        exact mul_nonpos_of_nonneg_of_nonpos ha0 (by linarith)
    · have haz : a = 0 := sum_eq_zero fun g hg => if_neg fun h' => h ⟨g, (mem_filter.mp hg).2, h'⟩
      rw [haz, zero_add, zero_div, sub_zero, zero_mul, add_zero, abs_of_nonneg (by positivity)]
  rw [sum_congr rfl e, sum_add_distrib, ← sum_div, ← sum_mul]
  have tot : ∀ s : Finset (Fin k → Fin n), ∑ T ∈ statesFin m k, ∑ f ∈ s, (if thrown m f = T then (1 : ℝ) else 0) = s.card := by
    intro s
    rw [sum_comm]
    simp only [sum_ite_eq, hmem, if_true, sum_const, nsmul_eq_mul, mul_one]
  rw [tot, tot, card_injective]
  have hcard : ((univ.filter fun f : Fin k → Fin n => ¬ Function.Injective f).card : ℝ) = P - D := by
    have := card_filter_add_card_filter_not (s := (univ : Finset (Fin k → Fin n))) Function.Injective
    rw [card_injective, card_univ, Fintype.card_fun, Fintype.card_fin, Fintype.card_fin] at this
    rw [hP, hD]
    have h : ((n.descFactorial k : ℕ) : ℝ) + ((univ.filter fun f : Fin k → Fin n => ¬ Function.Injective f).card : ℝ)
      = (n : ℝ) ^ k := by exact_mod_cast this
    linarith
  rw [hcard, ← hD]
  field_simp
  ring

end Verif
