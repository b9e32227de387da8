import Verif.Proofs.CliffordsBRuns
import Verif.Props.Distributions

/-! Helper lemmas: marginals of independent samples, uniform losses for version B. -/
namespace Verif

open Finset
open scoped ENNReal

theorem sum_lt_prod_succ (S : List ℕ) : S.sum < (S.map (· + 1)).prod := by
  induction S with
  | nil => simp
  | cons a S ih =>
    rw [List.sum_cons, List.map_cons, List.prod_cons]
    have : a ≤ a * (S.map (· + 1)).prod := Nat.le_mul_of_pos_right _ (by omega)
    rw [add_mul, one_mul]
    omega

section

variable {𝒯 : Finset (List ℕ)} {p : List ℕ → ℝ≥0∞}

theorem expIid_const (hp : ∑ T ∈ 𝒯, p T = 1) (n : ℕ) (c : ℝ≥0∞) : expIid 𝒯 p n (fun _ => c) = c := by
  induction n with
  | zero => rfl
  | succ n ih => rw [expIid, sum_congr rfl fun T _ => by rw [ih], ← sum_mul, hp, one_mul]

open Classical in
theorem expIid_marginal (hp : ∑ T ∈ 𝒯, p T = 1) (n i : ℕ) (hi : i < n) (T : List ℕ) (hT : T ∈ 𝒯) :
    expIid 𝒯 p n (fun l => if l[i]? = some T then 1 else 0) = p T := by
  induction n generalizing i with
  | zero => omega
  | succ n ih =>
    rw [expIid]
    cases i with
    | zero =>
      simp only [List.length_cons, Nat.zero_lt_succ, List.getElem?_eq_getElem, List.getElem_cons_zero,
        Option.some.injEq, expIid_const hp]
      rw [sum_eq_single T]
      · simp
      · intro T' _ h; simp [h]
      · exact fun h => absurd hT h
    | succ i =>
      simp only [List.getElem?_cons_succ]
      rw [sum_congr rfl (g := fun x => p x * p T) fun x _ => by congr 1; convert ih i (by omega), ← sum_mul, hp,
        one_mul]

end

/-! ### Uniform losses, version B -/

section

variable {sub : CalcCfg ℂ → Py (List ℂ)} {U : List (List ℂ)} {S : List ℕ} {n : ℕ}

theorem gccbWeights_length (n : ℕ) (eta : ℝ) : (gccbWeights n eta).length = n + 1 := by simp [gccbWeights]

theorem gccbWeights_getD (n : ℕ) (eta : ℝ) (l : ℕ) (hl : l ≤ n) :
    (gccbWeights n eta).getD l 0 = binomialWeight n l eta := by
  rw [getD_of_lt _ _ (by rw [gccbWeights_length]; omega)]
  simp [gccbWeights, binomialWeight]

theorem binomialWeight_nonneg (n l : ℕ) {eta : ℝ} (h0 : 0 ≤ eta) (h1 : eta ≤ 1) : 0 ≤ binomialWeight n l eta := by
  unfold binomialWeight
  have : 0 ≤ 1 - eta := by linarith
  positivity

theorem binomialWeight_sum (n : ℕ) (eta : ℝ) : ∑ l ∈ range (n + 1), binomialWeight n l eta = 1 := by
  have h := add_pow eta (1 - eta) n
  rw [add_sub_cancel, one_pow] at h
  rw [h]
  refine sum_congr rfl fun l _ => ?_
  unfold binomialWeight
  ring

theorem gccbWeights_sum (n : ℕ) (eta : ℝ) : (gccbWeights n eta).sum = 1 := by
  rw [gccbWeights, ← List.sum_toFinset _ List.nodup_range]
  have : (List.range (n + 1)).toFinset = range (n + 1) := by ext; simp
  rw [this]
  exact binomialWeight_sum n eta

theorem gccbWeights_nonneg (n : ℕ) {eta : ℝ} (h0 : 0 ≤ eta) (h1 : eta ≤ 1) : ∀ p ∈ gccbWeights n eta, 0 ≤ p := by
  intro p hp
  obtain ⟨l, -, rfl⟩ := List.mem_map.mp hp
  exact binomialWeight_nonneg n l h0 h1

theorem gccbParticlesLeft_wp (n : ℕ) {eta : ℝ} (h0 : 0 ≤ eta) (h1 : eta ≤ 1) (f : Py ℕ → ℝ≥0∞) :
    (gccbParticlesLeft (gccbWeights n eta)).wp f
      = ∑ l ∈ range (n + 1), ENNReal.ofReal (binomialWeight n l eta) * f (.ok l) := by
  have hs := gccbWeights_sum n eta
  have h := scan_uniform (gccbWeights n eta) (gccbWeights_nonneg n h0 h1) (by rw [hs]; norm_num) (fun l => f (.ok l))
  rw [hs, gccbWeights_length] at h
  simp only [mul_one, div_one] at h
  have e : (gccbParticlesLeft (gccbWeights n eta)).wp f
      = ∫⁻ u in Set.Ico (0 : ℝ) 1, f (.ok (scanIndex u (gccbWeights n eta) 0)) := rfl
  rw [e, h]
  refine sum_congr rfl fun l hl => ?_
  rw [gccbWeights_getD n eta l (by have := mem_range.mp hl; omega)]

/-- All states of `m` modes with at most `n` particles. -/
noncomputable def statesUpTo (m n : ℕ) : Finset (List ℕ) := (range (n + 1)).biUnion (statesFin m)

theorem mem_statesUpTo (m n : ℕ) (T : List ℕ) : T ∈ statesUpTo m n ↔ T.length = m ∧ T.sum ≤ n := by
  simp only [statesUpTo, mem_biUnion, mem_range, mem_statesFin]
  constructor
  · rintro ⟨k, hk, h1, h2⟩; omega
  · rintro ⟨h1, h2⟩; exact ⟨T.sum, by omega, h1, rfl⟩

theorem sum_statesUpTo {M : Type*} [AddCommMonoid M] (m n : ℕ) (F : List ℕ → M) :
    ∑ T ∈ statesUpTo m n, F T = ∑ k ∈ range (n + 1), ∑ T ∈ statesFin m k, F T := by
  rw [statesUpTo, sum_biUnion]
  intro a _ b _ hab
  refine disjoint_left.mpr fun T h1 h2 => hab ?_
  rw [mem_statesFin] at h1 h2
  omega

/-- The probability of `T` under uniform losses. -/
noncomputable def uniformLossProb (U : List (List ℂ)) (S : List ℕ) (eta : ℝ) (T : List ℕ) : ℝ :=
  binomialWeight S.sum T.sum eta * fixedLossProb U S T.sum T

theorem gccbLossyLoop_wp (h : BOk sub U S n) (fuel : ℕ) (hfuel : S.sum < fuel) {eta : ℝ} (h0 : 0 ≤ eta)
    (h1 : eta ≤ 1) (N : ℕ) (f : Py (List (List ℕ)) → ℝ≥0∞) :
    (gccbLossyLoop sub U fuel S (particles S) (gccbWeights S.sum eta) N).wp f
      = expIid (statesUpTo S.length S.sum) (fun T => ENNReal.ofReal (uniformLossProb U S eta T)) N
          (fun l => f (.ok l)) := by
  induction N generalizing f with
  | zero => rfl
  | succ N ih =>
    rw [gccbLossyLoop, Prog.bind_eq, Prog.wp_bind, gccbParticlesLeft_wp _ h0 h1, expIid, sum_statesUpTo]
    refine sum_congr rfl fun k hk => ?_
    have hk := mem_range.mp hk
    simp only [Prog.post]
    rw [Prog.bind_eq, Prog.wp_bind, gccbFill_wp h k (by omega) _ (fun r =>
      expIid (statesUpTo S.length S.sum) (fun T => ENNReal.ofReal (uniformLossProb U S eta T)) N
        (fun l => f (.ok (r :: l)))) _ _ fuel (by omega), mul_sum]
    · refine sum_congr rfl fun T hT => ?_
      have hT := ((mem_statesFin _ _ T).mp hT).2
      rw [← mul_assoc, ← ENNReal.ofReal_mul (binomialWeight_nonneg _ _ h0 h1), uniformLossProb, hT]
    · intro cur w r _ _
      simp only [Prog.post]
      rw [Prog.bind_eq, Prog.wp_bind, ih]
      rfl
    · intro cur r w w' _
      rfl

theorem gccbLossySimulate_eq (fuel : ℕ) (eta : ℝ) (N : ℤ) :
    gccbLossySimulate sub U fuel eta S N
      = gccbLossyLoop sub U fuel S (particles S) (gccbWeights S.sum eta) N.toNat := by
  unfold gccbLossySimulate
  rw [modeOccupationToModeAssignment_eq]
  rfl

theorem uniformLoss_total (h : BOk sub U S n) {eta : ℝ} (h0 : 0 ≤ eta) (h1 : eta ≤ 1) :
    ∑ T ∈ statesUpTo S.length S.sum, ENNReal.ofReal (uniformLossProb U S eta T) = 1 := by
  have e := gccbLossyLoop_wp h (S.sum + 1) (by omega) h0 h1 1 (fun _ => 1)
  rw [Prog.wp_const] at e
  simp only [expIid, mul_one] at e
  exact e.symm

theorem boson_total' (h : BOk sub U S n) :
    ∑ T ∈ statesFin S.length S.sum, ENNReal.ofReal (bosonProb U S T) = 1 := by
  have e := gccbLoop_wp h (S.sum + 1) (by omega) 1 (fun _ => 1)
  rw [Prog.wp_const] at e
  simp only [expIid, mul_one] at e
  exact e.symm

theorem gccbLossyLoop_all {E : PyErr → Prop} {weights : List ℝ} (fuel N B : ℕ)
    (hw : ∀ u, 0 ≤ u → u < 1 → scanIndex u weights 0 ≤ B)
    (hfill : ∀ t ≤ B, (gccbFill sub U fuel S (particles S) t).All
      (fun s => s.r.length = S.length ∧ s.r.sum = t) E) :
    (gccbLossyLoop sub U fuel S (particles S) weights N).All
      (fun l => l.length = N ∧ ∀ T ∈ l, T.length = S.length ∧ T.sum ≤ B) E := by
  induction N with
  | zero => exact Prog.all_done_ok ⟨rfl, by simp⟩
  | succ N ih =>
    refine Prog.all_bind (I := fun t => t ≤ B)
      (Prog.all_uniform fun u hu0 hu1 => Prog.all_done_ok (hw u hu0 hu1)) fun t ht => ?_
    refine Prog.all_bind (hfill t ht) fun s hs => Prog.all_bind ih fun l hl => Prog.all_done_ok ⟨?_, ?_⟩
    · rw [List.length_cons, hl.1]
    · intro T hT
      rcases List.mem_cons.mp hT with rfl | hT
      · exact ⟨hs.1, by omega⟩
      · exact hl.2 T hT

/-- Every run of `_fill_r_sample` that does not raise ends with at most as many particles as the input. -/
theorem gccbStep_card (hs : SubEnds sub U S) (t fuel : ℕ) (hfuel : t < fuel) :
    (gccbFill sub U fuel S (particles S) t).All
      (fun s => s.r.length = S.length ∧ s.r.sum = t ∧ t ≤ S.sum) NotFuel := by
  unfold gccbFill
  have := Prog.all_loop (E := NotFuel) (cond := fun s : GccbState => decide (s.r.sum < t))
    (body := gccbStep sub U S.length)
    (fun d s => (∃ A, BInv S s A) ∧ s.r.sum + d = t)
    (fun s hs => by rw [decide_eq_false_iff_not]; omega)
    (fun d s hs => by rw [decide_eq_true_eq]; omega)
    (fun d s ⟨⟨A, hA⟩, hd⟩ => Prog.all_mono (gccbStep_all hs s A hA)
      (fun s' h' => ⟨h'.1, by omega⟩) fun _ h => h)
    t fuel hfuel _ ⟨⟨∅, binv_start S⟩, by simp⟩
  refine Prog.all_mono this (fun s ⟨⟨A, hA⟩, hd⟩ => ⟨hA.len, by omega, ?_⟩) fun _ h => h
  have h1 := hA.card
  have h2 : A.card ≤ S.sum := by rw [← card_particle S]; exact card_le_univ A
  omega

end

end Verif
