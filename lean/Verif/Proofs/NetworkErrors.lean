import Verif.Proofs.FockStates
import Verif.Proofs.Cliffords

/-! Helper lemmas: amplitudes of nearby networks. -/
namespace Verif

open Finset

/-- The columns `c a`, `a < n`, on `m` rows form a matrix of norm at most `κ`. -/
def OpLe (c : ℕ → ℕ → ℂ) (m n : ℕ) (κ : ℝ) : Prop :=
  ∀ y : ℕ → ℂ, ∑ r ∈ range m, Complex.normSq (∑ a ∈ range n, c a r * y a) ≤ κ ^ 2 * ∑ a ∈ range n, Complex.normSq (y a)

theorem picks_sum {M : Type*} [AddCommMonoid M] (cs : List ℕ) (n : ℕ) (hcs : ∀ a ∈ cs, a < n) (F : ℕ → List ℕ → M)
    (hF : ∀ a as bs, as.Perm bs → F a as = F a bs) :
    ((picks cs).map fun p => F p.1 p.2).sum = ∑ a ∈ range n, cs.count a • F a (cs.erase a) := by
  have h1 : ((picks cs).map fun p => F p.1 p.2) = cs.map fun a => F a (cs.erase a) := by
    have h0 : ∀ E : ℕ → M, cs.map E = (picks cs).map fun p => E p.1 := fun E => by
      conv_lhs => rw [← picks_fst cs]
      rw [List.map_map]
      rfl
    rw [h0]
    refine List.map_congr_left fun p hp => hF _ _ _ ?_
    have := (picks_perm hp).erase p.1
    rwa [List.erase_cons_head] at this
  rw [h1, Finset.sum_list_map_count]
  refine sum_subset (fun a ha => mem_range.mpr (hcs a (List.mem_toFinset.mp ha))) fun a _ ha => ?_
  rw [List.count_eq_zero_of_not_mem (fun h => ha (List.mem_toFinset.mpr h)), zero_smul]

/-- One more particle. -/
theorem step_le {c : ℕ → ℕ → ℂ} {m n : ℕ} {κ : ℝ} (hc : OpLe c m n κ) (cs : List ℕ) (hcs : ∀ a ∈ cs, a < n) (g : List ℕ → ℂ)
    (hg : ∀ as bs : List ℕ, as.Perm bs → g as = g bs) :
    (∑ r ∈ range m, Complex.normSq ((picks cs).map fun p => c p.1 r * g p.2).sum) / (multFact (cs : Multiset ℕ) : ℝ)
      ≤ κ ^ 2 * ((picks cs).map fun p => Complex.normSq (g p.2) / (multFact (p.2 : Multiset ℕ) : ℝ)).sum := by
  have e1 : ∀ r, ((picks cs).map fun p => c p.1 r * g p.2).sum
      = ∑ a ∈ range n, c a r * ((cs.count a : ℂ) * g (cs.erase a)) := fun r => by
    rw [picks_sum cs n hcs (fun a l => c a r * g l) fun a as bs h => by rw [hg as bs h]]
    refine sum_congr rfl fun a _ => ?_
    rw [nsmul_eq_mul]; ring
  have e2 := picks_sum cs n hcs (fun _ l => Complex.normSq (g l) / (multFact (l : Multiset ℕ) : ℝ)) fun a as bs h => by
    rw [hg as bs h, Multiset.coe_eq_coe.mpr h]
  rw [e2]
  simp only [e1]
  rw [div_le_iff₀ (by exact_mod_cast multFact_pos _), mul_assoc]
  refine (hc _).trans (le_of_eq ?_)
  congr 1
  rw [sum_mul]
  refine sum_congr rfl fun a _ => ?_
  rw [Complex.normSq_mul, Complex.normSq_natCast, nsmul_eq_mul]
  by_cases ha : a ∈ cs
  · have h1 := multFact_erase (s := (cs : Multiset ℕ)) (a := a) (Multiset.mem_coe.mpr ha)
    rw [Multiset.coe_count, Multiset.coe_erase] at h1
    rw [h1]
    have h3 : ((multFact ((cs.erase a : List ℕ) : Multiset ℕ) : ℕ) : ℝ) ≠ 0 := by exact_mod_cast (multFact_pos _).ne'
    push_cast
    field_simp
  · rw [List.count_eq_zero_of_not_mem ha]; simp

section

variable {c c' : ℕ → ℕ → ℂ} {m n : ℕ} {ε κ : ℝ} (hκ : 1 ≤ κ) (hc : OpLe c m n κ) (hc' : OrthoCols c' m n)
  (hd : OpLe (fun a r => c a r - c' a r) m n ε)
include hκ hc hc' hd

/-- The amplitudes of nearby networks, in the norm of all output sequences; the first network need not be unitary. -/
theorem amp_diff (k : ℕ) (cs : List ℕ) (hk : cs.length = k) (hcs : ∀ a ∈ cs, a < n) :
    (∑ w ∈ words m k, Complex.normSq (amp c w cs - amp c' w cs)) / (multFact (cs : Multiset ℕ) : ℝ)
      ≤ (k * ε * κ ^ (k - 1)) ^ 2 * k.factorial := by
  induction k generalizing cs with
  | zero =>
    obtain rfl := List.length_eq_zero_iff.mp hk
    simp [words, amp, lperm]
  | succ k ih =>
    have hM : (0 : ℝ) < multFact (cs : Multiset ℕ) := by exact_mod_cast multFact_pos _
    set x : List ℕ → ℕ → ℂ := fun w r => ((picks cs).map fun p => (c p.1 r - c' p.1 r) * amp c' w p.2).sum with hx
    set y : List ℕ → ℕ → ℂ := fun w r => ((picks cs).map fun p => c p.1 r * (amp c w p.2 - amp c' w p.2)).sum with hy
    have e : ∀ w r, amp c (r :: w) cs - amp c' (r :: w) cs = x w r + y w r := fun w r => by
      rw [amp_cons, amp_cons, hx, hy]
      simp only
      induction picks cs with
      | nil => simp
      | cons p l ih =>
        simp only [List.map_cons, List.sum_cons]
        linear_combination ih
    have hpick : ∀ p ∈ picks cs, p.2.length = k ∧ ∀ a ∈ p.2, a < n := fun p hp =>
      ⟨by have := picks_snd_length hp; omega, fun a ha => hcs a ((picks_perm hp).mem_iff.mp (List.mem_cons_of_mem _ ha))⟩
    have hX : (∑ w ∈ words m k, ∑ r ∈ range m, Complex.normSq (x w r)) / (multFact (cs : Multiset ℕ) : ℝ)
        ≤ ε ^ 2 * (k + 1).factorial := by
      rw [sum_div]
      refine (sum_le_sum fun w _ => step_le hd cs hcs (fun l => amp c' w l) fun _ _ h => amp_perm c' w h).trans ?_
      rw [← mul_sum]
      refine mul_le_mul_of_nonneg_left (le_of_eq ?_) (sq_nonneg _)
      simp only [← Fin.sum_univ_fun_getElem]
      rw [sum_comm, sum_congr rfl fun (i : Fin (picks cs).length) _ => phi_total hc' k (picks cs)[i].2
        (hpick _ (List.getElem_mem i.2)).1 (hpick _ (List.getElem_mem i.2)).2]
      rw [sum_const, card_univ, Fintype.card_fin, picks_length, hk, Nat.factorial_succ]
      simp
    have hY : (∑ w ∈ words m k, ∑ r ∈ range m, Complex.normSq (y w r)) / (multFact (cs : Multiset ℕ) : ℝ)
        ≤ κ ^ 2 * (k * ε * κ ^ (k - 1)) ^ 2 * (k + 1).factorial := by
      rw [sum_div]
      refine (sum_le_sum fun w _ => step_le hc cs hcs (fun l => amp c w l - amp c' w l) fun _ _ h => by
        rw [amp_perm c w h, amp_perm c' w h]).trans ?_
      rw [← mul_sum, mul_assoc]
      refine mul_le_mul_of_nonneg_left ?_ (sq_nonneg _)
      simp only [← Fin.sum_univ_fun_getElem]
      rw [sum_comm]
      refine (sum_le_sum fun (i : Fin (picks cs).length) _ => ?_).trans (le_of_eq (?_ : ∑ _i : Fin (picks cs).length,
        (k * ε * κ ^ (k - 1)) ^ 2 * (k.factorial : ℝ) = _))
      · rw [← sum_div]
        exact ih _ (hpick _ (List.getElem_mem i.2)).1 (hpick _ (List.getElem_mem i.2)).2
      · rw [sum_const, card_univ, Fintype.card_fin, picks_length, hk, Nat.factorial_succ]
        push_cast
        rw [nsmul_eq_mul]
        push_cast
        ring
    rw [sum_words_succ]
    simp only [e]
    rcases Nat.eq_zero_or_pos k with rfl | hk0
    · have hy0 : ∀ w ∈ words m 0, ∀ r, y w r = 0 := by
        intro w hw r
        obtain rfl : w = [] := by simpa [words] using hw
        rw [hy]
        refine List.sum_eq_zero fun z hz => ?_
        obtain ⟨p, hp, rfl⟩ := List.mem_map.mp hz
        rw [List.length_eq_zero_iff.mp (hpick p hp).1]
        simp [amp, lperm]
      rw [sum_congr rfl fun w hw => sum_congr rfl fun r _ => by rw [hy0 w hw r, add_zero]]
      simpa using hX
    · have hk1 : (0 : ℝ) < k := by exact_mod_cast hk0
      have hyoung : ∀ a b : ℂ, Complex.normSq (a + b) ≤ (1 + k) * Complex.normSq a + (1 + 1 / k) * Complex.normSq b := by
        intro a b
        rw [Complex.normSq_eq_norm_sq, Complex.normSq_eq_norm_sq, Complex.normSq_eq_norm_sq]
        have h1 : ‖a + b‖ ^ 2 ≤ (‖a‖ + ‖b‖) ^ 2 := pow_le_pow_left₀ (norm_nonneg _) (norm_add_le a b) 2
        refine h1.trans ?_
        have h2 : 0 ≤ (k * ‖a‖ - ‖b‖) ^ 2 / k := by positivity
        have h3 : (k * ‖a‖ - ‖b‖) ^ 2 / k = k * ‖a‖ ^ 2 - 2 * ‖a‖ * ‖b‖ + 1 / k * ‖b‖ ^ 2 := by field_simp; ring
        nlinarith
      have hsum : ∑ w ∈ words m k, ∑ r ∈ range m, Complex.normSq (x w r + y w r)
          ≤ (1 + k) * (∑ w ∈ words m k, ∑ r ∈ range m, Complex.normSq (x w r))
            + (1 + 1 / k) * ∑ w ∈ words m k, ∑ r ∈ range m, Complex.normSq (y w r) := by
        rw [mul_sum, mul_sum, ← sum_add_distrib]
        refine sum_le_sum fun w _ => ?_
        rw [mul_sum, mul_sum, ← sum_add_distrib]
        exact sum_le_sum fun r _ => hyoung _ _
      refine (div_le_div_of_nonneg_right hsum hM.le).trans ?_
      rw [add_div, mul_div_assoc, mul_div_assoc]
      refine (add_le_add (mul_le_mul_of_nonneg_left hX (by positivity)) (mul_le_mul_of_nonneg_left hY (by positivity))).trans
        ?_
      obtain ⟨j, rfl⟩ : ∃ j, k = j + 1 := ⟨k - 1, by omega⟩
      have hκ2 : ε ^ 2 ≤ (ε * κ ^ (j + 1)) ^ 2 := by
        rw [mul_pow]
        exact le_mul_of_one_le_right (sq_nonneg _) (one_le_pow₀ (one_le_pow₀ hκ))
      have hF : (0 : ℝ) ≤ (j + 1 + 1).factorial := Nat.cast_nonneg _
      refine (add_le_add_left (mul_le_mul_of_nonneg_left (mul_le_mul_of_nonneg_right hκ2 hF) (by positivity)) _).trans
        (le_of_eq ?_)
      simp only [Nat.add_sub_cancel]
      push_cast
      field_simp
      ring

end

/-- The squared amplitudes. -/
theorem phi_diff {c c' : ℕ → ℕ → ℂ} {m n : ℕ} {ε : ℝ} (hε : 0 ≤ ε) (hc : OrthoCols c m n) (hc1 : OpLe c m n 1)
    (hc' : OrthoCols c' m n) (hd : OpLe (fun a r => c a r - c' a r) m n ε) (k : ℕ) (cs : List ℕ) (hk : cs.length = k)
    (hcs : ∀ a ∈ cs, a < n) :
    ∑ w ∈ words m k, |phi c w cs - phi c' w cs| ≤ 2 * k * ε * k.factorial := by
  have hM : (0 : ℝ) < multFact (cs : Multiset ℕ) := by exact_mod_cast multFact_pos _
  have h1 := amp_diff le_rfl hc1 hc' hd k cs hk hcs
  rw [one_pow, mul_one] at h1
  have h2 := phi_total hc k cs hk hcs
  have h3 := phi_total hc' k cs hk hcs
  unfold phi at h2 h3 ⊢
  rw [← sum_div] at h2 h3
  set M : ℝ := Nat.cast (multFact (cs : Multiset ℕ)) with hMd
  clear_value M
  set W := words m k
  have hF : (0 : ℝ) < k.factorial := by exact_mod_cast Nat.factorial_pos k
  have e1 : ∑ w ∈ W, |Complex.normSq (amp c w cs) / M - Complex.normSq (amp c' w cs) / M|
      ≤ (∑ w ∈ W, (‖amp c w cs‖ + ‖amp c' w cs‖) * ‖amp c w cs - amp c' w cs‖) / M := by
    rw [sum_div]
    refine sum_le_sum fun w _ => ?_
    rw [← sub_div, abs_div, abs_of_pos hM]
    refine div_le_div_of_nonneg_right ?_ hM.le
    rw [Complex.normSq_eq_norm_sq, Complex.normSq_eq_norm_sq, sq_sub_sq, abs_mul, abs_of_nonneg (by positivity)]
    exact mul_le_mul_of_nonneg_left (abs_norm_sub_norm_le _ _) (by positivity)
  have e2 := sum_mul_sq_le_sq_mul_sq W (fun w => ‖amp c w cs‖ + ‖amp c' w cs‖) (fun w => ‖amp c w cs - amp c' w cs‖)
  have e3 : ∑ w ∈ W, (‖amp c w cs‖ + ‖amp c' w cs‖) ^ 2 ≤ 4 * (k.factorial * M) := by
    have : ∀ w ∈ W, (‖amp c w cs‖ + ‖amp c' w cs‖) ^ 2
        ≤ 2 * Complex.normSq (amp c w cs) + 2 * Complex.normSq (amp c' w cs) := fun w _ => by
      rw [Complex.normSq_eq_norm_sq, Complex.normSq_eq_norm_sq]
      nlinarith [sq_nonneg (‖amp c w cs‖ - ‖amp c' w cs‖)]
    refine (sum_le_sum this).trans ?_
    rw [sum_add_distrib, ← mul_sum, ← mul_sum, (div_eq_iff hM.ne').mp h2, (div_eq_iff hM.ne').mp h3]
    linarith
  have e4 : ∑ w ∈ W, ‖amp c w cs - amp c' w cs‖ ^ 2 ≤ (k * ε) ^ 2 * k.factorial * M := by
    rw [div_le_iff₀ hM] at h1
    simpa only [Complex.normSq_eq_norm_sq] using h1
  refine e1.trans ?_
  rw [div_le_iff₀ hM]
  refine abs_le_of_sq_le_sq' ?_ (by positivity) |>.2
  refine e2.trans ((mul_le_mul e3 e4 (sum_nonneg fun _ _ => by positivity) (by positivity)).trans (le_of_eq (by ring)))

/-- The total variation distance of the exact laws. -/
theorem boson_diff {U U' : List (List ℂ)} (S : List ℕ) {m n : ℕ} {ε : ℝ} (hε : 0 ≤ ε) (hU : Orthonormal U m n)
    (hU1 : OpLe (colOf U) m n 1) (hU' : Orthonormal U' m n) (hd : OpLe (fun a r => colOf U a r - colOf U' a r) m n ε)
    (hS : S.length ≤ n) (𝒯 : Finset (List ℕ)) (h𝒯 : ∀ T ∈ 𝒯, T.length = m ∧ T.sum = S.sum) :
    1 / 2 * ∑ T ∈ 𝒯, |bosonProb U S T - bosonProb U' S T| ≤ S.sum * ε := by
  have h0 := phi_diff hε (orthoCols_of U hU) hU1 (orthoCols_of U' hU') hd S.sum (particles S) (particlesFrom_length _ _)
    (fun a ha => by have := particlesFrom_range ha; omega)
  rw [sum_words_states m S.sum (statesFin m S.sum) (mem_statesFin m S.sum) _ (fun w w' h => by
    rw [phi_perm_rows _ _ h, phi_perm_rows _ _ h])] at h0
  have hF : (0 : ℝ) < S.sum.factorial := by exact_mod_cast Nat.factorial_pos _
  have h1 : ∑ T ∈ statesFin m S.sum, |bosonProb U S T - bosonProb U' S T| = (∑ T ∈ statesFin m S.sum,
      (S.sum.factorial : ℝ) / factProd T
        * |phi (colOf U) (particles T) (particles S) - phi (colOf U') (particles T) (particles S)|) / S.sum.factorial := by
    rw [sum_div]
    refine sum_congr rfl fun T hT => ?_
    have h2 := ((mem_statesFin _ _ _).mp hT).2.symm
    have h3 : (0 : ℝ) < factProd T := by exact_mod_cast factProd_pos T
    rw [bosonProb_eq_phi U S T h2, bosonProb_eq_phi U' S T h2, ← sub_div, abs_div, abs_of_pos h3]
    field_simp
  have h2 : ∑ T ∈ 𝒯, |bosonProb U S T - bosonProb U' S T| ≤ ∑ T ∈ statesFin m S.sum, |bosonProb U S T - bosonProb U' S T| :=
    sum_le_sum_of_subset_of_nonneg (fun T hT => (mem_statesFin _ _ _).mpr (h𝒯 T hT)) fun _ _ _ => abs_nonneg _
  rw [h1] at h2
  have h3 := div_le_div_of_nonneg_right h0 hF.le
  rw [mul_div_assoc, div_self hF.ne', mul_one] at h3
  linarith

end Verif
