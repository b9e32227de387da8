import Verif.Spec.Thinning
import Verif.Proofs.CliffordsLoss
import Verif.Proofs.UniformBobs
import Verif.Proofs.Concentration

/-! Helper lemmas: losses after an interferometer are losses before it. -/
namespace Verif

open Finset
open scoped ENNReal

theorem seqProb_words {c : ℕ → ℕ → ℂ} {m : ℕ} {S : List ℕ} (hc : UsedOrtho c m S) (k j : ℕ) (hk : k + j ≤ S.sum)
    (rs : List ℕ) : ∑ w ∈ words m j, seqProb c S (k + j) (w ++ rs) = seqProb c S k rs := by
  induction j with
  | zero => simp [words]
  | succ j ih =>
    rw [sum_words_succ, ← ih (by omega)]
    exact sum_congr rfl fun w _ => seqProb_marginal hc (k + j) (by omega) (w ++ rs)

theorem particlesFrom_add (q : ℕ) (T E : List ℕ) (h : T.length = E.length) :
    (particlesFrom q (List.zipWith (· + ·) T E)).Perm (particlesFrom q E ++ particlesFrom q T) := by
  induction T generalizing q E with
  | nil =>
    obtain rfl : E = [] := by simpa using h.symm
    simp [particlesFrom]
  | cons a T ih =>
    obtain ⟨b, E, rfl⟩ : ∃ b E', E = b :: E' := List.exists_cons_of_length_eq_add_one (n := T.length) h.symm
    have := ih (q + 1) E (by simpa using h)
    rw [List.perm_iff_count] at this ⊢
    intro x
    have := this x
    simp only [List.zipWith_cons_cons, particlesFrom, List.count_append, List.count_replicate] at this ⊢
    split_ifs <;> omega

theorem factProd_add (T E : List ℕ) (h : T.length = E.length) :
    factProd (List.zipWith (· + ·) T E)
      = (List.zipWith Nat.choose (List.zipWith (· + ·) T E) T).prod * factProd T * factProd E := by
  induction T generalizing E with
  | nil =>
    obtain rfl : E = [] := by simpa using h.symm
    simp [factProd]
  | cons a T ih =>
    obtain ⟨b, E, rfl⟩ : ∃ b E', E = b :: E' := List.exists_cons_of_length_eq_add_one (n := T.length) h.symm
    have e := ih E (by simpa using h)
    unfold factProd at e ⊢
    simp only [List.zipWith_cons_cons, List.map_cons, List.prod_cons, e]
    rw [← Nat.add_choose_mul_factorial_mul_factorial a b, ← Nat.choose_symm_add]
    ring

theorem zipWith_add_sum (T E : List ℕ) (h : T.length = E.length) : (List.zipWith (· + ·) T E).sum = T.sum + E.sum := by
  induction T generalizing E with
  | nil =>
    obtain rfl : E = [] := by simpa using h.symm
    simp
  | cons a T ih =>
    obtain ⟨b, E, rfl⟩ : ∃ b E', E = b :: E' := List.exists_cons_of_length_eq_add_one (n := T.length) h.symm
    simp [ih E (by simpa using h)]
    omega

theorem choose_prod_zero {T' T : List ℕ} (hl : T.length = T'.length) (h : ¬ StateLE T T') :
    (List.zipWith Nat.choose T' T).prod = 0 := by
  induction T generalizing T' with
  | nil =>
    obtain rfl : T' = [] := by simpa using hl.symm
    exact absurd .nil h
  | cons a T ih =>
    obtain ⟨b, T', rfl⟩ : ∃ b E', T' = b :: E' := List.exists_cons_of_length_eq_add_one (n := T.length) hl.symm
    rw [List.zipWith_cons_cons, List.prod_cons]
    by_cases hab : a ≤ b
    · rw [ih (by simpa using hl) fun hT => h (.cons hab hT), mul_zero]
    · rw [Nat.choose_eq_zero_of_lt (by omega), zero_mul]

theorem stateLE_add (T E : List ℕ) (h : T.length = E.length) : StateLE T (List.zipWith (· + ·) T E) := by
  induction T generalizing E with
  | nil =>
    obtain rfl : E = [] := by simpa using h.symm
    exact .nil
  | cons a T ih =>
    obtain ⟨b, E, rfl⟩ : ∃ b E', E = b :: E' := List.exists_cons_of_length_eq_add_one (n := T.length) h.symm
    exact .cons (Nat.le_add_right _ _) (ih E (by simpa using h))

theorem add_sub_state {T T' : List ℕ} (h : StateLE T T') :
    List.zipWith (· + ·) T (List.zipWith (· - ·) T' T) = T' := by
  induction h with
  | nil => rfl
  | cons h _ ih => simp only [List.zipWith_cons_cons, ih, List.cons.injEq, and_true]; omega

theorem sub_add_state (T E : List ℕ) (h : T.length = E.length) :
    List.zipWith (· - ·) (List.zipWith (· + ·) T E) T = E := by
  induction T generalizing E with
  | nil =>
    obtain rfl : E = [] := by simpa using h.symm
    rfl
  | cons a T ih =>
    obtain ⟨b, E, rfl⟩ : ∃ b E', E = b :: E' := List.exists_cons_of_length_eq_add_one (n := T.length) h.symm
    simp only [List.zipWith_cons_cons, ih E (by simpa using h), List.cons.injEq, and_true]; omega

theorem keepProb_eq (T' T : List ℕ) (hl : T.length = T'.length) :
    keepProb T' T.sum T = ((List.zipWith Nat.choose T' T).prod : ℝ) / (T'.sum.choose T.sum : ℝ) := by
  classical
  unfold keepProb
  congr 1
  have h := sum_stateOf T' T.sum ((lowerStates T').toFinset.filter fun l => l.sum = T.sum) (fun l => by
    rw [mem_filter, List.mem_toFinset, mem_lowerStates]) (fun l => if l = T then 1 else 0)
  rw [← sum_filter] at h
  simp only [sum_const, nsmul_eq_mul, mul_one, mul_ite, mul_zero, sum_ite_eq', mem_filter, List.mem_toFinset,
    mem_lowerStates, and_true] at h
  have e : ((powersetCard T.sum (univ : Finset (Particle T'))).filter fun A => stateOf A = T).card
      = (powersetCard T.sum (univ : Finset (Particle T'))).sum fun A => if stateOf A = T then 1 else 0 := by
    rw [card_filter]
  rw [h]
  split_ifs with hle
  · rfl
  · rw [choose_prod_zero hl hle]; simp

/-- Losing further particles of the outcome. -/
theorem fixedLoss_thinned {U : List (List ℂ)} {S : List ℕ} {m : ℕ} (hc : UsedOrtho (colOf U) m S) (l : ℕ)
    (hl : l ≤ S.sum) (T : List ℕ) (hT : T.length = m) (hk : T.sum ≤ l) :
    ∑ T' ∈ statesFin m l, fixedLossProb U S l T' * keepProb T' T.sum T = fixedLossProb U S T.sum T := by
  classical
  obtain ⟨j, rfl⟩ : ∃ j, l = T.sum + j := ⟨l - T.sum, by omega⟩
  rw [fixedLossProb_eq_seq U S T T.sum rfl, ← seqProb_words hc T.sum j hl,
    sum_words_states m j (statesFin m j) (mem_statesFin m j) _ fun w w' h => seqProb_perm _ _ _ (h.append_right _), mul_sum]
  symm
  refine sum_bij_ne_zero (fun E _ _ => List.zipWith (· + ·) T E) ?_ ?_ ?_ ?_
  · intro E hE _
    rw [mem_statesFin] at hE ⊢
    exact ⟨by simp [hT, hE.1], by rw [zipWith_add_sum T E (by omega), hE.2]⟩
  · intro E hE _ E' hE' _ h
    rw [mem_statesFin] at hE hE'
    rw [← sub_add_state T E (by omega), h, sub_add_state T E' (by omega)]
  · intro T' hT' hne
    rw [mem_statesFin] at hT'
    have hle : StateLE T T' := by
      by_contra h
      rw [keepProb_eq T' T (by omega), choose_prod_zero (by omega) h] at hne
      simp at hne
    have e := add_sub_state hle
    have hs := zipWith_add_sum T (List.zipWith (· - ·) T' T) (by simp; omega)
    rw [e, hT'.2] at hs
    refine ⟨List.zipWith (· - ·) T' T, ?_, ?_, e⟩
    · rw [mem_statesFin]
      exact ⟨by simp; omega, by omega⟩
    · intro h0
      apply hne
      have hz : seqProb (colOf U) S (T.sum + j) (particles (List.zipWith (· - ·) T' T) ++ particles T) = 0 := by
        rcases mul_eq_zero.mp h0 with h | h
        · exact absurd h (by have := factProd_pos T; have := T.sum.factorial_pos; positivity)
        · rcases mul_eq_zero.mp h with h | h
          · exact absurd h (by have := factProd_pos (List.zipWith (· - ·) T' T); have := j.factorial_pos; positivity)
          · exact h
      rw [fixedLossProb_eq_seq U S T' _ hT'.2, ← e, seqProb_perm _ _ _ (particlesFrom_add 0 T _ (by simp; omega))]
      change _ * seqProb _ _ _ (particles _ ++ particles _) * _ = 0
      rw [hz, mul_zero, zero_mul]
  · intro E hE _
    rw [mem_statesFin] at hE
    have hlen : T.length = E.length := by omega
    have hs := zipWith_add_sum T E hlen
    rw [hE.2] at hs
    rw [fixedLossProb_eq_seq U S _ _ hs, keepProb_eq _ T (by simp; omega), factProd_add T E hlen, hs,
      seqProb_perm _ _ _ (particlesFrom_add 0 T E hlen)]
    change _ = _ * seqProb _ _ _ (particles E ++ particles T) * _
    have hf := Nat.add_choose_mul_factorial_mul_factorial T.sum j
    rw [← Nat.choose_symm_add] at hf
    have hfr : ((T.sum + j).factorial : ℝ) = (T.sum + j).choose T.sum * T.sum.factorial * j.factorial := by
      exact_mod_cast hf.symm
    have h1 := factProd_pos T
    have h2 := factProd_pos E
    have h3 : 0 < (List.zipWith Nat.choose (List.zipWith (· + ·) T E) T).prod := by
      have := factProd_pos (List.zipWith (· + ·) T E)
      rw [factProd_add T E hlen] at this
      by_contra h0
      rw [Nat.eq_zero_of_not_pos h0] at this
      simp at this
    have h4 := Nat.choose_pos (show T.sum ≤ T.sum + j by omega)
    rw [hfr]
    generalize (List.zipWith Nat.choose (List.zipWith (· + ·) T E) T).prod = q at h3 ⊢
    push_cast
    field_simp

theorem thinProb_eq (eta : ℝ) (T' T : List ℕ) (hl : T.length = T'.length) :
    thinProb eta T' T = binomialWeight T'.sum T.sum eta * keepProb T' T.sum T := by
  rw [keepProb_eq T' T hl]
  by_cases hle : StateLE T T'
  · have hs : T.sum ≤ T'.sum := ModeLe.sum_le hle
    have h4 : (T'.sum.choose T.sum : ℝ) ≠ 0 := by exact_mod_cast (Nat.choose_pos hs).ne'
    have : thinProb eta T' T = ((List.zipWith Nat.choose T' T).prod : ℝ) * (eta ^ T.sum * (1 - eta) ^ (T'.sum - T.sum)) := by
      clear h4 hs
      unfold thinProb
      induction hle with
      | nil => simp
      | @cons a b T T' h hT ih =>
        have hs : T.sum ≤ T'.sum := ModeLe.sum_le hT
        rw [List.zipWith_cons_cons, List.prod_cons, ih (by simpa using hl), List.zipWith_cons_cons, List.prod_cons,
          List.sum_cons, List.sum_cons, show b + T'.sum - (a + T.sum) = (b - a) + (T'.sum - T.sum) by omega, pow_add,
          pow_add, binomialWeight]
        push_cast
        ring
    rw [this, binomialWeight]
    field_simp
  · rw [choose_prod_zero hl hle]
    simp only [Nat.cast_zero, zero_div, mul_zero]
    unfold thinProb
    induction T generalizing T' with
    | nil =>
      obtain rfl : T' = [] := by simpa using hl.symm
      exact absurd .nil hle
    | cons a T ih =>
      obtain ⟨b, T', rfl⟩ : ∃ b E', T' = b :: E' := List.exists_cons_of_length_eq_add_one (n := T.length) hl.symm
      rw [List.zipWith_cons_cons, List.prod_cons]
      by_cases hab : a ≤ b
      · rw [ih T' (by simpa using hl) fun hT => hle (.cons hab hT), mul_zero]
      · rw [binomialWeight, Nat.choose_eq_zero_of_lt (by omega)]
        simp

theorem binomialWeight_comp (n k : ℕ) (x y : ℝ) :
    ∑ l ∈ range (n + 1), binomialWeight n l x * binomialWeight l k y = binomialWeight n k (x * y) := by
  by_cases hk : k ≤ n
  · obtain ⟨d, rfl⟩ : ∃ d, n = k + d := ⟨n - k, by omega⟩
    rw [show k + d + 1 = k + (d + 1) by omega, sum_range_add (fun l => binomialWeight (k + d) l x * binomialWeight l k y)]
    have hz : ∑ l ∈ range k, binomialWeight (k + d) l x * binomialWeight l k y = 0 := by
      refine sum_eq_zero fun l hl => ?_
      rw [binomialWeight, binomialWeight, Nat.choose_eq_zero_of_lt (mem_range.mp hl)]
      simp
    rw [hz, zero_add, binomialWeight, Nat.add_sub_cancel_left,
      show 1 - x * y = x * (1 - y) + (1 - x) by ring, add_pow, mul_sum]
    refine sum_congr rfl fun i hi => ?_
    have hi : i ≤ d := by have := mem_range.mp hi; omega
    have e : ((k + d).choose (k + i) : ℝ) * ((k + i).choose k : ℝ) = ((k + d).choose k : ℝ) * (d.choose i : ℝ) := by
      have := Nat.choose_mul (n := k + d) (k := k + i) (s := k) (by omega)
      rw [Nat.add_sub_cancel_left, Nat.add_sub_cancel_left] at this
      exact_mod_cast this
    rw [binomialWeight, binomialWeight, show k + d - (k + i) = d - i by omega, Nat.add_sub_cancel_left]
    rw [mul_pow x (1 - y)]
    linear_combination x ^ (k + i) * (1 - x) ^ (d - i) * y ^ k * (1 - y) ^ i * e
  · have h0 : n.choose k = 0 := Nat.choose_eq_zero_of_lt (by omega)
    rw [show binomialWeight n k (x * y) = 0 by rw [binomialWeight, h0]; simp]
    refine sum_eq_zero fun l hl => ?_
    have h1 : l.choose k = 0 := Nat.choose_eq_zero_of_lt (by have := mem_range.mp hl; omega)
    rw [show binomialWeight l k y = 0 by rw [binomialWeight, h1]; simp, mul_zero]

/-- Uniform losses compose. -/
theorem uniformLoss_thinned {U : List (List ℂ)} {S : List ℕ} {m : ℕ} (hc : UsedOrtho (colOf U) m S) (x y : ℝ)
    (T : List ℕ) (hT : T.length = m) :
    ∑ T' ∈ statesUpTo m S.sum, uniformLossProb U S x T' * thinProb y T' T = uniformLossProb U S (x * y) T := by
  rw [sum_statesUpTo]
  have e : ∀ l ∈ range (S.sum + 1), ∑ T' ∈ statesFin m l, uniformLossProb U S x T' * thinProb y T' T
      = binomialWeight S.sum l x * binomialWeight l T.sum y * fixedLossProb U S T.sum T := by
    intro l hl
    have hl : l ≤ S.sum := by have := mem_range.mp hl; omega
    by_cases hk : T.sum ≤ l
    · rw [← fixedLoss_thinned hc l hl T hT hk, mul_sum]
      refine sum_congr rfl fun T' hT' => ?_
      rw [mem_statesFin] at hT'
      rw [uniformLossProb, thinProb_eq y T' T (by omega), hT'.2]
      ring
    · have hz : binomialWeight l T.sum y = 0 := by rw [binomialWeight, Nat.choose_eq_zero_of_lt (by omega)]; simp
      rw [hz, mul_zero, zero_mul]
      refine sum_eq_zero fun T' hT' => ?_
      rw [mem_statesFin] at hT'
      rw [thinProb_eq y T' T (by omega), hT'.2, hz, zero_mul, mul_zero]
  rw [sum_congr rfl e, ← sum_mul, binomialWeight_comp, uniformLossProb]

theorem thinProb_nonneg {eta : ℝ} (h0 : 0 ≤ eta) (h1 : eta ≤ 1) (T' T : List ℕ) (hl : T.length = T'.length) :
    0 ≤ thinProb eta T' T := by
  rw [thinProb_eq eta T' T hl]
  exact mul_nonneg (binomialWeight_nonneg _ _ h0 h1) (by unfold keepProb; positivity)

theorem uniformLossProb_nonneg (U : List (List ℂ)) (S : List ℕ) {eta : ℝ} (h0 : 0 ≤ eta) (h1 : eta ≤ 1) (T : List ℕ) :
    0 ≤ uniformLossProb U S eta T :=
  mul_nonneg (binomialWeight_nonneg _ _ h0 h1) (fixedLossProb_nonneg _ _ _ _)

theorem expLoss_states {eta : ℝ} (h0 : 0 ≤ eta) (h1 : eta ≤ 1) (m n : ℕ) (T' : List ℕ) (hT' : T' ∈ statesUpTo m n)
    (g : List ℕ → ℝ≥0∞) :
    expLoss eta T' g = ∑ T ∈ statesUpTo m n, ENNReal.ofReal (thinProb eta T' T) * g T := by
  classical
  rw [mem_statesUpTo] at hT'
  rw [expLoss_lowerStates h0 h1, ← List.sum_toFinset _ (lowerStates_nodup T')]
  refine sum_subset (fun T hT => ?_) fun T hT hn => ?_
  · rw [List.mem_toFinset, mem_lowerStates] at hT
    rw [mem_statesUpTo]
    have := ModeLe.sum_le hT
    exact ⟨hT.length_eq.trans hT'.1, by omega⟩
  · rw [mem_statesUpTo] at hT
    rw [List.mem_toFinset, mem_lowerStates] at hn
    change ENNReal.ofReal (thinProb eta T' T) * _ = 0
    rw [thinProb_eq eta T' T (by omega), keepProb_eq T' T (by omega), choose_prod_zero (by omega) hn]
    simp

/-- Expectations after further losses. -/
theorem uniformLoss_expLoss {U : List (List ℂ)} {S : List ℕ} {m : ℕ} (hc : UsedOrtho (colOf U) m S) {x y : ℝ}
    (hx0 : 0 ≤ x) (hx1 : x ≤ 1) (hy0 : 0 ≤ y) (hy1 : y ≤ 1) (g : List ℕ → ℝ≥0∞) :
    ∑ T' ∈ statesUpTo m S.sum, ENNReal.ofReal (uniformLossProb U S x T') * expLoss y T' g
      = ∑ T ∈ statesUpTo m S.sum, ENNReal.ofReal (uniformLossProb U S (x * y) T) * g T := by
  rw [sum_congr rfl fun T' hT' => by rw [expLoss_states hy0 hy1 m S.sum T' hT' g, mul_sum], sum_comm]
  refine sum_congr rfl fun T hT => ?_
  have hT2 := (mem_statesUpTo _ _ _).mp hT
  rw [← uniformLoss_thinned hc x y T hT2.1, ENNReal.ofReal_sum_of_nonneg, sum_mul]
  · refine sum_congr rfl fun T' hT' => ?_
    rw [ENNReal.ofReal_mul (uniformLossProb_nonneg U S hx0 hx1 T'), mul_assoc]
  · intro T' hT'
    have := (mem_statesUpTo _ _ _).mp hT'
    exact mul_nonneg (uniformLossProb_nonneg U S hx0 hx1 T') (thinProb_nonneg hy0 hy1 _ _ (by omega))

theorem uniformLossProb_one (U : List (List ℂ)) (S T : List ℕ) :
    uniformLossProb U S 1 T = if T.sum = S.sum then bosonProb U S T else 0 := by
  unfold uniformLossProb binomialWeight
  split_ifs with h
  · rw [h, fixedLossProb_full]; simp
  · rcases lt_or_gt_of_ne h with h | h
    · rw [sub_self, zero_pow (by omega)]; simp
    · rw [Nat.choose_eq_zero_of_lt h]; simp

theorem boson_expLoss {U : List (List ℂ)} {S : List ℕ} {m : ℕ} (hc : UsedOrtho (colOf U) m S) {y : ℝ}
    (hy0 : 0 ≤ y) (hy1 : y ≤ 1) (g : List ℕ → ℝ≥0∞) :
    ∑ T' ∈ statesFin m S.sum, ENNReal.ofReal (bosonProb U S T') * expLoss y T' g
      = ∑ T ∈ statesUpTo m S.sum, ENNReal.ofReal (uniformLossProb U S y T) * g T := by
  rw [show y = 1 * y by rw [one_mul], ← uniformLoss_expLoss hc zero_le_one le_rfl hy0 hy1, one_mul]
  refine sum_subset_zero_on_sdiff (fun T hT => ?_) (fun T hT => ?_) fun T hT => ?_
  · rw [mem_statesFin] at hT
    rw [mem_statesUpTo]
    exact ⟨hT.1, hT.2.le⟩
  · rw [mem_sdiff, mem_statesUpTo, mem_statesFin] at hT
    rw [uniformLossProb_one, if_neg fun h => hT.2 ⟨hT.1.1, h⟩]
    simp
  · rw [mem_statesFin] at hT
    rw [uniformLossProb_one, if_pos hT.2]

/-- Independent samples after further losses. -/
theorem expIid_expLossAll {𝒯 𝒯' : Finset (List ℕ)} {p p' : List ℕ → ℝ≥0∞} {eta : ℝ}
    (h : ∀ g : List ℕ → ℝ≥0∞, ∑ T ∈ 𝒯, p T * expLoss eta T g = ∑ T ∈ 𝒯', p' T * g T) (n : ℕ)
    (g : List (List ℕ) → ℝ≥0∞) : expIid 𝒯 p n (fun l => expLossAll eta l g) = expIid 𝒯' p' n g := by
  induction n generalizing g with
  | zero => rfl
  | succ n ih =>
    rw [expIid, expIid, ← h]
    refine sum_congr rfl fun T _ => ?_
    congr 1
    have hsum : ∀ (s : List ℕ) (G : List ℕ → List (List ℕ) → ℝ≥0∞),
        expIid 𝒯 p n (fun l => expLoss eta s fun L => G L l) = expLoss eta s fun L => expIid 𝒯 p n fun l => G L l := by
      intro s
      induction s with
      | nil => intro G; rfl
      | cons a s ihs =>
        intro G
        simp only [expLoss]
        rw [expIid_sum]
        refine sum_congr rfl fun x _ => ?_
        rw [expIid_mul, ihs]
    change expIid 𝒯 p n (fun l => expLoss eta T fun L => expLossAll eta l fun l' => g (L :: l')) = _
    rw [hsum]
    congr 1
    funext L
    exact ih fun l => g (L :: l)

end Verif
