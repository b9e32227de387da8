import Verif.Spec.Correlations
import Verif.Proofs.SampleMeans
import Verif.Proofs.Symmetry

/-! Helper lemmas: factorial moments of the exact laws. -/
namespace Verif

open Finset
open scoped ENNReal

theorem correlation_eq (U : List (List ℂ)) (S R : List ℕ) (h : R.sum ≤ S.sum) :
    correlation U S R = (S.sum.choose R.sum : ℝ) * fixedLossProb U S R.sum R := by
  have : (S.sum.choose R.sum : ℝ) ≠ 0 := by exact_mod_cast (Nat.choose_pos h).ne'
  unfold correlation fixedLossProb
  field_simp

theorem correlation_zero (U : List (List ℂ)) (S R : List ℕ) (h : S.sum < R.sum) : correlation U S R = 0 := by
  unfold correlation
  rw [powersetCard_eq_empty.mpr, sum_empty]
  rw [card_univ, Fintype.card_sigma]
  simp only [Fintype.card_fin]
  have : ∑ i : Fin S.length, S[i] = S.sum := by
    rw [← List.sum_ofFn]
    simp
  rw [this]; exact h

theorem correlation_nonneg (U : List (List ℂ)) (S R : List ℕ) : 0 ≤ correlation U S R :=
  sum_nonneg fun _ _ => bosonProb_nonneg _ _ _

theorem patternCount_zero (T R : List ℕ) (hl : R.length = T.length) (h : T.sum < R.sum) : patternCount T R = 0 :=
  choose_prod_zero hl fun hle => absurd (ModeLe.sum_le hle) (by omega)

theorem binomial_moment (n k : ℕ) (eta : ℝ) :
    ∑ l ∈ range (n + 1), binomialWeight n l eta * (l.choose k : ℝ) = eta ^ k * (n.choose k : ℝ) := by
  by_cases hk : k ≤ n
  · obtain ⟨d, rfl⟩ : ∃ d, n = k + d := ⟨n - k, by omega⟩
    rw [show k + d + 1 = k + (d + 1) by omega, sum_range_add (fun l => binomialWeight (k + d) l eta * (l.choose k : ℝ))]
    have hz : ∑ l ∈ range k, binomialWeight (k + d) l eta * (l.choose k : ℝ) = 0 :=
      sum_eq_zero fun l hl => by rw [Nat.choose_eq_zero_of_lt (mem_range.mp hl), Nat.cast_zero, mul_zero]
    rw [hz, zero_add]
    have e : ∀ j ∈ range (d + 1), binomialWeight (k + d) (k + j) eta * ((k + j).choose k : ℝ)
        = eta ^ k * ((k + d).choose k : ℝ) * binomialWeight d j eta := by
      intro j hj
      have hj := mem_range.mp hj
      have h := Nat.choose_mul (n := k + d) (k := k + j) (s := k) (by omega)
      rw [Nat.add_sub_cancel_left, Nat.add_sub_cancel_left] at h
      have h' : ((k + d).choose (k + j) : ℝ) * ((k + j).choose k : ℝ) = ((k + d).choose k : ℝ) * (d.choose j : ℝ) := by
        exact_mod_cast h
      unfold binomialWeight
      rw [show k + d - (k + j) = d - j by omega, pow_add]
      linear_combination (eta ^ k * eta ^ j * (1 - eta) ^ (d - j)) * h'
    rw [sum_congr rfl e, ← mul_sum, binomialWeight_sum, mul_one]
  · rw [Nat.choose_eq_zero_of_lt (by omega), Nat.cast_zero, mul_zero]
    refine sum_eq_zero fun l hl => ?_
    have := mem_range.mp hl
    rw [Nat.choose_eq_zero_of_lt (by omega), Nat.cast_zero, mul_zero]

section
variable {U : List (List ℂ)} {S : List ℕ} {m : ℕ}

/-- Factorial moments when `l` random particles survive. -/
theorem fixedLoss_moment (hc : UsedOrtho (colOf U) m S) (l : ℕ) (hl : l ≤ S.sum) (R : List ℕ) (hR : R.length = m) :
    ∑ T ∈ statesFin m l, fixedLossProb U S l T * (patternCount T R : ℝ)
      = (l.choose R.sum : ℝ) / (S.sum.choose R.sum : ℝ) * correlation U S R := by
  by_cases hk : R.sum ≤ l
  · have h := fixedLoss_thinned hc l hl R hR hk
    rw [correlation_eq U S R (hk.trans hl), ← h]
    have h1 : (S.sum.choose R.sum : ℝ) ≠ 0 := by exact_mod_cast (Nat.choose_pos (hk.trans hl)).ne'
    have h2 : (l.choose R.sum : ℝ) ≠ 0 := by exact_mod_cast (Nat.choose_pos hk).ne'
    rw [← mul_assoc, div_mul_cancel₀ _ h1, mul_sum]
    refine sum_congr rfl fun T hT => ?_
    rw [mem_statesFin] at hT
    rw [keepProb_eq T R (by omega), hT.2]
    unfold patternCount
    push_cast
    field_simp
  · rw [Nat.choose_eq_zero_of_lt (by omega), Nat.cast_zero, zero_div, zero_mul]
    refine sum_eq_zero fun T hT => ?_
    rw [mem_statesFin] at hT
    rw [patternCount_zero T R (by omega) (by omega), Nat.cast_zero, mul_zero]

theorem boson_moment (hc : UsedOrtho (colOf U) m S) (R : List ℕ) (hR : R.length = m) :
    ∑ T ∈ statesFin m S.sum, bosonProb U S T * (patternCount T R : ℝ) = correlation U S R := by
  have h := fixedLoss_moment hc S.sum le_rfl R hR
  simp only [fixedLossProb_full] at h
  rw [h]
  by_cases hk : R.sum ≤ S.sum
  · rw [div_self (by exact_mod_cast (Nat.choose_pos hk).ne'), one_mul]
  · rw [correlation_zero _ _ _ (by omega), mul_zero]

theorem uniformLoss_moment (hc : UsedOrtho (colOf U) m S) (eta : ℝ) (R : List ℕ) (hR : R.length = m) :
    ∑ T ∈ statesUpTo m S.sum, uniformLossProb U S eta T * (patternCount T R : ℝ) = eta ^ R.sum * correlation U S R := by
  rw [sum_statesUpTo]
  have e : ∀ l ∈ range (S.sum + 1), ∑ T ∈ statesFin m l, uniformLossProb U S eta T * (patternCount T R : ℝ)
      = binomialWeight S.sum l eta * (l.choose R.sum : ℝ) * (correlation U S R / (S.sum.choose R.sum : ℝ)) := by
    intro l hl
    have := fixedLoss_moment hc l (by have := mem_range.mp hl; omega) R hR
    rw [mul_assoc, mul_div_assoc', mul_div_right_comm, ← this, mul_sum]
    refine sum_congr rfl fun T hT => ?_
    rw [mem_statesFin] at hT
    rw [uniformLossProb, hT.2]
    ring
  rw [sum_congr rfl e, ← sum_mul, binomial_moment]
  by_cases hk : R.sum ≤ S.sum
  · have : (S.sum.choose R.sum : ℝ) ≠ 0 := by exact_mod_cast (Nat.choose_pos hk).ne'
    field_simp
  · rw [correlation_zero _ _ _ (by omega), zero_div, mul_zero, mul_zero]

end

theorem ofReal_sum_pattern (𝒯 : Finset (List ℕ)) (p : List ℕ → ℝ) (hp : ∀ T ∈ 𝒯, 0 ≤ p T) (R : List ℕ) :
    ∑ T ∈ 𝒯, ENNReal.ofReal (p T) * ((patternCount T R : ℕ) : ℝ≥0∞)
      = ENNReal.ofReal (∑ T ∈ 𝒯, p T * (patternCount T R : ℝ)) := by
  rw [ENNReal.ofReal_sum_of_nonneg fun T hT => mul_nonneg (hp T hT) (by positivity)]
  refine sum_congr rfl fun T hT => ?_
  rw [ENNReal.ofReal_mul (hp T hT), ENNReal.ofReal_natCast]

theorem meanPattern_expIid {p : Prog (List (List ℕ))} {𝒯 : Finset (List ℕ)} {q : List ℕ → ℝ} (hq : ∀ T ∈ 𝒯, 0 ≤ q T)
    (ht : ∑ T ∈ 𝒯, ENNReal.ofReal (q T) = 1) {n : ℕ}
    (hp : ∀ f : Py (List (List ℕ)) → ℝ≥0∞, p.wp f = expIid 𝒯 (fun T => ENNReal.ofReal (q T)) n fun l => f (.ok l))
    (i : ℕ) (hi : i < n) (R : List ℕ) :
    meanPattern p id i R = ENNReal.ofReal (∑ T ∈ 𝒯, q T * (patternCount T R : ℝ)) := by
  unfold meanPattern
  rw [hp, ← ofReal_sum_pattern 𝒯 q hq]
  exact expIid_at ht n i hi fun T => ((patternCount T R : ℕ) : ℝ≥0∞)

/-! ### Lossy networks -/

theorem factProd_zeros (T : List ℕ) (b : ℕ) : factProd (T ++ List.replicate b 0) = factProd T := by
  simp [factProd]

theorem stateLE_zeros {S l : List ℕ} (b : ℕ) :
    StateLE l (S ++ List.replicate b 0) ↔ ∃ V, StateLE V S ∧ l = V ++ List.replicate b 0 := by
  induction S generalizing l with
  | nil =>
    rw [List.nil_append]
    constructor
    · intro h
      refine ⟨[], .nil, List.eq_replicate_iff.mpr ⟨by have := h.length_eq; simpa using this, fun x hx => ?_⟩⟩
      obtain ⟨i, hi, rfl⟩ := List.mem_iff_getElem.mp hx
      have := List.Forall₂.get h hi (by have := h.length_eq; omega)
      simpa using this
    · rintro ⟨V, h, rfl⟩
      cases h
      exact List.forall₂_same.mpr fun _ _ => le_rfl
  | cons a S ih =>
    constructor
    · intro h
      cases h with
      | cons h1 h2 =>
        obtain ⟨V, h3, rfl⟩ := ih.mp h2
        exact ⟨_ :: V, .cons h1 h3, rfl⟩
    · rintro ⟨V, h, rfl⟩
      cases h with
      | cons h1 h2 => exact .cons h1 (ih.mpr ⟨_, h2, rfl⟩)

theorem patternCount_append (T T' R R' : List ℕ) (h : T.length = R.length) :
    patternCount (T ++ T') (R ++ R') = patternCount T R * patternCount T' R' := by
  unfold patternCount
  rw [List.zipWith_append h, List.prod_append]

theorem patternCount_none (T : List ℕ) : patternCount T (List.replicate T.length 0) = 1 := by
  unfold patternCount
  induction T with
  | nil => rfl
  | cons a T ih => simp [List.replicate_succ, ih]

theorem amp_block (c c' : ℕ → ℕ → ℂ) (rs cs : List ℕ) (h : ∀ i ∈ rs, ∀ j ∈ cs, c' j i = c j i) :
    amp c' rs cs = amp c rs cs := by
  induction rs generalizing cs with
  | nil => cases cs <;> simp [amp, lperm]
  | cons r rs ih =>
    rw [amp_cons, amp_cons]
    congr 1
    refine List.map_congr_left fun p hp => ?_
    have hperm := picks_perm hp
    rw [h r (by simp) p.1 (hperm.mem_iff.mp (by simp)),
      ih p.2 fun i hi j hj => h i (by simp [hi]) j (hperm.mem_iff.mp (by simp [hj]))]

theorem correlation_states (U : List (List ℂ)) (S R : List ℕ) :
    correlation U S R = ∑ l ∈ (lowerStates S).toFinset.filter (fun l => l.sum = R.sum),
      ((List.zipWith Nat.choose S l).prod : ℝ) * bosonProb U l R :=
  sum_stateOf S R.sum _ (fun l => by rw [mem_filter, List.mem_toFinset, mem_lowerStates]) fun l => bosonProb U l R

/-- Empty modes do not contribute. -/
theorem correlation_block {W U : List (List ℂ)} {S R : List ℕ} {m : ℕ} (b : ℕ) (hS : S.length = m) (hR : R.length = m)
    (h : ∀ i < m, ∀ j < m, mget W i j = mget U i j) :
    correlation W (S ++ List.replicate b 0) (R ++ List.replicate b 0) = correlation U S R := by
  rw [correlation_states, correlation_states]
  symm
  refine sum_bij (fun V _ => V ++ List.replicate b 0) (fun V hV => ?_) (fun V _ V' _ e => List.append_cancel_right e)
    (fun l hl => ?_) fun V hV => ?_
  · rw [mem_filter, List.mem_toFinset, mem_lowerStates] at hV ⊢
    exact ⟨(stateLE_zeros b).mpr ⟨V, hV.1, rfl⟩, by simpa using hV.2⟩
  · rw [mem_filter, List.mem_toFinset, mem_lowerStates] at hl
    obtain ⟨V, h1, rfl⟩ := (stateLE_zeros b).mp hl.1
    exact ⟨V, by rw [mem_filter, List.mem_toFinset, mem_lowerStates]; exact ⟨h1, by simpa using hl.2⟩, rfl⟩
  · rw [mem_filter, List.mem_toFinset, mem_lowerStates] at hV
    have hVl : V.length = S.length := hV.1.length_eq
    have e1 : (List.zipWith Nat.choose (S ++ List.replicate b 0) (V ++ List.replicate b 0)).prod
        = (List.zipWith Nat.choose S V).prod := by
      rw [List.zipWith_append hVl.symm, List.prod_append]
      simp
    have e2 : bosonProb W (V ++ List.replicate b 0) (R ++ List.replicate b 0) = bosonProb U V R := by
      unfold bosonProb
      rw [factProd_zeros, factProd_zeros, normSq_scattering _ _ _ (by simpa using hV.2), normSq_scattering _ _ _ hV.2,
        particles_zeros, particles_zeros]
      congr 2
      exact amp_block _ _ _ _ fun i hi j hj => h i (particles_lt hR hi) j (particles_lt (hVl.trans hS) hj)
    rw [e1, e2]

theorem lossyNet_moment {m : ℕ} (M : Matrix (Fin m) (Fin m) ℂ) (d : Svd m) (h : IsSvd M d) (h1 : ∀ i, d.s i ≤ 1)
    (S : List ℕ) (hS : S.length = m) (hm : 0 < m) (fuel : ℕ) (hf : (S.map (· + 1)).prod ≤ fuel) (hf' : m < fuel)
    (N : ℕ) (i : ℕ) (hi : i < N) (R : List ℕ) (hR : R.length = m) :
    meanPattern (lossyNetSimulate (ryserSubPermanents fuel) d fuel S N) id i R
      = ENNReal.ofReal (correlation (rowsOf M) S R) := by
  have hB := lossyNet_bok h h1 hS hm fuel hf
  have ht := boson_total' hB
  rw [expanded_sum, expanded_len, hS] at ht
  have hz : (S.map fun _ => 0) = List.replicate m 0 := by rw [← hS]; exact List.map_const' ..
  have hb : correlation (rowsOf (expandedMatrix d)) (S ++ S.map fun _ => 0) (R ++ List.replicate m 0)
      = correlation (rowsOf M) S R := by
    rw [hz]
    refine correlation_block m hS hR fun i hi j hj => ?_
    rw [mget_rowsOf _ _ _ (by omega) (by omega), mget_rowsOf _ _ _ hi hj]
    exact (C34_embeds_partial M d h).1 ⟨i, hi⟩ ⟨j, hj⟩
  unfold meanPattern
  rw [lossyNet_wp M d h h1 S hS hm fuel hf hf', ← hb,
    ← boson_moment (m := m + m) (expanded_used M d h h1 S hS) (R ++ List.replicate m 0) (by simp [hR]), expanded_sum,
    ← ofReal_sum_pattern _ _ fun T _ => bosonProb_nonneg _ _ _,
    ← expIid_at ht N i hi fun T => ((patternCount T (R ++ List.replicate m 0) : ℕ) : ℝ≥0∞)]
  refine expIid_congr _ _ _ fun l hl hl' => ?_
  simp only [id]
  congr 1
  have e : (l.map fun T => T.take m).getD i [] = (l.getD i []).take m := by
    rw [List.getD_eq_getElem?_getD, List.getD_eq_getElem?_getD, List.getElem?_map]
    cases l[i]? <;> simp
  have hT : (l.getD i []).length = m + m := by
    rw [getD_of_lt _ _ (by omega)]
    exact ((mem_statesFin _ _ _).mp (hl' _ (List.getElem_mem _))).1
  rw [e]
  conv_rhs => rw [← List.take_append_drop m (l.getD i [])]
  have e2 := patternCount_none ((l.getD i []).drop m)
  rw [show ((l.getD i []).drop m).length = m by rw [List.length_drop, hT]; omega] at e2
  rw [patternCount_append _ _ _ _ (by rw [List.length_take, hT, hR]; omega), e2, mul_one]

/-! ### Pairs -/

theorem pairState_length (m a b : ℕ) : (pairState m a b).length = m := by simp [pairState]

theorem pairState_sum (m a b : ℕ) (ha : a < m) (hb : b < m) : (pairState m a b).sum = 2 := by
  change ∑ i ∈ range m, ((if i = a then 1 else 0) + if i = b then 1 else 0) = 2
  rw [sum_add_distrib]
  simp [ha, hb]

theorem pairState_getD (m a b i : ℕ) :
    (pairState m a b).getD i 0 = if i < m then (if i = a then 1 else 0) + (if i = b then 1 else 0) else 0 := by
  by_cases h : i < m
  · rw [if_pos h, getD_of_lt _ _ (by rw [pairState_length]; exact h)]
    simp [pairState]
  · rw [if_neg h, List.getD_eq_getElem?_getD, List.getElem?_eq_none (by rw [pairState_length]; omega)]
    rfl

theorem pairState_particles (m a b : ℕ) (ha : a < m) (hb : b < m) : (particles (pairState m a b)).Perm [a, b] := by
  rw [List.perm_iff_count]
  intro i
  rw [count_particles, pairState_getD]
  by_cases hi : i < m
  · rw [if_pos hi]
    simp only [List.count_cons, List.count_nil, beq_iff_eq]
    simp only [eq_comm (a := i)]
    omega
  · have h1 : a ≠ i := by omega
    have h2 : b ≠ i := by omega
    simp [hi, h1, h2]

theorem zipWith_range_prod (T R : List ℕ) (h : R.length = T.length) :
    patternCount T R = ∏ i ∈ range T.length, (T.getD i 0).choose (R.getD i 0) := by
  unfold patternCount
  have : List.zipWith Nat.choose T R = (List.range T.length).map fun i => (T.getD i 0).choose (R.getD i 0) := by
    refine List.ext_getElem (by simp [h]) fun i h1 h2 => ?_
    simp only [List.length_zipWith] at h1
    simp only [List.getElem_zipWith, List.getElem_map, List.getElem_range]
    rw [getD_of_lt _ _ (by omega), getD_of_lt _ _ (by omega)]
  rw [this]
  rfl

/-- Coincidences in two modes. -/
theorem patternCount_pair (T : List ℕ) (a b : ℕ) (ha : a < T.length) (hb : b < T.length) :
    patternCount T (pairState T.length a b)
      = if a = b then (T.getD a 0).choose 2 else T.getD a 0 * T.getD b 0 := by
  rw [zipWith_range_prod _ _ (pairState_length ..)]
  have e : ∀ i ∈ range T.length, (T.getD i 0).choose ((pairState T.length a b).getD i 0)
      = (T.getD i 0).choose ((if i = a then 1 else 0) + if i = b then 1 else 0) := by
    intro i hi
    rw [pairState_getD, if_pos (mem_range.mp hi)]
  rw [prod_congr rfl e]
  split_ifs with hab
  · subst hab
    rw [prod_eq_single a]
    · simp
    · intro i _ hi; simp [hi]
    · intro h; exact absurd (mem_range.mpr ha) h
  · have e' : ∀ i ∈ range T.length, (T.getD i 0).choose ((if i = a then 1 else 0) + if i = b then 1 else 0)
        = (if i = a then T.getD a 0 else 1) * (if i = b then T.getD b 0 else 1) := by
      intro i _
      by_cases h1 : i = a
      · subst h1; simp [hab]
      · by_cases h2 : i = b
        · subst h2; simp [h1]
        · simp [h1, h2]
    rw [prod_congr rfl e', prod_mul_distrib]
    simp [ha, hb]

/-- Sums over pairs as sums over ordered pairs. -/
theorem sum_pairs {α : Type*} [Fintype α] [DecidableEq α] (f : Finset α → ℝ) :
    2 * ∑ A ∈ powersetCard 2 (univ : Finset α), f A = ∑ x : α, ∑ y : α, if x = y then 0 else f {x, y} := by
  have h : ∑ p ∈ (univ : Finset α).offDiag, f {p.1, p.2}
      = ∑ A ∈ powersetCard 2 (univ : Finset α), ∑ p ∈ (univ : Finset α).offDiag with ({p.1, p.2} : Finset α) = A, f {p.1, p.2} :=
    (sum_fiberwise_of_maps_to (fun p hp => by
      rw [mem_powersetCard]
      exact ⟨subset_univ _, card_pair (mem_offDiag.mp hp).2.2⟩) _).symm
  have h2 : ∀ A ∈ powersetCard 2 (univ : Finset α),
      ∑ p ∈ (univ : Finset α).offDiag with ({p.1, p.2} : Finset α) = A, f {p.1, p.2} = 2 * f A := by
    intro A hA
    obtain ⟨x, y, hxy, rfl⟩ := card_eq_two.mp (mem_powersetCard.mp hA).2
    have : (univ : Finset α).offDiag.filter (fun p => ({p.1, p.2} : Finset α) = {x, y}) = {(x, y), (y, x)} := by
      ext ⟨p, q⟩
      simp only [mem_filter, mem_offDiag, mem_univ, true_and, mem_insert, mem_singleton, Prod.mk.injEq]
      constructor
      · rintro ⟨hpq, e⟩
        have hp : p ∈ ({x, y} : Finset α) := e ▸ mem_insert_self _ _
        have hq : q ∈ ({x, y} : Finset α) := e ▸ mem_insert_of_mem (mem_singleton_self _)
        simp only [mem_insert, mem_singleton] at hp hq
        rcases hp with rfl | rfl <;> rcases hq with rfl | rfl <;> simp_all
      · rintro (⟨rfl, rfl⟩ | ⟨rfl, rfl⟩)
        · exact ⟨hxy, rfl⟩
        · exact ⟨hxy.symm, pair_comm _ _⟩
    rw [this, sum_pair (by simp [hxy]), pair_comm y x]
    ring
  rw [mul_sum, ← sum_congr rfl h2, ← h, ← sum_product']
  rw [← sum_filter_add_sum_filter_not (univ ×ˢ univ) fun p : α × α => p.1 = p.2]
  rw [sum_eq_zero (s := (univ ×ˢ univ).filter fun p : α × α => p.1 = p.2) fun p hp => if_pos (mem_filter.mp hp).2, zero_add]
  refine sum_congr (by ext; simp) fun p hp => ?_
  rw [if_neg (mem_filter.mp hp).2]

theorem phi_pair (c : ℕ → ℕ → ℂ) (a b x y : ℕ) :
    phi c [a, b] [x, y] = Complex.normSq (c x a * c y b + c y a * c x b) / (if x = y then 2 else 1) := by
  unfold phi
  congr 1
  · simp [amp, lperm, picks]
  · unfold multFact
    split_ifs with h
    · subst h; simp
    · rw [show ((([x, y] : List ℕ) : Multiset ℕ)).toFinset = {x, y} by ext; simp]
      rw [prod_pair h]
      simp [h, Ne.symm h]

theorem correlation_pair (U : List (List ℂ)) (S : List ℕ) (m a b : ℕ) (ha : a < m) (hb : b < m) :
    correlation U S (pairState m a b) * (if a = b then 2 else 1) = pairRate U S a b := by
  classical
  unfold correlation
  rw [pairState_sum m a b ha hb]
  have hfp : (factProd (pairState m a b) : ℝ) = if a = b then 2 else 1 := by
    have : factProd (pairState m a b) = ∏ i ∈ range m, ((if i = a then 1 else 0) + if i = b then 1 else 0).factorial := by
      unfold factProd pairState
      rw [List.map_map]; rfl
    rw [this]
    split_ifs with hab
    · subst hab
      rw [prod_eq_single a (fun i _ hi => by simp [hi]) fun h => absurd (mem_range.mpr ha) h]
      simp
    · rw [prod_eq_one fun i _ => ?_]
      · simp
      · by_cases h1 : i = a
        · subst h1; simp [hab]
        · by_cases h2 : i = b
          · subst h2; simp [h1]
          · simp [h1, h2]
  have e : ∀ A ∈ powersetCard 2 (univ : Finset (Particle S)), bosonProb U (stateOf A) (pairState m a b)
      = phi (colOf U) [a, b] (modesOf A) / (if a = b then 2 else 1) := by
    intro A hA
    rw [bosonProb_eq_phi U _ _ (by rw [stateOf_sum, (mem_powersetCard.mp hA).2, pairState_sum m a b ha hb]), hfp,
      phi_perm _ _ (particles_stateOf A), phi_perm_rows _ _ (pairState_particles m a b ha hb)]
  rw [sum_congr rfl e, ← sum_div, div_mul_cancel₀ _ (by split_ifs <;> norm_num)]
  have h2 := sum_pairs fun A : Finset (Particle S) => phi (colOf U) [a, b] (modesOf A)
  have e2 : ∀ x y : Particle S, (if x = y then 0 else phi (colOf U) [a, b] (modesOf {x, y}))
      = if x = y then 0 else Complex.normSq (mget U a x.1 * mget U b y.1 + mget U a y.1 * mget U b x.1)
          / (if x.1.1 = y.1.1 then 2 else 1) := by
    intro x y
    by_cases h : x = y
    · rw [if_pos h, if_pos h]
    · rw [if_neg h, if_neg h]
      have : (modesOf ({x, y} : Finset (Particle S))).Perm [x.1.1, y.1.1] :=
        (toList_insert (a := x) (s := {y}) (by simpa using h)).map _ |>.trans (by simp)
      rw [phi_perm _ _ this, phi_pair]
      rfl
  have e3 : ∀ c d : Fin S.length, ∑ i : Fin S[c], ∑ j : Fin S[d], (if (⟨c, i⟩ : Particle S) = ⟨d, j⟩ then (0 : ℝ) else
        Complex.normSq (mget U a c * mget U b d + mget U a d * mget U b c) / (if c.1 = d.1 then 2 else 1))
      = (if c.1 = d.1 then 0 else (S[c] : ℝ) * (S[d] : ℝ) * Complex.normSq (mget U a c * mget U b d + mget U a d * mget U b c))
        + if c = d then 2 * ((S[c] : ℝ) * ((S[c] : ℝ) - 1) * (Complex.normSq (mget U a c) * Complex.normSq (mget U b c))) else 0 := by
    intro c d
    by_cases hcd : c = d
    · subst hcd
      have hg : Complex.normSq (mget U a c * mget U b c + mget U a c * mget U b c)
          = 4 * (Complex.normSq (mget U a c) * Complex.normSq (mget U b c)) := by
        rw [← two_mul, Complex.normSq_mul, Complex.normSq_mul]
        norm_num [Complex.normSq_ofNat]
      rw [if_pos rfl, if_pos rfl, if_pos rfl, hg, zero_add]
      generalize Complex.normSq (mget U a c) * Complex.normSq (mget U b c) = z
      have : ∀ i : Fin S[c], ∑ j : Fin S[c], (if (⟨c, i⟩ : Particle S) = ⟨c, j⟩ then (0 : ℝ) else 4 * z / 2) = ((S[c] : ℝ) - 1) * (2 * z) := by
        intro i
        have h1 : ∀ j : Fin S[c], (if (⟨c, i⟩ : Particle S) = ⟨c, j⟩ then (0 : ℝ) else 4 * z / 2)
            = 2 * z - if i = j then 2 * z else 0 := by
          intro j
          simp only [Sigma.mk.injEq, true_and, heq_eq_eq]
          split_ifs <;> ring
        rw [sum_congr rfl fun j _ => h1 j, sum_sub_distrib, sum_ite_eq, if_pos (mem_univ _), sum_const, card_univ,
          Fintype.card_fin, nsmul_eq_mul]
        ring
      rw [sum_congr rfl fun i _ => this i, sum_const, card_univ, Fintype.card_fin, nsmul_eq_mul]
      ring
    · have hcd' : ¬ c.1 = d.1 := fun h => hcd (Fin.ext h)
      rw [if_neg hcd', if_neg hcd', if_neg hcd, add_zero]
      have : ∀ (i : Fin S[c]) (j : Fin S[d]), ¬ (⟨c, i⟩ : Particle S) = ⟨d, j⟩ := fun i j h => hcd (congrArg Sigma.fst h)
      simp only [this, if_false, sum_const, card_univ, Fintype.card_fin, nsmul_eq_mul, div_one]
      ring
  have e4 : ∑ x : Particle S, ∑ y : Particle S, (if x = y then 0 else phi (colOf U) [a, b] (modesOf {x, y}))
      = ∑ c : Fin S.length, ∑ d : Fin S.length,
        ((if c.1 = d.1 then 0 else (S[c] : ℝ) * (S[d] : ℝ) * Complex.normSq (mget U a c * mget U b d + mget U a d * mget U b c))
        + if c = d then 2 * ((S[c] : ℝ) * ((S[c] : ℝ) - 1) * (Complex.normSq (mget U a c) * Complex.normSq (mget U b c))) else 0) := by
    simp only [e2, Fintype.sum_sigma]
    refine sum_congr rfl fun c _ => ?_
    rw [sum_comm]
    exact sum_congr rfl fun d _ => e3 c d
  rw [e4] at h2
  simp only [sum_add_distrib, sum_ite_eq, mem_univ, if_true, ← mul_sum] at h2
  unfold pairRate
  simp only [Finset.sum_range]
  have hS : ∀ c : Fin S.length, S.getD c 0 = S[c] := fun c => getD_of_lt _ _ c.2
  simp only [hS]
  linarith

end Verif
