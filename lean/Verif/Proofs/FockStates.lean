import Verif.Proofs.Fock
import Verif.Proofs.Multiplicity

/-! Helper lemmas: BosonSampling probabilities of states. -/
namespace Verif

open Finset

theorem multFact_particles (S : List ℕ) : multFact (particles S : Multiset ℕ) = factProd S := by
  rw [multFact_eq_of_subset (t := range S.length), factProd]
  · rw [prod_range, ← Fin.prod_univ_fun_getElem]
    refine prod_congr rfl fun i _ => ?_
    rw [Multiset.coe_count, count_particles, getD_of_lt _ _ i.2]
  · intro x hx
    rw [Multiset.mem_toFinset, Multiset.mem_coe] at hx
    have := particlesFrom_range hx
    rw [mem_range]; omega

theorem factProd_pos (S : List ℕ) : 0 < factProd S := by
  unfold factProd
  induction S with
  | nil => simp
  | cons s S ih => simp only [List.map_cons, List.prod_cons]; exact Nat.mul_pos (Nat.factorial_pos _) ih

theorem bosonProb_eq_phi (U : List (List ℂ)) (S T : List ℕ) (h : S.sum = T.sum) :
    bosonProb U S T = phi (colOf U) (particles T) (particles S) / factProd T := by
  unfold bosonProb phi amp
  rw [lperm_scattering U S T h, multFact_particles, div_div]

theorem bosonProb_nonneg (U : List (List ℂ)) (S T : List ℕ) : 0 ≤ bosonProb U S T := by
  unfold bosonProb
  exact div_nonneg (Complex.normSq_nonneg _) (by positivity)

theorem mem_arr_particles {m : ℕ} {T : List ℕ} (hT : T.length = m) (w : List ℕ) :
    w ∈ arrangements (particles T : Multiset ℕ) ↔ w ∈ words m T.sum ∧ occOf m w = T := by
  rw [mem_arrangements, mem_words, Multiset.coe_eq_coe]
  constructor
  · intro h
    refine ⟨⟨by rw [h.length_eq, particlesFrom_length], fun x hx => ?_⟩, ?_⟩
    · have := particlesFrom_range (h.mem_iff.mp hx); omega
    · rw [← occOf_particles T, hT]
      unfold occOf
      exact List.map_congr_left fun j _ => h.count_eq j
  · rintro ⟨⟨h1, h2⟩, h3⟩
    rw [List.perm_iff_count]
    intro j
    rw [count_particles, ← h3]
    by_cases hj : j < m
    · rw [getD_of_lt _ _ (by simpa [occOf] using hj)]; simp [occOf]
    · rw [List.getD_eq_getElem?_getD, List.getElem?_eq_none (by simp [occOf]; omega), Option.getD_none, List.count_eq_zero]
      intro hm; exact hj (h2 j hm)

theorem card_arr_particles (T : List ℕ) :
    (arrangements (particles T : Multiset ℕ)).card * factProd T = T.sum.factorial := by
  have := card_arrangements_mul (particles T : Multiset ℕ)
  rwa [multFact_particles, Multiset.coe_card, particlesFrom_length] at this

/-- A sum over output sequences that only depends on the occupation is a sum over states. -/
theorem sum_words_states (m k : ℕ) (𝒯 : Finset (List ℕ)) (h𝒯 : ∀ T, T ∈ 𝒯 ↔ T.length = m ∧ T.sum = k)
    (f : List ℕ → ℝ) (hf : ∀ w w' : List ℕ, w.Perm w' → f w = f w') :
    ∑ w ∈ words m k, f w = ∑ T ∈ 𝒯, (k.factorial : ℝ) / factProd T * f (particles T) := by
  rw [← sum_fiberwise_of_maps_to (g := occOf m) (t := 𝒯)]
  · refine sum_congr rfl fun T hT => ?_
    obtain ⟨h1, h2⟩ := (h𝒯 T).mp hT
    have : (words m k).filter (fun w => occOf m w = T) = arrangements (particles T : Multiset ℕ) := by
      ext w; rw [mem_arr_particles h1, mem_filter, h2]
    rw [this, sum_congr rfl fun w hw => hf w (particles T) (Multiset.coe_eq_coe.mp (mem_arrangements.mp hw)),
      sum_const, nsmul_eq_mul, ← h2, ← card_arr_particles T]
    have := (factProd_pos T).ne'
    push_cast
    field_simp
  · intro w hw
    rw [mem_words] at hw
    rw [h𝒯]
    exact ⟨occOf_length _ _, by rw [occOf_sum _ _ hw.2, hw.1]⟩

theorem orthoCols_of (U : List (List ℂ)) {m n : ℕ} (h : Orthonormal U m n) : OrthoCols (colOf U) m n := h

theorem boson_total (U : List (List ℂ)) (S : List ℕ) {m n : ℕ} (hU : Orthonormal U m n) (hS : S.length ≤ n)
    (𝒯 : Finset (List ℕ)) (h𝒯 : ∀ T, T ∈ 𝒯 ↔ T.length = m ∧ T.sum = S.sum) :
    ∑ T ∈ 𝒯, bosonProb U S T = 1 := by
  have h1 := phi_total (orthoCols_of U hU) S.sum (particles S) (particlesFrom_length _ _) (fun a ha => by
    have := particlesFrom_range ha; omega)
  rw [sum_words_states m S.sum 𝒯 h𝒯 _ (fun w w' h => phi_perm_rows _ _ h)] at h1
  have h0 : (S.sum.factorial : ℝ) ≠ 0 := by exact_mod_cast (Nat.factorial_pos _).ne'
  have : ∑ T ∈ 𝒯, bosonProb U S T = (S.sum.factorial : ℝ)⁻¹ *
      ∑ T ∈ 𝒯, (S.sum.factorial : ℝ) / factProd T * phi (colOf U) (particles T) (particles S) := by
    rw [mul_sum]
    refine sum_congr rfl fun T hT => ?_
    rw [bosonProb_eq_phi U S T ((h𝒯 T).mp hT).2.symm]
    field_simp
  rw [this, h1, inv_mul_cancel₀ h0]

theorem stateOf_length {S : List ℕ} (A : Finset (Particle S)) : (stateOf A).length = S.length := by
  simp [stateOf]

theorem stateOf_sum {S : List ℕ} (A : Finset (Particle S)) : (stateOf A).sum = A.card := by
  rw [stateOf, List.sum_ofFn]
  exact (card_eq_sum_card_fiberwise (s := A) (f := fun x : Particle S => x.1) (t := univ)
    (fun _ _ => mem_coe.mpr (mem_univ _))).symm

theorem card_particle (S : List ℕ) : Fintype.card (Particle S) = S.sum := by
  rw [Fintype.card_sigma]
  simp only [Fintype.card_fin]
  exact Fin.sum_univ_getElem S

theorem fixedLossProb_nonneg (U : List (List ℂ)) (S : List ℕ) (k : ℕ) (T : List ℕ) :
    0 ≤ fixedLossProb U S k T :=
  div_nonneg (sum_nonneg fun _ _ => bosonProb_nonneg _ _ _) (by positivity)

theorem fixedLoss_total (U : List (List ℂ)) (S : List ℕ) (k : ℕ) {m n : ℕ} (hU : Orthonormal U m n)
    (hS : S.length ≤ n) (hk : k ≤ S.sum)
    (𝒯 : Finset (List ℕ)) (h𝒯 : ∀ T, T ∈ 𝒯 ↔ T.length = m ∧ T.sum = k) :
    ∑ T ∈ 𝒯, fixedLossProb U S k T = 1 := by
  unfold fixedLossProb
  rw [← sum_div, sum_comm]
  rw [sum_congr rfl fun A hA => boson_total U (stateOf A) hU (by rw [stateOf_length]; exact hS) 𝒯
    (fun T => by rw [h𝒯, stateOf_sum, (mem_powersetCard.mp hA).2])]
  rw [sum_const, card_powersetCard, card_univ, card_particle, nsmul_eq_mul, mul_one, div_self]
  have := Nat.choose_pos hk
  exact_mod_cast this.ne'

theorem card_mode (S : List ℕ) (i : ℕ) (h : i < S.length) :
    ((univ : Finset (Particle S)).filter fun x => x.1 = ⟨i, h⟩).card = S[i] := by
  have : ((univ : Finset (Particle S)).filter fun x => x.1 = ⟨i, h⟩)
      = (univ : Finset (Fin S[i])).map ⟨Sigma.mk (⟨i, h⟩ : Fin S.length), sigma_mk_injective⟩ := by
    ext ⟨j, y⟩
    simp only [mem_filter, mem_univ, true_and, mem_map, Function.Embedding.coeFn_mk]
    constructor
    · rintro rfl; exact ⟨y, rfl⟩
    · rintro ⟨y', h⟩; exact ((Sigma.mk.inj_iff.mp h).1).symm
  rw [this, card_map]
  simp

/-- Summing over sets of particles is summing over sub-states with their multiplicities. -/
theorem sum_stateOf (S : List ℕ) (k : ℕ) (L : Finset (List ℕ))
    (hL : ∀ l, l ∈ L ↔ StateLE l S ∧ l.sum = k) (f : List ℕ → ℝ) :
    ∑ A ∈ powersetCard k (univ : Finset (Particle S)), f (stateOf A)
      = ∑ l ∈ L, ((List.zipWith Nat.choose S l).prod : ℝ) * f l := by
  rw [← sum_fiberwise_of_maps_to (g := stateOf) (t := L)]
  · refine sum_congr rfl fun l hl => ?_
    obtain ⟨hle, hk⟩ := (hL l).mp hl
    have hlen : l.length = S.length := hle.length_eq
    have hprod : (List.zipWith Nat.choose S l).prod
        = ∏ i : Fin S.length, (S[i]).choose (l.getD i 0) := by
      rw [prod_zipWith_choose S l hlen]
      refine Finset.prod_congr rfl fun i _ => ?_
      rw [getD_of_lt l 0 (by rw [hlen]; exact i.2)]
    rw [sum_congr rfl (g := fun _ => f l) (fun A hA => by rw [(mem_filter.mp hA).2]), sum_const,
      nsmul_eq_mul, hprod, ← card_subsets]
    congr 3
    ext A
    simp only [mem_filter, mem_powersetCard, subset_univ, true_and, mem_univ]
    constructor
    · rintro ⟨-, h⟩ i
      rw [← h]; simp [stateOf]; congr
    · intro h
      have : stateOf A = l := by
        apply List.ext_getElem
        · simp [stateOf, hlen]
        · intro i h1 h2
          simp only [stateOf, List.getElem_ofFn]
          rw [h ⟨i, by simpa [stateOf] using h1⟩, getD_of_lt l 0 h2]
      exact ⟨by rw [← stateOf_sum, this, hk], this⟩
  · intro A hA
    rw [hL, stateOf_sum, (mem_powersetCard.mp hA).2]
    refine ⟨List.forall₂_iff_get.mpr ⟨stateOf_length A, fun i h h' => ?_⟩, rfl⟩
    simp only [stateOf, List.get_eq_getElem, List.getElem_ofFn]
    exact (card_le_card (filter_subset_filter _ (subset_univ A))).trans (card_mode S i h').le

end Verif
