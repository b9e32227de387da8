import Verif.Proofs.FockStates

/-! Helper lemmas: probabilities of output sequences and their marginals. -/
namespace Verif

open Finset

/-- Modes of a set of particles. -/
noncomputable def modesOf {S : List ℕ} (A : Finset (Particle S)) : List ℕ := A.toList.map fun a => a.1.1

theorem particles_stateOf {S : List ℕ} (A : Finset (Particle S)) :
    (particles (stateOf A)).Perm (modesOf A) := by
  rw [List.perm_iff_count]
  intro j
  rw [count_particles, modesOf, ← Multiset.coe_count, ← Multiset.map_coe, coe_toList, Multiset.count_map]
  by_cases hj : j < S.length
  · rw [getD_of_lt _ _ (by rw [stateOf_length]; exact hj)]
    simp only [stateOf, List.getElem_ofFn]
    rw [card_def, filter_val]
    congr 1
    refine Multiset.filter_congr fun x _ => ?_
    rw [Fin.ext_iff]; exact eq_comm
  · rw [List.getD_eq_getElem?_getD, List.getElem?_eq_none (by rw [stateOf_length]; omega), Option.getD_none]
    symm
    rw [Multiset.card_eq_zero, Multiset.filter_eq_nil]
    intro x _ h
    exact hj (h ▸ x.1.2)

theorem modesOf_insert {S : List ℕ} (A : Finset (Particle S)) (a : Particle S) (h : a ∉ A) :
    (modesOf (insert a A)).Perm (a.1.1 :: modesOf A) :=
  ((toList_insert h).map _)

theorem modesOf_erase {S : List ℕ} (A : Finset (Particle S)) (a : Particle S) (h : a ∈ A) :
    (modesOf A).Perm (a.1.1 :: modesOf (A.erase a)) := by
  conv_lhs => rw [← insert_erase h]
  exact modesOf_insert _ _ (notMem_erase a A)

theorem modesOf_length {S : List ℕ} (A : Finset (Particle S)) : (modesOf A).length = A.card := by
  simp [modesOf]

theorem modesOf_lt {S : List ℕ} (A : Finset (Particle S)) : ∀ x ∈ modesOf A, x < S.length := by
  intro x hx
  obtain ⟨a, -, rfl⟩ := List.mem_map.mp hx
  exact a.1.2

/-- Sums over the ways to remove one element of a list, up to the order of the rest. -/
theorem sum_picks_erase {M : Type*} [AddCommMonoid M] (l : List ℕ) (f : List ℕ → M)
    (hf : ∀ a b : List ℕ, a.Perm b → f a = f b) :
    ((picks l).map fun p => f p.2).sum = (l.map fun x => f (l.erase x)).sum := by
  have h : ((picks l).map fun p => f p.2) = (picks l).map fun p => f (l.erase p.1) := by
    refine List.map_congr_left fun p hp => hf _ _ ?_
    have := (picks_perm hp).erase p.1
    rwa [List.erase_cons_head] at this
  rw [h]
  conv_rhs => rw [← picks_fst l, List.map_map]
  rw [picks_fst]
  rfl

theorem sum_picks_set {S : List ℕ} {M : Type*} [AddCommMonoid M] (A : Finset (Particle S)) (l : List ℕ)
    (hl : l.Perm (modesOf A)) (f : List ℕ → M) (hf : ∀ a b : List ℕ, a.Perm b → f a = f b) :
    ((picks l).map fun p => f p.2).sum = ∑ a ∈ A, f (modesOf (A.erase a)) := by
  rw [sum_picks_erase l f hf, (hl.map _).sum_eq]
  unfold modesOf
  rw [List.map_map, ← sum_map_toList A (fun a => f ((A.erase a).toList.map fun a => a.1.1))]
  congr 1
  refine List.map_congr_left fun a ha => hf _ _ ?_
  have h1 := (hl.trans (modesOf_erase A a (mem_toList.mp ha))).erase a.1.1
  rw [List.erase_cons_head] at h1
  exact h1

/-- Double counting of pairs of a set and one of its elements. -/
theorem sum_powersetCard_erase {α M : Type*} [Fintype α] [DecidableEq α] [AddCommMonoid M] (k : ℕ)
    (h : Finset α → α → M) :
    ∑ A ∈ powersetCard (k + 1) (univ : Finset α), ∑ a ∈ A, h (A.erase a) a
      = ∑ B ∈ powersetCard k (univ : Finset α), ∑ a ∈ Bᶜ, h B a := by
  rw [sum_sigma', sum_sigma']
  refine sum_bij' (fun x _ => ⟨x.1.erase x.2, x.2⟩) (fun x _ => ⟨insert x.2 x.1, x.2⟩) ?_ ?_ ?_ ?_ ?_
  · rintro ⟨A, a⟩ hx
    simp only [mem_sigma, mem_powersetCard, subset_univ, true_and] at hx
    simp only [mem_sigma, mem_powersetCard, subset_univ, true_and, mem_compl, mem_erase, ne_eq,
      not_true_eq_false, false_and, not_false_eq_true, and_true]
    rw [card_erase_of_mem hx.2, hx.1]; rfl
  · rintro ⟨B, a⟩ hx
    simp only [mem_sigma, mem_powersetCard, subset_univ, true_and, mem_compl] at hx
    simp only [mem_sigma, mem_powersetCard, subset_univ, true_and, mem_insert, true_or, and_true]
    rw [card_insert_of_notMem hx.2, hx.1]
  · rintro ⟨A, a⟩ hx
    simp only [mem_sigma, mem_powersetCard, subset_univ, true_and] at hx
    simp [insert_erase hx.2]
  · rintro ⟨B, a⟩ hx
    simp only [mem_sigma, mem_powersetCard, subset_univ, true_and, mem_compl] at hx
    simp [erase_insert hx.2]
  · rintro ⟨A, a⟩ _; rfl

/-- Probability of the output sequence `rs` of `k` particles when a random set of `k` input
particles enters the interferometer. -/
noncomputable def seqProb (c : ℕ → ℕ → ℂ) (S : List ℕ) (k : ℕ) (rs : List ℕ) : ℝ :=
  (∑ A ∈ powersetCard k (univ : Finset (Particle S)), phi c rs (modesOf A))
    / ((S.sum.choose k : ℝ) * (k.factorial : ℝ))

theorem seqProb_nonneg (c : ℕ → ℕ → ℂ) (S : List ℕ) (k : ℕ) (rs : List ℕ) : 0 ≤ seqProb c S k rs :=
  div_nonneg (sum_nonneg fun _ _ => phi_nonneg _ _ _) (by positivity)

theorem seqProb_perm (c : ℕ → ℕ → ℂ) (S : List ℕ) (k : ℕ) {rs rs' : List ℕ} (h : rs.Perm rs') :
    seqProb c S k rs = seqProb c S k rs' := by
  unfold seqProb
  congr 1
  exact sum_congr rfl fun A _ => phi_perm_rows c _ h

theorem seqProb_zero (c : ℕ → ℕ → ℂ) (S : List ℕ) : seqProb c S 0 [] = 1 := by
  simp [seqProb, modesOf, phi, amp, lperm, multFact]

/-- The columns used by the particles of `S` are orthonormal. -/
structure UsedOrtho (c : ℕ → ℕ → ℂ) (m : ℕ) (S : List ℕ) : Prop where
  ex : ∃ n, OrthoCols c m n ∧ ∀ x ∈ particles S, x < n

theorem modesOf_mem_particles {S : List ℕ} (A : Finset (Particle S)) : ∀ x ∈ modesOf A, x ∈ particles S := by
  intro x hx
  obtain ⟨a, -, rfl⟩ := List.mem_map.mp hx
  rw [← List.count_pos_iff, count_particles, getD_of_lt _ _ a.1.2]
  exact Nat.lt_of_le_of_lt (Nat.zero_le _) a.2.2

theorem sum_phi_modes {c : ℕ → ℕ → ℂ} {m : ℕ} {S : List ℕ} (hc : UsedOrtho c m S)
    (A : Finset (Particle S)) (rs : List ℕ) :
    ∑ r ∈ range m, phi c (r :: rs) (modesOf A) = ∑ a ∈ A, phi c rs (modesOf (A.erase a)) := by
  obtain ⟨n, h1, h2⟩ := hc.ex
  rw [phi_marginal h1 rs _ (fun a ha => h2 a (modesOf_mem_particles A a ha)),
    sum_picks_set A _ (List.Perm.refl _) (phi c rs) (fun _ _ h => phi_perm c rs h)]

theorem seqProb_marginal {c : ℕ → ℕ → ℂ} {m : ℕ} {S : List ℕ} (hc : UsedOrtho c m S) (k : ℕ)
    (hk : k < S.sum) (rs : List ℕ) :
    ∑ r ∈ range m, seqProb c S (k + 1) (r :: rs) = seqProb c S k rs := by
  unfold seqProb
  rw [← sum_div, sum_comm, sum_congr rfl fun A _ => sum_phi_modes hc A rs,
    sum_powersetCard_erase k (fun B _ => phi c rs (modesOf B))]
  have e : ∀ B ∈ powersetCard k (univ : Finset (Particle S)), ∑ _a ∈ Bᶜ, phi c rs (modesOf B)
      = ((S.sum - k : ℕ) : ℝ) * phi c rs (modesOf B) := by
    intro B hB
    rw [sum_const, card_compl, card_particle, (mem_powersetCard.mp hB).2, nsmul_eq_mul]
  rw [sum_congr rfl e, ← mul_sum]
  have h1 : (S.sum.choose (k + 1)) * (k + 1).factorial = (S.sum - k) * (S.sum.choose k * k.factorial) := by
    rw [Nat.factorial_succ, ← mul_assoc, Nat.choose_succ_right_eq]; ring
  have h2 : ((S.sum.choose (k + 1) : ℕ) : ℝ) * ((k + 1).factorial : ℝ)
      = ((S.sum - k : ℕ) : ℝ) * ((S.sum.choose k : ℝ) * (k.factorial : ℝ)) := by exact_mod_cast h1
  rw [h2]
  have h3 : ((S.sum - k : ℕ) : ℝ) ≠ 0 := by
    have : S.sum - k ≠ 0 := by omega
    exact_mod_cast this
  exact mul_div_mul_left _ _ h3

theorem phi_zero_of_cons {c : ℕ → ℕ → ℂ} {m : ℕ} {S : List ℕ} (hc : UsedOrtho c m S) (k : ℕ)
    (hk : k < S.sum) (rs : List ℕ) (h0 : seqProb c S k rs = 0) (r : ℕ) (hr : r < m) :
    seqProb c S (k + 1) (r :: rs) = 0 := by
  have := seqProb_marginal hc k hk rs
  rw [h0] at this
  exact (sum_eq_zero_iff_of_nonneg fun r _ => seqProb_nonneg c S (k + 1) (r :: rs)).mp this r
    (mem_range.mpr hr)

/-- The sequences of an output state share its fixed-loss probability. -/
theorem fixedLossProb_eq_seq (U : List (List ℂ)) (S T : List ℕ) (k : ℕ) (hT : T.sum = k) :
    fixedLossProb U S k T = (k.factorial : ℝ) / factProd T * seqProb (colOf U) S k (particles T) := by
  unfold fixedLossProb seqProb
  have e : ∀ A ∈ powersetCard k (univ : Finset (Particle S)), bosonProb U (stateOf A) T
      = phi (colOf U) (particles T) (modesOf A) / factProd T := by
    intro A hA
    rw [bosonProb_eq_phi U _ T (by rw [stateOf_sum, (mem_powersetCard.mp hA).2, hT]),
      phi_perm _ _ (particles_stateOf A)]
  rw [sum_congr rfl e, ← sum_div]
  have h0 : (k.factorial : ℝ) ≠ 0 := by exact_mod_cast (Nat.factorial_pos _).ne'
  have h1 : (factProd T : ℝ) ≠ 0 := by exact_mod_cast (factProd_pos T).ne'
  field_simp

theorem fixedLossProb_full (U : List (List ℂ)) (S T : List ℕ) :
    fixedLossProb U S S.sum T = bosonProb U S T := by
  unfold fixedLossProb
  have h1 : powersetCard S.sum (univ : Finset (Particle S)) = {univ} := by
    rw [← card_particle S, ← card_univ, powersetCard_self]
  rw [h1, sum_singleton, Nat.choose_self]
  have : stateOf (univ : Finset (Particle S)) = S := by
    apply List.ext_getElem (stateOf_length _)
    intro i h1 h2
    simp only [stateOf, List.getElem_ofFn]
    exact card_mode S i h2
  rw [this]; simp

end Verif
