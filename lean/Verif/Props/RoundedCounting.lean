import Verif.Proofs.RoundedCounting
import Verif.Proofs.RoundedBinomial
import Verif.Props.StateSpace

/-!
C99-C100: the counting functions of `boson_sampling_utilities.py` with the floats of scipy.
-/
namespace Verif

/-- C99 (false in general, see `C99_fails`): for types with at most 22 modes the returned float is
the number of distinct mode permutations of the type, whatever the iteration order of the value
set. Missing: more modes. -/
theorem C99_small_partial (R : Rounding) (stirling : ℕ → ℝ) (vals t : List ℕ) (hnd : vals.Nodup)
    (hv : ∀ x, x ∈ vals ↔ x ∈ t) (ht : t.length ≤ 22) :
    ∃ L : List (List ℕ), L.Nodup ∧ (∀ s : List ℕ, s ∈ L ↔ s.Perm t) ∧
      computeNumberOfStatesOfGivenTypeR R stirling vals t = L.length := by
  refine ⟨(arrangements (t : Multiset ℕ)).toList, Finset.nodup_toList _, fun s => ?_, ?_⟩
  · rw [Finset.mem_toList, mem_arrangements, Multiset.coe_eq_coe]
  · rw [Finset.length_toList, countR_eq R stirling vals t hnd hv ht]

/-- C99 fails for 29 modes: seven photons in different modes give the type `[1] * 7 + [0] * 22` with
1560780 states, and the function returns 1560779, for either iteration order of `{0, 1}`. The
product `29!` is not a float, the computed one is too small, and `//` rounds down. -/
theorem C99_fails (R : Rounding) (stirling : ℕ → ℝ) (vals : List ℕ) (hvals : vals = [0, 1] ∨ vals = [1, 0]) :
    computeNumberOfStatesOfGivenTypeR R stirling vals (List.replicate 7 1 ++ List.replicate 22 0) = 1560779 ∧
    ∃ L : List (List ℕ), L.Nodup ∧
      (∀ s : List ℕ, s ∈ L ↔ s.Perm (List.replicate 7 1 ++ List.replicate 22 0)) ∧ L.length = 1560780 := by
  constructor
  · rcases hvals with rfl | rfl
    · exact fails_order1 R stirling
    · exact fails_order2 R stirling
  · set t : List ℕ := List.replicate 7 1 ++ List.replicate 22 0 with ht
    refine ⟨(arrangements (t : Multiset ℕ)).toList, Finset.nodup_toList _, fun s => ?_, ?_⟩
    · rw [Finset.mem_toList, mem_arrangements, Multiset.coe_eq_coe]
    · rw [Finset.length_toList, ← numberOfStates_eq [0, 1] t (by decide) (by intro x; simp [ht]; tauto)]
      rw [ht]
      decide +kernel

example : computeNumberOfStatesOfGivenTypeR someRounding (fun _ => 0) [0, 1, 2] [2, 1, 1, 0] = 12 := by
  rw [countR_eq _ _ _ _ (by decide) (by intro x; simp; tauto) (by decide),
    ← numberOfStates_eq [0, 1, 2] [2, 1, 1, 0] (by decide) (by intro x; simp; tauto)]
  rw [show computeNumberOfStatesOfGivenType [0, 1, 2] [2, 1, 1, 0] = 12 by decide]
  norm_num

/-- C100 (false in general, see `C100_fails`): the returned integer is the number of states, with and
without losses, when scipy's product formula is used (fewer than 20 particles or at most 20 modes)
and there are at most `2 ^ 47` states. -/
theorem C100_moderate_partial (R : Rounding) (beta : ℕ → ℕ → ℝ) (n m : ℕ) (losses : Bool) (hm : 1 ≤ m) :
    ∃ L : List (List ℕ), L.Nodup ∧
      (∀ s : List ℕ, s ∈ L ↔ s.length = m ∧ (if losses then s.sum ≤ n else s.sum = n)) ∧
      (n < 20 ∨ m ≤ 20 → L.length ≤ 2 ^ 47 → bosonicSpaceDimensionR R beta n m losses = L.length) := by
  obtain ⟨m', rfl⟩ : ∃ m' : ℕ, m = m' + 1 := ⟨m - 1, by omega⟩
  refine ⟨allStates m' n losses, allStates_nodup _ _ _, fun s => ?_, ?_⟩
  · rw [mem_allStates]
  · intro h20 hL
    obtain ⟨states, F, hF, hdim⟩ := C05_dimension n (m' + 1) losses hm
    have hst : states = allStates m' n losses := by
      have h1 := hF (max F (genFuel m' n)) (le_max_left _ _)
      rw [generatePossibleStates_ok _ n m' losses (le_max_right _ _)] at h1
      exact (Except.ok.inj h1).symm
    rw [hst] at hdim
    rw [← hdim] at hL ⊢
    clear hF hst hdim states F
    have hbin : ∀ i, i ≤ n → (i + (m' + 1) - 1).choose i ≤ 2 ^ 47 →
        pyRound (binomR R beta (i + (m' + 1) - 1) i) = ((i + (m' + 1) - 1).choose i : ℤ) := by
      intro i hi hc
      refine binomR_round R beta (by omega) ?_ hc
      have : i + (m' + 1) - 1 - i = m' := by omega
      rw [this]
      omega
    have hfold : ∀ (l : List ℕ) (d : ℕ), (∀ i ∈ l, i ≤ n) →
        l.foldl (fun d i => d + (i + (m' + 1) - 1).choose i) d ≤ 2 ^ 47 →
        l.foldl (fun (d : ℤ) i => d + pyRound (binomR R beta (i + (m' + 1) - 1) i)) (d : ℤ)
          = ((l.foldl (fun d i => d + (i + (m' + 1) - 1).choose i) d : ℕ) : ℤ) := by
      have hge : ∀ (l : List ℕ) (d : ℕ), d ≤ l.foldl (fun d i => d + (i + (m' + 1) - 1).choose i) d := by
        intro l
        induction l with
        | nil => intro d; exact le_rfl
        | cons a l ih => intro d; exact (Nat.le_add_right _ _).trans (ih _)
      intro l
      induction l with
      | nil => intro d _ _; rfl
      | cons a l ih =>
        intro d hl hle
        rw [List.foldl_cons] at hle
        have h1 := (hge l _).trans hle
        rw [List.foldl_cons, List.foldl_cons, hbin a (hl a (by simp)) (by omega), ← Nat.cast_add]
        exact ih _ (fun i hi => hl i (by simp [hi])) hle
    unfold bosonicSpaceDimensionR bosonicSpaceDimension at *
    cases losses
    · simp only [Bool.not_false, if_true] at hL ⊢
      exact hbin n le_rfl hL
    · simp only [Bool.not_true, Bool.false_eq_true, if_false] at hL ⊢
      have hge : ∀ (l : List ℕ) (d : ℕ), d ≤ l.foldl (fun d i => d + (i + (m' + 1) - 1).choose i) d := by
        intro l
        induction l with
        | nil => intro d; exact le_rfl
        | cons a l ih => intro d; exact (Nat.le_add_right _ _).trans (ih _)
      rw [hbin n le_rfl ((hge _ _).trans hL)]
      exact hfold _ _ (fun i hi => (List.mem_range.mp hi).le) hL

/-- C100, of any size: when scipy's product formula is used, the returned integer differs from the number of
states by at most `116 / 2 ^ 53` of it and one half per rounding to an integer, so a wrong dimension is
still a good approximation. -/
theorem C100_relative (R : Rounding) (beta : ℕ → ℕ → ℝ) (n m : ℕ) (losses : Bool) (hm : 1 ≤ m)
    (h20 : n < 20 ∨ m ≤ 20) (hsize : n + m ≤ 2 ^ 52) :
    ∃ L : List (List ℕ), L.Nodup ∧
      (∀ s : List ℕ, s ∈ L ↔ s.length = m ∧ (if losses then s.sum ≤ n else s.sum = n)) ∧
      |(bosonicSpaceDimensionR R beta n m losses : ℝ) - L.length|
        ≤ 116 / 2 ^ 53 * L.length + (if losses then ((n : ℝ) + 1) / 2 else 1 / 2 : ℝ) := by
  obtain ⟨m', rfl⟩ : ∃ m' : ℕ, m = m' + 1 := ⟨m - 1, by omega⟩
  refine ⟨allStates m' n losses, allStates_nodup _ _ _, fun s => ?_, ?_⟩
  · rw [mem_allStates]
  · obtain ⟨states, F, hF, hdim⟩ := C05_dimension n (m' + 1) losses hm
    have hst : states = allStates m' n losses := by
      have h1 := hF (max F (genFuel m' n)) (le_max_left _ _)
      rw [generatePossibleStates_ok _ n m' losses (le_max_right _ _)] at h1
      exact (Except.ok.inj h1).symm
    rw [hst] at hdim
    rw [← hdim]
    clear hF hst hdim states F
    have hbin : ∀ i, i ≤ n →
        |(pyRound (binomR R beta (i + (m' + 1) - 1) i) : ℝ) - ((i + (m' + 1) - 1).choose i : ℕ)|
          ≤ 116 / 2 ^ 53 * ((i + (m' + 1) - 1).choose i : ℕ) + 1 / 2 := by
      intro i hi
      have hw := binomR_within R beta (n := i + (m' + 1) - 1) (k := i) (by omega) (by omega) (by omega)
      set k := 3 * min i (i + (m' + 1) - 1 - i) + 1 with hk
      have hk58 : k ≤ 58 := by omega
      have hr := rho_pow_le (k := k) (by omega)
      have hkr : (k : ℝ) ≤ 58 := by exact_mod_cast hk58
      have h1 := hw.near.close (one_le_rho_pow _) (Nat.cast_nonneg _) le_rfl
      rw [mul_zero, add_zero] at h1
      have h2 : (rho ^ k - 1) * (((i + (m' + 1) - 1).choose i : ℕ) : ℝ)
          ≤ 116 / 2 ^ 53 * (((i + (m' + 1) - 1).choose i : ℕ) : ℝ) := by
        refine mul_le_mul_of_nonneg_right (hr.trans ?_) (Nat.cast_nonneg _)
        gcongr
        linarith
      have h3 := pyRound_half (binomR R beta (i + (m' + 1) - 1) i)
      calc _ ≤ |(pyRound (binomR R beta (i + (m' + 1) - 1) i) : ℝ) - binomR R beta (i + (m' + 1) - 1) i|
            + |binomR R beta (i + (m' + 1) - 1) i - ((i + (m' + 1) - 1).choose i : ℕ)| := abs_sub_le _ _ _
        _ ≤ _ := by linarith
    have hfold : ∀ (l : List ℕ) (d : ℤ) (D : ℕ) (b : ℝ), (∀ i ∈ l, i ≤ n) →
        |(d : ℝ) - D| ≤ 116 / 2 ^ 53 * D + b →
        |((l.foldl (fun (d : ℤ) i => d + pyRound (binomR R beta (i + (m' + 1) - 1) i)) d : ℤ) : ℝ)
          - ((l.foldl (fun d i => d + (i + (m' + 1) - 1).choose i) D : ℕ) : ℝ)|
        ≤ 116 / 2 ^ 53 * ((l.foldl (fun d i => d + (i + (m' + 1) - 1).choose i) D : ℕ) : ℝ) + (b + l.length / 2) := by
      intro l
      induction l with
      | nil => intro d D b _ h; simpa using h
      | cons a l ih =>
        intro d D b hl h
        rw [List.foldl_cons, List.foldl_cons]
        refine (ih _ _ (b + 1 / 2) (fun i hi => hl i (by simp [hi])) ?_).trans (le_of_eq ?_)
        · have h1 := hbin a (hl a (by simp))
          rw [abs_le] at h h1 ⊢
          push_cast at h1 ⊢
          constructor <;> linarith [h.1, h.2, h1.1, h1.2]
        · rw [List.length_cons]; push_cast; ring
    unfold bosonicSpaceDimensionR bosonicSpaceDimension
    cases losses
    · simp only [Bool.not_false, if_true]
      simpa using hbin n le_rfl
    · simp only [Bool.not_true, Bool.false_eq_true, if_false, if_true]
      refine (hfold (List.range n) _ _ (1 / 2) (fun i hi => (List.mem_range.mp hi).le) (hbin n le_rfl)).trans
        (le_of_eq ?_)
      rw [List.length_range, show (1 : ℝ) / 2 + n / 2 = (n + 1) / 2 by ring]

/-- C100: without losses the returned integer can only be right when the number of states is itself a
float, however `scipy.special.binom` computes the cases without the product formula. -/
theorem C100_float (R : Rounding) (beta : ℕ → ℕ → ℝ) (hb : ∀ n k, IsFloat (beta n k)) (n m : ℕ) (D : ℕ)
    (h : bosonicSpaceDimensionR R beta n m = D) : IsFloat (D : ℝ) := by
  unfold bosonicSpaceDimensionR at h
  simp only [Bool.not_false, if_true] at h
  have := pyRound_float (binomR_float R hb (n + m - 1) n) (by rw [h]; omega)
  rw [h] at this
  exact_mod_cast this

/-- C100 fails for 12 photons in 116 modes (in the product formula) and for 20 photons in 44 modes (in
the other formula): the numbers of states are odd and above `2 ^ 53`. -/
theorem C100_fails (R : Rounding) (beta : ℕ → ℕ → ℝ) (hb : ∀ n k, IsFloat (beta n k)) (n m : ℕ)
    (h : (n, m) = (12, 116) ∨ (n, m) = (20, 44)) :
    ∃ L : List (List ℕ), L.Nodup ∧ (∀ s : List ℕ, s ∈ L ↔ s.length = m ∧ s.sum = n) ∧
      bosonicSpaceDimensionR R beta n m ≠ L.length := by
  have hm : 1 ≤ m := by rcases h with h | h <;> (injection h; omega)
  obtain ⟨m', rfl⟩ : ∃ m' : ℕ, m = m' + 1 := ⟨m - 1, by omega⟩
  refine ⟨allStates m' n false, allStates_nodup _ _ _, fun s => ?_, fun hc => ?_⟩
  · rw [mem_allStates]; simp
  · have hf := C100_float R beta hb n (m' + 1) _ hc
    have hlen : (allStates m' n false).length = (n + m').choose n := by
      simp [allStates, stDesc_length]
    rw [hlen] at hf
    refine not_isFloat_odd ?_ ?_ hf
    · rcases h with h | h <;> simp only [Prod.mk.injEq] at h <;> obtain ⟨rfl, h⟩ := h <;>
        (obtain rfl : m' = _ := Nat.succ_injective h) <;> decide +kernel
    · rcases h with h | h <;> simp only [Prod.mk.injEq] at h <;> obtain ⟨rfl, h⟩ := h <;>
        (obtain rfl : m' = _ := Nat.succ_injective h) <;> decide +kernel

/-- C100: `scipy.special.binom` is exact up to 30. So the assumption in the floating-point models that it
is correctly rounded (`R.rnd (n.choose k)`) holds there. -/
theorem C100_binomial (R : Rounding) (beta : ℕ → ℕ → ℝ) (n k : ℕ) (hn : n ≤ 30) (hkn : k ≤ n) :
    binomR R beta n k = (n.choose k : ℝ) ∧ R.rnd (n.choose k : ℝ) = binomR R beta n k := by
  have h := binomR_30 R beta hn hkn
  refine ⟨h, ?_⟩
  rw [h]
  refine R.eq_self (isFloat_nat ?_)
  calc n.choose k ≤ 2 ^ n := Nat.choose_le_two_pow n k
    _ ≤ 2 ^ 30 := Nat.pow_le_pow_right (by norm_num) hn
    _ ≤ 2 ^ 53 := by norm_num

example : bosonicSpaceDimensionR someRounding (fun _ _ => 0) 2 3 = 6 := by
  have := binomR_round someRounding (fun _ _ => 0) (n := 4) (k := 2) (by norm_num) (by norm_num) (by decide)
  rw [show Nat.choose 4 2 = 6 by decide] at this
  simpa [bosonicSpaceDimensionR] using this

/-- The bound for 19 photons in 1001 modes, about `1.4 · 10 ^ 40` states: the numerator of scipy's formula is rescaled. -/
example (R : Rounding) (beta : ℕ → ℕ → ℝ) : ∃ L : List (List ℕ), L.Nodup ∧
    (∀ s : List ℕ, s ∈ L ↔ s.length = 1001 ∧ s.sum = 19) ∧
    |(bosonicSpaceDimensionR R beta 19 1001 : ℝ) - L.length| ≤ 116 / 2 ^ 53 * L.length + 1 / 2 := by
  simpa using C100_relative R beta 19 1001 false (by norm_num) (by norm_num) (by norm_num)

end Verif
