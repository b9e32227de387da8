import Verif.Spec.Fock
import Verif.Proofs.Distributions
import Mathlib.Data.Nat.Choose.Sum

/-! C22–C25: the exact distribution calculators. -/
namespace Verif

open Finset

/-- The configuration of an experiment with interferometer `U` and input `S`. -/
def expConfig {K R : Type} (U : List (List K)) (S : List ℕ) (k : ℕ) (eta : R) : ExpConfig K R :=
  { matrix := U, initialState := S, initialNumber := S.sum, modes := S.length,
    lost := (S.sum : Int) - k, left := k, eta := eta }

/-- The permanents a factory calculator delivers for all states below `S`. -/
theorem factory_perm (gray : Nat → List Nat) (hgray : ∀ n, IsGrayCode n (gray n)) (t : Int)
    (U : List (List ℂ)) (S T : List ℕ) (hU : ∀ r ∈ U, r.length = U.length)
    (hlen : S.length = T.length) (hle : S.length ≤ U.length) (hS : S ≠ []) (fuel : ℕ)
    (hf : (S.map (· + 1)).prod ≤ fuel) (l : List ℕ) (hl : StateLE l S) (hn : l.sum = T.sum) :
    factoryPermanent gray t fuel ⟨U, l, T⟩ = .ok (scatteringPermanent U l T) := by
  have h1 := hl.length_eq
  have hf' := (prod_succ_mono hl).trans hf
  have hl0 : l ≠ [] := by rintro rfl; exact hS (List.length_eq_zero_iff.mp h1.symm)
  unfold factoryPermanent
  have e1 := classicPermanent_ok (S := l) (T := T) U.length hU (by omega) (by omega) hn
  have e2 := glynnPermanent_ok (S := l) (T := T) gray hgray U.length hU (by omega) (by omega) hn
  have e3 := chinHuhPermanent_ok (S := l) (T := T) ⟨hU, by omega, by omega, hl0⟩ hn fuel hf'
  have e4 := ryserPermanent_ok (S := l) (T := T) ⟨hU, by omega, by omega, hl0⟩ hn fuel hf'
  split_ifs <;> assumption

/-- C22: with any permanent calculator of the factory, the fixed-loss calculator returns for an
outcome `T` with `k` particles the average, over all `k`-element sets of input particles, of
`|Perm|² / (∏ L! ∏ T!)` of the surviving state `L`; the value is non-negative. -/
theorem C22_probability (gray : Nat → List Nat) (hgray : ∀ n, IsGrayCode n (gray n)) (t : Int)
    (hash : List Nat → Int) (U : List (List ℂ)) (S T : List ℕ) (k : ℕ) (eta : ℝ)
    (hU : ∀ r ∈ U, r.length = U.length) (hlen : S.length = T.length) (hle : S.length ≤ U.length)
    (hS : S ≠ []) (hk : k ≤ S.sum) (hT : T.sum = k) (fuel : ℕ) (hf : (S.map (· + 1)).prod ≤ fuel)
    (hinj : ∀ a b : List Nat, StateLE a S → a.sum = k → StateLE b S → b.sum = k →
      hash a = hash b → a = b) :
    fixedLossOutcome Complex.normSq (factoryPermanent gray t fuel) hash (expConfig U S k eta) T
        = .ok (fixedLossProb U S k T) ∧
      0 ≤ fixedLossProb U S k T :=
  ⟨fixedLossOutcome_ok _ hash (expConfig U S k eta) T
    (fun l hl hs => factory_perm gray hgray t U S T hU hlen hle hS fuel hf l hl (hs.trans hT.symm))
    rfl hlen hk hinj, fixedLossProb_nonneg U S k T⟩

/-- A concrete case over ℚ: two particles enter a scaled beam splitter, one is lost. -/
example : fixedLossOutcome (fun x : ℚ => x ^ 2) (ryserPermanent 9)
      (fun l => (l.getD 0 0 : Int) + 10 * (l.getD 1 0 : Int))
      (expConfig [[3 / 5, 4 / 5], [4 / 5, -3 / 5]] [2, 0] 1 (1 : ℚ)) [1, 0] = .ok (9 / 25) := by
  decide +kernel

/-- C23: if the columns of the `m × m` interferometer are orthonormal, `calculate_distribution()`
returns the list of the probabilities of `get_outcomes_in_proper_order()`, position by position;
these outcomes are all `m`-mode states with `k` particles, each once; the probabilities are
non-negative and add up to one. -/
theorem C23_distribution (gray : Nat → List Nat) (hgray : ∀ n, IsGrayCode n (gray n)) (t : Int)
    (hash : List Nat → Int) (U : List (List ℂ)) (S : List ℕ) (k : ℕ) (eta : ℝ)
    (hU : ∀ r ∈ U, r.length = U.length) (hlen : S.length = U.length) (hS : S ≠ [])
    (hort : Orthonormal U S.length S.length) (hk : k ≤ S.sum)
    (hinj : ∀ a b : List Nat, StateLE a S → a.sum = k → StateLE b S → b.sum = k →
      hash a = hash b → a = b) :
    ∃ outcomes F, ∀ fuel ≥ F,
      fixedLossOutcomes fuel (expConfig U S k eta) = .ok outcomes ∧
      fixedLossDistribution Complex.normSq (factoryPermanent gray t fuel) hash fuel
          (expConfig U S k eta) = .ok (outcomes.map (fixedLossProb U S k)) ∧
      outcomes.Nodup ∧ (∀ T, T ∈ outcomes ↔ T.length = S.length ∧ T.sum = k) ∧
      (∀ p ∈ outcomes.map (fixedLossProb U S k), 0 ≤ p) ∧
      (outcomes.map (fixedLossProb U S k)).sum = 1 := by
  obtain ⟨m, hm⟩ : ∃ m, S.length = m + 1 :=
    ⟨S.length - 1, by have := List.length_pos_of_ne_nil hS; omega⟩
  have hmem : ∀ T, T ∈ allStates m k false ↔ T.length = S.length ∧ T.sum = k := by
    intro T; rw [mem_allStates, hm]; simp
  refine ⟨allStates m k false, genFuel m k + (S.map (· + 1)).prod, fun fuel hf => ?_⟩
  have hgen : fixedLossOutcomes fuel (expConfig U S k eta) = .ok (allStates m k false) := by
    have := generatePossibleStates_ok fuel k m false (by omega)
    rw [← hm] at this
    exact this
  refine ⟨hgen, ?_, allStates_nodup _ _ _, hmem, ?_, ?_⟩
  · rw [fixedLossDistribution, hgen, ok_bind, fixedLossProbabilities]
    refine mapM_ok _ _ _ fun T hT => ?_
    have := (hmem T).mp hT
    exact (C22_probability gray hgray t hash U S T k eta hU this.1.symm (by omega) hS hk this.2 fuel
      (by omega) hinj).1
  · intro p hp
    obtain ⟨T, -, rfl⟩ := List.mem_map.mp hp
    exact fixedLossProb_nonneg U S k T
  · rw [← List.sum_toFinset _ (allStates_nodup _ _ _)]
    exact fixedLoss_total U S k hort (le_refl _) hk _ (fun T => by rw [List.mem_toFinset, hmem])

/-- The hypotheses of C23 are met by a real rotation. -/
example : Orthonormal [[3 / 5, 4 / 5], [4 / 5, -3 / 5]] 2 2 := by
  intro a ha b hb
  have ha' : a = 0 ∨ a = 1 := by omega
  have hb' : b = 0 ∨ b = 1 := by omega
  rcases ha' with rfl | rfl <;> rcases hb' with rfl | rfl <;>
    simp [sum_range_succ, mget, Complex.conj_ofNat, Complex.ext_iff] <;> norm_num

theorem fixedLoss_vacuum (U : List (List ℂ)) (S T : List ℕ) (hT : T.sum = 0) :
    fixedLossProb U S 0 T = 1 := by
  have hz : ∀ x ∈ T, x = 0 := List.sum_eq_zero_iff.mp hT
  have h1 : factProd T = 1 := by
    unfold factProd
    refine List.prod_eq_one fun x hx => ?_
    obtain ⟨y, hy, rfl⟩ := List.mem_map.mp hx
    rw [hz y hy]; rfl
  unfold fixedLossProb
  rw [powersetCard_zero, sum_singleton, Nat.choose_zero_right, bosonProb,
    scatteringPermanent_vacuum _ _ _ hT, h1]
  have h2 : factProd (stateOf (∅ : Finset (Particle S))) = 1 := by
    unfold factProd
    refine List.prod_eq_one fun x hx => ?_
    obtain ⟨y, hy, rfl⟩ := List.mem_map.mp hx
    obtain ⟨i, rfl⟩ := (List.mem_ofFn).mp hy
    simp
  rw [h2]; simp

theorem weights_get (c : ExpConfig ℂ ℝ) (l : ℕ) (h : l ≤ c.initialNumber) :
    pyGetN (initializeWeights c) l = .ok (binomialWeight c.initialNumber l c.eta) := by
  rw [pyGetN_ok (by simp [initializeWeights]; omega)]
  simp only [initializeWeights, binomialWeight, List.getElem_map, List.getElem_range]
  ring_nf

/-- C24: the probability of an outcome with `l ≤ n` particles is
`binom(n,l) η^l (1-η)^(n-l)` times the fixed-loss probability. -/
theorem C24_probability (gray : Nat → List Nat) (hgray : ∀ n, IsGrayCode n (gray n)) (t : Int)
    (hash : List Nat → Int) (U : List (List ℂ)) (S T : List ℕ) (k : ℕ) (eta : ℝ)
    (hU : ∀ r ∈ U, r.length = U.length) (hlen : S.length = T.length) (hle : S.length ≤ U.length)
    (hS : S ≠ []) (hT : T.sum ≤ S.sum) (fuel : ℕ) (hf : (S.map (· + 1)).prod ≤ fuel)
    (hinj : ∀ a b : List Nat, StateLE a S → a.sum = T.sum → StateLE b S → b.sum = T.sum →
      hash a = hash b → a = b) :
    uniformOutcome Complex.normSq (factoryPermanent gray t fuel) hash
        (uniformCalc (expConfig U S k eta)) T
      = .ok (binomialWeight S.sum T.sum eta * fixedLossProb U S T.sum T) := by
  unfold uniformOutcome
  simp only [uniformCalc]
  by_cases h0 : T.sum = 0
  · rw [if_pos h0, weights_get _ _ (Nat.zero_le _), h0, fixedLoss_vacuum U S T h0, mul_one]
    rfl
  · rw [if_neg h0]
    have h1 := (C22_probability gray hgray t hash U S T T.sum eta hU hlen hle hS hT rfl fuel hf hinj).1
    have h2 : fixedLossProbabilities Complex.normSq (factoryPermanent gray t fuel) hash
        (expConfig U S T.sum eta) [T] = .ok [fixedLossProb U S T.sum T] :=
      mapM_ok _ _ _ fun x hx => by rw [List.mem_singleton.mp hx]; exact h1
    have h3 : ({ expConfig U S k eta with left := T.sum, lost := ((expConfig U S k eta).initialNumber : Int) - T.sum } : ExpConfig ℂ ℝ)
        = expConfig U S T.sum eta := rfl
    rw [h3, h2, ok_bind, weights_get _ _ hT]
    simp only [pyGetN, List.getElem?_cons_zero, ok_bind, pure_eq_ok]
    rw [mul_comm]
    rfl

/-- C24: for orthonormal columns and `η ∈ [0,1]` the distribution is aligned with
`get_outcomes_in_proper_order()` (all states with at most `n` particles, each once), is
non-negative and adds up to one. -/
theorem C24_distribution (gray : Nat → List Nat) (hgray : ∀ n, IsGrayCode n (gray n)) (t : Int)
    (hash : List Nat → Int) (U : List (List ℂ)) (S : List ℕ) (k : ℕ) (eta : ℝ)
    (h0 : 0 ≤ eta) (h1 : eta ≤ 1)
    (hU : ∀ r ∈ U, r.length = U.length) (hlen : S.length = U.length) (hS : S ≠ [])
    (hort : Orthonormal U S.length S.length)
    (hinj : ∀ a b : List Nat, StateLE a S → StateLE b S → a.sum = b.sum → hash a = hash b → a = b) :
    ∃ outcomes dist F, (∀ fuel ≥ F,
      uniformOutcomes fuel (expConfig U S k eta) = .ok outcomes ∧
      uniformDistribution Complex.normSq (factoryPermanent gray t fuel) hash fuel
          (uniformCalc (expConfig U S k eta)) = .ok dist) ∧
      dist = outcomes.map (fun T => binomialWeight S.sum T.sum eta * fixedLossProb U S T.sum T) ∧
      outcomes.Nodup ∧ (∀ T, T ∈ outcomes ↔ T.length = S.length ∧ T.sum ≤ S.sum) ∧
      (∀ p ∈ dist, 0 ≤ p) ∧ dist.sum = 1 := by
  obtain ⟨m, hm⟩ : ∃ m, S.length = m + 1 :=
    ⟨S.length - 1, by have := List.length_pos_of_ne_nil hS; omega⟩
  have hmem : ∀ T, T ∈ allStates m S.sum true ↔ T.length = S.length ∧ T.sum ≤ S.sum := by
    intro T; rw [mem_allStates, hm]; simp
  refine ⟨allStates m S.sum true, _, genFuel m S.sum + (S.map (· + 1)).prod, fun fuel hf => ?_, rfl,
    allStates_nodup _ _ _, hmem, ?_, ?_⟩
  · have hgen : uniformOutcomes fuel (expConfig U S k eta) = .ok (allStates m S.sum true) := by
      have := generatePossibleStates_ok fuel S.sum m true (by omega)
      rw [← hm] at this
      exact this
    refine ⟨hgen, ?_⟩
    rw [uniformDistribution]
    rw [show (uniformCalc (expConfig U S k eta)).config = expConfig U S k eta from rfl, hgen, ok_bind,
      uniformProbabilities]
    refine mapM_ok _ _ _ fun T hT => ?_
    have := (hmem T).mp hT
    exact C24_probability gray hgray t hash U S T k eta hU this.1.symm (by omega) hS this.2 fuel
      (by omega) (fun a b ha ha' hb hb' => hinj a b ha hb (ha'.trans hb'.symm))
  · intro p hp
    obtain ⟨T, -, rfl⟩ := List.mem_map.mp hp
    have := fixedLossProb_nonneg U S T.sum T
    have h2 : 0 ≤ 1 - eta := by linarith
    unfold binomialWeight
    positivity
  · rw [← List.sum_toFinset _ (allStates_nodup _ _ _),
      ← sum_fiberwise_of_maps_to (g := List.sum) (t := range (S.sum + 1))]
    · have : ∀ l ∈ range (S.sum + 1),
          ∑ T ∈ (allStates m S.sum true).toFinset.filter (fun T => T.sum = l),
            binomialWeight S.sum T.sum eta * fixedLossProb U S T.sum T = binomialWeight S.sum l eta := by
        intro l hl
        have hl' : l ≤ S.sum := by have := mem_range.mp hl; omega
        rw [sum_congr rfl (g := fun T => binomialWeight S.sum l eta * fixedLossProb U S l T)
          (fun T hT => by rw [(mem_filter.mp hT).2]), ← mul_sum,
          fixedLoss_total U S l hort (le_refl _) hl' _ (fun T => by
            rw [mem_filter, List.mem_toFinset, hmem]
            constructor
            · rintro ⟨⟨h1, -⟩, h2⟩; exact ⟨h1, h2⟩
            · rintro ⟨h1, h2⟩; exact ⟨⟨h1, by omega⟩, h2⟩), mul_one]
      rw [sum_congr rfl this]
      have := add_pow eta (1 - eta) S.sum
      rw [show eta + (1 - eta) = 1 by ring, one_pow] at this
      rw [this]
      refine sum_congr rfl fun l _ => ?_
      unfold binomialWeight; ring
    · intro T hT
      rw [List.mem_toFinset, hmem] at hT
      rw [mem_range]; omega

example : uniformDistribution (fun x : ℚ => x ^ 2) (ryserPermanent 9)
      (fun l => (l.getD 0 0 : Int) + 10 * (l.getD 1 0 : Int)) 20
      (uniformCalc (expConfig [[3 / 5, 4 / 5], [4 / 5, -3 / 5]] [1, 0] 1 (1 / 4 : ℚ)))
    = .ok [3 / 4, 9 / 100, 16 / 100] := by
  have : uniformOutcomes 20 (expConfig [[3 / 5, 4 / 5], [4 / 5, (-3 / 5 : ℚ)]] [1, 0] 1 (1 / 4 : ℚ))
      = .ok [[0, 0], [1, 0], [0, 1]] :=
    (generatePossibleStates_ok 20 1 1 true (by decide)).trans (by decide)
  rw [uniformDistribution, show (uniformCalc (expConfig [[3 / 5, 4 / 5], [4 / 5, (-3 / 5 : ℚ)]] [1, 0] 1
    (1 / 4 : ℚ))).config = expConfig [[3 / 5, 4 / 5], [4 / 5, (-3 / 5 : ℚ)]] [1, 0] 1 (1 / 4 : ℚ) from rfl,
    this, ok_bind]
  decide +kernel

/-- C25: after any history of `set_weightless` calls ending with `False` (or without calls) every
probability is the one of a fresh calculator. -/
theorem C25_weighted {K R : Type} [Field K] [Field R] [DecidableEq R] (nsq : K → R)
    (perm : CalcCfg K → Py K) (hash : List Nat → Int) (c : ExpConfig K R) (flags : List Bool)
    (h : flags.getLast? ≠ some true) (T : List ℕ) :
    uniformOutcome nsq perm hash (flags.foldl setWeightless (uniformCalc c)) T
      = uniformOutcome nsq perm hash (uniformCalc c) T := by
  have hcfg : ∀ (fs : List Bool) (u : UniformCalc K R), (fs.foldl setWeightless u).config = u.config := by
    intro fs
    induction fs with
    | nil => exact fun _ => rfl
    | cons f fs ih => intro u; rw [List.foldl_cons, ih]; cases f <;> rfl
  rcases List.eq_nil_or_concat flags with rfl | ⟨fs, f, rfl⟩
  · rfl
  · have hf : f = false := by
      cases f
      · rfl
      · simp at h
    subst hf
    simp only [List.concat_eq_append, List.foldl_append, List.foldl_cons, List.foldl_nil]
    have hc : (fs.foldl setWeightless (uniformCalc c)).config = c := hcfg fs (uniformCalc c)
    generalize fs.foldl setWeightless (uniformCalc c) = u at hc
    unfold uniformOutcome setWeightless
    simp only [Bool.not_false, if_true, hc]
    rfl

/-- C25: after any history ending with `True` every outcome of `1 ≤ l ≤ n` particles gets the
fixed-loss value for `l` particles, and the vacuum gets 1. -/
theorem C25_weightless {K R : Type} [Field K] [Field R] [DecidableEq R] (nsq : K → R)
    (perm : CalcCfg K → Py K) (hash : List Nat → Int) (c : ExpConfig K R) (flags : List Bool)
    (h : flags.getLast? = some true) (T : List ℕ) (hT : T.sum ≤ c.initialNumber) :
    uniformOutcome nsq perm hash (flags.foldl setWeightless (uniformCalc c)) T
      = if T.sum = 0 then .ok 1
        else fixedLossOutcome nsq perm hash
          { c with left := T.sum, lost := (c.initialNumber : Int) - T.sum } T := by
  have hcfg : ∀ (fs : List Bool) (u : UniformCalc K R), (fs.foldl setWeightless u).config = u.config ∧
      (u.weights.length = u.config.initialNumber + 1 →
        (fs.foldl setWeightless u).weights.length = u.config.initialNumber + 1) := by
    intro fs
    induction fs with
    | nil => exact fun _ => ⟨rfl, id⟩
    | cons f fs ih =>
      intro u
      rw [List.foldl_cons]
      have := ih (setWeightless u f)
      have h1 : (setWeightless u f).config = u.config := by cases f <;> rfl
      refine ⟨this.1.trans h1, fun hw => ?_⟩
      rw [h1] at this
      refine this.2 ?_
      cases f <;> simp [setWeightless, initializeWeights, hw]
  rcases List.eq_nil_or_concat flags with rfl | ⟨fs, f, rfl⟩
  · simp at h
  · have hf : f = true := by simpa using h
    subst hf
    simp only [List.concat_eq_append, List.foldl_append, List.foldl_cons, List.foldl_nil]
    have hc := hcfg fs (uniformCalc c)
    have hl := hc.2 (by simp [uniformCalc, initializeWeights])
    generalize fs.foldl setWeightless (uniformCalc c) = u at hc hl
    have hcc : u.config = c := hc.1
    have hw : ∀ l ≤ c.initialNumber, pyGetN (u.weights.map fun _ => (1 : R)) l = .ok 1 := by
      intro l hl'
      have hlen : l < (u.weights.map fun _ => (1 : R)).length := by
        rw [List.length_map, hl]; exact Nat.lt_succ_of_le hl'
      rw [pyGetN_ok hlen]; simp
    unfold uniformOutcome setWeightless
    simp only [Bool.not_true, Bool.false_eq_true, if_false, hcc, hw _ (Nat.zero_le _), hw _ hT]
    by_cases h0 : T.sum = 0
    · simp only [if_pos h0]
    · simp only [if_neg h0]
      unfold fixedLossProbabilities
      simp only [List.mapM_cons, List.mapM_nil]
      cases fixedLossOutcome nsq perm hash
          { c with left := T.sum, lost := (c.initialNumber : Int) - T.sum } T with
      | error e => rfl
      | ok p => simp [pyGetN, ok_bind, pure_eq_ok]

example : uniformOutcome (fun x : ℚ => x ^ 2) (ryserPermanent 9) (fun _ => 0)
      ([true, false, true].foldl setWeightless
        (uniformCalc (expConfig [[3 / 5, 4 / 5], [4 / 5, -3 / 5]] [1, 0] 1 (1 / 4 : ℚ)))) [1, 0]
    = .ok (9 / 25) := by decide +kernel

end Verif
