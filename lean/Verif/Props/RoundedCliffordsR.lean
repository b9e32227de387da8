import Verif.Proofs.RoundedCliffordsR
import Verif.Proofs.FockStates
import Verif.Proofs.Generate
import Verif.Props.CliffordsRFind

/-!
C109: `find_probabilities_of_n_random_states` in floating-point arithmetic. Helper lemmas are in
`Proofs/RoundedCliffordsR.lean`.
-/
namespace Verif

/-- C109: the number of states in the code, `int` of a float, is the number of states or one less; it is
right for up to 30 particles and modes together. -/
theorem C109_count (R : Rounding) (beta : ℕ → ℕ → ℝ) (n m : ℕ) (hm : 1 ≤ m) :
    (min n (m - 1) < 20 → (n + m - 1).choose n ≤ 2 ^ 47 →
      rDimensionR R beta n m = (n + m - 1).choose n ∨ rDimensionR R beta n m = (n + m - 1).choose n - 1) ∧
    (n + m ≤ 31 → rDimensionR R beta n m = (n + m - 1).choose n) := by
  have hs : (n + m - 1).choose (m - 1) = (n + m - 1).choose n := by
    rw [← Nat.choose_symm (show n ≤ n + m - 1 by omega), show n + m - 1 - n = m - 1 by omega]
  constructor
  · intro h1 h2
    rw [← hs] at h2 ⊢
    have h3 := binomR_round R beta (n := n + m - 1) (k := m - 1) (by omega)
      (by rw [show n + m - 1 - (m - 1) = n by omega, min_comm]; exact h1) h2
    have h4 := pyRound_half (binomR R beta (n + m - 1) (m - 1))
    rw [h3] at h4
    exact pyInt_half (by exact_mod_cast Nat.choose_pos (show m - 1 ≤ n + m - 1 by omega)) h4
  · intro h
    unfold rDimensionR
    rw [binomR_30 R beta (by omega) (by omega), hs]
    unfold pyInt
    rw [if_pos (Nat.cast_nonneg _), Int.floor_natCast]

/-- C109 fails: for 15 particles in 20 modes the code works with one state less than there are, whatever
the rule for ties. -/
theorem C109_count_fails (R : Rounding) (beta : ℕ → ℕ → ℝ) :
    (15 + 20 - 1).choose 15 = 1855967520 ∧ rDimensionR R beta 15 20 = 1855967519 := by
  refine ⟨by decide +kernel, ?_⟩
  unfold rDimensionR
  have h := binomR_34 R beta
  rw [show (15 + 20 - 1 : ℕ) = 34 from rfl, show (20 - 1 : ℕ) = 19 from rfl, h]
  unfold pyInt
  rw [if_pos (by positivity), Int.floor_eq_iff]
  norm_num [zpow_neg]

/-- C109, as far as it holds: when the method returns, its entries belong to distinct states of `n`
particles in `m` modes, each with the float R reported (its probability up to the factor `c`); if at most
30 particles and modes are involved there are at least `k` of them (or as many as there are states), for
moderate sizes at least one less. Missing: the last state, see `C109_fails`; and as in C62 there may be
more than `k`. -/
theorem C109_result_partial (R : Rounding) (beta : ℕ → ℕ → ℝ) (c : ℝ) (sampler : RSamplerPmf) (U : List (List ℂ))
    (S : List ℕ) (m : ℕ) (hS : S.length = m) (hU : U.length = m) (hm : 1 ≤ m)
    (hR : ∀ A, firstColumns U S.sum = .ok A → RPmfNearFor c sampler (toRMatrix A S.sum))
    (k : ℤ) (fuel : ℕ) (d : List (List ℕ × ℝ)) (h : (rFindRandomR R beta sampler fuel U S k).Runs (.ok d)) :
    (d.map Prod.fst).Nodup ∧
    (S.sum + m ≤ 31 → min k ((S.sum + m - 1).choose S.sum : ℕ) ≤ d.length) ∧
    (min S.sum (m - 1) < 20 → (S.sum + m - 1).choose S.sum ≤ 2 ^ 47 →
      min k ((S.sum + m - 1).choose S.sum - 1 : ℕ) ≤ d.length) ∧
    ∀ T p, (T, p) ∈ d → T.length = m ∧ T.sum = S.sum ∧ IsFloat p ∧ 0 ≤ p ∧
      Within c p (bosonProb U (List.replicate S.sum 1 ++ List.replicate (m - S.sum) 0) T) := by
  obtain ⟨A, hA, h1, h2, h3, -⟩ := rFindRandomR_result h
  rw [hS] at h3
  obtain ⟨h4, h5⟩ := C109_count R beta S.sum m hm
  have hpos : 1 ≤ (S.sum + m - 1).choose S.sum := Nat.choose_pos (by omega)
  refine ⟨h1, ?_, ?_, ?_⟩
  · intro hs
    rw [h5 hs] at h3
    exact h3
  · intro hs1 hs2
    refine le_trans ?_ h3
    refine min_le_min le_rfl ?_
    rcases h4 hs1 hs2 with e | e <;> rw [e] <;> omega
  · intro T p hTp
    have hrow : (toRMatrix A S.sum).nrow = m := firstColumns_length hA hU
    have h6 := h2 _ hTp
    rw [hS, ← hrow] at h6
    obtain ⟨h7, h8, h9, h10, h11, h12⟩ := rDraw_near (hrow ▸ hm) (hR A hA) h6
    have hA' : A = U.map fun row => row.take S.sum := by
      unfold firstColumns at hA
      cases h8 : pyGetN U 0 with
      | error e => rw [h8] at hA; cases hA
      | ok row =>
        rw [h8, ok_bind] at hA
        split_ifs at hA
        injection hA with hA
        exact hA.symm
    rw [hA', rProb_eq U S m hU T (h7.trans hrow) h8] at h11 h12
    exact ⟨h7.trans hrow, h8, h9, h10, h11, h12⟩

/-- C109: the returned states carry almost all of the probability, up to the tolerance of `isclose`, the
accuracy of R and one rounding error for each state. -/
theorem C109_coverage (R : Rounding) (beta : ℕ → ℕ → ℝ) (c : ℝ) (hc : 1 ≤ c) (sampler : RSamplerPmf)
    (U : List (List ℂ)) (S : List ℕ) (m : ℕ) (hS : S.length = m) (hU : U.length = m) (hm : 1 ≤ m)
    (hR : ∀ A, firstColumns U S.sum = .ok A → RPmfNearFor c sampler (toRMatrix A S.sum))
    (k : ℤ) (fuel : ℕ) (d : List (List ℕ × ℝ)) (h : (rFindRandomR R beta sampler fuel U S k).Runs (.ok d))
    (hd : d.length ≤ 2 ^ 52) :
    1 - (1 + 1 / 2 ^ 50) * (1e-8 + 1e-5) ≤ c * (1 + d.length / 2 ^ 52) * ∑ T ∈ (d.map Prod.fst).toFinset,
      bosonProb U (List.replicate S.sum 1 ++ List.replicate (m - S.sum) 0) T := by
  obtain ⟨h1, -, -, h2⟩ := C109_result_partial R beta c sampler U S m hS hU hm hR k fuel d h
  obtain ⟨A, -, -, -, -, h3⟩ := rFindRandomR_result h
  set F := List.replicate S.sum 1 ++ List.replicate (m - S.sum) 0
  have hw : Weights (d.map Prod.snd) := by
    intro x hx
    obtain ⟨⟨T, p⟩, he, rfl⟩ := List.mem_map.mp hx
    obtain ⟨-, -, h4, h5, -⟩ := h2 T p he
    exact ⟨h4, h5⟩
  have h4 := (abs_le.mp (isCloseToOneR_le (sumR_float R _) h3)).1
  have h5 := (sumR_within R hw).1
  rw [List.length_map] at h5
  have h6 := rho_pow_le (k := d.length) hd
  have hs0 : 0 ≤ (d.map Prod.snd).sum := List.sum_nonneg fun x hx => (hw x hx).2
  have h7 : (d.map Prod.snd).sum ≤ c * ∑ T ∈ (d.map Prod.fst).toFinset, bosonProb U F T := by
    rw [List.sum_toFinset _ h1, List.map_map, ← List.sum_map_mul_left]
    refine List.sum_le_sum fun e he => ?_
    exact (h2 e.1 e.2 he).2.2.2.2.1
  have h8 : rho ^ d.length ≤ 1 + d.length / 2 ^ 52 := by
    have : (2 : ℝ) * d.length / 2 ^ 53 = d.length / 2 ^ 52 := by ring
    linarith
  have h9 : (0 : ℝ) ≤ 1 + d.length / 2 ^ 52 := by positivity
  calc 1 - (1 + 1 / 2 ^ 50) * (1e-8 + 1e-5) ≤ sumR R (d.map Prod.snd) := by linarith
    _ ≤ rho ^ d.length * (d.map Prod.snd).sum := h5
    _ ≤ (1 + d.length / 2 ^ 52) * (d.map Prod.snd).sum := mul_le_mul_of_nonneg_right h8 hs0
    _ ≤ (1 + d.length / 2 ^ 52) * (c * ∑ T ∈ (d.map Prod.fst).toFinset, bosonProb U F T) :=
      mul_le_mul_of_nonneg_left h7 h9
    _ = _ := by ring

/-- C109: more states than asked for are returned only if the states before the last one did not yet have
probabilities that sum to one up to the tolerance of `isclose`, with floats R reported for them. -/
theorem C109_no_more (R : Rounding) (beta : ℕ → ℕ → ℝ) (c : ℝ) (sampler : RSamplerPmf) (U : List (List ℂ))
    (S : List ℕ) (m : ℕ) (hS : S.length = m) (hU : U.length = m) (hm : 1 ≤ m)
    (hR : ∀ A, firstColumns U S.sum = .ok A → RPmfNearFor c sampler (toRMatrix A S.sum))
    (k : ℤ) (fuel : ℕ) (d : List (List ℕ × ℝ)) (h : (rFindRandomR R beta sampler fuel U S k).Runs (.ok d))
    (hd : d ≠ []) (hk : k < d.length) :
    ∃ d' : List (List ℕ × ℝ), d'.map Prod.fst = (d.map Prod.fst).dropLast ∧
      (∀ T p, (T, p) ∈ d' → IsFloat p ∧ 0 ≤ p ∧
        Within c p (bosonProb U (List.replicate S.sum 1 ++ List.replicate (m - S.sum) 0) T)) ∧
      R.rnd (R.rnd 1e-8 + R.rnd 1e-5) < |R.rnd (sumR R (d'.map Prod.snd) - 1)| := by
  obtain ⟨A, hA, hl⟩ := rFindRandomR_last h
  rcases hl with hl | ⟨d', g1, g2, g3⟩
  · exact absurd hl hd
  refine ⟨d', g1, ?_, ?_⟩
  · intro T p hTp
    have hrow : (toRMatrix A S.sum).nrow = m := firstColumns_length hA hU
    have h6 := g2 _ hTp
    rw [hS, ← hrow] at h6
    obtain ⟨h7, h8, h9, h10, h11, h12⟩ := rDraw_near (hrow ▸ hm) (hR A hA) h6
    have hA' : A = U.map fun row => row.take S.sum := by
      unfold firstColumns at hA
      cases h8 : pyGetN U 0 with
      | error e => rw [h8] at hA; cases hA
      | ok row =>
        rw [h8, ok_bind] at hA
        split_ifs at hA
        injection hA with hA
        exact hA.symm
    rw [hA', rProb_eq U S m hU T (h7.trans hrow) h8] at h11 h12
    exact ⟨h9, h10, h11, h12⟩
  · have hlen : d'.length + 1 = d.length := by
      have := congrArg List.length g1
      rw [List.length_map, List.length_dropLast, List.length_map] at this
      have := List.length_pos_of_ne_nil hd
      omega
    simp only [randCondR, Bool.or_eq_true, decide_eq_true_eq] at g3
    rcases g3 with g3 | g3
    · have := lt_of_lt_of_le g3 (min_le_left _ _)
      omega
    · exact not_le.mp g3

/-- The situation of `C109_result_partial` and `C109_coverage`: one particle on a balanced beam splitter. -/
theorem coin_near : ∀ A, firstColumns beamSplitter [1, 0].sum = .ok A →
    RPmfNearFor 1 coinSampler (toRMatrix A [1, 0].sum) := by
  intro A hA
  have hex := coin_works A hA
  constructor
  intro r hr
  obtain ⟨result, T, h1, h2, h3⟩ := hex.output r hr
  have hp : rProb (toRMatrix A [1, 0].sum) T = 1 / 2 := by
    rcases hr with ⟨h, -⟩ | ⟨i, -, h⟩
    · omega
    · have h : r = .ok ([(i : ℤ) + 1], 1 / 2) := h
      rw [h] at h1
      injection h1 with h1
      injection h1 with _ h1
      exact h1.symm
  refine ⟨result, _, T, h1, h2, h3, ?_, ?_, ?_, ?_⟩
  · rw [hp]; exact ⟨1, -1, by norm_num, by norm_num, by norm_num⟩
  · rw [hp]; norm_num
  · rw [one_mul]
  · rw [one_mul]

example (R : Rounding) (beta : ℕ → ℕ → ℝ) : ∃ fuel d,
    (rFindRandomR R beta coinSampler fuel beamSplitter [1, 0] 2).Runs (.ok d) := by
  have hdim : rDimensionR R beta [1, 0].sum [1, 0].length = 2 := (C109_count R beta 1 2 (by norm_num)).2 (by norm_num)
  have hhalf : IsFloat (1 / 2) := ⟨1, -1, by norm_num, by norm_num, by norm_num⟩
  have hc : IsCloseToOneR R (sumR R [1 / 2, 1 / 2]) := by
    unfold sumR
    simp only [List.foldl_cons, List.foldl_nil]
    rw [zero_add, R.eq_self hhalf, show (1 / 2 + 1 / 2 : ℝ) = 1 by norm_num, R.eq_self isFloat_one]
    exact isCloseToOneR_of_le isFloat_one (by norm_num)
  refine ⟨3, [([1, 0], 1 / 2), ([0, 1], 1 / 2)], ?_⟩
  rw [rFindRandomR_eq _ _ _ _ _ _ _ _ rfl, hdim, min_self, Prog.runs_bind]
  refine .inl ⟨_, randLoopR_runs [([1, 0], 1 / 2), ([0, 1], 1 / 2)] [] (by decide) ?_ rfl hc, rfl⟩
  intro e he
  rw [rDraw_bind, Prog.runs_bind]
  simp only [List.mem_cons, List.not_mem_nil, or_false] at he
  rcases he with rfl | rfl
  · exact .inl ⟨([1], 1 / 2), .inr ⟨0, by norm_num, rfl⟩, rfl⟩
  · exact .inl ⟨([2], 1 / 2), .inr ⟨1, by norm_num, rfl⟩, rfl⟩

/-- The situation of `C109_no_more`: asked for one state, the method can return two. -/
example (R : Rounding) (beta : ℕ → ℕ → ℝ) : ∃ fuel d,
    (rFindRandomR R beta coinSampler fuel beamSplitter [1, 0] 1).Runs (.ok d) ∧ d ≠ [] ∧ (1 : ℤ) < d.length := by
  have hdim : rDimensionR R beta [1, 0].sum [1, 0].length = 2 := (C109_count R beta 1 2 (by norm_num)).2 (by norm_num)
  have hhalf : IsFloat (1 / 2) := ⟨1, -1, by norm_num, by norm_num, by norm_num⟩
  have hs1 : sumR R [1 / 2] = 1 / 2 := by
    unfold sumR
    simp only [List.foldl_cons, List.foldl_nil]
    rw [zero_add, R.eq_self hhalf]
  have hc : IsCloseToOneR R (sumR R [1 / 2, 1 / 2]) := by
    unfold sumR
    simp only [List.foldl_cons, List.foldl_nil]
    rw [zero_add, R.eq_self hhalf, show (1 / 2 + 1 / 2 : ℝ) = 1 by norm_num, R.eq_self isFloat_one]
    exact isCloseToOneR_of_le isFloat_one (by norm_num)
  have hn : ¬ IsCloseToOneR R (1 / 2) := by
    intro h
    have := isCloseToOneR_le hhalf h
    norm_num [abs_le] at this
  have hdraw : ∀ e ∈ [(([1, 0] : List ℕ), (1 / 2 : ℝ)), ([0, 1], 1 / 2)], ∀ A, firstColumns beamSplitter [1, 0].sum = .ok A →
      (rDraw coinSampler (toRMatrix A [1, 0].sum) [1, 0].length).Runs (.ok e) := by
    intro e he A hA
    cases hA
    rw [rDraw_bind, Prog.runs_bind]
    simp only [List.mem_cons, List.not_mem_nil, or_false] at he
    rcases he with rfl | rfl
    · exact .inl ⟨([1], 1 / 2), .inr ⟨0, by norm_num, rfl⟩, rfl⟩
    · exact .inl ⟨([2], 1 / 2), .inr ⟨1, by norm_num, rfl⟩, rfl⟩
  refine ⟨3, [([1, 0], 1 / 2), ([0, 1], 1 / 2)], ?_, by simp, by norm_num⟩
  rw [rFindRandomR_eq _ _ _ _ _ _ _ _ rfl, hdim, show min (1 : ℤ) 2 = 1 from rfl, Prog.runs_bind]
  refine .inl ⟨([([1, 0], 1 / 2), ([0, 1], 1 / 2)], sumR R [1 / 2, 1 / 2]), ?_, rfl⟩
  rw [Prog.loop_succ, if_pos (by simp [randCondR]), Prog.runs_bind]
  refine .inl ⟨([([1, 0], 1 / 2)], sumR R [1 / 2]), ?_, ?_⟩
  · rw [Prog.runs_bind]
    exact .inl ⟨([1, 0], 1 / 2), hdraw _ (by simp) _ rfl, rfl⟩
  rw [Prog.loop_succ, if_pos (by simp only [randCondR, hs1, Bool.or_eq_true, decide_eq_true_eq]; exact .inr hn), Prog.runs_bind]
  refine .inl ⟨([([1, 0], 1 / 2), ([0, 1], 1 / 2)], sumR R [1 / 2, 1 / 2]), ?_, ?_⟩
  · rw [Prog.runs_bind]
    exact .inl ⟨([0, 1], 1 / 2), hdraw _ (by simp) _ rfl, rfl⟩
  rw [Prog.loop_succ, if_neg (by
    simp only [randCondR, Bool.or_eq_true, decide_eq_true_eq, not_or, not_not]
    exact ⟨by norm_num, hc⟩)]
  rfl

/-- C109 fails: let R be able to draw every state of 15 particles in 20 modes and report probabilities
whose sum is one up to `1e-6`. Asked for all 1855967520 states, the method can return all but one of
them. -/
theorem C109_fails (R : Rounding) (beta : ℕ → ℕ → ℝ) (sampler : RSamplerPmf) (U A : List (List ℂ)) (S : List ℕ)
    (hS : S.length = 20) (hn : S.sum = 15) (hA : firstColumns U 15 = .ok A) (q : List ℕ → ℝ)
    (hq : ∀ T : List ℕ, T.length = 20 → T.sum = 15 → IsFloat (q T) ∧ 0 ≤ q T ∧
      ∃ result, (sampler (toRMatrix A 15)).Runs (.ok (result, q T)) ∧ IsROutput 20 15 1 result ∧
        ROccupation 20 15 0 result T)
    (𝒯 : Finset (List ℕ)) (h𝒯 : ∀ T, T ∈ 𝒯 ↔ T.length = 20 ∧ T.sum = 15) (hsum : |∑ T ∈ 𝒯, q T - 1| ≤ 1e-6) :
    𝒯.card = 1855967520 ∧
    ∃ fuel d, (rFindRandomR R beta sampler fuel U S 1855967520).Runs (.ok d) ∧ d.length = 1855967519 := by
  have hset : 𝒯 = (stDesc 19 15).toFinset := by
    ext T
    rw [h𝒯, List.mem_toFinset, mem_stDesc]
  have hcard : 𝒯.card = 1855967520 := by
    rw [hset, List.toFinset_card_of_nodup (show (stDesc 19 15).Nodup from allStates_nodup 19 15 false), stDesc_length]
    decide +kernel
  refine ⟨hcard, ?_⟩
  obtain ⟨hs1, hs2⟩ := abs_le.mp hsum
  -- a least likely state
  obtain ⟨T₀, hT₀, hmin⟩ : ∃ T ∈ 𝒯, q T ≤ 1e-8 := by
    by_contra hno
    push Not at hno
    have h1 : ∑ T ∈ 𝒯, (1e-8 : ℝ) ≤ ∑ T ∈ 𝒯, q T := Finset.sum_le_sum fun T hT => (hno T hT).le
    rw [Finset.sum_const, hcard, nsmul_eq_mul] at h1
    norm_num at h1 hs2
    linarith
  have h0 : 0 ≤ q T₀ := (hq T₀ ((h𝒯 _).mp hT₀).1 ((h𝒯 _).mp hT₀).2).2.1
  have hrest := Finset.add_sum_erase 𝒯 q hT₀
  let l := (𝒯.erase T₀).toList
  let d : List (List ℕ × ℝ) := l.map fun T => (T, q T)
  have hkeys : d.map Prod.fst = l := by simp [d, List.map_map, Function.comp_def]
  have hvals : d.map Prod.snd = l.map q := by simp [d, List.map_map, Function.comp_def]
  have hlen : d.length = 1855967519 := by
    simp only [d, l, List.length_map, Finset.length_toList]
    rw [Finset.card_erase_of_mem hT₀, hcard]
  have hmem : ∀ T ∈ l, T.length = 20 ∧ T.sum = 15 := fun T hT =>
    (h𝒯 T).mp (Finset.mem_of_mem_erase (Finset.mem_toList.mp hT))
  have hw : Weights (d.map Prod.snd) := by
    rw [hvals]
    intro x hx
    obtain ⟨T, hT, rfl⟩ := List.mem_map.mp hx
    obtain ⟨h1, h2⟩ := hmem T hT
    exact ⟨(hq T h1 h2).1, (hq T h1 h2).2.1⟩
  have hs : (d.map Prod.snd).sum = ∑ T ∈ 𝒯.erase T₀, q T := by
    rw [hvals, Finset.sum_map_toList]
  have hclose : IsCloseToOneR R (sumR R (d.map Prod.snd)) := by
    refine isCloseToOneR_of_le (sumR_float R _) ?_
    obtain ⟨h1, h2⟩ := sumR_within R hw
    have h3 := rho_pow_le (k := 1855967519) (by norm_num)
    rw [List.length_map, hlen] at h1 h2
    set ρ := rho ^ 1855967519
    have h4 : ρ ≤ 1 + 1e-6 := by
      refine le_trans (sub_le_iff_le_add'.mp h3) ?_
      norm_num
    have h5 : 0 ≤ sumR R (d.map Prod.snd) := sumR_nonneg R hw
    rw [hs] at h1 h2
    set s := ∑ T ∈ 𝒯.erase T₀, q T
    have h6 : s ≤ 1 + 1e-6 := by linarith
    have h7 : 1 - 1e-6 - 1e-8 ≤ s := by linarith
    have h8 : (0 : ℝ) ≤ s := by norm_num at h7; linarith
    have h9 : sumR R (d.map Prod.snd) ≤ (1 + 1e-6) * (1 + 1e-6) :=
      h1.trans (mul_le_mul h4 h6 h8 (by norm_num))
    have h10 : s ≤ (1 + 1e-6) * sumR R (d.map Prod.snd) := h2.trans (mul_le_mul_of_nonneg_right h4 h5)
    norm_num at h7 h9 h10 ⊢
    rw [abs_le]
    constructor <;> linarith
  have hdim : rDimensionR R beta S.sum S.length = 1855967519 := by
    rw [hn, hS]; exact (C109_count_fails R beta).2
  refine ⟨d.length + 1, d, ?_, hlen⟩
  rw [rFindRandomR_eq _ _ _ _ _ _ _ A (by rw [hn]; exact hA), hdim,
    show min (1855967520 : ℤ) 1855967519 = 1855967519 by norm_num, Prog.runs_bind]
  obtain ⟨K, hK⟩ : ∃ K : ℤ, K = 1855967519 := ⟨_, rfl⟩
  rw [← hK]
  refine .inl ⟨(d, sumR R (d.map Prod.snd)), ?_, rfl⟩
  have key := randLoopR_runs (R := R) (draw := rDraw sampler (toRMatrix A S.sum) S.length) (k := K) d []
  rw [List.nil_append] at key
  refine key ?_ ?_ ?_ hclose
  · rw [hkeys]; exact Finset.nodup_toList _
  · intro e he
    obtain ⟨T, hT, rfl⟩ := List.mem_map.mp he
    obtain ⟨h1, h2⟩ := hmem T hT
    obtain ⟨-, -, result, h3, h4, h5⟩ := hq T h1 h2
    obtain ⟨T', h6, h7, -⟩ := rDraw_decode 20 15 (by norm_num) result h4
    have e := rOccupation_unique h5 h7
    subst e
    rw [rDraw_bind, Prog.runs_bind]
    refine .inl ⟨(result, q T), by rw [hn]; exact h3, ?_⟩
    rw [hS]
    simp only [h6, Prog.done_ok_bind]
    rfl
  · rw [hlen, hK]
    norm_num

/-- All 15-particle states of 20 modes, equally likely. -/
noncomputable def uniformSampler (R : Rounding) : RSamplerPmf := fun _ => .randint (stDesc 19 15).length fun i =>
  .done (.ok ((particles ((stDesc 19 15).getD i [])).map fun (x : ℕ) => (x : ℤ) + 1, R.rnd (1 / 1855967520)))

/-- The situation of `C109_fails`. -/
theorem uniform_works (R : Rounding) (beta : ℕ → ℕ → ℝ) (U A : List (List ℂ)) (hA : firstColumns U 15 = .ok A) (S : List ℕ)
    (hS : S.length = 20) (hn : S.sum = 15) :
    ∃ fuel d, (rFindRandomR R beta (uniformSampler R) fuel U S 1855967520).Runs (.ok d) ∧ d.length = 1855967519 := by
  have hmem : ∀ T, T ∈ (stDesc 19 15).toFinset ↔ T.length = 20 ∧ T.sum = 15 := by
    intro T
    rw [List.mem_toFinset, mem_stDesc]
  have hcard : (stDesc 19 15).toFinset.card = 1855967520 := by
    rw [List.toFinset_card_of_nodup (show (stDesc 19 15).Nodup from allStates_nodup 19 15 false), stDesc_length]
    decide +kernel
  refine (C109_fails R beta (uniformSampler R) U A S hS hn hA (fun _ => R.rnd (1 / 1855967520)) ?_ _ hmem ?_).2
  · intro T h1 h2
    refine ⟨R.isFloat _, R.nonneg (by norm_num), (particles T).map fun (x : ℕ) => (x : ℤ) + 1, ?_, ⟨?_, ?_⟩, h1, ?_⟩
    · have hT : T ∈ stDesc 19 15 := (mem_stDesc 19 15 T).mpr ⟨h1, h2⟩
      obtain ⟨i, hi, hiT⟩ := List.getElem_of_mem hT
      refine .inr ⟨i, hi, ?_⟩
      simp only [List.getD_eq_getElem _ _ hi, hiT]
      rfl
    · rw [List.length_map, particles, particlesFrom_length, h2]
    · intro x hx
      obtain ⟨y, hy, rfl⟩ := List.mem_map.mp hx
      have := particlesFrom_range hy
      omega
    · intro q hq
      have hl : ((particles T).map fun (x : ℕ) => (x : ℤ) + 1).length = 15 := by
        rw [List.length_map, particles, particlesFrom_length, h2]
      have hinj : Function.Injective fun (x : ℕ) => (x : ℤ) + 1 := fun a b hab => by simpa using hab
      rw [zero_mul, List.drop_zero, List.take_of_length_le hl.le, ← count_particles]
      exact (List.count_map_of_injective (particles T) _ hinj q).symm
  · rw [Finset.sum_const, hcard, nsmul_eq_mul]
    have hs : Within rho (R.rnd (1 / 1855967520)) (1 / 1855967520) :=
      R.within (Or.inr ((zpow_le_zpow_right₀ (by norm_num) (by norm_num : (-1022 : ℤ) ≤ -200)).trans
        (by norm_num [zpow_neg])))
    obtain ⟨h1, h2⟩ := hs
    unfold rho at h1 h2
    rw [abs_le]
    norm_num at h1 h2 ⊢
    constructor <;> linarith

example (R : Rounding) (beta : ℕ → ℕ → ℝ) : ∃ fuel d, (rFindRandomR R beta (uniformSampler R) fuel
    (List.replicate 20 (List.replicate 20 0)) (List.replicate 15 1 ++ List.replicate 5 0) 1855967520).Runs (.ok d) ∧
    d.length = 1855967519 :=
  uniform_works R beta _ _ rfl _ rfl rfl

end Verif
