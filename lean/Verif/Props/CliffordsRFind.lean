import Verif.Proofs.CliffordsRFind
import Verif.Proofs.FockStates
import Verif.Proofs.Generate

/-!
C61, C62: probabilities found by sampling with R. Helper lemmas are in `Proofs/CliffordsRFind.lean`.
-/
namespace Verif

open scoped ENNReal

/-- C61, whatever R does: when `find_probabilities` returns, the outcomes are distinct, every outcome
has exactly one entry, there are no others, and every entry was reported by R in some draw. -/
theorem C61_result (sampler : RSamplerPmf) (fuel : ℕ) (U : List (List ℂ)) (S : List ℕ) (outcomes : List (List ℕ))
    (d : List (List ℕ × ℝ)) (h : (rFindProbabilities sampler fuel U S outcomes).Runs (.ok d)) :
    outcomes.Nodup ∧ (d.map Prod.fst).Perm outcomes ∧
    ∃ A, firstColumns U S.sum = .ok A ∧ ∀ T p, (T, p) ∈ d → ∃ result : List ℤ,
      (sampler (toRMatrix A S.sum)).Runs (.ok (result, p)) ∧
      modeAssignmentToModeOccupation (result.map fun x => x - 1) S.length = .ok T := by
  cases hA : firstColumns U S.sum with
  | error e =>
    unfold rFindProbabilities at h
    rw [hA] at h
    cases h
  | ok A =>
    rw [rFindProbabilities_eq _ _ _ _ _ _ hA] at h
    obtain ⟨h1, h2⟩ := Prog.loop_inv (DictInv (rDraw sampler (toRMatrix A S.sum) S.length) outcomes)
      (fun d hd _ d' hr => (findBody_inv hd hr).1) fuel [] d (dictInv_nil _ _) h
    have h2 : d.length = outcomes.length := by simpa using h2
    have h3 := dictInv_length h1
    have h4 : outcomes.Nodup := by
      have h5 := (List.dedup_sublist outcomes).eq_of_length_le (h2 ▸ h3)
      rw [← h5]
      exact List.nodup_dedup _
    refine ⟨h4, ?_, A, rfl, ?_⟩
    · have h5 : (d.map Prod.fst).Subperm outcomes := h1.nodup.subperm fun T hT => by
        obtain ⟨e, he, rfl⟩ := List.mem_map.mp hT
        exact h1.keys e he
      exact h5.perm_of_length_le (by simp [h2])
    · intro T p hTp
      have h5 := h1.drawn _ hTp
      rw [rDraw_bind, Prog.runs_bind] at h5
      rcases h5 with ⟨⟨result, q⟩, h6, h7⟩ | ⟨e, -, h7⟩
      · cases h8 : modeAssignmentToModeOccupation (result.map fun y => y - 1) S.length with
        | error e =>
          simp only [h8] at h7
          cases h7
        | ok T' =>
          simp only [h8, Prog.done_ok_bind] at h7
          have h7 : (Except.ok (T, p) : Py _) = .ok (T', q) := h7
          injection h7 with h7
          injection h7 with h9 h10
          subst h9 h10
          exact ⟨result, h6, h8⟩
      · cases h7

/-- C61 fails for repeated outcomes: whatever R does, the method never returns. -/
theorem C61_duplicates (sampler : RSamplerPmf) (U : List (List ℂ)) (S : List ℕ) (outcomes : List (List ℕ))
    (hd : ¬ outcomes.Nodup) (fuel : ℕ) (d : List (List ℕ × ℝ)) :
    ¬ (rFindProbabilities sampler fuel U S outcomes).Runs (.ok d) :=
  fun h => hd (C61_result sampler fuel U S outcomes d h).1

/-- C61 fails for outcomes of another particle number or mode number: the method never returns. -/
theorem C61_impossible (sampler : RSamplerPmf) (U : List (List ℂ)) (S : List ℕ) (m : ℕ) (hS : S.length = m)
    (hU : U.length = m) (hm : 1 ≤ m)
    (hR : ∀ A, firstColumns U S.sum = .ok A → RPmfExactFor sampler (toRMatrix A S.sum))
    (outcomes : List (List ℕ)) (T : List ℕ) (hT : T ∈ outcomes) (hbad : T.length ≠ m ∨ T.sum ≠ S.sum)
    (fuel : ℕ) (d : List (List ℕ × ℝ)) : ¬ (rFindProbabilities sampler fuel U S outcomes).Runs (.ok d) := by
  intro h
  obtain ⟨-, h1, A, hA, h2⟩ := C61_result sampler fuel U S outcomes d h
  obtain ⟨⟨T', p⟩, h3, h4⟩ := List.mem_map.mp (h1.symm.subset hT)
  have h4 : T' = T := h4
  subst h4
  obtain ⟨result, h5, h6⟩ := h2 _ _ h3
  have hrow : (toRMatrix A S.sum).nrow = m := firstColumns_length hA hU
  obtain ⟨-, -, h8, h9⟩ := rDraw_runs' (hrow ▸ hm) (hR A hA) h5 (by rw [hrow, ← hS]; exact h6)
  rw [hrow] at h8
  rcases hbad with hb | hb
  · exact hb h8
  · exact hb h9

/-- C61 fails for outcomes of probability zero (for the input with one particle in each of the first `n`
modes): with an exact R sampler the method returns with probability zero, however long it runs. -/
theorem C61_zero (sampler : RSamplerPmf) (U : List (List ℂ)) (S : List ℕ) (m : ℕ) (hS : S.length = m)
    (hU : U.length = m) (hm : 1 ≤ m) (hrows : ∀ row ∈ U, row.length = m) (hn : S.sum ≤ m)
    (hR : ∀ A, firstColumns U S.sum = .ok A → RPmfExactFor sampler (toRMatrix A S.sum))
    (outcomes : List (List ℕ)) (T : List ℕ) (hT : T ∈ outcomes) (hlen : T.length = m) (hsum : T.sum = S.sum)
    (hz : bosonProb U (List.replicate S.sum 1 ++ List.replicate (m - S.sum) 0) T = 0) (fuel : ℕ) :
    (rFindProbabilities sampler fuel U S outcomes).prob (fun r => ∃ d, r = .ok d) = 0 := by
  have hA := firstColumns_ok U m S.sum hU hm hrows hn
  have hrow : (toRMatrix (U.map fun row => row.take S.sum) S.sum).nrow = m := by simpa [toRMatrix] using hU
  have h0 := rDraw_prob (hrow ▸ hm) (hR _ hA) T (hlen.trans hrow.symm) hsum
  rw [rProb_eq U S m hU T hlen hsum, hz, ENNReal.ofReal_zero, hrow, ← hS] at h0
  have h1 := findLoop_zero _ outcomes T h0 (fun d => decide (d.length ≠ outcomes.length)) fuel [] (by simp)
  rw [← rFindProbabilities_eq _ _ _ _ _ _ hA] at h1
  rw [← nonpos_iff_eq_zero, ← h1]
  unfold Prog.prob
  refine Prog.wp_mono _ _ _ fun r hr => ?_
  split_ifs with h2 h3 h3
  · exact le_rfl
  · obtain ⟨d, rfl⟩ := h2
    exact absurd ⟨d, rfl, (C61_result sampler fuel U S outcomes d hr).2.1.symm.subset hT⟩ h3
  · exact zero_le
  · exact le_rfl

/-- C61, as far as it holds: with an exact R sampler and distinct outcomes of positive probability (for
the input with one particle in each of the first `n` modes) the method returns with probability 1, and
the entry of every outcome is its probability. Missing: repeated and impossible outcomes let the method
run forever, see `C61_duplicates`, `C61_impossible` and `C61_zero`, and for other inputs these are not the
probabilities of the given experiment, see `C55_columns_iff`. -/
theorem C61_exact_partial (sampler : RSamplerPmf) (U : List (List ℂ)) (S : List ℕ) (m : ℕ) (hS : S.length = m)
    (hU : U.length = m) (hm : 1 ≤ m) (hrows : ∀ row ∈ U, row.length = m) (hn : S.sum ≤ m)
    (hR : ∀ A, firstColumns U S.sum = .ok A → RPmfExactFor sampler (toRMatrix A S.sum))
    (outcomes : List (List ℕ)) (hd : outcomes.Nodup)
    (ho : ∀ T ∈ outcomes, T.length = m ∧ T.sum = S.sum ∧
      0 < bosonProb U (List.replicate S.sum 1 ++ List.replicate (m - S.sum) 0) T) :
    Filter.Tendsto (fun fuel => (rFindProbabilities sampler fuel U S outcomes).prob fun r => ∀ d, r ≠ .ok d)
      Filter.atTop (nhds 0) ∧
    ∀ fuel d, (rFindProbabilities sampler fuel U S outcomes).Runs (.ok d) → ∀ T ∈ outcomes,
      assocGet d T = some (bosonProb U (List.replicate S.sum 1 ++ List.replicate (m - S.sum) 0) T) := by
  have hA := firstColumns_ok U m S.sum hU hm hrows hn
  have hex := hR _ hA
  have hrow : (toRMatrix (U.map fun row => row.take S.sum) S.sum).nrow = m := by simpa [toRMatrix] using hU
  constructor
  · simp only [rFindProbabilities_eq _ _ _ _ _ _ hA]
    refine findLoop_tendsto _ outcomes hd ?_ ?_
    · intro r hr
      rw [hS, ← hrow] at hr
      obtain ⟨T, h1, -⟩ := rDraw_runs (hrow ▸ hm) hex r hr
      exact ⟨_, h1⟩
    · intro T hT
      obtain ⟨h1, h2, h3⟩ := ho T hT
      have := rDraw_prob (hrow ▸ hm) hex T (h1.trans hrow.symm) h2
      rw [hS, ← hrow, this, rProb_eq U S m hU T h1 h2]
      exact ENNReal.ofReal_pos.mpr h3
  · intro fuel d h T hT
    obtain ⟨h0, h1, A, hA', h2⟩ := C61_result sampler fuel U S outcomes d h
    rw [hA] at hA'
    injection hA' with hA'
    subst hA'
    obtain ⟨⟨T', p⟩, h3, h4⟩ := List.mem_map.mp (h1.symm.subset hT)
    have h4 : T' = T := h4
    subst h4
    obtain ⟨result, h5, h6⟩ := h2 _ _ h3
    obtain ⟨h7, -, h9, h10⟩ := rDraw_runs' (hrow ▸ hm) hex h5 (by rw [hrow, ← hS]; exact h6)
    have hnd : (d.map Prod.fst).Nodup := h1.nodup_iff.mpr h0
    rw [assocGet_of_mem hnd h3, h7, rProb_eq U S m hU _ (h9.trans hrow) h10]

/-- C62, as far as it holds: with an exact R sampler and a unitary matrix, when
`find_probabilities_of_n_random_states` returns, its entries belong to distinct states of `n` particles
in `m` modes, each with its probability (for the input with one particle in each of the first `n`
modes), and there are at least `k` of them (or as many as there are states). Missing: there may be more
than `k`, see `C62_contains` and `C62_fails`; and for the inputs see `C55_columns_iff`. -/
theorem C62_result_partial (sampler : RSamplerPmf) (U : List (List ℂ)) (S : List ℕ) (m : ℕ) (hS : S.length = m)
    (hU : U.length = m) (hm : 1 ≤ m)
    (hR : ∀ A, firstColumns U S.sum = .ok A → RPmfExactFor sampler (toRMatrix A S.sum))
    (k : ℤ) (fuel : ℕ) (d : List (List ℕ × ℝ)) (h : (rFindRandom sampler fuel U S k).Runs (.ok d)) :
    (d.map Prod.fst).Nodup ∧ min k ((S.sum + m - 1).choose (m - 1) : ℕ) ≤ d.length ∧
    ∀ T p, (T, p) ∈ d → T.length = m ∧ T.sum = S.sum ∧
      p = bosonProb U (List.replicate S.sum 1 ++ List.replicate (m - S.sum) 0) T := by
  obtain ⟨A, hA, h1, h2, -⟩ := rFindRandom_result h
  have hrow : (toRMatrix A S.sum).nrow = m := firstColumns_length hA hU
  refine ⟨h1.nodup, by rw [← hS]; exact h2, ?_⟩
  intro T p hTp
  have h3 := h1.drawn _ hTp
  rw [hS, ← hrow] at h3
  obtain ⟨T', h4, h5, h6⟩ := rDraw_runs (hrow ▸ hm) (hR A hA) _ h3
  injection h4 with h4
  injection h4 with h4 h7
  subst h4
  refine ⟨h5.trans hrow, h6, ?_⟩
  rw [h7, ← rProb_eq U S m hU T (h5.trans hrow) h6]
  have hA' : A = U.map fun row => row.take S.sum := by
    unfold firstColumns at hA
    cases h8 : pyGetN U 0 with
    | error e => rw [h8] at hA; cases hA
    | ok row =>
      rw [h8, ok_bind] at hA
      split_ifs at hA
      injection hA with hA
      exact hA.symm
  rw [hA']

/-- C62: more states than asked for are returned only if all of them but one do not have probabilities
that sum to one up to the tolerance of `isclose`. `C62_fails` is such a case. -/
theorem C62_no_more (sampler : RSamplerPmf) (U : List (List ℂ)) (S : List ℕ) (m : ℕ) (hS : S.length = m)
    (hU : U.length = m) (hm : 1 ≤ m)
    (hR : ∀ A, firstColumns U S.sum = .ok A → RPmfExactFor sampler (toRMatrix A S.sum))
    (k : ℤ) (fuel : ℕ) (d : List (List ℕ × ℝ)) (h : (rFindRandom sampler fuel U S k).Runs (.ok d))
    (hd : d ≠ []) (hk : k < d.length) :
    ∃ states : List (List ℕ), states.Nodup ∧ states ⊆ d.map Prod.fst ∧ states.length + 1 = d.length ∧
      1e-8 + 1e-5 < |(states.map (bosonProb U (List.replicate S.sum 1 ++ List.replicate (m - S.sum) 0))).sum - 1| := by
  obtain ⟨A, hA, st, h1, h2, h3, h4⟩ := rFindRandom_last h hd
  refine ⟨st.1.map Prod.fst, h1.nodup, h2, by rw [List.length_map]; exact h3, ?_⟩
  have hrow : (toRMatrix A S.sum).nrow = m := firstColumns_length hA hU
  have hA' : A = U.map fun row => row.take S.sum := by
    unfold firstColumns at hA
    cases h8 : pyGetN U 0 with
    | error e => rw [h8] at hA; cases hA
    | ok row =>
      rw [h8, ok_bind] at hA
      split_ifs at hA
      injection hA with hA
      exact hA.symm
  have hsum : ((st.1.map Prod.fst).map (bosonProb U (List.replicate S.sum 1 ++ List.replicate (m - S.sum) 0))).sum = st.2 := by
    rw [h1.sum, List.map_map]
    congr 1
    refine List.map_congr_left fun e he => ?_
    have h5 := h1.drawn e he
    rw [hS, ← hrow] at h5
    obtain ⟨T', g4, g5, g6⟩ := rDraw_runs (hrow ▸ hm) (hR A hA) _ h5
    injection g4 with g4
    rw [g4]
    have g7 := rProb_eq U S m hU T' (g5.trans hrow) g6
    rw [← hA'] at g7
    exact g7.symm
  rw [hsum]
  simp only [randCond, Bool.or_eq_true, decide_eq_true_eq] at h4
  rcases h4 with h4 | h4
  · have := lt_of_lt_of_le h4 (min_le_left _ _)
    omega
  · exact not_le.mp h4

/-- C62: whatever number of states is asked for, the result contains every state whose probability
exceeds the tolerance of `isclose`. -/
theorem C62_contains (sampler : RSamplerPmf) (U : List (List ℂ)) (S : List ℕ) (m : ℕ) (hS : S.length = m)
    (hU : U.length = m) (hm : 1 ≤ m) (hn : S.sum ≤ m) (hortho : Orthonormal U m m)
    (hR : ∀ A, firstColumns U S.sum = .ok A → RPmfExactFor sampler (toRMatrix A S.sum))
    (k : ℤ) (fuel : ℕ) (d : List (List ℕ × ℝ)) (h : (rFindRandom sampler fuel U S k).Runs (.ok d))
    (T : List ℕ) (hT : T.length = m) (hTn : T.sum = S.sum)
    (hbig : 1e-8 + 1e-5 < bosonProb U (List.replicate S.sum 1 ++ List.replicate (m - S.sum) 0) T) :
    T ∈ d.map Prod.fst := by
  obtain ⟨A, hA, h1, -, h2⟩ := rFindRandom_result h
  obtain ⟨h3, -, h4⟩ := C62_result_partial sampler U S m hS hU hm hR k fuel d h
  by_contra hTd
  set F := List.replicate S.sum 1 ++ List.replicate (m - S.sum) 0 with hF
  have hFsum : F.sum = S.sum := by simp [hF]
  have hFlen : F.length = m := by simp [hF]; omega
  obtain ⟨m', rfl⟩ : ∃ m', m = m' + 1 := ⟨m - 1, by omega⟩
  have hmem : ∀ T, T ∈ (allStates m' S.sum false).toFinset ↔ T.length = m' + 1 ∧ T.sum = F.sum := by
    intro T
    rw [List.mem_toFinset, mem_allStates, hFsum]
    simp
  have htot := boson_total U F hortho hFlen.le _ hmem
  have hsum : (d.map Prod.snd).sum = ∑ T ∈ (d.map Prod.fst).toFinset, bosonProb U F T := by
    rw [List.sum_toFinset _ h3, List.map_map]
    congr 1
    exact List.map_congr_left fun e he => (h4 e.1 e.2 he).2.2
  have hsub : insert T (d.map Prod.fst).toFinset ⊆ (allStates m' S.sum false).toFinset := by
    intro T' hT'
    rw [hmem, hFsum]
    rcases Finset.mem_insert.mp hT' with rfl | hT'
    · exact ⟨hT, hTn⟩
    · obtain ⟨⟨T'', p⟩, he, rfl⟩ := List.mem_map.mp (List.mem_toFinset.mp hT')
      obtain ⟨h5, h6, -⟩ := h4 _ _ he
      exact ⟨h5, h6⟩
  have hle := Finset.sum_le_sum_of_subset_of_nonneg (f := bosonProb U F) hsub fun T' _ _ => bosonProb_nonneg _ _ _
  rw [Finset.sum_insert (by simpa using hTd), htot, ← hsum] at hle
  have h5 : |(d.map Prod.snd).sum - 1| ≤ 1e-8 + 1e-5 := h2
  have h6 := (abs_le.mp h5).1
  linarith

open Classical in
/-- C62, termination: with an exact R sampler and a unitary matrix the method returns with probability
1 if at least `k` states, or all states of the experiment if there are fewer than `k`, have positive
probability. -/
theorem C62_terminates (sampler : RSamplerPmf) (U : List (List ℂ)) (S : List ℕ) (m : ℕ) (hS : S.length = m)
    (hU : U.length = m) (hm : 1 ≤ m) (hrows : ∀ row ∈ U, row.length = m) (hn : S.sum ≤ m) (hortho : Orthonormal U m m)
    (hR : ∀ A, firstColumns U S.sum = .ok A → RPmfExactFor sampler (toRMatrix A S.sum))
    (k : ℤ) (support : List (List ℕ)) (hd : support.Nodup)
    (hk : min k ((S.sum + m - 1).choose (m - 1) : ℕ) ≤ support.length)
    (ho : ∀ T ∈ support, T.length = m ∧ T.sum = S.sum ∧
      0 < bosonProb U (List.replicate S.sum 1 ++ List.replicate (m - S.sum) 0) T) :
    Filter.Tendsto (fun fuel => (rFindRandom sampler fuel U S k).prob fun r => ∀ d, r ≠ .ok d)
      Filter.atTop (nhds 0) := by
  have hA := firstColumns_ok U m S.sum hU hm hrows hn
  have hex := hR _ hA
  have hrow : (toRMatrix (U.map fun row => row.take S.sum) S.sum).nrow = m := by simpa [toRMatrix] using hU
  have hprob : ∀ T : List ℕ, T.length = m → T.sum = S.sum → rProb (toRMatrix (U.map fun row => row.take S.sum) S.sum) T =
      bosonProb U (List.replicate S.sum 1 ++ List.replicate (m - S.sum) 0) T := fun T h1 h2 => rProb_eq U S m hU T h1 h2
  set F := List.replicate S.sum 1 ++ List.replicate (m - S.sum) 0 with hF
  have hFsum : F.sum = S.sum := by simp [hF]
  have hFlen : F.length = m := by simp [hF]; omega
  obtain ⟨m', rfl⟩ : ∃ m', m = m' + 1 := ⟨m - 1, by omega⟩
  have hmem : ∀ T, T ∈ (allStates m' S.sum false).toFinset ↔ T.length = m' + 1 ∧ T.sum = F.sum := by
    intro T
    rw [List.mem_toFinset, mem_allStates, hFsum]
    simp
  have htot := boson_total U F hortho hFlen.le _ hmem
  simp only [rFindRandom_eq _ _ _ _ _ _ hA, rFindRandom_unfinished]
  rw [hS, ← hrow]
  refine randLoop_tendsto _ _ ((allStates m' S.sum false).toFinset.filter fun T => 0 < bosonProb U F T)
    (rProb (toRMatrix (U.map fun row => row.take S.sum) S.sum)) ?_ ?_ ?_ ?_ ?_
  · intro r hr
    obtain ⟨T, h1, -⟩ := rDraw_runs (hrow ▸ hm) hex r hr
    exact ⟨T, h1⟩
  · intro T hT hTs
    obtain ⟨T', h1, h2, h3⟩ := rDraw_runs (hrow ▸ hm) hex _ hT
    injection h1 with h1
    injection h1 with h1 _
    subst h1
    rw [hprob T (h2.trans hrow) h3]
    refine le_antisymm ?_ (bosonProb_nonneg _ _ _)
    by_contra hlt
    exact hTs (Finset.mem_filter.mpr ⟨(hmem T).mpr ⟨h2.trans hrow, h3.trans hFsum.symm⟩, not_le.mp hlt⟩)
  · rw [← htot, Finset.sum_filter]
    refine Finset.sum_congr rfl fun T hT => ?_
    obtain ⟨h1, h2⟩ := (hmem T).mp hT
    rw [hprob T h1 (h2.trans hFsum)]
    split_ifs with h
    · rfl
    · exact le_antisymm (bosonProb_nonneg _ _ _) (not_lt.mp h)
  · unfold randTarget
    rw [hS]
    refine hk.trans ?_
    rw [← List.toFinset_card_of_nodup hd]
    refine Nat.cast_le.mpr (Finset.card_le_card fun T hT => ?_)
    obtain ⟨h1, h2, h3⟩ := ho T (List.mem_toFinset.mp hT)
    exact Finset.mem_filter.mpr ⟨(hmem T).mpr ⟨h1, h2.trans hFsum.symm⟩, h3⟩
  · intro T hT
    obtain ⟨h1, h2⟩ := Finset.mem_filter.mp hT
    obtain ⟨h3, h4⟩ := (hmem T).mp h1
    have := rDraw_prob (hrow ▸ hm) hex T (h3.trans hrow.symm) (h4.trans hFsum)
    rw [this, hprob T h3 (h4.trans hFsum)]
    exact ENNReal.ofReal_pos.mpr h2

/-- C62, non-termination (documented in the code): if R can only draw states of a list shorter than the
number asked for, the method never returns. -/
theorem C62_never (sampler : RSamplerPmf) (U : List (List ℂ)) (S : List ℕ) (k : ℤ) (support : List (List ℕ))
    (hk : (support.length : ℤ) < min k ((S.sum + S.length - 1).choose (S.length - 1) : ℕ))
    (hs : ∀ A, firstColumns U S.sum = .ok A → ∀ T p, (rDraw sampler (toRMatrix A S.sum) S.length).Runs (.ok (T, p)) →
      T ∈ support) (fuel : ℕ) (d : List (List ℕ × ℝ)) : ¬ (rFindRandom sampler fuel U S k).Runs (.ok d) := by
  intro h
  obtain ⟨A, hA, h1, h2, -⟩ := rFindRandom_result h
  have h3 : d.map Prod.fst ⊆ support := by
    intro T hT
    obtain ⟨e, he, rfl⟩ := List.mem_map.mp hT
    exact hs A hA e.1 e.2 (h1.drawn e he)
  have h4 := (h1.nodup.subperm h3).length_le
  rw [List.length_map] at h4
  have h4 : d.length ≤ support.length := h4
  unfold randTarget at h2
  omega

/-- A balanced beam splitter. -/
noncomputable def beamSplitter : List (List ℂ) :=
  [[((√2)⁻¹ : ℝ), ((√2)⁻¹ : ℝ)], [((√2)⁻¹ : ℝ), (-(√2)⁻¹ : ℝ)]]

/-- An R sampler for one particle entering a balanced beam splitter. -/
noncomputable def coinSampler : RSamplerPmf := fun _ => .randint 2 fun i => .done (.ok ([(i : ℤ) + 1], 1 / 2))

theorem coin_rProb (a b : ℕ) (h : a + b = 1) :
    rProb (toRMatrix [[((√2)⁻¹ : ℝ)], [((√2)⁻¹ : ℝ)]] 1) [a, b] = 1 / 2 := by
  have hcases : a = 1 ∧ b = 0 ∨ a = 0 ∧ b = 1 := by omega
  unfold rProb
  rcases hcases with ⟨rfl, rfl⟩ | ⟨rfl, rfl⟩
  · have h1 : particles [1, 0] = [0] := by decide
    rw [h1]
    change Complex.normSq (Matrix.permanent (Matrix.of fun (a b : Fin 1) => _)) / _ = _
    simp [Matrix.permanent, factProd, RMatrix.entry, toRMatrix]
  · have h1 : particles [0, 1] = [1] := by decide
    rw [h1]
    change Complex.normSq (Matrix.permanent (Matrix.of fun (a b : Fin 1) => _)) / _ = _
    simp [Matrix.permanent, factProd, RMatrix.entry, toRMatrix]

open Classical in
theorem coin_exact : RPmfExactFor coinSampler (toRMatrix [[((√2)⁻¹ : ℝ)], [((√2)⁻¹ : ℝ)]] 1) := by
  constructor
  · intro r hr
    rcases hr with ⟨h, -⟩ | ⟨i, hi, h⟩
    · omega
    · have h : r = _ := h
      have hi' : i = 0 ∨ i = 1 := by omega
      rcases hi' with rfl | rfl
      · refine ⟨[1], [1, 0], ?_, ⟨rfl, ?_⟩, rfl, ?_⟩
        · rw [coin_rProb 1 0 rfl, h]; rfl
        · simp [toRMatrix]
        · intro q hq
          have hq : q < 2 := hq
          have : q = 0 ∨ q = 1 := by omega
          rcases this with rfl | rfl <;> rfl
      · refine ⟨[2], [0, 1], ?_, ⟨rfl, ?_⟩, rfl, ?_⟩
        · rw [coin_rProb 0 1 rfl, h]; rfl
        · simp [toRMatrix]
        · intro q hq
          have hq : q < 2 := hq
          have : q = 0 ∨ q = 1 := by omega
          rcases this with rfl | rfl <;> rfl
  · intro T hT hTn
    obtain ⟨a, b, rfl⟩ : ∃ a b, T = [a, b] := by
      match T, hT with
      | [a, b], _ => exact ⟨a, b, rfl⟩
    have hab : a + b = 1 := by simpa [toRMatrix] using hTn
    rw [coin_rProb a b hab]
    have key : ∀ i : ℕ, i < 2 → ((∃ (result : List ℤ) (p : ℝ), (Except.ok ([(i : ℤ) + 1], (1 / 2 : ℝ)) : Py _) = .ok (result, p) ∧
        ROccupation (toRMatrix [[((√2)⁻¹ : ℝ)], [((√2)⁻¹ : ℝ)]] 1).nrow
          (toRMatrix [[((√2)⁻¹ : ℝ)], [((√2)⁻¹ : ℝ)]] 1).ncol 0 result [a, b]) ↔ b = i) := by
      intro i hi
      have hi' : i = 0 ∨ i = 1 := by omega
      constructor
      · rintro ⟨result, p, h1, -, h2⟩
        injection h1 with h1
        injection h1 with h1 _
        subst h1
        have := h2 1 (by simp [toRMatrix])
        rcases hi' with rfl | rfl
        · simpa [toRMatrix] using this
        · simpa [toRMatrix] using this
      · rintro rfl
        refine ⟨_, _, rfl, rfl, ?_⟩
        intro q hq
        have hq : q < 2 := hq
        have : q = 0 ∨ q = 1 := by omega
        rcases hi' with rfl | rfl
        · obtain rfl : a = 1 := by omega
          rcases this with rfl | rfl <;> rfl
        · obtain rfl : a = 0 := by omega
          rcases this with rfl | rfl <;> rfl
    unfold Prog.prob coinSampler
    simp only [Prog.wp]
    rw [if_neg (by norm_num)]
    rw [Finset.sum_range_succ, Finset.sum_range_one]
    have e0 := key 0 (by norm_num)
    have e1 := key 1 (by norm_num)
    rw [if_congr e0 rfl rfl, if_congr e1 rfl rfl]
    have hb : b = 0 ∨ b = 1 := by omega
    rcases hb with rfl | rfl
    · rw [one_div, ENNReal.ofReal_inv_of_pos (by norm_num)]
      norm_num
    · rw [one_div, ENNReal.ofReal_inv_of_pos (by norm_num)]
      norm_num

theorem coin_works : ∀ A, firstColumns beamSplitter [1, 0].sum = .ok A → RPmfExactFor coinSampler (toRMatrix A [1, 0].sum) := by
  intro A h
  have hA : firstColumns beamSplitter [1, 0].sum = .ok [[((√2)⁻¹ : ℝ)], [((√2)⁻¹ : ℝ)]] := rfl
  rw [hA] at h
  injection h with h
  subst h
  exact coin_exact

theorem coin_prob : ∀ a b, a + b = 1 → bosonProb beamSplitter [1, 0] [a, b] = 1 / 2 := by
  intro a b hab
  have := rProb_eq beamSplitter [1, 0] 2 rfl [a, b] rfl (by simpa using hab)
  rw [← coin_rProb a b hab]
  exact this.symm

example : Filter.Tendsto (fun fuel => (rFindProbabilities coinSampler fuel beamSplitter [1, 0] [[0, 1]]).prob
    fun r => ∀ d, r ≠ .ok d) Filter.atTop (nhds 0) :=
  (C61_exact_partial coinSampler beamSplitter [1, 0] 2 rfl rfl (by norm_num) (by simp [beamSplitter]) (by decide) coin_works
    [[0, 1]] (by simp) (by
      intro T hT
      rw [List.mem_singleton] at hT
      subst hT
      exact ⟨rfl, rfl, lt_of_lt_of_eq (by norm_num) (coin_prob 0 1 rfl).symm⟩)).1

/-- C62 fails: for one particle on a balanced beam splitter, asked for one state, the method always
returns two. -/
theorem C62_fails :
    (∀ A, firstColumns beamSplitter [1, 0].sum = .ok A → RPmfExactFor coinSampler (toRMatrix A [1, 0].sum)) ∧
    Orthonormal beamSplitter 2 2 ∧
    (∃ fuel d, (rFindRandom coinSampler fuel beamSplitter [1, 0] 1).Runs (.ok d)) ∧
    ∀ fuel d, (rFindRandom coinSampler fuel beamSplitter [1, 0] 1).Runs (.ok d) → d.length = 2 := by
  have hR := coin_works
  have hO : Orthonormal beamSplitter 2 2 := by
    intro a ha b hb
    have h2 : (((√2)⁻¹ : ℝ) : ℂ) * (((√2)⁻¹ : ℝ) : ℂ) = 1 / 2 := by
      rw [← Complex.ofReal_mul, ← mul_inv, Real.mul_self_sqrt (by norm_num)]
      norm_num
    have ha' : a = 0 ∨ a = 1 := by omega
    have hb' : b = 0 ∨ b = 1 := by omega
    rw [Finset.sum_range_succ, Finset.sum_range_one]
    rcases ha' with rfl | rfl <;> rcases hb' with rfl | rfl <;>
      simp only [beamSplitter, mget, List.getD_cons_zero, List.getD_cons_succ, Complex.conj_ofReal, Complex.ofReal_neg,
        mul_neg, neg_mul, map_neg, neg_neg, h2] <;> norm_num
  have hP := coin_prob
  refine ⟨hR, hO, ?_, ?_⟩
  · have hlim := C62_terminates coinSampler beamSplitter [1, 0] 2 rfl rfl (by norm_num) (by simp [beamSplitter]) (by decide)
      hO hR 1 [[1, 0]] (by simp) (by simp) (by
        intro T hT
        rw [List.mem_singleton] at hT
        subst hT
        refine ⟨rfl, rfl, ?_⟩
        rw [show bosonProb beamSplitter (List.replicate [1, 0].sum 1 ++ List.replicate (2 - [1, 0].sum) 0) [1, 0] = _ from
          hP 1 0 rfl]
        norm_num)
    obtain ⟨fuel, hf⟩ := (hlim.eventually (gt_mem_nhds (show (0 : ℝ≥0∞) < 1 by norm_num))).exists
    refine ⟨fuel, ?_⟩
    by_contra hno
    refine absurd hf (not_lt.mpr (le_of_eq (Eq.symm ?_)))
    refine Eq.trans (Prog.wp_congr _ _ (fun _ => 1) fun r hr => if_pos ?_) (Prog.wp_const _ _)
    intro d hd
    exact hno ⟨d, hd ▸ hr⟩
  · intro fuel d h
    obtain ⟨h1, -, h2⟩ := C62_result_partial coinSampler beamSplitter [1, 0] 2 rfl rfl (by norm_num) hR 1 fuel d h
    have h3 := C62_contains coinSampler beamSplitter [1, 0] 2 rfl rfl (by norm_num) (by decide) hO hR 1 fuel d h
    have h4 := h3 [1, 0] rfl rfl (lt_of_lt_of_eq (by norm_num) (hP 1 0 rfl).symm)
    have h5 := h3 [0, 1] rfl rfl (lt_of_lt_of_eq (by norm_num) (hP 0 1 rfl).symm)
    have h6 : (d.map Prod.fst).Perm [[1, 0], [0, 1]] := by
      rw [List.perm_ext_iff_of_nodup h1 (by decide)]
      intro T
      constructor
      · intro hT
        obtain ⟨⟨T', p⟩, he, rfl⟩ := List.mem_map.mp hT
        obtain ⟨h7, h8, -⟩ := h2 _ _ he
        match T', h7 with
        | [a, b], _ =>
          have h8 : a + b = 1 := by simpa using h8
          have hcases : a = 1 ∧ b = 0 ∨ a = 0 ∧ b = 1 := by omega
          rcases hcases with ⟨rfl, rfl⟩ | ⟨rfl, rfl⟩ <;> simp
      · intro hT
        simp only [List.mem_cons, List.not_mem_nil, or_false] at hT
        rcases hT with rfl | rfl
        · exact h4
        · exact h5
    have := h6.length_eq
    simpa using this

/-- Asked for more states than there are, the method returns with probability 1 if all have positive
probability. -/
example : Filter.Tendsto (fun fuel => (rFindRandom coinSampler fuel beamSplitter [1, 0] 7).prob
    fun r => ∀ d, r ≠ .ok d) Filter.atTop (nhds 0) :=
  C62_terminates coinSampler beamSplitter [1, 0] 2 rfl rfl (by norm_num) (by simp [beamSplitter]) (by decide)
    C62_fails.2.1 coin_works 7 [[1, 0], [0, 1]] (by decide) (by decide) (by
      intro T hT
      simp only [List.mem_cons, List.not_mem_nil, or_false] at hT
      rcases hT with rfl | rfl
      · exact ⟨rfl, rfl, lt_of_lt_of_eq (by norm_num) (coin_prob 1 0 rfl).symm⟩
      · exact ⟨rfl, rfl, lt_of_lt_of_eq (by norm_num) (coin_prob 0 1 rfl).symm⟩)

/-- An R sampler that always reports a particle in the first mode, with probability 1. -/
noncomputable def certainSampler : RSamplerPmf := fun _ => .done (.ok ([1], 1))

theorem certain_rProb : rProb (toRMatrix [[1], [0]] 1) [1, 0] = 1 ∧ rProb (toRMatrix [[1], [0]] 1) [0, 1] = 0 := by
  constructor
  · unfold rProb
    have h1 : particles [1, 0] = [0] := by decide
    rw [h1]
    change Complex.normSq (Matrix.permanent (Matrix.of fun (a b : Fin 1) => _)) / _ = _
    simp [Matrix.permanent, factProd, RMatrix.entry, toRMatrix]
  · unfold rProb
    have h1 : particles [0, 1] = [1] := by decide
    rw [h1]
    change Complex.normSq (Matrix.permanent (Matrix.of fun (a b : Fin 1) => _)) / _ = _
    simp [Matrix.permanent, factProd, RMatrix.entry, toRMatrix]

theorem certain_works : ∀ A, firstColumns [[1, 0], [0, 1]] [1, 0].sum = .ok A →
    RPmfExactFor certainSampler (toRMatrix A [1, 0].sum) := by
  intro A h
  have hA : firstColumns [[1, 0], [0, 1]] [1, 0].sum = .ok [[1], [0]] := rfl
  rw [hA] at h
  injection h with h
  subst h
  have hocc : ROccupation (toRMatrix [[1], [0]] 1).nrow (toRMatrix [[1], [0]] 1).ncol 0 [1] [1, 0] := by
    refine ⟨rfl, fun q hq => ?_⟩
    have hq : q < 2 := hq
    have : q = 0 ∨ q = 1 := by omega
    rcases this with rfl | rfl <;> rfl
  constructor
  · intro r hr
    have hr : r = _ := hr
    refine ⟨[1], [1, 0], ?_, ⟨rfl, by simp [toRMatrix]⟩, hocc⟩
    rw [hr]
    exact congrArg (fun x : ℝ => (Except.ok ([1], x) : Py (List ℤ × ℝ))) certain_rProb.1.symm
  · intro T hT hTn
    obtain ⟨a, b, rfl⟩ : ∃ a b, T = [a, b] := by
      match T, hT with
      | [a, b], _ => exact ⟨a, b, rfl⟩
    have hab : a + b = 1 := by simpa [toRMatrix] using hTn
    have hcases : a = 1 ∧ b = 0 ∨ a = 0 ∧ b = 1 := by omega
    rcases hcases with ⟨rfl, rfl⟩ | ⟨rfl, rfl⟩
    · refine Eq.trans (if_pos ⟨[1], 1, rfl, hocc⟩) ?_
      exact ((congrArg ENNReal.ofReal certain_rProb.1).trans ENNReal.ofReal_one).symm
    · refine Eq.trans (if_neg ?_) ?_
      · rintro ⟨result, p, h1, h2⟩
        injection h1 with h1
        injection h1 with h1 _
        subst h1
        exact absurd (rOccupation_unique h2 hocc) (by decide)
      · exact ((congrArg ENNReal.ofReal certain_rProb.2).trans ENNReal.ofReal_zero).symm

/-- A concrete case of `C61_zero`: one particle in the first mode of the identity is never seen in the
second one, and asking for both outcomes never ends. -/
example (fuel : ℕ) : (rFindProbabilities certainSampler fuel [[1, 0], [0, 1]] [1, 0] [[1, 0], [0, 1]]).prob
    (fun r => ∃ d, r = .ok d) = 0 :=
  C61_zero certainSampler [[1, 0], [0, 1]] [1, 0] 2 rfl rfl (by norm_num) (by simp) (by simp) certain_works
    [[1, 0], [0, 1]] [0, 1] (by simp) rfl rfl
    ((rProb_eq [[1, 0], [0, 1]] [1, 0] 2 rfl [0, 1] rfl rfl).symm.trans certain_rProb.2) fuel

end Verif
