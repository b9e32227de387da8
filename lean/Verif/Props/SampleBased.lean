import Verif.Proofs.SampleBased
import Verif.Props.StateSpace

/-!
C53: distributions estimated from samples. Helper lemmas are in `Proofs/SampleBased.lean`.
-/
namespace Verif

/-- The entries of `l` are the fractions of `samples` equal to each outcome, among `N`. -/
def IsFrequencies (outs samples : List (List ℕ)) (N : ℤ) (l : List ℚ) : Prop :=
  l.length = outs.length ∧ ∀ i : ℕ, i < outs.length →
    l.getD i 0 * N = ((samples.filter fun s => decide (s = outs.getD i [])).length : ℚ)

private theorem isFrequencies_iff {outs samples : List (List ℕ)} {N : ℤ} (hN : N ≠ 0) {l : List ℚ} :
    IsFrequencies outs samples N l ↔ l = outs.map fun T => (samples.count T : ℚ) / N := by
  have hN' : (N : ℚ) ≠ 0 := by exact_mod_cast hN
  have hc : ∀ T, (samples.filter fun s => decide (s = T)).length = samples.count T := by
    intro T
    rw [List.count, List.countP_eq_length_filter]
    congr 1
    exact List.filter_congr fun s _ => (beq_eq_decide s T).symm
  unfold IsFrequencies
  simp only [hc]
  constructor
  · rintro ⟨h1, h2⟩
    refine List.ext_getElem (by simpa using h1) fun i hi hi' => ?_
    have := h2 i (h1 ▸ hi)
    rw [getD_of_lt _ _ hi, getD_of_lt _ _ (h1 ▸ hi)] at this
    rw [List.getElem_map, ← this]
    field_simp
  · rintro rfl
    refine ⟨by simp, fun i hi => ?_⟩
    rw [getD_of_lt _ _ (by simpa using hi), getD_of_lt _ _ hi, List.getElem_map]
    field_simp

/-- C53, with an explicit number of samples and configured outcomes: for distinct outcomes of the same
number of modes as the samples, the possible results of `calculate_approximate_distribution(N)` are
exactly the frequencies of the outcomes in the possible results of the strategy for `N` samples (its
exceptions are passed on). -/
theorem C53_approximate (strategy : Strategy) (fuel : ℕ) (o : SampleCalc) (N : ℤ) (hN : N ≠ 0) (m : ℕ)
    (outs : List (List ℕ)) (hp : o.outcomes = some outs) (ho : ∀ T ∈ outs, T.length = m) (hn : outs.Nodup)
    (hs : ∀ samples, (strategy o.initialState N).Runs (.ok samples) → ∀ s ∈ samples, s.length = m) :
    (∀ l, (approximateDistribution strategy fuel o N).Runs (.ok l) ↔
      ∃ samples, (strategy o.initialState N).Runs (.ok samples) ∧ IsFrequencies outs samples N l) ∧
    ∀ e, (approximateDistribution strategy fuel o N).Runs (.error e) ↔ (strategy o.initialState N).Runs (.error e) := by
  have key := approximateDistribution_eq strategy fuel o N hN m outs (by rw [possibleOutcomes, hp]; rfl) ho hn hs
  constructor
  · intro l
    rw [key]
    simp only [isFrequencies_iff hN, Except.ok.injEq, reduceCtorEq, and_false, exists_false, or_false]
  · intro e
    rw [key]
    simp

/-- C53, without configured outcomes: the entries are the frequencies of the states of `left` particles
in `modes` modes, each once. -/
theorem C53_all_states (strategy : Strategy) (o : SampleCalc) (N : ℤ) (hN : N ≠ 0) (hp : o.outcomes = none)
    (hleft : 0 ≤ o.left) (hm : 1 ≤ o.modes)
    (hs : ∀ samples, (strategy o.initialState N).Runs (.ok samples) → ∀ s ∈ samples, (s.length : ℤ) = o.modes) :
    ∃ outs F, outs.Nodup ∧ (∀ T : List ℕ, T ∈ outs ↔ (T.length : ℤ) = o.modes ∧ (T.sum : ℤ) = o.left) ∧
      ∀ fuel ≥ F,
        (∀ l, (approximateDistribution strategy fuel o N).Runs (.ok l) ↔
          ∃ samples, (strategy o.initialState N).Runs (.ok samples) ∧ IsFrequencies outs samples N l) ∧
        (∀ e, (approximateDistribution strategy fuel o N).Runs (.error e) ↔
          (strategy o.initialState N).Runs (.error e)) := by
  obtain ⟨outs, F, h1, h2, h3, -⟩ := C03_exact o.left o.modes hleft hm
  refine ⟨outs, F, h3, h2, fun fuel hf => ?_⟩
  obtain ⟨m, hm'⟩ := Int.eq_ofNat_of_zero_le (show 0 ≤ o.modes by omega)
  have key := approximateDistribution_eq strategy fuel o N hN m outs
    (by rw [possibleOutcomes, hp]; exact h1 fuel hf) (fun T hT => by have := ((h2 T).mp hT).1; omega) h3
    (fun samples h s hs' => by have := hs samples h s hs'; omega)
  constructor
  · intro l
    rw [key]
    simp only [isFrequencies_iff hN, Except.ok.injEq, reduceCtorEq, and_false, exists_false, or_false]
  · intro e
    rw [key]
    simp

/-- C53, normalisation: frequencies of `N` samples sum to 1 exactly if every sample is an outcome. -/
theorem C53_sum (outs samples : List (List ℕ)) (N : ℤ) (hN : N ≠ 0) (hn : outs.Nodup) (hl : (samples.length : ℤ) = N)
    (l : List ℚ) (h : IsFrequencies outs samples N l) : l.sum = 1 ↔ ∀ s ∈ samples, s ∈ outs := by
  rw [isFrequencies_iff hN] at h
  have hN' : (N : ℚ) ≠ 0 := by exact_mod_cast hN
  have h1 : l.sum = (samples.countP (fun s => decide (s ∈ outs)) : ℚ) / N := by
    rw [h, ← count_sum_nodup outs samples hn]
    simp only [div_eq_mul_inv]
    rw [List.sum_map_mul_right]
    congr 1
    rw [Nat.cast_list_sum, List.map_map]
    rfl
  rw [h1, div_eq_one_iff_eq hN', ← hl]
  constructor
  · intro h2
    have h3 : samples.countP (fun s => decide (s ∈ outs)) = samples.length := by exact_mod_cast h2
    simpa using List.countP_eq_length.mp h3
  · intro h2
    have h3 : samples.countP (fun s => decide (s ∈ outs)) = samples.length :=
      List.countP_eq_length.mpr (by simpa using h2)
    exact_mod_cast h3

/-- C53, as far as it holds for `calculate_distribution`: it returns the frequencies of the outcomes
among 5000 samples. Missing: the number of samples is not the configured one, see `C53_fails`. -/
theorem C53_distribution_partial (strategy : Strategy) (fuel : ℕ) (o : SampleCalc) (m : ℕ)
    (outs : List (List ℕ)) (hp : o.outcomes = some outs) (ho : ∀ T ∈ outs, T.length = m) (hn : outs.Nodup)
    (hs : ∀ samples, (strategy o.initialState 5000).Runs (.ok samples) → ∀ s ∈ samples, s.length = m) (l : List ℚ) :
    (sampleDistribution strategy fuel o).Runs (.ok l) ↔
      ∃ samples, (strategy o.initialState 5000).Runs (.ok samples) ∧ IsFrequencies outs samples 5000 l :=
  (C53_approximate strategy fuel o 5000 (by norm_num) m outs hp ho hn hs).1 l

/-- C53: `calculate_probabilities_of_outcomes` returns frequencies of the given outcomes, and the
object keeps these outcomes: a later `calculate_distribution` is about them and no longer about the
outcomes of before. -/
theorem C53_outcomes_replaced (strategy : Strategy) (fuel : ℕ) (o : SampleCalc) (m : ℕ)
    (outs : List (List ℕ)) (ho : ∀ T ∈ outs, T.length = m) (hn : outs.Nodup)
    (hs : ∀ samples, (strategy o.initialState 5000).Runs (.ok samples) → ∀ s ∈ samples, s.length = m)
    (l : List ℚ) (o' : SampleCalc) :
    (sampleProbabilities strategy fuel o outs).Runs (.ok (l, o')) ↔
      (∃ samples, (strategy o.initialState 5000).Runs (.ok samples) ∧ IsFrequencies outs samples 5000 l) ∧
      o' = { o with outcomes := some outs } ∧ sampleOutcomes o' = some outs := by
  have key := (C53_approximate strategy fuel { o with outcomes := some outs } 5000 (by norm_num) m outs rfl ho hn hs).1
  unfold sampleProbabilities
  simp only [Prog.bind_eq]
  rw [Prog.runs_bind]
  simp only [Prog.pure_eq, Prog.Runs, Except.ok.injEq, Prod.mk.injEq, reduceCtorEq, and_false, exists_false, or_false]
  constructor
  · rintro ⟨l', h1, rfl, rfl⟩
    exact ⟨(key l).mp h1, rfl, rfl⟩
  · rintro ⟨h1, rfl, -⟩
    exact ⟨l, (key l).mpr h1, rfl, rfl⟩

/-- C53: without configured outcomes `get_outcomes_in_proper_order` returns `None`, also after
`calculate_distribution`. -/
theorem C53_order_none (o : SampleCalc) (h : o.outcomes = none) : sampleOutcomes o = none := h

/-- A strategy whose first sample differs from the others. -/
def firstDiffers : Strategy := fun _ N => pure ([1, 0] :: List.replicate (N.toNat - 1) [0, 1])

private theorem firstDiffers_length (S : List ℕ) (N : ℤ) (samples : List (List ℕ))
    (h : (firstDiffers S N).Runs (.ok samples)) : ∀ s ∈ samples, s.length = 2 := by
  simp only [firstDiffers, Prog.pure_eq, Prog.Runs, Except.ok.injEq] at h
  subst h
  intro s hs
  rcases List.mem_cons.mp hs with rfl | hs
  · rfl
  · rw [List.eq_of_mem_replicate hs]; rfl

private theorem firstDiffers_count (k : ℕ) :
    ([1, 0] :: List.replicate k [0, 1]).count [1, 0] = 1 ∧ ([1, 0] :: List.replicate k [0, 1]).count [0, 1] = k := by
  simp [List.count_replicate]

set_option linter.constructorNameAsVariable false in
/-- C53 fails: the configured number of samples has no influence on `calculate_distribution`, and for
an object configured to use one sample the result is not made of the frequencies in one sample. -/
theorem C53_fails :
    (∀ (strategy : Strategy) (fuel : ℕ) (o : SampleCalc) (N : ℤ),
      sampleDistribution strategy fuel { o with samplesNumber := N } = sampleDistribution strategy fuel o) ∧
    (∀ fuel : ℕ, ∀ l, (sampleDistribution firstDiffers fuel ⟨[1, 0], 2, 1, some [[1, 0], [0, 1]], 1⟩).Runs (.ok l) →
      l = [1 / 5000, 4999 / 5000] ∧
      ¬ ∃ samples, (firstDiffers [1, 0] 1).Runs (.ok samples) ∧ IsFrequencies [[1, 0], [0, 1]] samples 1 l) := by
  refine ⟨fun _ _ _ _ => rfl, fun fuel l h => ?_⟩
  have hlen := firstDiffers_length [1, 0] 5000
  have key := C53_distribution_partial firstDiffers fuel ⟨[1, 0], 2, 1, some [[1, 0], [0, 1]], 1⟩ 2 [[1, 0], [0, 1]] rfl
    (by decide) (by decide) hlen l
  rw [key] at h
  clear key
  obtain ⟨samples, h1, h2⟩ := h
  simp only [firstDiffers, Prog.pure_eq, Prog.Runs, Except.ok.injEq] at h1
  subst h1
  rw [isFrequencies_iff (by norm_num)] at h2
  have hl : l = [1 / 5000, 4999 / 5000] := by
    rw [h2]
    simp only [List.map_cons, List.map_nil, firstDiffers_count]
    have e : (5000 : ℤ).toNat - 1 = 4999 := rfl
    rw [e]
    norm_num
  refine ⟨hl, ?_⟩
  rintro ⟨samples, h3, h4⟩
  simp only [firstDiffers, Prog.pure_eq, Prog.Runs, Except.ok.injEq] at h3
  subst h3
  rw [isFrequencies_iff (by norm_num), hl] at h4
  revert h4
  decide +kernel

/-- A case of `C53_approximate`: four samples, one of them no outcome. -/
example : (approximateDistribution (fun _ _ => pure [[1, 1], [2, 0], [0, 2], [2, 0]]) 0
    ⟨[1, 1], 2, 2, some [[2, 0], [1, 1]], 7⟩ 4).Runs (.ok [1 / 2, 1 / 4]) := by
  refine ((C53_approximate _ _ _ 4 (by norm_num) 2 [[2, 0], [1, 1]] rfl (by decide) (by decide) ?_).1 _).mpr
    ⟨_, rfl, ?_⟩
  · intro samples h
    simp only [Prog.pure_eq, Prog.Runs, Except.ok.injEq] at h
    subst h
    decide
  · rw [isFrequencies_iff (by norm_num)]
    decide +kernel

end Verif
