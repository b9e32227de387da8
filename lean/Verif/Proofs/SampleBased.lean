import Verif.Model.SampleBased
import Verif.Proofs.UniformBobsRuns

/-! Helper lemmas: frequencies of samples. -/
namespace Verif

theorem countSample_ok (m : ℕ) (s : List ℕ) (hs : s.length = m) (outs : List (List ℕ)) (ho : ∀ T ∈ outs, T.length = m)
    (hn : outs.Nodup) (f : List ℕ → ℕ) :
    countSample s outs (outs.map f) = .ok (outs.map fun T => f T + if s = T then 1 else 0) := by
  induction outs with
  | nil => rfl
  | cons T outs ih =>
    rw [List.map_cons, countSample, allEqual, if_pos (hs.trans (ho T (by simp)).symm)]
    change (if decide (s = T) = true then _ else _) = _
    by_cases h : s = T
    · rw [if_pos (by simpa using h), List.map_cons, if_pos h]
      change Except.ok (_ :: outs.map f) = Except.ok _
      congr 2
      refine List.map_congr_left fun T' hT' => ?_
      rw [if_neg, Nat.add_zero]
      rintro rfl
      subst h
      exact (List.nodup_cons.mp hn).1 hT'
    · rw [if_neg (by simpa using h), ih (fun T hT => ho T (by simp [hT])) (List.nodup_cons.mp hn).2, List.map_cons, if_neg h]
      rfl

theorem countSamples_ok (m : ℕ) (samples : List (List ℕ)) (hs : ∀ s ∈ samples, s.length = m) (outs : List (List ℕ))
    (ho : ∀ T ∈ outs, T.length = m) (hn : outs.Nodup) (f : List ℕ → ℕ) :
    (samples.foldlM (fun counts sample => countSample sample outs counts) (outs.map f) : Py _)
      = .ok (outs.map fun T => f T + samples.count T) := by
  induction samples generalizing f with
  | nil => simp
  | cons s samples ih =>
    rw [List.foldlM_cons, countSample_ok m s (hs s (by simp)) outs ho hn, ok_bind, ih (fun s h => hs s (by simp [h]))]
    congr 1
    refine List.map_congr_left fun T _ => ?_
    rw [List.count_cons]
    simp only [beq_iff_eq]
    omega

theorem approximateDistribution_eq (strategy : Strategy) (fuel : ℕ) (o : SampleCalc) (N : ℤ) (hN : N ≠ 0) (m : ℕ)
    (outs : List (List ℕ)) (hp : possibleOutcomes fuel o = .ok outs) (ho : ∀ T ∈ outs, T.length = m) (hn : outs.Nodup)
    (hs : ∀ samples, (strategy o.initialState N).Runs (.ok samples) → ∀ s ∈ samples, s.length = m) (r : Py (List ℚ)) :
    (approximateDistribution strategy fuel o N).Runs r ↔
      (∃ samples, (strategy o.initialState N).Runs (.ok samples) ∧ r = .ok (outs.map fun T => (samples.count T : ℚ) / N)) ∨
      ∃ e, (strategy o.initialState N).Runs (.error e) ∧ r = .error e := by
  unfold approximateDistribution
  rw [hp]
  simp only [Prog.lift_def, Prog.bind_eq, Prog.done_ok_bind]
  rw [Prog.runs_bind]
  have key : ∀ samples, (strategy o.initialState N).Runs (.ok samples) → ∀ r' : Py (List ℚ),
      (((Prog.done (samples.foldlM (fun counts sample => countSample sample outs counts)
        (List.replicate outs.length 0))).bind fun counts =>
        Prog.done (counts.mapM fun (c : ℕ) => floatDiv (c : ℚ) (N : ℚ))).Runs r' ↔
        r' = .ok (outs.map fun T => (samples.count T : ℚ) / N)) := by
    intro samples h1 r'
    have h3 : List.replicate outs.length 0 = outs.map fun _ => 0 := by simp
    have h4 := countSamples_ok m samples (hs samples h1) outs ho hn fun _ => 0
    rw [h3, h4, Prog.done_ok_bind, mapM_ok _ (fun c : ℕ => (c : ℚ) / N)]
    · rw [List.map_map]
      simp [Prog.Runs, Function.comp_def]
    · intro c _
      rw [floatDiv, if_neg (by exact_mod_cast hN)]
  constructor
  · rintro (⟨samples, h1, h2⟩ | ⟨e, h1, h2⟩)
    · exact .inl ⟨samples, h1, (key samples h1 r).mp h2⟩
    · exact .inr ⟨e, h1, h2⟩
  · rintro (⟨samples, h1, rfl⟩ | ⟨e, h1, rfl⟩)
    · exact .inl ⟨samples, h1, (key samples h1 _).mpr rfl⟩
    · exact .inr ⟨e, h1, rfl⟩

/-- Counts of the elements of a list without repetitions. -/
theorem count_sum_nodup (outs samples : List (List ℕ)) (hn : outs.Nodup) :
    (outs.map fun T => samples.count T).sum = samples.countP (fun s => decide (s ∈ outs)) := by
  induction samples with
  | nil => simp
  | cons s samples ih =>
    rw [List.countP_cons, ← ih]
    simp only [List.count_cons]
    rw [List.sum_map_add]
    congr 1
    clear ih
    induction outs with
    | nil => simp
    | cons T outs ih =>
      rw [List.map_cons, List.sum_cons, ih (List.nodup_cons.mp hn).2]
      by_cases h : s = T
      · subst h
        have := (List.nodup_cons.mp hn).1
        simp [this]
      · simp [h]

end Verif
