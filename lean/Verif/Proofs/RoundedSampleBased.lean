import Verif.Model.RoundedSampleBased
import Verif.Spec.RoundedSampleBased
import Verif.Proofs.RoundedTvd
import Verif.Proofs.RoundedDist
import Verif.Proofs.RoundedCounting
import Verif.Proofs.Closeness
import Verif.Proofs.Statistics

/-! Helper lemmas: frequencies of samples in floating-point arithmetic. -/
namespace Verif

open Finset
open scoped ENNReal

variable (R : Rounding)

theorem countSampleR_ok (m : ℕ) (s : List ℕ) (hs : s.length = m) (outs : List (List ℕ)) (ho : ∀ T ∈ outs, T.length = m)
    (hn : outs.Nodup) (f : List ℕ → ℕ) (hf : ∀ T, f T < 2 ^ 53) :
    countSampleR R s outs (outs.map fun T => (f T : ℝ))
      = .ok (outs.map fun T => ((f T + if s = T then 1 else 0 : ℕ) : ℝ)) := by
  induction outs with
  | nil => rfl
  | cons T outs ih =>
    rw [List.map_cons, countSampleR, allEqual, if_pos (hs.trans (ho T (by simp)).symm)]
    change (if decide (s = T) = true then _ else _) = _
    by_cases h : s = T
    · rw [if_pos (by simpa using h), List.map_cons, if_pos h]
      have h1 : R.rnd ((f T : ℝ) + 1) = ((f T + 1 : ℕ) : ℝ) := by
        rw [← Nat.cast_succ]
        exact R.eq_self (isFloat_nat (hf T))
      rw [h1]
      change Except.ok (_ :: outs.map _) = Except.ok _
      congr 2
      refine List.map_congr_left fun T' hT' => ?_
      rw [if_neg, Nat.add_zero]
      rintro rfl
      subst h
      exact (List.nodup_cons.mp hn).1 hT'
    · rw [if_neg (by simpa using h), ih (fun T hT => ho T (by simp [hT])) (List.nodup_cons.mp hn).2, List.map_cons, if_neg h]
      rfl

theorem countSamplesR_ok (m : ℕ) (samples : List (List ℕ)) (hs : ∀ s ∈ samples, s.length = m) (outs : List (List ℕ))
    (ho : ∀ T ∈ outs, T.length = m) (hn : outs.Nodup) (f : List ℕ → ℕ) (hf : ∀ T, f T + samples.length ≤ 2 ^ 53) :
    (samples.foldlM (fun counts sample => countSampleR R sample outs counts) (outs.map fun T => (f T : ℝ)) : Py _)
      = .ok (outs.map fun T => ((f T + samples.count T : ℕ) : ℝ)) := by
  induction samples generalizing f with
  | nil => simp
  | cons s samples ih =>
    simp only [List.length_cons] at hf
    rw [List.foldlM_cons, countSampleR_ok R m s (hs s (by simp)) outs ho hn f (fun T => by have := hf T; omega), ok_bind,
      ih (fun s h => hs s (by simp [h])) _ (fun T => by have := hf T; split_ifs <;> omega)]
    congr 1
    refine List.map_congr_left fun T _ => ?_
    rw [List.count_cons]
    simp only [beq_iff_eq]
    congr 1
    omega

/-- What `calculate_approximate_distribution` does with the samples. -/
noncomputable def frequenciesR (outs : List (List ℕ)) (N : ℤ) (samples : List (List ℕ)) : Py (List ℝ) := do
  let counts ← samples.foldlM (fun counts sample => countSampleR R sample outs counts) (List.replicate outs.length 0)
  counts.mapM fun (c : ℝ) =>
    if R.rnd N = 0 then .error .zeroDivisionError else .ok (R.rnd (c / R.rnd N))

theorem frequenciesR_ok (m : ℕ) (samples : List (List ℕ)) (hs : ∀ s ∈ samples, s.length = m) (outs : List (List ℕ))
    (ho : ∀ T ∈ outs, T.length = m) (hn : outs.Nodup) (hl : samples.length ≤ 2 ^ 53) (N : ℕ) (hN : 0 < N)
    (hN' : N ≤ 2 ^ 53) :
    frequenciesR R outs N samples = .ok (outs.map fun T => R.rnd ((samples.count T : ℝ) / N)) := by
  have h1 := countSamplesR_ok R m samples hs outs ho hn (fun _ => 0) (fun _ => by omega)
  have h2 : List.replicate outs.length (0 : ℝ) = outs.map fun _ => ((0 : ℕ) : ℝ) := by simp
  have h3 : R.rnd ((N : ℤ) : ℝ) = N := by
    rw [Int.cast_natCast]; exact R.eq_self (isFloat_nat hN')
  have h4 : (N : ℝ) ≠ 0 := by exact_mod_cast hN.ne'
  unfold frequenciesR
  rw [h2, h1, ok_bind, mapM_ok _ (fun c : ℝ => R.rnd (c / N)) _ (fun c _ => by rw [h3, if_neg h4])]
  rw [List.map_map]
  congr 1
  refine List.map_congr_left fun T _ => ?_
  simp

theorem approximateDistributionR_eq (strategy : Strategy) (fuel : ℕ) (o : SampleCalc) (N : ℤ) (outs : List (List ℕ))
    (hp : possibleOutcomes fuel o = .ok outs) :
    approximateDistributionR R strategy fuel o N
      = (strategy o.initialState N).bind fun samples => .done (frequenciesR R outs N samples) := by
  unfold approximateDistributionR
  rw [hp]
  simp only [Prog.lift_def, Prog.bind_eq, Prog.done_ok_bind]
  congr 1
  funext samples
  unfold frequenciesR
  cases (samples.foldlM (fun counts sample => countSampleR R sample outs counts) (List.replicate outs.length 0)
    : Py (List ℝ)) <;> rfl

theorem wp_superadd {α : Type} (p : Prog α) (f g : Py α → ℝ≥0∞) : p.wp f + p.wp g ≤ p.wp fun r => f r + g r := by
  induction p with
  | done r => exact le_rfl
  | uniform k ih =>
    simp only [Prog.wp]
    exact (MeasureTheory.le_lintegral_add _ _).trans (MeasureTheory.lintegral_mono fun u => ih u)
  | randint n k ih =>
    simp only [Prog.wp]
    split_ifs with hn
    · exact le_rfl
    · rw [← ENNReal.add_div, ← sum_add_distrib]
      exact ENNReal.div_le_div_right (sum_le_sum fun i _ => ih i) _
  | choice p k ih =>
    simp only [Prog.wp]
    split_ifs with hp
    · rw [← sum_add_distrib]
      exact sum_le_sum fun i _ => by rw [← mul_add]; exact mul_le_mul_right (ih i) _
    · exact le_rfl
  | shuffle n k ih =>
    simp only [Prog.wp]
    rw [← ENNReal.add_div, ← sum_add_distrib]
    exact ENNReal.div_le_div_right (sum_le_sum fun i _ => ih _) _

theorem prob_not_add_le {α : Type} (p : Prog α) (P : Py α → Prop) : p.prob (fun r => ¬ P r) + p.prob P ≤ 1 := by
  classical
  refine (wp_superadd p _ _).trans (le_of_eq ?_)
  refine (congrArg p.wp (funext fun r => ?_)).trans (Prog.wp_const p 1)
  by_cases hr : P r <;> simp [hr]

theorem prob_toReal_le_one {α : Type} (p : Prog α) (P : Py α → Prop) : (p.prob P).toReal ≤ 1 := by
  have h := (self_le_add_left _ _).trans (prob_not_add_le p P)
  exact (ENNReal.toReal_mono ENNReal.one_ne_top h).trans (by simp)

theorem expIid_not {𝒯 : Finset (List ℕ)} {p : List ℕ → ℝ≥0∞} (hp : ∑ T ∈ 𝒯, p T = 1) (n : ℕ) (P : List (List ℕ) → Prop)
    [DecidablePred P] :
    expIid 𝒯 p n (fun l => if P l then 0 else 1) + expIid 𝒯 p n (fun l => if P l then 1 else 0) = 1 := by
  have := expIid_sum (𝒯 := 𝒯) (p := p) (univ : Finset Bool) n
    fun b l => if b then (if P l then (0 : ℝ≥0∞) else 1) else if P l then 1 else 0
  simp only [Fintype.sum_bool, if_true, Bool.false_eq_true, if_false] at this
  rw [← this]
  refine (congrArg _ (funext fun l => ?_)).trans (expIid_const hp n 1)
  split_ifs <;> simp

theorem mapM_mem_ok {α β : Type} (f : α → Py β) (l : List α) (l' : List β) (h : l.mapM f = .ok l') :
    ∀ y ∈ l', ∃ x ∈ l, f x = .ok y := by
  induction l generalizing l' with
  | nil => cases h; simp
  | cons a l ih =>
    rw [List.mapM_cons] at h
    cases ha : f a with
    | error e => rw [ha] at h; cases h
    | ok b =>
      rw [ha, ok_bind] at h
      cases hl : l.mapM f with
      | error e => rw [hl] at h; cases h
      | ok bs =>
        rw [hl, ok_bind] at h
        cases h
        intro y hy
        rcases List.mem_cons.mp hy with rfl | hy
        · exact ⟨a, by simp, ha⟩
        · obtain ⟨x, hx, hx'⟩ := ih bs hl y hy
          exact ⟨x, by simp [hx], hx'⟩

theorem uniformOutcomeR_float (hash : List ℕ → ℤ) {sq : CalcCfg ℂ → Py ℝ} (c : ExpConfig ℂ ℝ) (T : List ℕ) {x : ℝ}
    (hx : uniformOutcomeR R sq hash (uniformCalcR R c) T = .ok x) : IsFloat x := by
  unfold uniformOutcomeR at hx
  simp only at hx
  have hw : ∀ (i : ℕ) w, pyGetN (uniformCalcR R c).weights i = .ok w → IsFloat w := by
    intro i w hw
    have hmem : w ∈ (uniformCalcR R c).weights := by
      unfold pyGetN at hw
      cases hi : (uniformCalcR R c).weights[i]? with
      | none => rw [hi] at hw; cases hw
      | some v =>
        rw [hi] at hw
        cases hw
        exact List.mem_of_getElem? hi
    unfold uniformCalcR initializeWeightsR at hmem
    obtain ⟨l, -, rfl⟩ := List.mem_map.mp hmem
    exact R.isFloat _
  split_ifs at hx with h0
  · exact hw 0 x hx
  · cases h1 : fixedLossProbabilitiesR R sq hash
      { (uniformCalcR R c).config with left := T.sum, lost := ((uniformCalcR R c).config.initialNumber : ℤ) - T.sum } [T] with
    | error e => rw [h1] at hx; cases hx
    | ok ps =>
      rw [h1, ok_bind] at hx
      cases h2 : pyGetN ps 0 with
      | error e => rw [h2] at hx; cases hx
      | ok p =>
        rw [h2, ok_bind] at hx
        cases h3 : pyGetN (uniformCalcR R c).weights T.sum with
        | error e => rw [h3] at hx; cases hx
        | ok w =>
          rw [h3, ok_bind] at hx
          cases hx
          exact R.isFloat _

theorem states_length {S : List ℕ} (hS : S ≠ []) {outs : List (List ℕ)} (hn : outs.Nodup) {k : ℕ}
    (hm : ∀ T, T ∈ outs ↔ T.length = S.length ∧ T.sum = k) : outs.length = (k + S.length - 1).choose k := by
  obtain ⟨m, hm'⟩ : ∃ m, S.length = m + 1 := ⟨S.length - 1, by have := List.length_pos_of_ne_nil hS; omega⟩
  have hp : outs.Perm (allStates m k false) :=
    (List.perm_ext_iff_of_nodup hn (allStates_nodup _ _ _)).mpr fun T => by rw [hm, mem_allStates, hm']; simp
  rw [hp.length_eq, hm']
  simp [allStates, stDesc_length]

theorem states_length_upTo {S : List ℕ} (hS : S ≠ []) {outs : List (List ℕ)} (hn : outs.Nodup) {k : ℕ}
    (hm : ∀ T, T ∈ outs ↔ T.length = S.length ∧ T.sum ≤ k) : outs.length = (k + S.length).choose k := by
  obtain ⟨m, hm'⟩ : ∃ m, S.length = m + 1 := ⟨S.length - 1, by have := List.length_pos_of_ne_nil hS; omega⟩
  have hp : outs.Perm (allStates m k true) :=
    (List.perm_ext_iff_of_nodup hn (allStates_nodup _ _ _)).mpr fun T => by rw [hm, mem_allStates, hm']; simp
  have hs : ∀ k, ((List.range (k + 1)).map fun j => (j + m).choose j).sum = (k + (m + 1)).choose k := by
    intro k
    induction k with
    | zero => simp
    | succ k ih =>
      rw [List.range_succ, List.map_append, List.sum_append, ih]
      simp only [List.map_cons, List.map_nil, List.sum_cons, List.sum_nil, Nat.add_zero]
      rw [show k + 1 + (m + 1) = (k + (m + 1)) + 1 by ring, Nat.choose_succ_succ, show k + 1 + m = k + (m + 1) by ring]
  rw [hp.length_eq, hm', ← hs k]
  simp [allStates, List.length_flatMap, stDesc_length]

/-- Only the samples matter. -/
theorem prob_samples {α : Type} (p : Prog (List (List ℕ) × α)) (P : List (List ℕ) → Prop) :
    (p.bind fun r => (pure r.1 : Prog (List (List ℕ)))).prob (fun r => ∃ l, r = .ok l ∧ P l)
      = p.prob (fun r => ∃ l o', r = .ok (l, o') ∧ P l) := by
  classical
  rw [Prog.prob, Prog.prob, Prog.wp_bind]
  refine congrArg _ (funext fun r => ?_)
  cases r with
  | ok a =>
    obtain ⟨l, o'⟩ := a
    change (if (∃ l', Except.ok l = Except.ok l' ∧ P l') then (1 : ℝ≥0∞) else 0) = _
    simp
  | error e => simp [Prog.post]

/-- The distance between rounded frequencies and a computed distribution. -/
theorem freq_tvd (outs samples : List (List ℕ)) (N : ℕ) (hN : 0 < N) (hN' : N ≤ 2 ^ 53) (hl : samples.length = N)
    (hn : outs.Nodup) (hK : outs.length ≤ 2 ^ 52) (x p : List ℕ → ℝ) (hx : ∀ T ∈ outs, IsFloat (x T)) (D B : ℝ)
    (hD : (outs.map fun T => |x T - p T|).sum ≤ D)
    (hB : (outs.map fun T => |(samples.count T : ℝ) / N - p T|).sum / 2 < B) :
    ∃ d, countTvdR R (outs.map fun T => R.rnd ((samples.count T : ℝ) / N)) (outs.map x) = .ok d ∧
      d < estimateBound outs.length B D := by
  have hN0 : (0 : ℝ) < N := by exact_mod_cast hN
  refine ⟨_, countTvdR_ok R _ _ (by simp), ?_⟩
  rw [zipWith_map_same]
  have h1 := half_sum_error R outs (fun T => R.rnd ((samples.count T : ℝ) / N)) x (fun T _ => R.isFloat _) hx hK
  have h2 : ∀ T ∈ outs, |R.rnd ((samples.count T : ℝ) / N) - x T|
      ≤ ((samples.count T : ℝ) / N) / 2 ^ 53 + |(samples.count T : ℝ) / N - p T| + |x T - p T| := by
    intro T _
    have h3 : |R.rnd ((samples.count T : ℝ) / N) - (samples.count T : ℝ) / N| ≤ ((samples.count T : ℝ) / N) / 2 ^ 53 := by
      rcases Nat.eq_zero_or_pos (samples.count T) with h | h
      · rw [h, Nat.cast_zero, zero_div, R.eq_self isFloat_zero]; simp
      · refine R.error ?_
        have h5 : (1 : ℝ) ≤ samples.count T := by exact_mod_cast h
        have h6 : (N : ℝ) ≤ 2 ^ 53 := by exact_mod_cast hN'
        rw [le_div_iff₀ hN0]
        calc (2 : ℝ) ^ (-1022 : ℤ) * N ≤ 2 ^ (-53 : ℤ) * 2 ^ 53 := by
              refine mul_le_mul (zpow_le_zpow_right₀ (by norm_num) (by norm_num)) h6 hN0.le (by positivity)
          _ = 1 := by norm_num
          _ ≤ _ := h5
    have h4 : R.rnd ((samples.count T : ℝ) / N) - x T = (R.rnd ((samples.count T : ℝ) / N) - (samples.count T : ℝ) / N)
        + ((samples.count T : ℝ) / N - p T) - (x T - p T) := by ring
    rw [h4]
    exact (abs_sub _ _).trans (add_le_add ((abs_add_le _ _).trans (add_le_add h3 le_rfl)) le_rfl)
  have h3 := List.sum_le_sum h2
  rw [List.sum_map_add, List.sum_map_add] at h3
  have h4 : (outs.map fun T => ((samples.count T : ℝ) / N) / 2 ^ 53).sum ≤ 1 / 2 ^ 53 := by
    have e1 : (outs.map fun T => ((samples.count T : ℝ) / N) / 2 ^ 53).sum
        = (((outs.map fun T => samples.count T).sum : ℕ) : ℝ) * (1 / (N * 2 ^ 53)) := by
      rw [Nat.cast_list_sum, List.map_map, ← List.sum_map_mul_right]
      congr 1
      refine List.map_congr_left fun T _ => ?_
      simp only [Function.comp_apply]
      field_simp
    rw [e1, count_sum_nodup outs samples hn]
    have e2 : (samples.countP (fun s => decide (s ∈ outs)) : ℝ) ≤ N := by
      rw [← hl]; exact_mod_cast List.countP_le_length
    calc _ ≤ (N : ℝ) * (1 / (N * 2 ^ 53)) := mul_le_mul_of_nonneg_right e2 (by positivity)
      _ = 1 / 2 ^ 53 := by field_simp
  set s := (outs.map fun T => |R.rnd ((samples.count T : ℝ) / N) - x T|).sum
  have h5 : s / 2 < B + D / 2 + 1 / 2 ^ 54 := by
    have : (1 : ℝ) / 2 ^ 53 = 2 * (1 / 2 ^ 54) := by norm_num
    linarith
  have h6 := (abs_le.mp h1).2
  have h7 : (0 : ℝ) < 1 + (outs.length : ℝ) / 2 ^ 52 := by positivity
  have h8 := mul_lt_mul_of_pos_left h5 h7
  unfold estimateBound
  linarith

/-- The law of the estimate: a sampler near an exact one. -/
theorem misses_prob (strategyF strategy : Strategy) (fuel : ℕ) (o : SampleCalc) (N : ℕ) (hN : 0 < N) (hN' : N ≤ 2 ^ 53)
    (m : ℕ) (𝒯 : Finset (List ℕ)) (p : List ℕ → ℝ) (err : ℝ)
    (hclose : ∀ P : List (List ℕ) → Prop, |((strategyF o.initialState N).prob fun r => ∃ l, r = .ok l ∧ P l).toReal
      - ((strategy o.initialState N).prob fun r => ∃ l, r = .ok l ∧ P l).toReal| ≤ err)
    (hlaw : ∀ f, (strategy o.initialState N).wp f = expIid 𝒯 (fun T => ENNReal.ofReal (p T)) N fun l => f (.ok l))
    (hp0 : ∀ T, 0 ≤ p T) (hp1 : ∑ T ∈ 𝒯, ENNReal.ofReal (p T) = 1)
    (h𝒯 : ∀ T ∈ 𝒯, T.length = m) (outs : List (List ℕ)) (hp : possibleOutcomes fuel o = .ok outs)
    (ho : ∀ T, T ∈ outs ↔ T ∈ 𝒯) (hn : outs.Nodup) (hK : outs.length ≤ 2 ^ 52) (δ : ℝ) (hδ0 : 0 < δ) (hδ1 : δ ≤ 1)
    (x : List ℕ → ℝ) (hx : ∀ T ∈ outs, IsFloat (x T)) (D B : ℝ) (hD : (outs.map fun T => |x T - p T|).sum ≤ D)
    (hB : tvErrorBound outs.length N δ ≤ B) :
    ((approximateDistributionR R strategyF fuel o N).prob (MissesR R (outs.map x)
      (estimateBound outs.length B D))).toReal ≤ δ + err := by
  classical
  set ε := estimateBound outs.length B D with hε
  set P : List (List ℕ) → Prop := fun l => ¬ MissesR R (outs.map x) ε (frequenciesR R outs N l) with hP
  set H : Py (List (List ℕ)) → Prop := fun r => ∃ l, r = .ok l ∧ P l with hH
  have e1 : (approximateDistributionR R strategyF fuel o N).prob (MissesR R (outs.map x) ε)
      = (strategyF o.initialState N).prob fun r => ¬ H r := by
    rw [approximateDistributionR_eq R strategyF fuel o N outs hp, Prog.prob, Prog.wp_bind]
    refine congrArg _ (funext fun r => ?_)
    cases r with
    | ok l =>
      have : ¬ H (.ok l) ↔ MissesR R (outs.map x) ε (frequenciesR R outs N l) := by
        rw [hH, hP]; simp
      simp only [Prog.post, Prog.wp, this]
    | error e =>
      have h1 : ¬ H (.error e) := by rw [hH]; simp
      have h2 : MissesR R (outs.map x) ε (.error e) := by unfold MissesR; simp
      simp only [Prog.post]
      rw [if_pos h2, if_pos h1]
  have e2 : ((strategyF o.initialState N).prob fun r => ¬ H r).toReal
      ≤ 1 - ((strategyF o.initialState N).prob H).toReal := by
    have h := prob_not_add_le (strategyF o.initialState N) H
    have ha : ((strategyF o.initialState N).prob fun r => ¬ H r) ≠ ⊤ :=
      ne_top_of_le_ne_top ENNReal.one_ne_top ((self_le_add_right _ _).trans h)
    have hb : (strategyF o.initialState N).prob H ≠ ⊤ :=
      ne_top_of_le_ne_top ENNReal.one_ne_top ((self_le_add_left _ _).trans h)
    have := ENNReal.toReal_mono ENNReal.one_ne_top h
    rw [ENNReal.toReal_add ha hb, ENNReal.toReal_one] at this
    linarith
  have e3 : 1 - ((strategy o.initialState N).prob H).toReal ≤ δ := by
    have hE : (strategy o.initialState N).prob H
        = expIid 𝒯 (fun T => ENNReal.ofReal (p T)) N (fun l => if P l then 1 else 0) := by
      rw [Prog.prob, hlaw]
      refine congrArg _ (funext fun l => ?_)
      have : H (.ok l) ↔ P l := by rw [hH]; simp
      simp only [this]
    have hsum := expIid_not hp1 N P
    have hmiss : expIid 𝒯 (fun T => ENNReal.ofReal (p T)) N (fun l => if P l then 0 else 1) ≤ ENNReal.ofReal δ := by
      refine le_trans ?_ (approximateDistribution_tvd strategy fuel o N hN m 𝒯 p hlaw hp0 hp1 h𝒯 outs hp ho hn δ hδ0 hδ1 _ hB)
      rw [Prog.prob, approximateDistribution_wp strategy fuel o N hN m 𝒯 _ hlaw h𝒯 outs hp
        (fun T hT => h𝒯 T ((ho T).mp hT)) hn]
      refine expIid_mono _ _ _ fun l hl hl' => ?_
      split_ifs with h1 h2 h2 <;> try simp
      obtain ⟨freq, d, a1, a2, a3⟩ := h2
      obtain rfl := (Except.ok.inj a1).symm
      rw [countTvd_ok _ _ (by simp), List.map_map, zipWith_map_same] at a2
      refine absurd ?_ h1
      rw [hP]
      simp only [MissesR, not_not]
      obtain ⟨d', b1, b2⟩ := freq_tvd R outs l N hN hN' hl hn hK x p hx D B hD (by
        refine lt_of_le_of_lt (le_of_eq ?_) a3
        have := Except.ok.inj a2
        rw [← this]
        congr 2
        refine List.map_congr_left fun T _ => ?_
        simp)
      exact ⟨_, d', frequenciesR_ok R m l (fun s hs => h𝒯 s (hl' s hs)) outs (fun T hT => h𝒯 T ((ho T).mp hT)) hn
        (by rw [hl]; exact hN') N hN hN', b1, b2⟩
    rw [hE]
    have ha := ne_top_of_le_ne_top ENNReal.ofReal_ne_top hmiss
    have hb : expIid 𝒯 (fun T => ENNReal.ofReal (p T)) N (fun l => if P l then 1 else 0) ≠ ⊤ :=
      ne_top_of_le_ne_top ENNReal.one_ne_top ((self_le_add_left _ _).trans hsum.le)
    have h1 := congrArg ENNReal.toReal hsum
    rw [ENNReal.toReal_add ha hb, ENNReal.toReal_one] at h1
    have h2 := ENNReal.toReal_mono ENNReal.ofReal_ne_top hmiss
    rw [ENNReal.toReal_ofReal hδ0.le] at h2
    linarith
  have e4 := (abs_le.mp (hclose P)).1
  rw [e1]
  have : 1 - ((strategyF o.initialState N).prob H).toReal ≤ 1 - ((strategy o.initialState N).prob H).toReal + err := by
    linarith
  linarith

end Verif
