import Verif.Proofs.AccuracyLoop
import Verif.Props.Cliffords

/-! C76: when the loops that compute distributions up to an accuracy end. -/
namespace Verif

open Finset Filter
open scoped ENNReal

section

variable {U : List (List ℂ)} {S : List ℕ} {eta ph : ℝ}

theorem Interferometer.total1 (h : Interferometer U S) (h0 : 0 ≤ eta) (h1 : eta ≤ 1) :
    ∑ T ∈ statesUpTo S.length S.sum, uniformLossProb U S eta T = 1 := by
  have hn : ∀ T ∈ statesUpTo S.length S.sum, 0 ≤ uniformLossProb U S eta T := fun T _ =>
    mul_nonneg (binomialWeight_nonneg _ _ h0 h1) (fixedLossProb_nonneg _ _ _ _)
  have := uniformLoss_total (h.bok _ (le_refl _)) h0 h1
  rw [← ENNReal.ofReal_sum_of_nonneg hn] at this
  have := congrArg ENNReal.toReal this
  rwa [ENNReal.toReal_ofReal (sum_nonneg hn), ENNReal.toReal_one] at this

theorem Interferometer.total2 (h : Interferometer U S) (k : ℕ) (hk : k ≤ S.sum) :
    ∑ T ∈ statesFin S.length k, fixedLossProb U S k T = 1 :=
  fixedLoss_total U S k h.ortho (le_refl _) hk _ fun T => mem_statesFin _ _ T

theorem XInv.sum1 {m : ℕ} (hm : S.length = m + 1) (h : Interferometer U S) (h0 : 0 ≤ eta) (h1 : eta ≤ 1) (hph : ph ≤ 0)
    {o : GccuObj} (ho : XInv U S eta ph (allStates m S.sum true) o) :
    o.dist.sum ≤ 1 + ph * unrecordable U S eta ∧
      (toFill U S eta (allStates m S.sum true) o = 0 → o.dist.sum = 1 + ph * unrecordable U S eta) := by
  rw [← final1_total ph h0 h.used (h.total1 h0 h1), hm, ← sum_getD_states, sum_getD_range, ho.u.dist.len1]
  exact ⟨sum_le_sum fun i hi => (ho.le_final hph h0 h1 i (mem_range.mp hi)).1,
    fun hz => sum_congr rfl fun i hi => (ho.eq_final hz i (mem_range.mp hi)).1⟩

theorem XInv.sum2 {m : ℕ} (hm : S.length = m + 1) (h : Interferometer U S) (h0 : 0 ≤ eta) (h1 : eta ≤ 1) (hph : ph ≤ 0)
    {o : GccuObj} (ho : XInv U S eta ph (allStates m S.sum true) o) :
    o.udist.sum ≤ (if 0 < eta then (S.sum : ℝ) else 0) + ph * (unrecordable U S eta + 1) ∧
      (toFill U S eta (allStates m S.sum true) o = 0 →
        o.udist.sum = (if 0 < eta then (S.sum : ℝ) else 0) + ph * (unrecordable U S eta + 1)) := by
  rw [← final2_total ph h.used h.total2, hm, ← sum_getD_states, sum_getD_range, ho.u.dist.len2]
  exact ⟨sum_le_sum fun i hi => (ho.le_final hph h0 h1 i (mem_range.mp hi)).2,
    fun hz => sum_congr rfl fun i hi => (ho.eq_final hz i (mem_range.mp hi)).2⟩

theorem isClose_iff (a s : ℝ) : IsCloseToZero (max (a - s) 0) ↔ a - s ≤ 1e-8 := by
  unfold IsCloseToZero
  rw [abs_of_nonneg (le_max_right _ _), max_le_iff]
  constructor
  · exact fun h => h.1
  · exact fun h => ⟨h, by norm_num⟩

end

/-- Not having returned is not having left the loop. -/
theorem prob_after_loop {α β : Type} (p : Prog α) (g : α → β) :
    (p.bind fun a => .done (.ok (g a))).prob (fun r => ∀ x, r ≠ .ok x) = p.prob (fun r => ∀ x, r ≠ .ok x) := by
  unfold Prog.prob
  rw [Prog.wp_bind]
  refine Prog.wp_congr _ _ _ fun r _ => ?_
  cases r with
  | ok a => simp [Prog.post, Prog.wp]
  | error e => simp [Prog.post]

theorem tendsto_of_waitBound {ε : ℝ} (h0 : 0 < ε) (h1 : ε ≤ 1) (v F : ℕ) (f : ℕ → ℝ≥0∞)
    (h : ∀ fuel ≥ F, f fuel ≤ ENNReal.ofReal (Prog.waitBound ε fuel v)) : Tendsto f atTop (nhds 0) := by
  have hlim : Tendsto (fun n => ENNReal.ofReal (Prog.waitBound ε n v)) atTop (nhds 0) := by
    rw [← ENNReal.ofReal_zero]
    exact ENNReal.tendsto_ofReal (Prog.waitBound_tendsto h0 h1 v)
  exact tendsto_of_tendsto_of_tendsto_of_le_of_le' tendsto_const_nhds hlim (Eventually.of_forall fun _ => zero_le)
    (eventually_atTop.mpr ⟨F, h⟩)

section

variable (gray : Nat → List Nat) (hgray : ∀ n, IsGrayCode n (gray n)) (t : Int)
include hgray

/-- C76, first half: `compute_distribution_up_to_accuracy` returns with probability 1 (the
probability that it has not returned after `fuel` draws tends to 0) if the accuracy asked for is at
most 1 (plus the tolerance of `isclose`), minus 1 for every state that is never recorded if missing
values are marked by `-1`. -/
theorem C76_returns {U : List (List ℂ)} {S : List ℕ} (h : Interferometer U S) (o : GccuObj) (h0 : 0 ≤ o.eta)
    (h1 : o.eta ≤ 1) (accuracy : ℝ)
    (ha : accuracy ≤ 1 - (if o.missing then (unrecordable U S o.eta : ℝ) else 0) + 1e-8) :
    Tendsto (fun fuel => (gccuDistribution (factoryPermanent gray t fuel) U fuel o S accuracy).prob
      fun r => ∀ x, r ≠ .ok x) atTop (nhds 0) := by
  obtain ⟨m, hm⟩ : ∃ m, S.length = m + 1 := ⟨S.length - 1, by have := List.length_pos_of_ne_nil h.ne; omega⟩
  have hph : (if o.missing then -1 else 0 : ℝ) ≤ 0 := by split_ifs <;> norm_num
  obtain ⟨ε, e1, e2, e3⟩ := gccuRepeat_unfinished h.used h.len.symm h0 h1 (allStates m S.sum true)
    (if o.missing then -1 else 0)
  refine tendsto_of_waitBound e1 e2 (allStates m S.sum true).length (genFuel m S.sum + (S.map (· + 1)).prod) _ fun fuel hfuel => ?_
  obtain ⟨o1, g1, g2⟩ := gccuInitialize_fills U S m hm fuel (by omega) o
  unfold gccuDistribution
  rw [g1]
  refine (prob_after_loop _ _).trans_le (e3 _ (factory_permOn gray hgray t U S h.square h.len.le h.ne fuel (by omega)) _
    (fun o' ho' hz => ?_) fuel o1 g2)
  rw [decide_eq_false_iff_not, not_not, isClose_iff, (ho'.sum1 hm h h0 h1 hph).2 hz]
  split_ifs at ha ⊢ <;> linarith

open Classical in
/-- C76, second half: beyond that accuracy no run ends. -/
theorem C76_never {U : List (List ℂ)} {S : List ℕ} (h : Interferometer U S) (o : GccuObj) (h0 : 0 ≤ o.eta)
    (h1 : o.eta ≤ 1) (accuracy : ℝ)
    (ha : 1 - (if o.missing then (unrecordable U S o.eta : ℝ) else 0) + 1e-8 < accuracy) :
    ∃ F, ∀ fuel ≥ F, ∀ r, (gccuDistribution (factoryPermanent gray t fuel) U fuel o S accuracy).Runs r →
      r = .error .outOfFuel := by
  obtain ⟨m, hm⟩ : ∃ m, S.length = m + 1 := ⟨S.length - 1, by have := List.length_pos_of_ne_nil h.ne; omega⟩
  have hph : (if o.missing then -1 else 0 : ℝ) ≤ 0 := by split_ifs <;> norm_num
  refine ⟨genFuel m S.sum + (S.map (· + 1)).prod, fun fuel hfuel r hr => ?_⟩
  obtain ⟨o1, g1, g2⟩ := gccuInitialize_fills U S m hm fuel (by omega) o
  unfold gccuDistribution at hr
  rw [g1] at hr
  have hcond : ∀ o', XInv U S o.eta (if o.missing then -1 else 0) (allStates m S.sum true) o' → decide (¬ IsCloseToZero (max (accuracy - o'.dist.sum) 0)) = true := ?_
  rcases Prog.all_bind (gccuRepeat_never (factory_permOn gray hgray t U S h.square h.len.le h.ne fuel (by omega)) h.used
    h.len.symm (fun o => decide (¬ IsCloseToZero (max (accuracy - o.dist.sum) 0))) hcond fuel o1 g2)
    (J := fun _ => False) (fun _ h => h.elim) r hr with ⟨_, _, h⟩ | ⟨e, h, h'⟩
  · exact h.elim
  · rw [h, h']
  · intro o' ho'
    rw [decide_eq_true_iff, isClose_iff]
    have := (ho'.sum1 hm h h0 h1 hph).1
    split_ifs at ha this <;> linarith

/-- C76 for `compute_unweighted_distribution_up_to_accuracy`, first half: its entries add up to the
number of particles if light gets through at all, but the vacuum is never recorded. -/
theorem C76_unweighted_returns {U : List (List ℂ)} {S : List ℕ} (h : Interferometer U S) (hn : S.sum ≠ 0) (o : GccuObj)
    (h0 : 0 ≤ o.eta) (h1 : o.eta ≤ 1) (accuracy : ℝ)
    (ha : accuracy ≤ ((if 0 < o.eta then (S.sum : ℝ) else 0)
      - (if o.missing then (unrecordable U S o.eta : ℝ) + 1 else 0)) / S.sum + 1e-8) :
    Tendsto (fun fuel => (gccuUnweighted (factoryPermanent gray t fuel) U fuel o S accuracy).prob
      fun r => ∀ x, r ≠ .ok x) atTop (nhds 0) := by
  obtain ⟨m, hm⟩ : ∃ m, S.length = m + 1 := ⟨S.length - 1, by have := List.length_pos_of_ne_nil h.ne; omega⟩
  have hph : (if o.missing then -1 else 0 : ℝ) ≤ 0 := by split_ifs <;> norm_num
  obtain ⟨ε, e1, e2, e3⟩ := gccuRepeat_unfinished h.used h.len.symm h0 h1 (allStates m S.sum true)
    (if o.missing then -1 else 0)
  refine tendsto_of_waitBound e1 e2 (allStates m S.sum true).length (genFuel m S.sum + (S.map (· + 1)).prod) _ fun fuel hfuel => ?_
  obtain ⟨o1, g1, g2⟩ := gccuInitialize_fills U S m hm fuel (by omega) o
  unfold gccuUnweighted
  rw [g1, if_neg hn]
  refine (prob_after_loop _ _).trans_le (e3 _ (factory_permOn gray hgray t U S h.square h.len.le h.ne fuel (by omega)) _
    (fun o' ho' hz => ?_) fuel o1 g2)
  rw [decide_eq_false_iff_not, not_not, isClose_iff, (ho'.sum2 hm h h0 h1 hph).2 hz]
  have e : ∀ x : ℝ, (if o.missing = true then -1 else 0) * (x + 1) = -(if o.missing = true then x + 1 else 0) := by
    intro x; split_ifs <;> ring
  rw [e, ← sub_eq_add_neg]
  linarith

open Classical in
/-- C76 for the unweighted distribution, second half. -/
theorem C76_unweighted_never {U : List (List ℂ)} {S : List ℕ} (h : Interferometer U S) (hn : S.sum ≠ 0) (o : GccuObj)
    (h0 : 0 ≤ o.eta) (h1 : o.eta ≤ 1) (accuracy : ℝ)
    (ha : ((if 0 < o.eta then (S.sum : ℝ) else 0)
      - (if o.missing then (unrecordable U S o.eta : ℝ) + 1 else 0)) / S.sum + 1e-8 < accuracy) :
    ∃ F, ∀ fuel ≥ F, ∀ r, (gccuUnweighted (factoryPermanent gray t fuel) U fuel o S accuracy).Runs r →
      r = .error .outOfFuel := by
  obtain ⟨m, hm⟩ : ∃ m, S.length = m + 1 := ⟨S.length - 1, by have := List.length_pos_of_ne_nil h.ne; omega⟩
  have hph : (if o.missing then -1 else 0 : ℝ) ≤ 0 := by split_ifs <;> norm_num
  refine ⟨genFuel m S.sum + (S.map (· + 1)).prod, fun fuel hfuel r hr => ?_⟩
  obtain ⟨o1, g1, g2⟩ := gccuInitialize_fills U S m hm fuel (by omega) o
  unfold gccuUnweighted at hr
  rw [g1, if_neg hn] at hr
  have hcond : ∀ o', XInv U S o.eta (if o.missing then -1 else 0) (allStates m S.sum true) o' → decide (¬ IsCloseToZero (max (accuracy - o'.udist.sum / (S.sum : ℝ)) 0)) = true := ?_
  rcases Prog.all_bind (gccuRepeat_never (factory_permOn gray hgray t U S h.square h.len.le h.ne fuel (by omega)) h.used
    h.len.symm (fun o => decide (¬ IsCloseToZero (max (accuracy - o.udist.sum / (S.sum : ℝ)) 0))) hcond fuel o1 g2)
    (J := fun _ => False) (fun _ h => h.elim) r hr with ⟨_, _, h⟩ | ⟨e, h, h'⟩
  · exact h.elim
  · rw [h, h']
  · intro o' ho'
    rw [decide_eq_true_iff, isClose_iff]
    have := (ho'.sum2 hm h h0 h1 hph).1
    have e : ∀ x : ℝ, (if o.missing = true then -1 else 0) * (x + 1) = -(if o.missing = true then x + 1 else 0) := by
      intro x; split_ifs <;> ring
    rw [e, ← sub_eq_add_neg] at this
    have hpos : (0 : ℝ) < S.sum := by exact_mod_cast Nat.pos_of_ne_zero hn
    have := (div_le_div_iff_of_pos_right hpos).mpr this
    linarith

/-- A concrete case: with the default settings the whole distribution is computed. -/
example : Tendsto (fun fuel => (gccuDistribution (factoryPermanent gray t fuel) [[3 / 5, 4 / 5], [4 / 5, -3 / 5]] fuel
    (gccuInit (1 / 2) false) [1, 1] 1).prob fun r => ∀ x, r ≠ .ok x) atTop (nhds 0) :=
  C76_returns gray hgray t (rotation_interferometer [1, 1] rfl) _ (by norm_num [gccuInit]) (by norm_num [gccuInit]) 1
    (by norm_num [gccuInit])

/-- A concrete case: the same for the unweighted distribution. -/
example : Tendsto (fun fuel => (gccuUnweighted (factoryPermanent gray t fuel) [[3 / 5, 4 / 5], [4 / 5, -3 / 5]] fuel
    (gccuInit (1 / 2) false) [1, 1] 1).prob fun r => ∀ x, r ≠ .ok x) atTop (nhds 0) :=
  C76_unweighted_returns gray hgray t (rotation_interferometer [1, 1] rfl) (by simp) _ (by norm_num [gccuInit])
    (by norm_num [gccuInit]) 1 (by norm_num [gccuInit])

/-- With missing values marked the unweighted loop with the default accuracy 1 never ends, whatever
the matrix and the input: the vacuum keeps its `-1`. -/
theorem C76_unweighted_marked {U : List (List ℂ)} {S : List ℕ} (h : Interferometer U S) (hn : 0 < S.sum)
    (hb : S.sum < 100000000) (o : GccuObj) (h0 : 0 ≤ o.eta) (h1 : o.eta ≤ 1) (hm : o.missing = true) :
    ∃ F, ∀ fuel ≥ F, ∀ r, (gccuUnweighted (factoryPermanent gray t fuel) U fuel o S 1).Runs r → r = .error .outOfFuel := by
  refine C76_unweighted_never gray hgray t h hn.ne' o h0 h1 1 ?_
  have hpos : (0 : ℝ) < S.sum := by exact_mod_cast hn
  have hb' : (S.sum : ℝ) < 100000000 := by exact_mod_cast hb
  rw [if_pos hm, ← lt_sub_iff_add_lt, div_lt_iff₀ hpos]
  have hu : (0 : ℝ) ≤ unrecordable U S o.eta := by positivity
  have : (if 0 < o.eta then (S.sum : ℝ) else 0) ≤ S.sum := by split_ifs <;> linarith
  have e : (1 : ℝ) - 1e-8 = 99999999 / 100000000 := by norm_num
  rw [e]
  linarith

/-- With the default transmissivity 0 the unweighted loop never ends. -/
theorem C76_unweighted_dark {U : List (List ℂ)} {S : List ℕ} (h : Interferometer U S) (hn : S.sum ≠ 0) (missing : Bool)
    (accuracy : ℝ) (ha : 1e-8 < accuracy) :
    ∃ F, ∀ fuel ≥ F, ∀ r, (gccuUnweighted (factoryPermanent gray t fuel) U fuel (gccuInit 0 missing) S accuracy).Runs r →
      r = .error .outOfFuel := by
  refine C76_unweighted_never gray hgray t h hn _ (le_refl _) zero_le_one accuracy ?_
  have hu : (0 : ℝ) ≤ unrecordable U S (gccuInit 0 missing).eta := by positivity
  have hpos : (0 : ℝ) < S.sum := by exact_mod_cast Nat.pos_of_ne_zero hn
  refine lt_of_le_of_lt (add_le_of_nonpos_left ?_) ha
  refine div_nonpos_of_nonpos_of_nonneg ?_ hpos.le
  rw [if_neg (by simp [gccuInit])]
  split_ifs <;> linarith

/-- With missing values marked the weighted loop need not end either: two particles in the first
mode of the trivial interferometer are never seen in the second mode, whose entry keeps its `-1`. -/
theorem C76_marked_witness (eta : ℝ) (h0 : 0 ≤ eta) (h1 : eta ≤ 1) :
    ∃ F, ∀ fuel ≥ F, ∀ r, (gccuDistribution (factoryPermanent gray t fuel) [[1, 0], [0, 1]] fuel (gccuInit eta true)
      [2, 0] 1).Runs r → r = .error .outOfFuel := by
  have hI : Interferometer [[1, 0], [0, 1]] [2, 0] := ⟨by simp, rfl, by simp, by
    intro a ha b hb
    have ha' : a = 0 ∨ a = 1 := by simp at ha; omega
    have hb' : b = 0 ∨ b = 1 := by simp at hb; omega
    rcases ha' with rfl | rfl <;> rcases hb' with rfl | rfl <;> simp [sum_range_succ, mget]⟩
  refine C76_never gray hgray t hI _ h0 h1 1 ?_
  have hfin : {T : List ℕ | T.length = [2, 0].length ∧ T.sum ≤ [2, 0].sum ∧ T.sum ≠ 0 ∧
      ¬ Recordable [[1, 0], [0, 1]] [2, 0] eta T}.Finite := by
    refine (statesUpTo 2 2).finite_toSet.subset fun T hT => ?_
    rw [mem_coe, mem_statesUpTo]
    exact ⟨hT.1, hT.2.1⟩
  have hpos : 0 < unrecordable [[1, 0], [0, 1]] [2, 0] eta := by
    refine (Set.ncard_pos hfin).mpr ⟨[0, 2], rfl, by simp, by simp, ?_⟩
    rintro ⟨-, r, j, e1, -, e3, e4, e5⟩
    have hs := congrArg List.sum e5
    rw [modify_sum _ _ (by omega)] at hs
    match r, e1 with
    | [a, b], _ =>
      have hj : j = 0 ∨ j = 1 := by simp at e3; omega
      rcases hj with rfl | rfl
      · simp at e5
      · have e5 : 0 = a ∧ 2 = b + 1 := by simpa using e5
        obtain ⟨rfl, rfl⟩ : a = 0 ∧ b = 1 := by omega
        have hz : fixedLossProb [[1, 0], [0, 1]] [2, 0] 1 [0, 1] = 0 := by
          unfold fixedLossProb
          rw [sum_eq_zero, zero_div]
          intro A hA
          have hA := (mem_powersetCard.mp hA).2
          have hsum : (stateOf A).sum = 1 := by rw [stateOf_sum, hA]
          have h2 : (stateOf A).getD 1 0 = 0 := by
            rw [getD_of_lt _ _ (by rw [stateOf_length]; simp)]
            simp only [stateOf, List.getElem_ofFn, card_eq_zero, filter_eq_empty_iff]
            rintro ⟨i, x⟩ - hx
            have hi : i = 1 := hx
            subst hi
            exact x.elim0
          have hl := stateOf_length A
          obtain ⟨x, y, hxy⟩ : ∃ x y, stateOf A = [x, y] := by
            match h : stateOf A, hl with
            | [x, y], _ => exact ⟨x, y, rfl⟩
          rw [hxy] at hsum h2 ⊢
          have hy : y = 0 := h2
          subst hy
          have hx : x = 1 := by simpa using hsum
          subst hx
          have hp : scatteringPermanent [[(1 : ℂ), 0], [0, 1]] [1, 0] [0, 1] = 0 := by
            change Matrix.permanent (Matrix.of fun (a b : Fin 1) =>
              mget [[(1 : ℂ), 0], [0, 1]] ([1].getD a 0) ([0].getD b 0)) = _
            simp [Matrix.permanent, mget]
          rw [bosonProb, hp]
          simp
        exact absurd e4 (by rw [show ([0, 1] : List ℕ).sum = 1 from rfl, hz]; exact lt_irrefl _)
  have hp' : (1 : ℝ) ≤ unrecordable [[1, 0], [0, 1]] [2, 0] eta := by exact_mod_cast hpos
  simp only [gccuInit, if_true]
  norm_num
  linarith

end

end Verif
