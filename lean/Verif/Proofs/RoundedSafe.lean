import Verif.Proofs.RoundedRuns
import Verif.Proofs.CliffordsBRuns

/-! Helper lemmas: draws in floating-point arithmetic stay in range, or do not. -/
namespace Verif

open Finset
open scoped ENNReal

theorem mapM_inv {α β : Type} (f : α → Py β) (I : β → Prop) (l : List α) (h : ∀ a ∈ l, ∀ b, f a = .ok b → I b)
    (bs : List β) (hl : l.mapM f = .ok bs) : bs.length = l.length ∧ ∀ b ∈ bs, I b := by
  induction l generalizing bs with
  | nil => rw [List.mapM_nil] at hl; injection hl with hl; subst hl; simp
  | cons a l ih =>
    rw [List.mapM_cons] at hl
    cases h1 : f a with
    | error e => rw [h1, error_bind] at hl; cases hl
    | ok b =>
      rw [h1, ok_bind] at hl
      cases h2 : l.mapM f with
      | error e => rw [h2, error_bind] at hl; cases hl
      | ok bs' =>
        rw [h2, ok_bind] at hl
        injection hl with hl
        subst hl
        obtain ⟨h3, h4⟩ := ih (fun a ha => h a (by simp [ha])) bs' h2
        refine ⟨by simp [h3], fun c hc => ?_⟩
        rcases List.mem_cons.mp hc with rfl | hc
        · exact h a (by simp) _ h1
        · exact h4 c hc

theorem foldlM_preserves {α β : Type} (f : β → α → Py β) (I : β → Prop) (l : List α)
    (h : ∀ b, I b → ∀ a ∈ l, ∀ b', f b a = .ok b' → I b') (b b' : β) (hb : I b) (hl : l.foldlM f b = .ok b') : I b' := by
  induction l generalizing b with
  | nil => injection hl with hl; subst hl; exact hb
  | cons a l ih =>
    rw [List.foldlM_cons] at hl
    cases h1 : f b a with
    | error e => rw [h1, error_bind] at hl; cases hl
    | ok c =>
      rw [h1, ok_bind] at hl
      exact ih (fun b hb a ha => h b hb a (by simp [ha])) c (h b hb a (by simp) c h1) hl

variable (R : Rounding)

/-! ### The pmfs consist of nonnegative floats -/

theorem calculateWeightR_nonneg (S k : List ℕ) (w : ℝ) (h : calculateWeightR R S k = .ok w) : IsFloat w ∧ 0 ≤ w := by
  unfold calculateWeightR at h
  simp only at h
  split at h
  · cases h
  · refine foldlM_preserves _ (fun w => IsFloat w ∧ 0 ≤ w) _ ?_ _ _ ⟨R.isFloat _, R.nonneg (by positivity)⟩ h
    intro b hb m _ b' hb'
    cases h1 : pyGetN S m with
    | error e => rw [h1, error_bind] at hb'; cases hb'
    | ok s =>
      rw [h1, ok_bind] at hb'
      cases h2 : pyGetN k m with
      | error e => rw [h2, error_bind] at hb'; cases hb'
      | ok j =>
        rw [h2, ok_bind] at hb'
        injection hb' with hb'
        rw [← hb']
        exact ⟨R.isFloat _, R.nonneg (mul_nonneg hb.2 (R.nonneg (Nat.cast_nonneg _)))⟩

theorem layerWeightsR_nonneg (S : List ℕ) (inputs : List (List ℕ)) (ws : List ℝ)
    (h : layerWeightsR R S inputs = .ok ws) : Weights ws := by
  unfold layerWeightsR at h
  generalize (List.mapM _ inputs : Py (List (List ℕ))) = x at h
  cases x with
  | error e => rw [error_bind] at h; cases h
  | ok ks =>
    rw [ok_bind] at h
    cases h1 : ks.mapM (calculateWeightR R S) with
    | error e => rw [h1, error_bind] at h; cases h
    | ok raw =>
      rw [h1, ok_bind] at h
      have hr : Weights raw := (mapM_inv _ (fun w => IsFloat w ∧ 0 ≤ w) _
        (fun k _ w hw => calculateWeightR_nonneg R S k w hw) raw h1).2
      split at h
      · cases h
      · refine (mapM_inv _ (fun w => IsFloat w ∧ 0 ≤ w) _ ?_ ws h).2
        intro w hw w' hw'
        split at hw'
        · cases hw'
        · injection hw' with hw'
          rw [← hw']
          exact ⟨R.isFloat _, R.nonneg (div_nonneg (hr w hw).2 (sumR_nonneg R hr))⟩

theorem foldDivR_nonneg (l : List ℕ) (x : ℝ) (hx : 0 ≤ x) :
    0 ≤ l.foldl (fun (p : ℝ) o => R.rnd (p / R.rnd o.factorial)) x := by
  induction l generalizing x with
  | nil => exact hx
  | cons o l ih => exact ih _ (R.nonneg (div_nonneg hx (R.nonneg (Nat.cast_nonneg _))))

/-- The values of the calculator are not negative. -/
def SqNonneg (sq : CalcCfg ℂ → Py ℝ) : Prop := ∀ c x, sq c = .ok x → 0 ≤ x

theorem pmfEntryR_nonneg {sq : CalcCfg ℂ → Py ℝ} (hsq : SqNonneg sq) (U : List (List ℂ)) (inputs : List (List ℕ))
    (ws : List ℝ) (hws : Weights ws) (out : List ℕ) (x : ℝ) (h : pmfEntryR R sq U inputs ws out = .ok x) :
    IsFloat x ∧ 0 ≤ x := by
  unfold pmfEntryR at h
  refine foldlM_preserves _ (fun w => IsFloat w ∧ 0 ≤ w) _ ?_ _ _ ⟨isFloat_zero, le_rfl⟩ h
  intro b hb i _ b' hb'
  cases h1 : pyGetN inputs i with
  | error e => rw [h1, error_bind] at hb'; cases hb'
  | ok st =>
    rw [h1, ok_bind] at hb'
    unfold outputsProbabilityR at hb'
    cases h2 : sq ⟨U, st, out⟩ with
    | error e => rw [h2, error_bind, error_bind] at hb'; cases hb'
    | ok y =>
      rw [h2, ok_bind] at hb'
      simp only [pure_eq_ok, ok_bind] at hb'
      cases h3 : pyGetN ws i with
      | error e => rw [h3, error_bind] at hb'; cases hb'
      | ok w =>
        rw [h3, ok_bind] at hb'
        injection hb' with hb'
        rw [← hb']
        refine ⟨R.isFloat _, R.nonneg (add_nonneg hb.2 (R.nonneg (mul_nonneg (R.nonneg (div_nonneg
          (foldDivR_nonneg R _ _ (hsq _ _ h2)) (R.nonneg (Nat.cast_nonneg _)))) (hws w (mem_of_pyGetN h3)).2)))⟩

theorem layerPmfR_weights {v : GccVariant} {sq : CalcCfg ℂ → Py ℝ} (hsq : SqNonneg sq) (U : List (List ℂ)) (S : List ℕ)
    (lab : List (ℕ × List (List ℕ))) (r : List ℕ) (P : List ℝ) (h : layerPmfR R v sq U S lab r = .ok P) :
    P.length = (v.next S r).length ∧ Weights P := by
  unfold layerPmfR at h
  simp only at h
  cases h1 : layerWeightsR R S ((assocGet lab (v.count r + 1)).getD []) with
  | error e => rw [h1, error_bind] at h; cases h
  | ok ws =>
    rw [h1, ok_bind] at h
    have hw := layerWeightsR_nonneg R S _ ws h1
    refine mapM_inv _ (fun w => IsFloat w ∧ 0 ≤ w) _ ?_ P h
    intro out _ x hx
    cases h2 : v.occ S out with
    | error e => rw [h2, error_bind] at hx; cases hx
    | ok occ =>
      rw [h2, ok_bind] at hx
      exact pmfEntryR_nonneg R hsq U _ ws hw occ x hx

/-! ### The whole sampler -/

/-- The states of the loop of `_fill_r_sample` that draws with a positive computed pmf entry lead to. -/
inductive Reached (v : GccVariant) (sq : CalcCfg ℂ → Py ℝ) (U : List (List ℂ)) (S : List ℕ) : List ℕ → Prop
  | start : Reached v sq U S (v.start S)
  | step (r : List ℕ) (P : List ℝ) (j : ℕ) (r' : List ℕ) : Reached v sq U S r → v.count r < S.sum →
      layerPmfR R v sq U S (labeledStates S) r = .ok P → 0 < P.getD j 0 → (v.next S r)[j]? = some r' →
      Reached v sq U S r'

theorem all_randomR {α : Type} {k : ℝ → Prog α} {I : α → Prop} {E : PyErr → Prop}
    (h : ∀ u, IsRandom u → (k u).All I E) : (randomR.bind k).All I E := by
  unfold randomR Prog.randBelow
  simp only [Prog.bind_eq, Prog.bind, Prog.pure_eq]
  exact Prog.all_randint (fun h0 => absurd h0 (by norm_num)) fun i hi => h _ ⟨i, hi, rfl⟩

section

variable {v : GccVariant} {S : List ℕ} (V : VariantOK v S)

theorem fillStepR_safe {sq : CalcCfg ℂ → Py ℝ} {U : List (List ℂ)} (hsq : SqNonneg sq)
    (hT : ∀ r, Reached R v sq U S r → v.count r < S.sum →
      ∃ P, layerPmfR R v sq U S (labeledStates S) r = .ok P ∧ (2 : ℝ) ^ (-1022 : ℤ) < sumR R P)
    (o : GccObj) (ho : CacheR R V sq U o) (hr : V.val o.r) (hkey : o.key = o.r) (hR : Reached R v sq U S o.r)
    (hk : (V.seqOf o.r).length < S.sum) :
    (fillStepR R v sq U o).All
      (fun o' => (CacheR R V sq U o' ∧ V.val o'.r ∧ o'.key = o'.r ∧ Reached R v sq U S o'.r) ∧
        (V.seqOf o'.r).length = (V.seqOf o.r).length + 1) (fun _ => False) := by
  have hcnt : v.count o.r < S.sum := by rw [V.count _ hr]; exact hk
  obtain ⟨P, hP, hs⟩ := hT o.r hR hcnt
  obtain ⟨hlen, hW⟩ := layerPmfR_weights R hsq U S _ _ P hP
  obtain ⟨o', h1, h2, h3, h4, h5, h6⟩ := fillStepR_eq R V o ho hr hkey hk P hP
  rw [h1]
  unfold sampleFromLatestPmfR
  rw [assocGetPy_ok h5, assocGetPy_ok h6]
  simp only [Prog.bind_eq, Prog.lift_def, Prog.pure_eq, Prog.done_ok_bind]
  refine all_randomR fun u hu => ?_
  obtain ⟨hi, hpi⟩ := gccSelect_lt R hu hW hs
  generalize gccSelect R u P = i at hi hpi
  have hl : (v.next S o.r).length = S.length := by rw [V.next _ hr]; simp
  have hi' : i < S.length := by omega
  have hnx : (v.next S o.r)[i]'(by omega) = V.nx o.r i := by simp [V.next _ hr]
  rw [pyGetN_ok hi, pyGetN_ok (hlen ▸ hi)]
  simp only [Prog.done_ok_bind]
  refine Prog.all_done_ok ⟨⟨⟨h2.input, h2.labeled, h2.cache⟩, ?_, rfl, ?_⟩, ?_⟩
  · simp only; rw [hnx]; exact V.nx_val _ hr i hi'
  · exact .step o.r P i _ hR hcnt hP hpi (by rw [List.getElem?_eq_getElem (hlen ▸ hi)])
  · simp only; rw [hnx, (V.nx_seq _ hr i hi').length_eq, List.length_cons]

theorem fillR_safe {sq : CalcCfg ℂ → Py ℝ} {U : List (List ℂ)} (hsq : SqNonneg sq)
    (hT : ∀ r, Reached R v sq U S r → v.count r < S.sum →
      ∃ P, layerPmfR R v sq U S (labeledStates S) r = .ok P ∧ (2 : ℝ) ^ (-1022 : ℤ) < sumR R P)
    (fuel : ℕ) (hfuel : S.sum < fuel) (o : GccObj) (ho : CacheR R V sq U o) :
    (fillRSampleR R v sq U fuel o).All
      (fun o' => CacheR R V sq U o' ∧ V.val o'.r ∧ (V.seqOf o'.r).length = S.sum) (fun _ => False) := by
  unfold fillRSampleR
  have := Prog.all_loop (E := fun _ => False) (cond := fun o : GccObj => decide (v.count o.r < o.input.sum))
    (body := fillStepR R v sq U)
    (fun d o => (CacheR R V sq U o ∧ V.val o.r ∧ o.key = o.r ∧ Reached R v sq U S o.r) ∧
      (V.seqOf o.r).length + d = S.sum)
    (fun o ho => by rw [decide_eq_false_iff_not, V.count _ ho.1.2.1, ho.1.1.input]; omega)
    (fun d o ho => by rw [decide_eq_true_eq, V.count _ ho.1.2.1, ho.1.1.input]; omega)
    (fun d o ho => Prog.all_mono (fillStepR_safe R V hsq hT o ho.1.1 ho.1.2.1 ho.1.2.2.1 ho.1.2.2.2 (by omega))
      (fun o' h => ⟨h.1, by omega⟩) fun _ h => h)
    S.sum fuel hfuel { o with r := v.start S, key := v.start S }
    ⟨⟨⟨ho.input, ho.labeled, ho.cache⟩, V.start_val, rfl, .start⟩, by simp only; rw [V.start_seq]; simp⟩
  have e : v.start o.input = v.start S := by rw [ho.input]
  rw [e]
  exact Prog.all_mono this (fun o' h => ⟨h.1.1, h.1.2.1, by omega⟩) fun _ h => h

theorem simulateLoopR_safe {sq : CalcCfg ℂ → Py ℝ} {U : List (List ℂ)} (hsq : SqNonneg sq)
    (hT : ∀ r, Reached R v sq U S r → v.count r < S.sum →
      ∃ P, layerPmfR R v sq U S (labeledStates S) r = .ok P ∧ (2 : ℝ) ^ (-1022 : ℤ) < sumR R P)
    (fuel : ℕ) (hfuel : S.sum < fuel) (N : ℕ) (o : GccObj) (ho : CacheR R V sq U o) :
    (simulateLoopR R v sq U fuel N o).All
      (fun x => x.1.length = N ∧ ∀ T ∈ x.1, T.length = S.length ∧ T.sum = S.sum) (fun _ => False) := by
  induction N generalizing o with
  | zero => exact Prog.all_done_ok ⟨rfl, by simp⟩
  | succ N ih =>
    rw [simulateLoopR, Prog.bind_eq]
    refine Prog.all_bind (fillR_safe R V hsq hT fuel hfuel o ho) ?_
    rintro o' ⟨h1, h2, h3⟩
    rw [h1.input, V.occ _ h2]
    simp only [Prog.lift_def, Prog.bind_eq, Prog.done_ok_bind]
    refine Prog.all_bind (ih o' h1) ?_
    rintro ⟨l, o''⟩ ⟨h5, h4⟩
    refine Prog.all_done_ok ⟨by simp only [List.length_cons]; rw [h5], ?_⟩
    intro T hT
    rcases List.mem_cons.mp hT with rfl | hT
    · exact ⟨occOf_length _ _, by rw [occOf_sum _ _ (V.lt _ h2), h3]⟩
    · exact h4 T hT

include V in
theorem gccSimulateR_safe {sq : CalcCfg ℂ → Py ℝ} {U : List (List ℂ)} (hsq : SqNonneg sq)
    (hT : ∀ r, Reached R v sq U S r → v.count r < S.sum →
      ∃ P, layerPmfR R v sq U S (labeledStates S) r = .ok P ∧ (2 : ℝ) ^ (-1022 : ℤ) < sumR R P)
    (fuel : ℕ) (hfuel : S.sum < fuel) (N : ℤ) (o : GccObj) :
    (gccSimulateR R v sq U fuel o S N).All
      (fun x => x.1.length = N.toNat ∧ ∀ T ∈ x.1, T.length = S.length ∧ T.sum = S.sum) (fun _ => False) :=
  simulateLoopR_safe R V hsq hT fuel hfuel N.toNat _ ⟨rfl, rfl, fun _ _ h => by simp [assocGet] at h⟩

end

/-! ### More particles than there are -/

section

variable {sub : CalcCfg ℂ → Py (List ℂ)} {U : List (List ℂ)} {S : List ℕ} {n : ℕ}

/-- Asked for more particles than the input has, `_fill_r_sample` of version B raises. -/
theorem gccbFill_over (h : BOk sub U S n) (t fuel : ℕ) (ht : S.sum < t) (hfuel : t < fuel) :
    (gccbFill sub U fuel S (particles S) t).All (fun _ => False) (fun e => e = .valueError) := by
  unfold gccbFill
  have hpz : particles (S.map fun _ => 0) = [] := by
    apply List.eq_nil_of_length_eq_zero
    rw [particlesFrom_length]; simp
  have := Prog.all_loop (E := fun e => e = .valueError) (cond := fun s : GccbState => decide (s.r.sum < t))
    (body := gccbStep sub U S.length)
    (fun d s => (∃ A, BInv S s A ∧ 0 < phi (colOf U) (particles s.r) (modesOf A)) ∧ s.r.sum + d = t ∧ s.r.sum ≤ S.sum)
    (fun s hs => by rw [decide_eq_false_iff_not]; omega)
    (fun d s hs => by rw [decide_eq_true_eq]; omega)
    (fun d s ⟨⟨A, hA, hp⟩, hd, hle⟩ => by
      rcases lt_or_eq_of_le hle with hlt | heq
      · exact Prog.all_mono (gccbStep_live h s A hA hp hlt) (fun s' h' => ⟨h'.1, by omega, by omega⟩)
          fun _ h => h.elim
      · have hwork : s.work = [] := by
          apply List.eq_nil_of_length_eq_zero
          have hc : Aᶜ.card = S.sum - A.card := by rw [card_compl, card_particle]
          rw [hA.work.length_eq, modesOf_length, hc, hA.card]
          omega
        unfold gccbStep gccbUpdateInput
        rw [hwork]
        exact Prog.all_bind (I := fun _ => False)
          (Prog.all_randint (fun _ => rfl) fun i hi => absurd hi (by simp)) fun _ h => h.elim)
    t fuel hfuel _ ⟨⟨∅, binv_start S, by rw [hpz]; simp [modesOf, phi, amp, lperm, multFact]⟩, by simp, by simp⟩
  exact Prog.all_mono this (fun s ⟨_, hd, hle⟩ => by omega) fun _ h => h

end

/-! ### The probability of leaving the range -/

theorem scanIndexR_past (x cur : ℝ) (ps : List ℝ) (h : Weights ps) (hc : IsFloat cur) (hx : accR R cur ps ≤ x) :
    scanIndexR R x ps cur = ps.length := by
  induction ps generalizing cur with
  | nil => rfl
  | cons p ps ih =>
    rw [accR_cons] at hx
    have := accR_ge R (R.isFloat (cur + p)) ps h.tail
    rw [scanIndexR, if_neg (by linarith), ih _ h.tail (R.isFloat _) hx, List.length_cons]

/-- A draw leaves the range exactly when the random number is not below the computed sum. -/
theorem scanIndexR_range {u : ℝ} (hu : IsRandom u) {ps : List ℝ} (h : Weights ps) :
    scanIndexR R u ps 0 < ps.length ↔ u < sumR R ps := by
  have h0 : 0 ≤ u := by obtain ⟨k, -, rfl⟩ := hu; positivity
  constructor
  · intro hlt
    by_contra hcon
    push Not at hcon
    rw [scanIndexR_past R u 0 ps h isFloat_zero hcon] at hlt
    exact lt_irrefl _ hlt
  · intro hlt
    exact (scanIndexR_lt R u 0 ps h isFloat_zero h0 hlt).1

theorem scanIndexR_length_le (x cur : ℝ) (ps : List ℝ) : scanIndexR R x ps cur ≤ ps.length := by
  induction ps generalizing cur with
  | nil => exact le_rfl
  | cons p ps ih =>
    rw [scanIndexR, List.length_cons]
    split
    · omega
    · have := ih (R.rnd (cur + p)); omega

/-- The number of values of `random()` that are not below `s`. -/
theorem card_random_ge (s : ℝ) :
    (((range (2 ^ 53)).filter fun k : ℕ => s ≤ (k : ℝ) / 2 ^ 53).card : ℝ) / 2 ^ 53 ≤ max 0 (1 - s) := by
  rcases le_or_gt 1 s with h1 | h1
  · rw [filter_false_of_mem]
    · simp
    · intro k hk hcon
      have hk : (k : ℝ) < 2 ^ 53 := by exact_mod_cast mem_range.mp hk
      have : (k : ℝ) / 2 ^ 53 < 1 := by rw [div_lt_one (by positivity)]; exact hk
      linarith
  · rw [max_eq_right (by linarith), div_le_iff₀ (by positivity)]
    have hsub : ((range (2 ^ 53)).filter fun k : ℕ => s ≤ (k : ℝ) / 2 ^ 53) ⊆ Ico ⌈s * 2 ^ 53⌉₊ (2 ^ 53) := by
      intro k hk
      obtain ⟨hk1, hk2⟩ := mem_filter.mp hk
      rw [mem_Ico]
      refine ⟨Nat.ceil_le.mpr ?_, mem_range.mp hk1⟩
      rwa [le_div_iff₀ (by positivity)] at hk2
    have hc := card_le_card hsub
    rw [Nat.card_Ico] at hc
    have hle : ⌈s * 2 ^ 53⌉₊ ≤ 2 ^ 53 := by
      rw [Nat.ceil_le]; push_cast; nlinarith
    calc (((range (2 ^ 53)).filter fun k : ℕ => s ≤ (k : ℝ) / 2 ^ 53).card : ℝ)
        ≤ ((2 ^ 53 - ⌈s * 2 ^ 53⌉₊ : ℕ) : ℝ) := by exact_mod_cast hc
      _ = 2 ^ 53 - (⌈s * 2 ^ 53⌉₊ : ℝ) := by rw [Nat.cast_sub hle, Nat.cast_pow, Nat.cast_ofNat]
      _ ≤ (1 - s) * 2 ^ 53 := by
        have := Nat.le_ceil (s * 2 ^ 53)
        linarith

/-- The probability of an event that depends on one value of `random()`. -/
theorem randomR_prob {β : Type} (g : ℝ → β) (Q : Py β → Prop) [DecidablePred fun k : ℕ => Q (.ok (g ((k : ℝ) / 2 ^ 53)))] :
    (randomR.bind fun u => Prog.done (.ok (g u))).prob Q
      = ENNReal.ofReal ((((range (2 ^ 53)).filter fun k : ℕ => Q (.ok (g ((k : ℝ) / 2 ^ 53)))).card : ℝ) / 2 ^ 53) := by
  classical
  unfold Prog.prob
  rw [randomR_wp]
  simp only [Prog.wp]
  have e : (∑ k ∈ range (2 ^ 53), if Q (.ok (g ((k : ℝ) / 2 ^ 53))) then (1 : ℝ≥0∞) else 0)
      = (((range (2 ^ 53)).filter fun k : ℕ => Q (.ok (g ((k : ℝ) / 2 ^ 53)))).card : ℝ≥0∞) := by
    rw [← sum_boole]
  rw [ENNReal.ofReal_div_of_pos (by positivity), ENNReal.ofReal_natCast, ← e, ENNReal.ofReal_pow (by norm_num)]
  exact congrArg₂ (· / ·) (sum_congr rfl fun k _ => by congr) (by norm_num)

theorem prob_one_of_all {α : Type} {p : Prog α} {e : PyErr} (h : p.All (fun _ => False) (fun e' => e' = e)) :
    p.prob (fun r => r = .error e) = 1 := by
  unfold Prog.prob
  refine (Prog.wp_congr p _ (fun _ => 1) fun r hr => ?_).trans (Prog.wp_const p 1)
  rcases h r hr with ⟨_, _, h⟩ | ⟨e', h1, rfl⟩
  · exact h.elim
  · rw [if_pos h1]

theorem randomR_prob_ge {β : Type} (g : ℝ → Prog β) (Q : Py β → Prop) (k : ℕ) (hk : k < 2 ^ 53)
    (h : (g ((k : ℝ) / 2 ^ 53)).prob Q = 1) : ENNReal.ofReal (1 / 2 ^ 53) ≤ (randomR.bind g).prob Q := by
  classical
  unfold Prog.prob at h ⊢
  rw [randomR_wp, ENNReal.ofReal_div_of_pos (by positivity), ENNReal.ofReal_one]
  have h1 : 1 ≤ ∑ k ∈ range (2 ^ 53), (g ((k : ℝ) / 2 ^ 53)).wp fun r => if Q r then 1 else 0 := by
    refine h.symm.le.trans ?_
    generalize hM : 2 ^ 53 = M at hk
    exact single_le_sum (f := fun k : ℕ => (g ((k : ℝ) / 2 ^ 53)).wp fun r => if Q r then 1 else 0)
      (fun _ _ => zero_le) (mem_range.mpr hk)
  refine ENNReal.div_le_div ?_ (le_of_eq ?_)
  · exact h1
  · rw [ENNReal.ofReal_pow (by norm_num)]
    norm_num

/-! ### Fixed losses -/

theorem scanReachR_range (x p : ℝ) (ps : List ℝ) (h : Weights ps) (hp : IsFloat p) :
    scanReachR R x ps p ≤ ps.length ↔ x ≤ accR R p ps := by
  induction ps generalizing p with
  | nil =>
    rw [scanReachR, accR, List.foldl_nil]
    split
    · rename_i h; simp; linarith
    · rename_i h; simp; linarith
  | cons q ps ih =>
    rw [scanReachR, accR_cons]
    have h1 := accR_ge R (R.isFloat (p + q)) ps h.tail
    have h2 := R.ge_of_ge hp (x := p + q) (by have := (h q (by simp)).2; linarith)
    split
    · rw [List.length_cons, Nat.add_le_add_iff_right]; exact ih _ h.tail (R.isFloat _)
    · rename_i h3
      simp only [Nat.zero_le, true_iff]
      linarith

theorem scanReachR_le (x p : ℝ) (ps : List ℝ) : scanReachR R x ps p ≤ ps.length + 1 := by
  induction ps generalizing p with
  | nil => rw [scanReachR]; split <;> simp
  | cons q ps ih =>
    rw [scanReachR]
    split
    · have := ih (R.rnd (p + q)); rw [List.length_cons]; omega
    · omega

theorem fixedPhotonsR_hit {p : ℝ} {ps : List ℝ} {output : List ℕ} (hl : output.length = (p :: ps).length) (i k : ℕ)
    (hi : i ≤ ps.length) :
    (do
      if (p :: ps).length ≠ i then do
        let v ← (pyGetN output i : Py _)
        let output ← (pySetN output i (v + 1) : Py _)
        fixedPhotonsR R (p :: ps) k output
      else fixedPhotonsR R (p :: ps) k output : Prog (List ℕ))
      = fixedPhotonsR R (p :: ps) k (output.modify i (· + 1)) := by
  have hi' : i < output.length := by rw [hl, List.length_cons]; omega
  rw [if_pos (by rw [List.length_cons]; omega), pyGetN_ok hi']
  simp only [Prog.bind_eq, Prog.lift_def, Prog.done_ok_bind]
  rw [pySetN_ok hi', set_eq_modify _ _ hi']
  rfl

theorem sumR_cons {p : ℝ} (hp : IsFloat p) (ps : List ℝ) : sumR R (p :: ps) = accR R p ps := by
  rw [sumR_eq, accR_cons, zero_add, R.eq_self hp]

theorem fixedPhotonsR_safe {probs : List ℝ} (h : Weights probs) (hs : 1 - 1 / 2 ^ 53 ≤ sumR R probs) (k : ℕ)
    (output : List ℕ) (hl : output.length = probs.length) :
    (fixedPhotonsR R probs k output).All (fun out => out.length = output.length ∧ out.sum = output.sum + k)
      (fun _ => False) := by
  cases probs with
  | nil =>
    exfalso
    rw [sumR_eq, accR, List.foldl_nil] at hs
    norm_num at hs
  | cons p ps =>
    induction k generalizing output with
    | zero => exact Prog.all_done_ok ⟨rfl, rfl⟩
    | succ k ih =>
      rw [fixedPhotonsR]
      refine all_randomR fun u hu => ?_
      simp only [Prog.bind_eq, Prog.lift_def, Prog.done_ok_bind]
      have hle : scanReachR R u ps p ≤ ps.length := by
        rw [scanReachR_range R u p ps h.tail (h p (by simp)).1, ← sumR_cons R (h p (by simp)).1]
        refine le_trans ?_ hs
        obtain ⟨j, hj, rfl⟩ := hu
        have : ((j + 1 : ℕ) : ℝ) ≤ ((2 ^ 53 : ℕ) : ℝ) := by exact_mod_cast hj
        push_cast at this
        rw [div_le_iff₀ (by positivity)]
        norm_num at this ⊢
        linarith
      have e := fixedPhotonsR_hit R hl (scanReachR R u ps p) k hle
      simp only [Prog.bind_eq, Prog.lift_def] at e
      rw [e]
      refine Prog.all_mono (ih _ (by simpa using hl)) (fun out ho => ⟨by simpa using ho.1, ?_⟩) fun _ h => h
      rw [ho.2, modify_sum _ _ (by rw [hl, List.length_cons]; omega)]
      omega

theorem randomR_wp_le {β : Type} (g : ℝ → Prog β) (f : Py β → ℝ≥0∞) (F : ℕ → ℝ≥0∞)
    (h : ∀ j : ℕ, j < 2 ^ 53 → (g ((j : ℝ) / 2 ^ 53)).wp f ≤ F j) :
    (randomR.bind g).wp f ≤ (∑ j ∈ range (2 ^ 53), F j) / ((2 ^ 53 : ℕ) : ℝ≥0∞) := by
  rw [randomR_wp]
  exact ENNReal.div_le_div_right (sum_le_sum fun j hj => h j (mem_range.mp hj)) _

open Classical in
theorem avg_ge (s : ℝ) (c : ℝ≥0∞) :
    (∑ j ∈ range (2 ^ 53), ((if s ≤ (j : ℝ) / 2 ^ 53 then 1 else 0) + c)) / ((2 ^ 53 : ℕ) : ℝ≥0∞)
      ≤ ENNReal.ofReal (max 0 (1 - s)) + c := by
  rw [sum_add_distrib, sum_const, card_range, nsmul_eq_mul, ENNReal.add_div, sum_boole]
  refine add_le_add ?_ (le_of_eq ?_)
  · have := ENNReal.ofReal_le_ofReal (card_random_ge s)
    rw [ENNReal.ofReal_div_of_pos (by positivity), ENNReal.ofReal_natCast, ENNReal.ofReal_pow (by norm_num)] at this
    have e : ((2 ^ 53 : ℕ) : ℝ≥0∞) = ENNReal.ofReal 2 ^ 53 := by norm_num
    rw [e]
    exact this
  · rw [mul_comm]
    exact ENNReal.mul_div_cancel_right (by norm_num) (ENNReal.natCast_ne_top _)

theorem fixedPhotonsR_rare {probs : List ℝ} (h : Weights probs) (hne : probs ≠ []) (k : ℕ)
    (output : List ℕ) (hl : output.length = probs.length) :
    (fixedPhotonsR R probs k output).prob (fun r => ¬ ∃ out, r = .ok out ∧ out.length = output.length ∧
      out.sum = output.sum + k) ≤ k * ENNReal.ofReal (max 0 (1 - sumR R probs)) := by
  classical
  obtain ⟨p, ps, rfl⟩ := List.exists_cons_of_ne_nil hne
  set δ := ENNReal.ofReal (max 0 (1 - sumR R (p :: ps))) with hδ
  induction k generalizing output with
  | zero =>
    unfold Prog.prob
    simp [fixedPhotonsR, Prog.wp, Prog.pure_eq]
  | succ k ih =>
    rw [fixedPhotonsR]
    simp only [Prog.bind_eq, Prog.lift_def, Prog.done_ok_bind]
    unfold Prog.prob
    set s := sumR R (p :: ps) with hs
    refine le_trans (randomR_wp_le _ _ (fun j : ℕ => (if s ≤ (j : ℝ) / 2 ^ 53 then 1 else 0) + (k : ℝ≥0∞) * δ) ?_) ?_
    · intro j hj
      by_cases hle : scanReachR R ((j : ℝ) / 2 ^ 53) ps p ≤ ps.length
      · have e := fixedPhotonsR_hit R hl (scanReachR R ((j : ℝ) / 2 ^ 53) ps p) k hle
        simp only [Prog.bind_eq, Prog.lift_def] at e
        rw [e]
        have := ih (output.modify (scanReachR R ((j : ℝ) / 2 ^ 53) ps p) (· + 1)) (by simpa using hl)
        unfold Prog.prob at this
        rw [modify_sum _ _ (by rw [hl, List.length_cons]; omega), List.length_modify] at this
        have e2 : output.sum + 1 + k = output.sum + (k + 1) := by omega
        rw [e2] at this
        refine le_trans ?_ (le_trans this le_add_self)
        exact le_of_eq (congrArg _ (funext fun r => by beta_reduce; congr))
      · rw [scanReachR_range R _ p ps h.tail (h p (by simp)).1, ← sumR_cons R (h p (by simp)).1] at hle
        push Not at hle
        rw [if_pos hle.le]
        refine le_trans ?_ le_self_add
        refine le_trans (Prog.wp_mono _ _ (fun _ => 1) fun r _ => ?_) (le_of_eq (Prog.wp_const _ 1))
        split <;> simp
    refine le_trans (le_of_eq (congrArg (· / ((2 ^ 53 : ℕ) : ℝ≥0∞)) (sum_congr rfl fun j _ => ?_)))
      ((avg_ge s (k * δ)).trans (le_of_eq ?_))
    · congr
    · push_cast
      rw [add_mul, one_mul, add_comm, ← hδ]

end Verif
