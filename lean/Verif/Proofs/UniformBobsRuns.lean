import Verif.Proofs.UniformBobsSample

/-! Helper lemmas: runs of the sampler with uniform losses applied to the input. -/
namespace Verif

open Finset
open scoped ENNReal

variable {m : ℕ}

/-- Every program has a run. -/
theorem Prog.exists_run {α : Type} (p : Prog α) : ∃ r, p.Runs r := by
  induction p with
  | done r => exact ⟨r, rfl⟩
  | uniform k ih =>
    obtain ⟨r, hr⟩ := ih 0
    exact ⟨r, 0, le_rfl, zero_lt_one, hr⟩
  | randint n k ih =>
    rcases Nat.eq_zero_or_pos n with h | h
    · exact ⟨_, .inl ⟨h, rfl⟩⟩
    · obtain ⟨r, hr⟩ := ih 0
      exact ⟨r, .inr ⟨0, h, hr⟩⟩
  | choice w k ih =>
    by_cases hw : Prog.IsProbVector w
    · obtain ⟨i, hi, hp⟩ : ∃ i, ∃ hi : i < w.length, 0 < w[i] := by
        by_contra hno
        push Not at hno
        have : w.sum = 0 := List.sum_eq_zero fun x hx => by
          obtain ⟨i, hi, rfl⟩ := List.mem_iff_getElem.mp hx
          exact le_antisymm (hno i hi) (hw.1 _ hx)
        rw [hw.2] at this
        exact one_ne_zero this
      obtain ⟨r, hr⟩ := ih i
      exact ⟨r, .inr ⟨hw, i, hi, by rwa [getD_of_lt _ _ hi], hr⟩⟩
    · exact ⟨_, .inl ⟨hw, rfl⟩⟩
  | shuffle n k ih =>
    obtain ⟨r, hr⟩ := ih (List.range n)
    exact ⟨r, List.range n, .refl _, hr⟩

theorem uBobsThreadsNumber_pos (cpu : ℕ) (hc : 0 < cpu) (t : ℤ) : 0 < uBobsThreadsNumber cpu t := by
  unfold uBobsThreadsNumber
  split_ifs <;> omega

/-- The object built by the constructor. -/
noncomputable abbrev uBobsNew (U : Matrix (Fin m) (Fin m) ℂ) (cpu : ℕ) (eta : ℝ) (h : ℕ) (t : ℤ) : UBobsObj m :=
  { h := h, eta := eta, threads := uBobsThreadsNumber cpu t, U := U, qft := dftMatrix (m - h) m }

theorem uBobsInit_ok {U : Matrix (Fin m) (Fin m) ℂ} {cpu : ℕ} {eta : ℝ} {h : ℕ} {t : ℤ} {o : UBobsObj m}
    (ho : uBobsInit U cpu eta h t = .ok o) : o = uBobsNew U cpu eta h t := by
  unfold uBobsInit at ho
  rw [(generateQft_eq _ _ (Nat.sub_le _ _)).1] at ho
  injection ho with ho
  exact ho.symm

theorem repeatN_raise {α : Type} {p : Prog α} {E : PyErr → Prop} (h : p.All (fun _ => False) E) (n : ℕ) (hn : 0 < n) :
    (p.repeatN n).All (fun _ => False) E := by
  intro r hr
  rcases Prog.repeatN_all h n r hr with ⟨l, rfl, h5, h6⟩ | ⟨e, rfl, he⟩
  · cases l with
    | nil => simp at h5; omega
    | cons a l => exact (h6 a (by simp)).elim
  · exact .inr ⟨e, rfl, he⟩

/-- The weight of a lossy state of the exactly treated part. -/
noncomputable def partWeight (eta : ℝ) (s l : List ℕ) : ℝ := eta ^ l.sum * (1 - eta) ^ (s.sum - l.sum)

/-- Possible states of the approximated part and their weights. -/
noncomputable def approxStates (h : ℕ) (S : List ℕ) : List (List ℕ) :=
  (List.range ((S.drop h).sum + 1)).map fun l => l :: List.replicate ((S.drop h).length - 1) 0

theorem uBobsSimulate_eq (hash : List ℕ → ℤ) (sub : CalcCfg ℂ → Py (List ℂ)) (fuel : ℕ) (o : UBobsObj m) (S : List ℕ)
    (hS : S.length = m) (hh : HashOk hash (S.take o.h)) (ht : 0 < o.threads) (N : ℤ) (hN : 1 ≤ N) :
    ∃ L, L.Perm (lowerStates (S.take o.h)) ∧
      (o.h < m → uBobsSimulate hash sub fuel o S N
        = (uBobsSample sub fuel o L (L.map (partWeight o.eta (S.take o.h))) (approxStates o.h S)
            (gccbWeights (S.drop o.h).sum o.eta)).repeatN N.toNat) ∧
      (¬ o.h < m → uBobsSimulate hash sub fuel o S N
        = (uBobsSample sub fuel o L (L.map (partWeight o.eta (S.take o.h))) [[]] [1]).repeatN N.toNat) := by
  obtain ⟨L, h1, h2, h3⟩ := uBobsParts_ok hash (S.take o.h) hh
  refine ⟨L, h2, fun hm => ?_, fun hm => ?_⟩
  · rw [uBobsSimulate_def]
    rw [if_neg (by omega), h1, uBobsApproximated_ok m o.h hm o.eta (S.drop o.h) (by
      intro h; have := congrArg List.length h; simp at this; omega), distributeUniformly_ok _ _ ht]
    simp only [Prog.lift_def, Prog.bind_eq, Prog.done_ok_bind, uBobsPartsWeights_ok _ _ L h2 h3]
    rw [uBobsPool_eq, distribute_sum _ _ ht]
    rfl
  · rw [uBobsSimulate_def]
    rw [if_neg (by omega), h1, distributeUniformly_ok _ _ ht, uBobsApproximated, if_pos hm]
    simp only [Prog.lift_def, Prog.bind_eq, Prog.done_ok_bind, uBobsPartsWeights_ok _ _ L h2 h3]
    change Prog.bind (Prog.done (.ok _)) _ = _
    simp only [Prog.done_ok_bind]
    rw [uBobsPool_eq, distribute_sum _ _ ht]
    rfl

theorem partWeight_nonneg {eta : ℝ} (h0 : 0 ≤ eta) (h1 : eta ≤ 1) (s l : List ℕ) : 0 ≤ partWeight eta s l :=
  mul_nonneg (pow_nonneg h0 _) (pow_nonneg (by linarith) _)

theorem partWeight_prob {eta : ℝ} (h0 : 0 ≤ eta) (h1 : eta ≤ 1) (s : List ℕ) (L : List (List ℕ))
    (hp : L.Perm (lowerStates s)) : Prog.IsProbVector (L.map (partWeight eta s)) ↔ GoodPart eta s := by
  rw [← prodTotal_iff h0 h1, show modeTotal eta = fun a => modeTotal eta a from rfl]
  unfold modeTotal
  rw [← partsWeights_sum eta s L hp]
  refine ⟨fun h => h.2, fun h => ⟨fun x hx => ?_, h⟩⟩
  obtain ⟨l, -, rfl⟩ := List.mem_map.mp hx
  exact partWeight_nonneg h0 h1 s l

theorem gccbWeights_eq (n : ℕ) (eta : ℝ) :
    gccbWeights n eta = (List.range (n + 1)).map fun l => binomialWeight n l eta := by
  refine List.ext_getElem (by simp [gccbWeights_length]) fun i h1 h2 => ?_
  have := gccbWeights_getD n eta i (by simpa [Nat.lt_succ_iff] using h2)
  rw [getD_of_lt _ _ h1] at this
  rw [this, List.getElem_map, List.getElem_range]

theorem uBobsSample_eq (fuel : ℕ) (o : UBobsObj m) (L : List (List ℕ)) (w : List ℝ) (A : List (List ℕ)) (aw : List ℝ)
    (sub : CalcCfg ℂ → Py (List ℂ)) :
    uBobsSample sub fuel o L w A aw
      = (Prog.categorical aw).bind fun i => (Prog.done (pyGetN A i)).bind fun a =>
          (Prog.categorical w).bind fun j => (Prog.done (pyGetN L j)).bind fun p =>
            (uBobsMatrix o).bind fun B => gccbOnArray sub B fuel (hstackState p a) := by
  unfold uBobsSample uBobsInput
  simp only [Prog.bind_eq, Prog.lift_def, Prog.bind_assoc, Prog.pure_eq, Prog.done_ok_bind]

theorem all_false_any {α : Type} {p : Prog α} {E : PyErr → Prop} {I : α → Prop} (h : p.All (fun _ => False) E) : p.All I E :=
  Prog.all_mono h (fun _ h => h.elim) fun _ h => h

/-- A sample raises `ValueError` when the weights do not sum to 1. -/
theorem uBobsSample_valueError {γ : Type} (fuel : ℕ) (o : UBobsObj m) (L : List (List ℕ)) (w : List ℝ) (R : List γ)
    (v : γ → List ℕ) (aw : γ → ℝ) (sub : CalcCfg ℂ → Py (List ℂ)) (hw : ¬ Prog.IsProbVector w) :
    (uBobsSample sub fuel o L w (R.map v) (R.map aw)).All (fun _ => False) (· = .valueError) := by
  rw [uBobsSample_eq]
  exact choice_all R v aw _ (fun _ => rfl) fun a _ _ => choice_raise _ _ hw

/-- A sample raises `TypeError` when one of the parts of the state is empty. -/
theorem uBobsSample_typeError {γ : Type} (fuel : ℕ) (o : UBobsObj m) (hq : o.qft = dftMatrix (m - o.h) m)
    (L : List (List ℕ)) (w : List ℕ → ℝ) (R : List γ) (v : γ → List ℕ) (aw : γ → ℝ) (sub : CalcCfg ℂ → Py (List ℂ))
    (hw : Prog.IsProbVector (L.map w)) (haw : Prog.IsProbVector (R.map aw))
    (he : ∀ a ∈ R, ∀ p ∈ L, (p = [] ∨ v a = []) ∧ p ++ v a ≠ []) :
    (uBobsSample sub fuel o L (L.map w) (R.map v) (R.map aw)).All (fun _ => False) (· = .typeError) := by
  rw [uBobsSample_eq]
  refine choice_all R v aw _ (fun h => absurd haw h) fun a ha _ => ?_
  have := choice_all (β := List ℕ) L id w (fun p => (uBobsMatrix o).bind fun B => gccbOnArray sub B fuel (hstackState p (v a)))
    (I := fun _ => False) (E := (· = .typeError)) (fun h => absurd hw h) fun p hp _ => ?_
  · rwa [List.map_id] at this
  · refine Prog.all_bind (Prog.all_mono (uBobsMatrix_all hq) (fun _ h => h) fun _ h => h.elim) fun B _ => ?_
    obtain ⟨h1, h2⟩ := he a ha p hp
    rw [hstackState, if_pos (by simpa using h1)]
    change (gccbOnArray sub B fuel (.floats (p ++ v a))).All _ _
    cases h : p ++ v a with
    | nil => exact absurd h h2
    | cons x xs => exact Prog.all_done_error rfl

/-- Input state of a sample and its weight. -/
theorem hstack_ints {p a : List ℕ} (hp : p ≠ []) (ha : a ≠ []) : hstackState p a = .ints (p ++ a) := by
  rw [hstackState, if_neg (by simp [hp, ha])]

section

variable {o : UBobsObj m} {S : List ℕ}

theorem lower_length {p s : List ℕ} (h : p ∈ lowerStates s) : p.length = s.length :=
  ((mem_lowerStates s p).mp h).length_eq

theorem mem_le_sum {x : ℕ} {l : List ℕ} (h : x ∈ l) : x ≤ l.sum := List.single_le_sum (fun _ _ => Nat.zero_le _) _ h

/-- The states given to the exact sampler. -/
theorem uBobs_state (h1 : 1 ≤ o.h) (h2 : o.h < m) (hS : S.length = m) {p : List ℕ} (hp : p ∈ lowerStates (S.take o.h))
    {l : ℕ} (hl : l ≤ (S.drop o.h).sum) :
    p ≠ [] ∧ (p ++ l :: List.replicate ((S.drop o.h).length - 1) 0).length = m ∧
      (p ++ l :: List.replicate ((S.drop o.h).length - 1) 0).sum ≤ S.sum := by
  have h3 := lower_length hp
  rw [List.length_take, hS] at h3
  have h4 := ModeLe.sum_le ((mem_lowerStates _ p).mp hp)
  have h5 : (S.take o.h).sum + (S.drop o.h).sum = S.sum := by rw [← List.sum_append, List.take_append_drop]
  refine ⟨?_, ?_, ?_⟩
  · rintro rfl; simp at h3; omega
  · simp; omega
  · simp; omega

theorem uBobs_fuel {st : List ℕ} {n fuel : ℕ} (hl : st.length = m) (hs : st.sum ≤ n) (hf : (n + 1) ^ m ≤ fuel) :
    (st.map (· + 1)).prod ≤ fuel :=
  (prod_le_pow st n fun _ hx => (mem_le_sum hx).trans hs).trans (by rw [hl]; exact hf)

theorem uBobsSample_all (h1 : 1 ≤ o.h) (h2 : o.h < m) (hq : o.qft = dftMatrix (m - o.h) m)
    (hU : o.U ∈ Matrix.unitaryGroup (Fin m) ℂ) (h0 : 0 ≤ o.eta) (h0' : o.eta ≤ 1) (hg : GoodPart o.eta (S.take o.h))
    (hS : S.length = m) (L : List (List ℕ)) (hL : L.Perm (lowerStates (S.take o.h))) (fuel : ℕ) (hf : (S.sum + 1) ^ m ≤ fuel) :
    (uBobsSample (ryserSubPermanents fuel) fuel o L (L.map (partWeight o.eta (S.take o.h))) (approxStates o.h S)
      (gccbWeights (S.drop o.h).sum o.eta)).All (fun T => T.length = m ∧ T.sum ≤ S.sum) fun _ => False := by
  rw [uBobsSample_eq, approxStates, gccbWeights_eq]
  refine choice_all _ _ _ _ (fun h => h ⟨?_, ?_⟩) fun l hl _ => ?_
  · rw [← gccbWeights_eq]; exact gccbWeights_nonneg _ h0 h0'
  · rw [← gccbWeights_eq]; exact gccbWeights_sum _ _
  · have := choice_all (β := List ℕ) L id (partWeight o.eta (S.take o.h)) (fun p => (uBobsMatrix o).bind fun B =>
        gccbOnArray (ryserSubPermanents fuel) B fuel
          (hstackState p (l :: List.replicate ((S.drop o.h).length - 1) 0)))
      (I := fun T => T.length = m ∧ T.sum ≤ S.sum) (E := fun _ => False)
      (fun h => h ((partWeight_prob h0 h0' _ L hL).mpr hg)) fun p hp _ => ?_
    · rwa [List.map_id] at this
    · refine Prog.all_bind (uBobsMatrix_all hq) fun B hB => ?_
      obtain ⟨us, σ, rfl⟩ := hB
      obtain ⟨e1, e2, e3⟩ := uBobs_state h1 h2 hS (hL.mem_iff.mp hp) (l := l) (by have := List.mem_range.mp hl; omega)
      rw [id, hstack_ints e1 (by simp)]
      refine Prog.all_mono (gccbOne_all (uBobsNet_unitary hU o.h us σ) (by omega) _ e2 fuel (uBobs_fuel e2 e3 hf)) ?_
        fun _ h => h
      rintro T ⟨h3, h4⟩
      exact ⟨h3, h4 ▸ e3⟩

open Classical in
theorem uBobsSample_prob (h1 : 1 ≤ o.h) (h2 : o.h < m) (hq : o.qft = dftMatrix (m - o.h) m)
    (hU : o.U ∈ Matrix.unitaryGroup (Fin m) ℂ) (h0 : 0 ≤ o.eta) (h0' : o.eta ≤ 1) (hg : GoodPart o.eta (S.take o.h))
    (hS : S.length = m) (L : List (List ℕ)) (hL : L.Perm (lowerStates (S.take o.h))) (fuel : ℕ) (hf : (S.sum + 1) ^ m ≤ fuel)
    (T : List ℕ) (hT : T.length = m) :
    (uBobsSample (ryserSubPermanents fuel) fuel o L (L.map (partWeight o.eta (S.take o.h))) (approxStates o.h S)
      (gccbWeights (S.drop o.h).sum o.eta)).prob (fun r => r = .ok T)
      = ∑ l ∈ range ((S.drop o.h).sum + 1), ENNReal.ofReal (binomialWeight (S.drop o.h).sum l o.eta) *
          expLoss o.eta (S.take o.h) fun p => expUniform (m - o.h) fun us =>
            (∑ σ : Equiv.Perm (Fin m), ENNReal.ofReal (lossyProb (rowsOf (uBobsNet o.U o.h us σ)) 0
              (p ++ l :: List.replicate (m - o.h - 1) 0) T)) / m.factorial := by
  have hd : (S.drop o.h).length = m - o.h := by simp [hS]
  unfold Prog.prob
  rw [uBobsSample_eq, approxStates, gccbWeights_eq, choice_wp, ← List.sum_toFinset _ List.nodup_range]
  · have : (List.range ((S.drop o.h).sum + 1)).toFinset = range ((S.drop o.h).sum + 1) := by ext; simp
    rw [this]
    refine sum_congr rfl fun l hl => ?_
    congr 1
    have := fun f => choice_wp (β := List ℕ) L id (partWeight o.eta (S.take o.h)) ((partWeight_prob h0 h0' _ L hL).mpr hg)
      (fun p => (uBobsMatrix o).bind fun B => gccbOnArray (ryserSubPermanents fuel) B fuel
          (hstackState p (l :: List.replicate ((S.drop o.h).length - 1) 0))) f
    simp only [List.map_id] at this
    refine Eq.trans (this _) ?_
    rw [expLoss_lowerStates h0 h0', (hL.map _).sum_eq]
    congr 1
    refine List.map_congr_left fun p hp => ?_
    obtain ⟨e1, e2, e3⟩ := uBobs_state h1 h2 hS hp (l := l) (by have := mem_range.mp hl; omega)
    rw [partWeight, part_weight hg ((mem_lowerStates _ _).mp hp), id, Prog.wp_bind, uBobsMatrix_wp hq]
    congr 1
    refine expUniform_congr _ _ _ fun us => ?_
    congr 1
    refine sum_congr rfl fun σ _ => ?_
    rw [Prog.post, hstack_ints e1 (by simp), ← hd]
    exact gccbOne_prob (uBobsNet_unitary hU o.h us σ) (by omega) _ e2 fuel (uBobs_fuel e2 e3 hf) T hT
  · rw [← gccbWeights_eq]
    exact ⟨gccbWeights_nonneg _ h0 h0', gccbWeights_sum _ _⟩

end

/-- Phases of the input modes change no probability. -/
theorem bosonProb_phase {W W' : List (List ℂ)} (d : ℕ → ℂ) (hd : ∀ j, Complex.normSq (d j) = 1)
    (h : ∀ i j, mget W' i j = mget W i j * d j) (S T : List ℕ) : bosonProb W' S T = bosonProb W S T := by
  unfold bosonProb
  congr 1
  have : scatteringPermanent W' S T
      = scatteringPermanent W S T * ∏ b : Fin T.sum, d ((particles S).getD b 0) := by
    unfold scatteringPermanent Matrix.permanent
    rw [sum_mul]
    refine sum_congr rfl fun σ _ => ?_
    rw [← prod_mul_distrib]
    refine prod_congr rfl fun b _ => ?_
    simp only [Matrix.of_apply, h]
  rw [this, Complex.normSq_mul, map_prod]
  simp [hd]

theorem mget_rowsOf_out {a b : ℕ} (A : Matrix (Fin a) (Fin b) ℂ) (i j : ℕ) (h : ¬ (i < a ∧ j < b)) : mget (rowsOf A) i j = 0 := by
  unfold mget rowsOf
  by_cases hi : i < a
  · have hj : b ≤ j := by omega
    simp [hi, hj]
  · simp [show a ≤ i by omega]

theorem expUniform_const (n : ℕ) (c : ℝ≥0∞) : expUniform n (fun _ => c) = c := by
  induction n with
  | zero => rfl
  | succ n ih => simp [expUniform, ih]

theorem normSq_phase (x : ℝ) : Complex.normSq (Complex.exp (2 * Real.pi * x * Complex.I)) = 1 := by
  rw [Complex.normSq_eq_norm_sq, show 2 * (Real.pi : ℂ) * (x : ℂ) * Complex.I
    = ((2 * Real.pi * x : ℝ) : ℂ) * Complex.I by push_cast; ring, Complex.norm_exp_ofReal_mul_I, one_pow]

theorem dftMatrix_one {k : ℕ} (hk : k = 1) : dftMatrix k m = 1 := by
  subst hk
  ext i j
  rw [dftMatrix, Matrix.of_apply, Matrix.one_apply]
  split_ifs with h1 h2 h2
  · rw [show (i : ℕ) = 0 by omega]; simp
  · exact absurd (Fin.ext (by omega)) h2
  · rfl
  · rfl

end Verif
