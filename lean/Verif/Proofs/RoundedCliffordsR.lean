import Verif.Model.RoundedCliffordsR
import Verif.Proofs.CliffordsRFind
import Verif.Proofs.RoundedBinomial
import Verif.Proofs.RoundedTvd
import Verif.Proofs.RoundedLoss
import Verif.Spec.RoundedCliffordsR

/-! Helper lemmas: `find_probabilities_of_n_random_states` in floating-point arithmetic. -/
namespace Verif

/-! ### Dictionaries in order of insertion -/

section
variable {V : Type} {d : List (List ℕ × V)} {k : List ℕ} {v : V}

theorem dictAssign_new (h : k ∉ d.map Prod.fst) : dictAssign d k v = d ++ [(k, v)] := if_neg h

theorem dictAssign_keys_old (h : k ∈ d.map Prod.fst) : (dictAssign d k v).map Prod.fst = d.map Prod.fst := by
  unfold dictAssign
  rw [if_pos h, List.map_map]
  refine List.map_congr_left fun e _ => ?_
  simp only [Function.comp]
  split_ifs with he
  · exact he.symm
  · rfl

theorem dictAssign_keys_nodup (h : (d.map Prod.fst).Nodup) : ((dictAssign d k v).map Prod.fst).Nodup := by
  by_cases hk : k ∈ d.map Prod.fst
  · rw [dictAssign_keys_old hk]; exact h
  · rw [dictAssign_new hk, List.map_append, List.map_cons, List.map_nil]
    exact h.append (by simp) (by simpa using hk)

theorem mem_dictAssign {e : List ℕ × V} (he : e ∈ dictAssign d k v) : e = (k, v) ∨ e ∈ d := by
  unfold dictAssign at he
  split_ifs at he with h
  · obtain ⟨e', h1, h2⟩ := List.mem_map.mp he
    split_ifs at h2
    · exact .inl h2.symm
    · exact .inr (h2 ▸ h1)
  · rcases List.mem_append.mp he with he | he
    · exact .inr he
    · exact .inl (List.mem_singleton.mp he)

end

/-! ### The number of states -/

theorem pyInt_half {x : ℝ} {c : ℤ} (hc : 1 ≤ c) (h : |(c : ℝ) - x| ≤ 1 / 2) : pyInt x = c ∨ pyInt x = c - 1 := by
  obtain ⟨h1, h2⟩ := abs_le.mp h
  have hc' : (1 : ℝ) ≤ c := by exact_mod_cast hc
  have h0 : 0 ≤ x := by linarith
  unfold pyInt
  rw [if_pos h0]
  have h3 : c - 1 ≤ ⌊x⌋ := Int.le_floor.mpr (by push_cast; linarith)
  have h4 : ⌊x⌋ < c + 1 := Int.floor_lt.mpr (by push_cast; linarith)
  omega

/-- The products `20`, `20 * 21`, … in floats. -/
def chain34 : List (ℕ × ℕ × ℕ) :=
  [(20, 20, 0), (21, 420, 0), (22, 9240, 0), (23, 212520, 0), (24, 5100480, 0), (25, 127512000, 0),
    (26, 3315312000, 0), (27, 89513424000, 0), (28, 2506375872000, 0), (29, 72684900288000, 0),
    (30, 2180547008640000, 0), (31, 8449619658480000, 3), (32, 8449619658480000, 8),
    (33, 8713670272807500, 13), (34, 4629137332428984, 19)]

/-- The loop of `binom(34, 15)`. -/
theorem binom_loop_chain (R : Rounding) : ∀ (l : List (ℕ × ℕ × ℕ)) (i z : ℕ), i + l.length ≤ 15 →
    chainOk l z = true → l.map (·.1) = (List.range' (i + 1) l.length).map (19 + ·) →
    (∀ e ∈ l, e.2.1 * 2 ^ e.2.2 ≤ 2 ^ 105) →
    (List.range' (i + 1) l.length).foldl (binomStepR R 34 15) ((z : ℝ), (i.factorial : ℝ))
      = ((chainEnd l z : ℝ), ((i + l.length).factorial : ℝ)) := by
  intro l
  induction l with
  | nil => intro i z _ _ _ _; rfl
  | cons e l ih =>
    obtain ⟨f, k, t⟩ := e
    intro i z hi h hf hs
    simp only [chainOk, Bool.and_eq_true] at h
    rw [List.length_cons] at hi hf ⊢
    rw [List.range'_succ, List.map_cons, List.map_cons, List.cons.injEq] at hf
    obtain ⟨hf1, hf2⟩ := hf
    have hf1 : f = 19 + (i + 1) := hf1
    subst hf1
    rw [List.range'_succ, List.foldl_cons]
    have f1 : R.rnd (((i + 1 : ℕ) : ℝ) + (34 : ℕ)) = ((i + 1 + 34 : ℕ) : ℝ) := by
      rw [← Nat.cast_add]; exact R.eq_self (isFloat_nat (by omega))
    have f2 : R.rnd (((i + 1 + 34 : ℕ) : ℝ) - (15 : ℕ)) = ((19 + (i + 1) : ℕ) : ℝ) := by
      rw [← Nat.cast_sub (by omega), show i + 1 + 34 - 15 = 19 + (i + 1) by omega]
      exact R.eq_self (isFloat_nat (by omega))
    have f3 : R.rnd ((i.factorial : ℝ) * ((i + 1 : ℕ) : ℝ)) = ((i + 1).factorial : ℝ) := by
      rw [← Nat.cast_mul, mul_comm, ← Nat.factorial_succ]
      exact R.eq_self (isFloat_of_dvd (Nat.factorial_dvd_factorial (by omega)))
    have f4 : R.rnd ((z : ℝ) * ((19 + (i + 1) : ℕ) : ℝ)) = ((k * 2 ^ t : ℕ) : ℝ) := by
      rw [← Nat.cast_mul]; exact rnd_of_roundsTo R h.1
    have hstep : binomStepR R 34 15 ((z : ℝ), (i.factorial : ℝ)) (i + 1)
        = (((k * 2 ^ t : ℕ) : ℝ), ((i + 1).factorial : ℝ)) := by
      unfold binomStepR
      simp only
      rw [f1, f2, f3, f4, if_neg]
      exact binom_num_small R (Nat.cast_nonneg _) (by exact_mod_cast hs _ List.mem_cons_self)
    rw [hstep, ih (i + 1) _ (by omega) h.2 hf2 fun e he => hs e (List.mem_cons_of_mem _ he)]
    simp only [chainEnd, show i + 1 + l.length = i + (l.length + 1) by omega]

/-- `binom(34, 19)` in floats is a little below the integer. -/
theorem binomR_34 (R : Rounding) (beta : ℕ → ℕ → ℝ) :
    binomR R beta 34 19 = ((7784491993006079 : ℤ) : ℝ) * 2 ^ (-22 : ℤ) := by
  unfold binomR
  simp only
  rw [if_pos (show 34 < 2 * 19 ∧ 0 < 34 by decide), if_pos (show 34 - 19 < 20 by decide)]
  have h := binom_loop_chain R chain34 0 1 (by decide) (by decide +kernel) (by decide) (by decide +kernel)
  have e : chainEnd chain34 1 = 2427001153744527163392 := by decide +kernel
  have e15 : Nat.factorial 15 = 1307674368000 := by decide +kernel
  rw [e, show 0 + 1 = 1 from rfl, show chain34.length = 15 from rfl, Nat.factorial_zero, Nat.cast_one, zero_add, e15] at h
  rw [show 34 - 19 = 15 from rfl, h]
  simp only
  refine R.eq_of_close (by norm_num) (by norm_num) (by norm_num) ?_
  norm_num [zpow_neg, abs_lt]

/-! ### The loop -/

/-- What the dictionary contains at any time. -/
structure RandInvR (R : Rounding) (draw : Prog (List ℕ × ℝ)) (st : List (List ℕ × ℝ) × ℝ) : Prop where
  nodup : (st.1.map Prod.fst).Nodup
  drawn : ∀ e ∈ st.1, draw.Runs (.ok e)
  sum : st.2 = sumR R (st.1.map Prod.snd)

noncomputable abbrev randBodyR (R : Rounding) (draw : Prog (List ℕ × ℝ)) (st : List (List ℕ × ℝ) × ℝ) :
    Prog (List (List ℕ × ℝ) × ℝ) :=
  draw.bind fun x => .done (.ok (dictAssign st.1 x.1 x.2, sumR R ((dictAssign st.1 x.1 x.2).map Prod.snd)))

theorem randBodyR_inv {R : Rounding} {draw : Prog (List ℕ × ℝ)} {st st' : List (List ℕ × ℝ) × ℝ}
    (h : RandInvR R draw st) (hr : (randBodyR R draw st).Runs (.ok st')) : RandInvR R draw st' := by
  rw [Prog.runs_bind] at hr
  rcases hr with ⟨x, h1, h2⟩ | ⟨e, -, h2⟩
  · have h2 : (Except.ok st' : Py _) = .ok _ := h2
    injection h2 with h2
    subst h2
    refine ⟨dictAssign_keys_nodup h.nodup, ?_, rfl⟩
    intro e he
    rcases mem_dictAssign he with rfl | he
    · exact h1
    · exact h.drawn e he
  · cases h2

open Classical in
noncomputable abbrev randCondR (R : Rounding) (k : ℤ) (st : List (List ℕ × ℝ) × ℝ) : Bool :=
  decide ((st.1.length : ℤ) < k) || decide (¬ IsCloseToOneR R st.2)

theorem rFindRandomR_eq (R : Rounding) (beta : ℕ → ℕ → ℝ) (sampler : RSamplerPmf) (fuel : ℕ) (U : List (List ℂ))
    (S : List ℕ) (k : ℤ) (A : List (List ℂ)) (hA : firstColumns U S.sum = .ok A) :
    rFindRandomR R beta sampler fuel U S k =
      (Prog.loop fuel (randCondR R (min k (rDimensionR R beta S.sum S.length)))
        (randBodyR R (rDraw sampler (toRMatrix A S.sum) S.length)) ([], 0)).bind fun st => .done (.ok st.1) := by
  have hk : (if rDimensionR R beta S.sum S.length < k then rDimensionR R beta S.sum S.length else k)
      = min k (rDimensionR R beta S.sum S.length) := by
    split_ifs with h
    · rw [min_eq_right h.le]
    · rw [min_eq_left (not_lt.mp h)]
  unfold rFindRandomR
  simp only [hk]
  rw [hA]
  rfl

/-- Everything known about a result. -/
theorem rFindRandomR_result {R : Rounding} {beta : ℕ → ℕ → ℝ} {sampler : RSamplerPmf} {fuel : ℕ} {U : List (List ℂ)}
    {S : List ℕ} {k : ℤ} {d : List (List ℕ × ℝ)} (h : (rFindRandomR R beta sampler fuel U S k).Runs (.ok d)) :
    ∃ A, firstColumns U S.sum = .ok A ∧ (d.map Prod.fst).Nodup ∧
      (∀ e ∈ d, (rDraw sampler (toRMatrix A S.sum) S.length).Runs (.ok e)) ∧
      min k (rDimensionR R beta S.sum S.length) ≤ d.length ∧ IsCloseToOneR R (sumR R (d.map Prod.snd)) := by
  cases hA : firstColumns U S.sum with
  | error e =>
    unfold rFindRandomR at h
    rw [hA] at h
    cases h
  | ok A =>
    rw [rFindRandomR_eq _ _ _ _ _ _ _ _ hA, Prog.runs_bind] at h
    rcases h with ⟨st, h1, h2⟩ | ⟨e, -, h2⟩
    · have h2 : (Except.ok d : Py _) = .ok st.1 := h2
      injection h2 with h2
      subst h2
      obtain ⟨h3, h4⟩ := Prog.loop_inv (RandInvR R (rDraw sampler (toRMatrix A S.sum) S.length))
        (fun st hst _ st' hr => randBodyR_inv hst hr) fuel ([], 0) st ⟨by simp, by simp, rfl⟩ h1
      simp only [randCondR, Bool.or_eq_false_iff, decide_eq_false_iff_not, not_lt, not_not] at h4
      exact ⟨A, rfl, h3.nodup, h3.drawn, h4.1, h3.sum ▸ h4.2⟩
    · cases h2

/-- The dictionary just before its last key was added: the loop was not finished. -/
def LastKey (cond : List (List ℕ × ℝ) × ℝ → Bool) (total : List ℝ → ℝ) (draw : Prog (List ℕ × ℝ))
    (d : List (List ℕ × ℝ)) : Prop :=
  d = [] ∨ ∃ d' : List (List ℕ × ℝ), d'.map Prod.fst = (d.map Prod.fst).dropLast ∧ (∀ e ∈ d', draw.Runs (.ok e)) ∧
    cond (d', total (d'.map Prod.snd)) = true

theorem randBodyR_lastKey {R : Rounding} {draw : Prog (List ℕ × ℝ)} {k : ℤ} {st st' : List (List ℕ × ℝ) × ℝ}
    (h : RandInvR R draw st) (hl : LastKey (randCondR R k) (sumR R) draw st.1) (hc : randCondR R k st = true)
    (hr : (randBodyR R draw st).Runs (.ok st')) : LastKey (randCondR R k) (sumR R) draw st'.1 := by
  rw [Prog.runs_bind] at hr
  rcases hr with ⟨x, h1, h2⟩ | ⟨e, -, h2⟩
  · have h2 : (Except.ok st' : Py _) = .ok _ := h2
    injection h2 with h2
    subst h2
    by_cases hx : x.1 ∈ st.1.map Prod.fst
    · have hkeys : (dictAssign st.1 x.1 x.2).map Prod.fst = st.1.map Prod.fst := dictAssign_keys_old hx
      rcases hl with hl | ⟨d', g1, g2, g3⟩
      · rw [hl] at hx; cases hx
      · exact .inr ⟨d', by rw [g1, hkeys], g2, g3⟩
    · refine .inr ⟨st.1, ?_, h.drawn, ?_⟩
      · unfold dictAssign
        rw [if_neg hx, List.map_append, List.map_cons, List.map_nil, List.dropLast_concat]
      · rw [← h.sum]; exact hc
  · cases h2

/-- When the loop stops: before the last key was added it had to go on. -/
theorem rFindRandomR_last {R : Rounding} {beta : ℕ → ℕ → ℝ} {sampler : RSamplerPmf} {fuel : ℕ} {U : List (List ℂ)}
    {S : List ℕ} {k : ℤ} {d : List (List ℕ × ℝ)} (h : (rFindRandomR R beta sampler fuel U S k).Runs (.ok d)) :
    ∃ A, firstColumns U S.sum = .ok A ∧
      LastKey (randCondR R (min k (rDimensionR R beta S.sum S.length))) (sumR R)
        (rDraw sampler (toRMatrix A S.sum) S.length) d := by
  cases hA : firstColumns U S.sum with
  | error e =>
    unfold rFindRandomR at h
    rw [hA] at h
    cases h
  | ok A =>
    rw [rFindRandomR_eq _ _ _ _ _ _ _ _ hA, Prog.runs_bind] at h
    rcases h with ⟨st, h1, h2⟩ | ⟨e, -, h2⟩
    · have h2 : (Except.ok d : Py _) = .ok st.1 := h2
      injection h2 with h2
      subst h2
      exact ⟨A, rfl, (Prog.loop_inv (fun st => RandInvR R (rDraw sampler (toRMatrix A S.sum) S.length) st ∧
          LastKey (randCondR R (min k (rDimensionR R beta S.sum S.length))) (sumR R)
            (rDraw sampler (toRMatrix A S.sum) S.length) st.1)
        (fun st hst hc st' hr => ⟨randBodyR_inv hst.1 hr, randBodyR_lastKey hst.1 hst.2 hc hr⟩) fuel ([], 0) st
        ⟨⟨by simp, by simp, rfl⟩, .inl rfl⟩ h1).1.2⟩
    · cases h2

/-- The loop can draw the entries of a given dictionary one after the other. -/
theorem randLoopR_runs {R : Rounding} {draw : Prog (List ℕ × ℝ)} {k : ℤ} : ∀ (suf pre : List (List ℕ × ℝ)),
    ((pre ++ suf).map Prod.fst).Nodup → (∀ e ∈ suf, draw.Runs (.ok e)) → (pre ++ suf).length = k →
    IsCloseToOneR R (sumR R ((pre ++ suf).map Prod.snd)) →
    (Prog.loop (suf.length + 1) (randCondR R k) (randBodyR R draw) (pre, sumR R (pre.map Prod.snd))).Runs
      (.ok (pre ++ suf, sumR R ((pre ++ suf).map Prod.snd))) := by
  intro suf
  induction suf with
  | nil =>
    intro pre _ _ hk hc
    rw [List.append_nil] at hk hc ⊢
    have : randCondR R k (pre, sumR R (pre.map Prod.snd)) = false := by
      simp only [randCondR, Bool.or_eq_false_iff, decide_eq_false_iff_not, not_lt, not_not]
      exact ⟨hk.ge, hc⟩
    rw [Prog.loop_succ, this]
    rfl
  | cons e suf ih =>
    intro pre hn hd hk hc
    have ha : pre ++ e :: suf = (pre ++ [e]) ++ suf := by simp
    have hcond : randCondR R k (pre, sumR R (pre.map Prod.snd)) = true := by
      simp only [randCondR, Bool.or_eq_true, decide_eq_true_eq]
      left
      rw [← hk]
      simp
    rw [Prog.loop_succ, hcond, if_pos rfl, Prog.runs_bind]
    refine .inl ⟨(pre ++ [e], sumR R ((pre ++ [e]).map Prod.snd)), ?_, ?_⟩
    · rw [Prog.runs_bind]
      refine .inl ⟨e, hd e List.mem_cons_self, ?_⟩
      have hnew : e.1 ∉ pre.map Prod.fst := by
        rw [List.map_append, List.map_cons] at hn
        exact fun h => (List.disjoint_of_nodup_append hn) h List.mem_cons_self
      change (Except.ok _ : Py _) = .ok _
      rw [dictAssign_new hnew]
    · rw [ha] at hn hk hc ⊢
      exact ih (pre ++ [e]) hn (fun e' he' => hd e' (List.mem_cons_of_mem _ he')) hk hc

/-! ### Closeness to one -/

theorem tol_within (R : Rounding) : Within (rho * rho) (R.rnd (R.rnd 1e-8 + R.rnd 1e-5)) (1e-8 + 1e-5) := by
  have hs : ∀ x : ℝ, (2 : ℝ) ^ (-200 : ℤ) ≤ x → Within rho (R.rnd x) x := fun x hx =>
    R.within (Or.inr ((zpow_le_zpow_right₀ (by norm_num) (by norm_num)).trans hx))
  have h1 := hs 1e-8 (by norm_num [zpow_neg])
  have h2 := hs 1e-5 (by norm_num [zpow_neg])
  have h3 := h1.add h2
  have hb : (2 : ℝ) ^ (-200 : ℤ) ≤ R.rnd 1e-8 + R.rnd 1e-5 := by
    have := h3.2
    have hr : rho ≤ 2 := by unfold rho; norm_num
    have h4 : (0 : ℝ) ≤ R.rnd 1e-8 + R.rnd 1e-5 := add_nonneg (R.nonneg (by norm_num)) (R.nonneg (by norm_num))
    have h5 : (1e-8 + 1e-5 : ℝ) ≤ 2 * (R.rnd 1e-8 + R.rnd 1e-5) := this.trans (mul_le_mul_of_nonneg_right hr h4)
    have h6 : (2 : ℝ) ^ (-200 : ℤ) ≤ (1e-8 + 1e-5) / 2 := by norm_num [zpow_neg]
    linarith
  exact (hs _ hb).trans h3 rho_nonneg rho_nonneg

theorem rho_three : rho * rho * rho ≤ 1 + 1 / 2 ^ 50 := by unfold rho; norm_num

theorem isCloseToOneR_le {R : Rounding} {x : ℝ} (hx : IsFloat x) (h : IsCloseToOneR R x) :
    |x - 1| ≤ (1 + 1 / 2 ^ 50) * (1e-8 + 1e-5) := by
  have h1 := (sub_within R hx (isFloat_nat (n := 1) (by norm_num))).2
  rw [Nat.cast_one] at h1
  have h2 := (tol_within R).1
  have h3 : |R.rnd (x - 1)| ≤ rho * rho * (1e-8 + 1e-5) := le_trans h h2
  calc |x - 1| ≤ rho * |R.rnd (x - 1)| := h1
    _ ≤ rho * (rho * rho * (1e-8 + 1e-5)) := mul_le_mul_of_nonneg_left h3 rho_nonneg
    _ = rho * rho * rho * (1e-8 + 1e-5) := by ring
    _ ≤ _ := mul_le_mul_of_nonneg_right rho_three (by norm_num)

theorem isCloseToOneR_of_le {R : Rounding} {x : ℝ} (hx : IsFloat x) (h : |x - 1| ≤ 1e-5) : IsCloseToOneR R x := by
  have h1 := (sub_within R hx (isFloat_nat (n := 1) (by norm_num))).1
  rw [Nat.cast_one] at h1
  have h2 := (tol_within R).2
  have h3 : rho * rho * rho * 1e-5 ≤ 1e-8 + 1e-5 := by
    have := mul_le_mul_of_nonneg_right rho_three (show (0 : ℝ) ≤ 1e-5 by norm_num)
    refine this.trans ?_
    norm_num
  unfold IsCloseToOneR
  have h4 : rho * |x - 1| ≤ rho * 1e-5 := mul_le_mul_of_nonneg_left h rho_nonneg
  have h5 : 0 < rho * rho := by unfold rho; norm_num
  refine h1.trans (h4.trans ?_)
  refine le_of_mul_le_mul_left ?_ h5
  linarith

theorem rDraw_near {c : ℝ} {sampler : RSamplerPmf} {A : RMatrix} (hm : 1 ≤ A.nrow) (h : RPmfNearFor c sampler A)
    {T : List ℕ} {p : ℝ} (hr : (rDraw sampler A A.nrow).Runs (.ok (T, p))) :
    T.length = A.nrow ∧ T.sum = A.ncol ∧ IsFloat p ∧ 0 ≤ p ∧ p ≤ c * rProb A T ∧ rProb A T ≤ c * p := by
  rw [rDraw_bind, Prog.runs_bind] at hr
  rcases hr with ⟨x, h1, h2⟩ | ⟨e, -, h2⟩
  · obtain ⟨result, q, T₀, h3, h4, h5, h6⟩ := h.output _ h1
    injection h3 with h3
    subst h3
    obtain ⟨T', h7, h8, h9⟩ := rDraw_decode _ _ hm result h4
    simp only [h7, Prog.done_ok_bind] at h2
    have h2 : (Except.ok (T, p) : Py _) = .ok (T', q) := h2
    injection h2 with h2
    injection h2 with h2 h2'
    subst h2 h2'
    have e := rOccupation_unique h5 h8
    subst e
    exact ⟨h8.1, h9, h6⟩
  · cases h2

end Verif
