import Verif.Proofs.RoundedLoss
import Verif.Props.Cliffords

/-!
C86 and C87: the samplers in floating-point arithmetic. `R : Rounding` is any way to round to nearest.
-/
namespace Verif

open Finset
open scoped ENNReal

variable (R : Rounding)

/-- The number of states below `S`. -/
def boxSize (S : List ℕ) : ℕ := (S.map (· + 1)).prod

/-! ### C86: drawn indices are in range -/

/-- C86 (version A and the mode-assignment version, one draw): whatever `random()` returns, the drawn
index is in range and the entry drawn is positive, if the computed sum of the pmf exceeds the smallest
normal float. -/
theorem C86_draw_partial {u : ℝ} (hu : IsRandom u) {pmf : List ℝ} (h : ∀ x ∈ pmf, IsFloat x ∧ 0 ≤ x)
    (hs : (2 : ℝ) ^ (-1022 : ℤ) < sumR R pmf) :
    ∃ i x, gccSelect R u pmf = i ∧ pmf[i]? = some x ∧ 0 < x := by
  obtain ⟨h1, h2⟩ := gccSelect_lt R hu h hs
  rw [getD_of_lt _ _ h1] at h2
  exact ⟨_, _, rfl, List.getElem?_eq_getElem h1, h2⟩

/-- A concrete case: a pmf of two entries. -/
example (u : ℝ) (hu : IsRandom u) : ∃ i x, gccSelect R u [1, 2] = i ∧ ([1, 2] : List ℝ)[i]? = some x ∧ 0 < x := by
  have h2 : IsFloat 2 := ⟨2, 0, by norm_num, by norm_num, by norm_num⟩
  have h3 : IsFloat 3 := ⟨3, 0, by norm_num, by norm_num, by norm_num⟩
  refine C86_draw_partial R hu ?_ ?_
  · intro x hx
    simp only [List.mem_cons, List.not_mem_nil, or_false] at hx
    rcases hx with rfl | rfl
    · exact ⟨isFloat_one, zero_le_one⟩
    · exact ⟨h2, zero_le_two⟩
  · simp only [sumR, List.foldl_cons, List.foldl_nil, zero_add, rnd_one]
    rw [show (1 : ℝ) + 2 = 3 by norm_num, R.eq_self h3]
    have : (2 : ℝ) ^ (-1022 : ℤ) ≤ 1 := zpow_le_one_of_nonpos₀ (by norm_num) (by norm_num)
    linarith

/-- C86: for a pmf below the normal floats the index can be out of range: here `random()` returns
`1 - 2 ^ -53` and the only entry of the pmf is not drawn. -/
theorem C86_draw_fails : ∃ u, IsRandom u ∧ ∃ pmf : List ℝ, (∀ x ∈ pmf, IsFloat x ∧ 0 < x) ∧ pmf ≠ [] ∧
    gccSelect R u pmf = pmf.length := by
  have hf : IsFloat ((2 : ℝ) ^ (-1074 : ℤ)) := ⟨1, -1074, by norm_num, by norm_num, by norm_num⟩
  have hp := two_zpow_pos (-1074)
  refine ⟨((2 ^ 53 - 1 : ℕ) : ℝ) / 2 ^ 53, ⟨2 ^ 53 - 1, by norm_num, rfl⟩, [2 ^ (-1074 : ℤ)], ?_, by simp, ?_⟩
  · intro x hx
    rw [List.mem_singleton] at hx
    subst hx
    exact ⟨hf, hp⟩
  · have hs : sumR R [(2 : ℝ) ^ (-1074 : ℤ)] = 2 ^ (-1074 : ℤ) := by
      simp only [sumR, List.foldl_cons, List.foldl_nil, zero_add]
      exact R.eq_self hf
    set x : ℝ := ((2 ^ 53 - 1 : ℕ) : ℝ) / 2 ^ 53 * 2 ^ (-1074 : ℤ) with hx
    have hu : ((2 ^ 53 - 1 : ℕ) : ℝ) / 2 ^ 53 = 1 - 1 / 2 ^ 53 := by norm_num
    have hr : 2 ^ (-1074 : ℤ) ≤ R.rnd x := by
      by_contra hcon
      push Not at hcon
      obtain ⟨k, hk⟩ := (R.isFloat x).multiple_min
      have hx0 : 0 ≤ R.rnd x := R.nonneg (by positivity)
      have hk1 : (k : ℝ) < 1 := by
        rw [hk] at hcon
        exact lt_of_mul_lt_mul_right (by rw [one_mul]; exact hcon) hp.le
      have hk0 : (0 : ℝ) ≤ k := by
        rw [hk] at hx0
        exact nonneg_of_mul_nonneg_left hx0 hp
      have hk' : k = 0 := by
        have a : k < 1 := by exact_mod_cast hk1
        have b : 0 ≤ k := by exact_mod_cast hk0
        omega
      rw [hk', Int.cast_zero, zero_mul] at hk
      have hn := (R.nearest x).2 _ hf
      rw [hk, sub_zero, abs_of_nonneg (by positivity), abs_of_nonpos (by rw [hx, hu]; norm_num), hx, hu] at hn
      nlinarith
    rw [gccSelect, hs, ← hx, scanIndexR, if_neg, scanIndexR]
    · rfl
    · rw [zero_add, R.eq_self hf]
      exact not_lt.mpr hr

/-- C86 (version A and the mode-assignment version, whole sampler): if the computed pmf of every state that
can be reached has a sum above the smallest normal float, then no run raises an exception and every run
returns `N` samples with all particles. -/
theorem C86_gcc_partial {S : List ℕ} (hS : S ≠ []) (v : GccVariant) (hv : v = gccA ∨ v = gccAssignment)
    {sq : CalcCfg ℂ → Py ℝ} {U : List (List ℂ)} (hsq : ∀ c x, sq c = .ok x → 0 ≤ x)
    (hT : ∀ r, Reached R v sq U S r → v.count r < S.sum →
      ∃ P, layerPmfR R v sq U S (labeledStates S) r = .ok P ∧ (2 : ℝ) ^ (-1022 : ℤ) < sumR R P)
    (fuel : ℕ) (hfuel : S.sum < fuel) (N : ℤ) (o : GccObj) (r : Py (List (List ℕ) × GccObj))
    (hr : (gccSimulateR R v sq U fuel o S N).Runs r) : ∃ l o', r = .ok (l, o') ∧ GoodSamples S N l := by
  have h : (gccSimulateR R v sq U fuel o S N).All
      (fun x => x.1.length = N.toNat ∧ ∀ T ∈ x.1, T.length = S.length ∧ T.sum = S.sum) (fun _ => False) := by
    rcases hv with rfl | rfl
    · exact gccSimulateR_safe R (okA S) hsq hT fuel hfuel N o
    · exact gccSimulateR_safe R (okAssignment S hS) hsq hT fuel hfuel N o
  rcases h r hr with ⟨⟨l, o'⟩, h1, h2⟩ | ⟨_, _, h⟩
  · exact ⟨l, o', h1, h2⟩
  · exact h.elim

theorem reached_val {v : GccVariant} {S : List ℕ} (V : VariantOK v S) {sq : CalcCfg ℂ → Py ℝ} {U : List (List ℂ)}
    {r : List ℕ} (h : Reached R v sq U S r) : V.val r ∧ (r = v.start S ∨ 1 ≤ v.count r) := by
  induction h with
  | start => exact ⟨V.start_val, .inl rfl⟩
  | step r P j r' _ _ _ _ hj ih =>
    rw [V.next _ ih.1, List.getElem?_map] at hj
    by_cases hlt : j < S.length
    · rw [List.getElem?_range hlt] at hj
      injection hj with hj
      subst hj
      have hv := V.nx_val _ ih.1 j hlt
      exact ⟨hv, .inr (by rw [V.count _ hv, (V.nx_seq _ ih.1 j hlt).length_eq, List.length_cons]; omega)⟩
    · rw [List.getElem?_eq_none (by simp; omega)] at hj; cases hj

/-- C86: for one particle the hypothesis on the sums always holds, with a calculator whose relative error is a
rounding and whose absolute error is small. -/
theorem C86_gcc_one {S : List ℕ} (h1 : S.sum = 1) (v : GccVariant) (hv : v = gccA ∨ v = gccAssignment)
    {sq : CalcCfg ℂ → Py ℝ} {U : List (List ℂ)} (h : Interferometer U S) (hpos : ∀ c x, sq c = .ok x → 0 ≤ x) {a : ℝ}
    (hsq : SqNear sq U S rho a) (ha : 0 ≤ a) (ha2 : S.length * (boxSize S * a) ≤ 1 / 8)
    (hK : 6 * S.length + 6 + 2 * boxSize S ≤ 2 ^ 50)
    (fuel : ℕ) (hfuel : 1 < fuel) (N : ℤ) (o : GccObj) (r : Py (List (List ℕ) × GccObj))
    (hr : (gccSimulateR R v sq U fuel o S N).Runs r) : ∃ l o', r = .ok (l, o') ∧ GoodSamples S N l := by
  obtain ⟨V⟩ : Nonempty (VariantOK v S) := by
    rcases hv with rfl | rfl
    · exact ⟨okA S⟩
    · exact ⟨okAssignment S h.ne⟩
  refine C86_gcc_partial R h.ne v hv hpos ?_ fuel (by omega) N o r hr
  intro r hR hc
  rcases (reached_val R V hR).2 with rfl | h'
  swap
  · omega
  set m : ℝ := (S.length : ℝ) with hm
  set L : ℝ := (boxSize S : ℝ) with hL
  have hm0 : 0 ≤ m := Nat.cast_nonneg _
  have hL0 : 0 ≤ L := Nat.cast_nonneg _
  have hKR : 6 * m + 6 + 2 * L ≤ 2 ^ 50 := by rw [hm, hL]; exact_mod_cast hK
  have hp := rho_pow_le (k := 6 * S.length + 6 + 2 * boxSize S) (hK.trans (by norm_num))
  have hp4 : rho ^ (6 * S.length + 6 + 2 * boxSize S) ≤ 5 / 4 := by
    have : 2 * ((6 * S.length + 6 + 2 * boxSize S : ℕ) : ℝ) / 2 ^ 53 ≤ 1 / 4 := by
      push_cast
      rw [div_le_iff₀ (by positivity), ← hm, ← hL]
      norm_num at hKR ⊢
      linarith
    linarith
  have hrho : rho ≤ 5 / 4 := by unfold rho; norm_num
  have hC : pmfFactor S rho ≤ 2 := by
    change rho * rho ^ (6 * S.length + 6 + 2 * boxSize S) ≤ 2
    nlinarith [rho_nonneg, one_le_rho_pow (6 * S.length + 6 + 2 * boxSize S)]
  have hk0 : (V.seqOf (v.start S)).length < S.sum := by rw [V.start_seq, h1]; simp
  obtain ⟨P, hP1, hP2, hP3, hP4⟩ := layerPmfR_near R V hsq one_lt_rho.le ha (by omega) hC (v.start S) V.start_val hk0
  refine ⟨P, hP1, ?_⟩
  have hN := Near.list_sum (f := fun j => P.getD j 0)
    (g := fun j => seqProb (colOf U) S ((V.seqOf (v.start S)).length + 1) (j :: V.seqOf (v.start S)))
    (List.range S.length) fun j hj => hP4 j (List.mem_range.mp hj)
  have e1 : ((List.range S.length).map fun j => P.getD j 0).sum = P.sum := by
    rw [list_sum_range, list_sum_getD P, hP2]
  have e2 : ((List.range S.length).map fun j =>
      seqProb (colOf U) S ((V.seqOf (v.start S)).length + 1) (j :: V.seqOf (v.start S))).sum = 1 := by
    have := pmfOf_sum V h.used (v.start S) hk0
    rw [V.start_seq, List.length_nil, seqProb_zero] at this
    rw [← this, pmfOf, V.start_seq]
  rw [e1, e2, List.length_range, ← hm] at hN
  have ht := tiny_pos
  have hB : m * pmfAbs S a ≤ 1 / 4 := by
    unfold pmfAbs
    change m * (L * (a + (m + 2) * tiny)) ≤ 1 / 4
    have hts : tiny ≤ 1 / 2 ^ 250 := by
      unfold tiny
      have : (2 : ℝ) ^ (-1074 : ℤ) ≤ 2 ^ (-250 : ℤ) := zpow_le_zpow_right₀ (by norm_num) (by norm_num)
      refine this.trans (le_of_eq ?_)
      rw [zpow_neg, one_div]
      norm_cast
    have h4 : m * L * ((m + 2) * tiny) ≤ 1 / 8 := by
      calc m * L * ((m + 2) * tiny) ≤ 2 ^ 50 * 2 ^ 50 * (2 ^ 51 * (1 / 2 ^ 250)) := by
            gcongr <;> linarith
        _ ≤ 1 / 8 := by norm_num
    have e : m * (L * (a + (m + 2) * tiny)) = m * (L * a) + m * L * ((m + 2) * tiny) := by ring
    rw [e]
    linarith
  have hB0 : 0 ≤ m * pmfAbs S a := mul_nonneg hm0 (pmfAbs_nonneg S ha)
  have hPs : 1 / 4 ≤ P.sum := by
    have h5 := hN.2
    have h6 := hP3.sum_nonneg
    nlinarith [one_le_pmfFactor S one_lt_rho.le]
  have hw := (sumR_within R hP3).2
  have hr2 : rho ^ P.length ≤ 2 := rho_pow_le_two one_lt_rho.le hC _ (by omega)
  have hs0 := sumR_nonneg R hP3
  have hbig : 1 / 8 ≤ sumR R P := by nlinarith
  calc (2 : ℝ) ^ (-1022 : ℤ) ≤ 2 ^ (-4 : ℤ) := zpow_le_zpow_right₀ (by norm_num) (by norm_num)
    _ < 1 / 8 := by norm_num
    _ ≤ _ := hbig

/-- A concrete case: one particle through a rotation, with exact values of the calculator rounded once. -/
example (N : ℤ) (o : GccObj) (r : Py (List (List ℕ) × GccObj))
    (hr : (gccSimulateR R gccA
      (fun c => .ok (R.rnd (Complex.normSq (scatteringPermanent c.matrix c.input c.output))))
      [[3 / 5, 4 / 5], [4 / 5, -3 / 5]] 2 o [1, 0] N).Runs r) : ∃ l o', r = .ok (l, o') ∧ GoodSamples [1, 0] N l := by
  refine C86_gcc_one R rfl gccA (.inl rfl) (rotation_interferometer [1, 0] rfl) ?_ (a := tiny)
    (fun l T _ _ _ => ⟨_, rfl, R.nonneg (Complex.normSq_nonneg _), R.near (Complex.normSq_nonneg _)⟩)
    tiny_pos.le ?_ (by decide) 2 (by norm_num) N o r hr
  · intro c x h
    injection h with h
    rw [← h]
    exact R.nonneg (Complex.normSq_nonneg _)
  · have : tiny ≤ 1 / 32 := by
      unfold tiny
      refine (zpow_le_zpow_right₀ (n := -5) (by norm_num) (by norm_num)).trans (by norm_num)
    simp [boxSize]
    linarith

/-- C86 (version B with uniform losses): no run raises if every value of `random()` is below the computed
sum of the probabilities of the numbers of particles. -/
theorem C86_losses_partial {U : List (List ℂ)} {S : List ℕ} (h : Interferometer U S) {eta : ℝ} (h0 : 0 ≤ eta)
    (h1 : eta ≤ 1) (hsum : 1 - 1 / 2 ^ 53 < sumR R (gccbWeightsR R S.sum eta)) (fuel : ℕ)
    (hf : (S.map (· + 1)).prod ≤ fuel) (N : ℤ) (r : Py (List (List ℕ)))
    (hr : (gccbLossySimulateR R (ryserSubPermanents fuel) U fuel eta S N).Runs r) :
    ∃ l, r = .ok l ∧ l.length = N.toNat ∧ ∀ T ∈ l, T.length = S.length ∧ T.sum ≤ S.sum := by
  have hall : ∀ n, (gccbLossyLoopR R (ryserSubPermanents fuel) U fuel S (particles S)
      (gccbWeightsR R S.sum eta) n).All
      (fun l => l.length = n ∧ ∀ T ∈ l, T.length = S.length ∧ T.sum ≤ S.sum) (fun _ => False) := by
    intro n
    induction n with
    | zero => exact Prog.all_done_ok ⟨rfl, by simp⟩
    | succ n ih =>
      rw [gccbLossyLoopR]
      refine Prog.all_bind (I := fun k => k ≤ S.sum) (all_randomR fun u hu => Prog.all_done_ok ?_) fun k hk => ?_
      · have := (scanIndexR_range R hu (gccbWeightsR_weights R S.sum h0 h1)).mpr (by
          obtain ⟨k, hk, rfl⟩ := hu
          refine lt_of_le_of_lt ?_ hsum
          have : ((k + 1 : ℕ) : ℝ) ≤ ((2 ^ 53 : ℕ) : ℝ) := by exact_mod_cast hk
          push_cast at this
          rw [div_le_iff₀ (by positivity)]
          norm_num at this ⊢
          linarith)
        rw [length_gccbWeightsR] at this
        omega
      · refine Prog.all_bind (gccbFill_live (h.bok fuel hf) k fuel hk
          (lt_of_le_of_lt hk (lt_of_lt_of_le (sum_lt_prod_succ S) hf))) fun s hs => Prog.all_bind ih fun l hl =>
            Prog.all_done_ok ⟨?_, ?_⟩
        · rw [List.length_cons, hl.1]
        · intro T hT
          rcases List.mem_cons.mp hT with rfl | hT
          · exact ⟨hs.1, by rw [hs.2]; exact hk⟩
          · exact hl.2 T hT
  unfold gccbLossySimulateR at hr
  rw [modeOccupationToModeAssignment_eq] at hr
  rcases hall N.toNat r hr with ⟨l, h1, h2⟩ | ⟨_, _, h⟩
  · exact ⟨l, h1, h2⟩
  · exact h.elim

/-- A concrete case: two particles, each kept with probability one half; the computed sum is one. -/
example (N : ℤ) (r : Py (List (List ℕ)))
    (hr : (gccbLossySimulateR R (ryserSubPermanents 4) [[3 / 5, 4 / 5], [4 / 5, -3 / 5]] 4 (1 / 2) [1, 1] N).Runs r) :
    ∃ l, r = .ok l ∧ l.length = N.toNat ∧ ∀ T ∈ l, T.length = [1, 1].length ∧ T.sum ≤ [1, 1].sum := by
  have hh : IsFloat (1 / 2) := ⟨1, -1, by norm_num, by norm_num, by norm_num⟩
  have hq : IsFloat (1 / 4) := ⟨1, -2, by norm_num, by norm_num, by norm_num⟩
  have h3 : IsFloat (3 / 4) := ⟨3, -2, by norm_num, by norm_num, by norm_num⟩
  have e1 : (1 : ℝ) - 1 / 2 = 1 / 2 := by norm_num
  have e2 : (1 / 2 : ℝ) ^ 2 = 1 / 4 := by norm_num
  have e3 : (2 : ℝ) * (1 / 2) = 1 := by norm_num
  have e4 : (1 / 4 : ℝ) + 1 / 2 = 3 / 4 := by norm_num
  have e5 : (3 / 4 : ℝ) + 1 / 4 = 1 := by norm_num
  refine C86_losses_partial R (rotation_interferometer [1, 1] rfl) (by norm_num) (by norm_num) ?_ 4 (by decide) N r hr
  have hw : gccbWeightsR R [1, 1].sum (1 / 2) = [1 / 4, 1 / 2, 1 / 4] := by
    rw [show [1, 1].sum = 2 from rfl]
    unfold gccbWeightsR
    simp only [List.range_succ, List.range_zero, List.nil_append, List.cons_append, List.map_cons, List.map_nil, e1,
      Nat.choose_zero_right, Nat.choose_self, Nat.choose_one_right, Nat.cast_one, Nat.cast_ofNat, pow_zero, pow_one,
      rnd_one, rnd_two, one_mul, mul_one, R.eq_self hh, Nat.sub_zero, Nat.sub_self, Nat.add_one_sub_one, e2, e3,
      R.eq_self hq]
  rw [hw]
  simp only [sumR, List.foldl_cons, List.foldl_nil, zero_add, R.eq_self hq, e4, R.eq_self h3, e5, rnd_one]
  norm_num

/-- C86 (version B with uniform losses): a number of particles that does not exist is drawn with probability
at most `(4 n + 13) / 2 ^ 53`. -/
theorem C86_losses_rare_partial (n : ℕ) (hn : n ≤ 170) {eta : ℝ} (h0 : 0 ≤ eta) (h1 : eta ≤ 1) (hf : IsFloat eta) :
    (gccbParticlesLeftR R (gccbWeightsR R n eta)).prob (fun r => ¬ ∃ k ≤ n, r = .ok k)
      ≤ ENNReal.ofReal ((4 * n + 13) / 2 ^ 53) := by
  classical
  have hW := gccbWeightsR_weights R n h0 h1
  have e := randomR_prob (fun u => scanIndexR R u (gccbWeightsR R n eta) 0) (fun r => ¬ ∃ k ≤ n, r = .ok k)
  unfold gccbParticlesLeftR
  simp only [Prog.bind_eq, Prog.pure_eq]
  rw [e]
  refine ENNReal.ofReal_le_ofReal ?_
  have hsum := abs_le.mp (gccbWeightsR_sum R n hn h0 h1 hf)
  refine (le_trans ?_ (card_random_ge (sumR R (gccbWeightsR R n eta)))).trans ?_
  · refine div_le_div_of_nonneg_right ?_ (by positivity)
    refine Nat.cast_le.mpr (card_le_card fun k hk => ?_)
    obtain ⟨hk1, hk2⟩ := mem_filter.mp hk
    refine mem_filter.mpr ⟨hk1, ?_⟩
    by_contra hcon
    push Not at hcon
    have := (scanIndexR_range R ⟨k, mem_range.mp hk1, rfl⟩ hW).mpr hcon
    rw [length_gccbWeightsR] at this
    exact hk2 ⟨_, by omega, rfl⟩
  · refine max_le (by positivity) ?_
    linarith [hsum.1]

/-- A concrete case: two particles, each kept with probability `0.27`. -/
example : (gccbParticlesLeftR R (gccbWeightsR R 2 eta27)).prob (fun r => ¬ ∃ k ≤ 2, r = .ok k)
    ≤ ENNReal.ofReal ((4 * (2 : ℕ) + 13) / 2 ^ 53) :=
  C86_losses_rare_partial R 2 (by norm_num) (by unfold eta27; positivity) (by unfold eta27; norm_num) isFloat_eta27

/-- C86: two particles through a rotation, each kept with probability `0.27`: the computed probabilities sum
up to `1 - 2 ^ -53`, and with probability at least `2 ^ -53` three particles are asked for and the sampler
raises `ValueError`. -/
theorem C86_losses_fails : ENNReal.ofReal (1 / 2 ^ 53) ≤
    (gccbLossySimulateR R (ryserSubPermanents 4) [[3 / 5, 4 / 5], [4 / 5, -3 / 5]] 4 eta27 [1, 1] 1).prob
      (fun r => r = .error .valueError) := by
  unfold gccbLossySimulateR
  rw [modeOccupationToModeAssignment_eq]
  simp only [Prog.bind_eq, Prog.lift_def, Prog.done_ok_bind]
  rw [show (1 : ℤ).toNat = 0 + 1 from rfl, gccbLossyLoopR]
  unfold gccbParticlesLeftR
  simp only [Prog.bind_eq, Prog.pure_eq, Prog.bind_assoc]
  refine randomR_prob_ge _ _ (2 ^ 53 - 1) (by norm_num) ?_
  have hW := gccbWeightsR_weights R 2 (eta := eta27) (by unfold eta27; positivity) (by unfold eta27; norm_num)
  have hidx : scanIndexR R (((2 ^ 53 - 1 : ℕ) : ℝ) / 2 ^ 53) (gccbWeightsR R [1, 1].sum eta27) 0 = 3 := by
    have := scanIndexR_past R (((2 ^ 53 - 1 : ℕ) : ℝ) / 2 ^ 53) 0 (gccbWeightsR R 2 eta27) hW isFloat_zero (by
      rw [← sumR_eq, sum27]; norm_num)
    rw [length_gccbWeightsR] at this
    exact this
  rw [hidx]
  simp only [Prog.done_ok_bind]
  have hb := (rotation_interferometer [1, 1] rfl).bok 4 (by decide)
  exact prob_one_of_all (Prog.all_bind (gccbFill_over hb 3 4 (by decide) (by decide)) fun _ h => h.elim)

/-- C86 (BOBS): `choice` returns `None` for the binomial weights with probability at most `(4 n + 13) / 2 ^ 53`. -/
theorem C86_bobs_partial (n : ℕ) (hn : n ≤ 170) {losses : ℝ} (h0 : 0 ≤ losses) (h1 : losses ≤ 1) :
    (bobsChoiceR R (List.range (n + 1)) (bobsWeightsR R losses n)).prob (fun r => ¬ ∃ k ≤ n, r = .ok (some k))
      ≤ ENNReal.ofReal ((4 * n + 13) / 2 ^ 53) := by
  have h := C86_losses_rare_partial R n hn (R.nonneg (by linarith : 0 ≤ 1 - losses)) (rnd_le_one R (by linarith))
    (R.isFloat (1 - losses))
  classical
  have hW := gccbWeightsR_weights R n (R.nonneg (by linarith : 0 ≤ 1 - losses)) (rnd_le_one R (by linarith))
  rw [bobsWeightsR_eq]
  unfold bobsChoiceR
  unfold gccbParticlesLeftR at h
  simp only [Prog.bind_eq, Prog.pure_eq] at h ⊢
  rw [randomR_prob (fun u => scanIndexR R u (gccbWeightsR R n (R.rnd (1 - losses))) 0)] at h
  rw [randomR_prob (fun u => (List.range (n + 1))[scanIndexR R u (gccbWeightsR R n (R.rnd (1 - losses))) 0]?)]
  refine le_trans (ENNReal.ofReal_le_ofReal ?_) h
  refine div_le_div_of_nonneg_right ?_ (by positivity)
  refine Nat.cast_le.mpr (card_le_card fun k hk => ?_)
  obtain ⟨hk1, hk2⟩ := mem_filter.mp hk
  refine mem_filter.mpr ⟨hk1, ?_⟩
  rintro ⟨j, hj, he⟩
  injection he with he
  refine hk2 ⟨j, hj, ?_⟩
  rw [he, List.getElem?_eq_getElem (by simp; omega)]
  simp

/-- A concrete case: losses `0.73`. -/
example : (bobsChoiceR R (List.range 6) (bobsWeightsR R eta73 5)).prob (fun r => ¬ ∃ k ≤ 5, r = .ok (some k))
    ≤ ENNReal.ofReal ((4 * (5 : ℕ) + 13) / 2 ^ 53) :=
  C86_bobs_partial R 5 (by norm_num) (by unfold eta73; positivity) (by unfold eta73; norm_num)

/-- C86: with losses `0.73` and two particles in a mode, `choice` returns `None` with positive probability. -/
theorem C86_bobs_fails : ENNReal.ofReal (1 / 2 ^ 53) ≤
    (bobsChoiceR R (List.range 3) (bobsWeightsR R eta73 2)).prob (fun r => r = .ok none) := by
  have he : R.rnd (1 - eta73) = eta27 := by
    have : 1 - eta73 = eta27 := by unfold eta27 eta73; norm_num
    rw [this, R.eq_self isFloat_eta27]
  rw [bobsWeightsR_eq, he]
  unfold bobsChoiceR
  simp only [Prog.bind_eq, Prog.pure_eq]
  refine randomR_prob_ge _ _ (2 ^ 53 - 1) (by norm_num) ?_
  have hW := gccbWeightsR_weights R 2 (eta := eta27) (by unfold eta27; positivity) (by unfold eta27; norm_num)
  have hidx : scanIndexR R (((2 ^ 53 - 1 : ℕ) : ℝ) / 2 ^ 53) (gccbWeightsR R 2 eta27) 0 = 3 := by
    have := scanIndexR_past R (((2 ^ 53 - 1 : ℕ) : ℝ) / 2 ^ 53) 0 (gccbWeightsR R 2 eta27) hW isFloat_zero (by
      rw [← sumR_eq, sum27]; norm_num)
    rw [length_gccbWeightsR] at this
    exact this
  rw [hidx]
  unfold Prog.prob
  simp [Prog.wp]

/-- C86 (fixed losses): no particle is lost if every value of `random()` is at most the computed sum of the
probabilities. -/
theorem C86_fixed_partial {probs : List ℝ} (h : ∀ x ∈ probs, IsFloat x ∧ 0 ≤ x)
    (hs : 1 - 1 / 2 ^ 53 ≤ sumR R probs) (k : ℕ) (output : List ℕ) (hl : output.length = probs.length)
    (r : Py (List ℕ)) (hr : (fixedPhotonsR R probs k output).Runs r) :
    ∃ out, r = .ok out ∧ out.length = output.length ∧ out.sum = output.sum + k := by
  rcases fixedPhotonsR_safe R h hs k output hl r hr with ⟨out, h1, h2, h3⟩ | ⟨_, _, h⟩
  · exact ⟨out, h1, h2, h3⟩
  · exact h.elim

/-- A concrete case: two modes with probability one half. -/
example (r : Py (List ℕ)) (hr : (fixedPhotonsR R [1 / 2, 1 / 2] 4 [0, 0]).Runs r) :
    ∃ out, r = .ok out ∧ out.length = 2 ∧ out.sum = 0 + 4 := by
  have hh : IsFloat (1 / 2) := ⟨1, -1, by norm_num, by norm_num, by norm_num⟩
  have e : (1 / 2 : ℝ) + 1 / 2 = 1 := by norm_num
  refine C86_fixed_partial R ?_ ?_ 4 [0, 0] rfl r hr
  · intro x hx
    have : x = 1 / 2 := by simpa using hx
    subst this
    exact ⟨hh, by norm_num⟩
  · simp only [sumR, List.foldl_cons, List.foldl_nil, zero_add, R.eq_self hh, e, rnd_one]
    norm_num

/-- C86 (fixed losses): the probability that some of `k` particles are lost is at most `k` times what is
missing in the computed sum of the probabilities. -/
theorem C86_fixed_rare_partial {probs : List ℝ} (h : ∀ x ∈ probs, IsFloat x ∧ 0 ≤ x) (hne : probs ≠ []) (k : ℕ)
    (output : List ℕ) (hl : output.length = probs.length) :
    (fixedPhotonsR R probs k output).prob (fun r => ¬ ∃ out, r = .ok out ∧ out.length = output.length ∧
      out.sum = output.sum + k) ≤ k * ENNReal.ofReal (max 0 (1 - sumR R probs)) :=
  fixedPhotonsR_rare R h hne k output hl

/-- The float `(1 / math.sqrt(2)) ** 2`. -/
noncomputable def half : ℝ := 1 / 2 - 1 / 2 ^ 53

theorem isFloat_half : IsFloat half := ⟨2 ^ 52 - 1, -53, by norm_num, by norm_num, by
  rw [zpow_neg, ← div_eq_mul_inv]; unfold half; norm_num⟩

/-- A concrete case: a balanced beam splitter, three particles. -/
example : (fixedPhotonsR R [half, half] 3 [0, 0]).prob (fun r => ¬ ∃ out, r = .ok out ∧ out.length = 2 ∧
      out.sum = 0 + 3) ≤ (3 : ℕ) * ENNReal.ofReal (max 0 (1 - sumR R [half, half])) := by
  refine C86_fixed_rare_partial R ?_ (by simp) 3 [0, 0] rfl
  intro x hx
  have : x = half := by simpa using hx
  subst this
  exact ⟨isFloat_half, by unfold half; norm_num⟩

/-- C86: behind a balanced beam splitter, whose computed probabilities sum up to `1 - 2 ^ -52`, a particle is
lost with probability at least `2 ^ -53`. -/
theorem C86_fixed_fails : ENNReal.ofReal (1 / 2 ^ 53) ≤
    (fixedPhotonsR R [half, half] 1 [0, 0]).prob (fun r => r = .ok [0, 0]) := by
  rw [fixedPhotonsR]
  simp only [Prog.bind_eq]
  refine randomR_prob_ge _ _ (2 ^ 53 - 1) (by norm_num) ?_
  have hsum : R.rnd (half + half) = 1 - 1 / 2 ^ 52 :=
    have e : half + half = 1 - 1 / 2 ^ 52 := by unfold half; norm_num
    e ▸ R.eq_self ⟨2 ^ 52 - 1, -52, by norm_num, by norm_num, by
      rw [e, zpow_neg, ← div_eq_mul_inv]; norm_num⟩
  have hu : ((2 ^ 53 - 1 : ℕ) : ℝ) / 2 ^ 53 = 1 - 1 / 2 ^ 53 := by norm_num
  have hidx : scanReachR R (((2 ^ 53 - 1 : ℕ) : ℝ) / 2 ^ 53) [half] half = 2 := by
    rw [scanReachR, if_pos (by rw [hu]; unfold half; norm_num), hsum, scanReachR, if_pos (by rw [hu]; norm_num)]
  rw [hidx]
  simp [Prog.prob, Prog.wp, fixedPhotonsR, Prog.pure_eq]

end Verif
