import Verif.Proofs.RoundedPmf
import Verif.Proofs.ProgLoop

/-! Helper lemmas: the generalized Clifford & Clifford sampler in floating-point arithmetic. -/
namespace Verif

open Finset
open scoped ENNReal

/-! ### Draws -/

/-- Sums over draws, grouped by the value drawn. -/
theorem sum_draws (M m : ℕ) (hM : 0 < M) (s : ℕ → ℕ) (hs : ∀ k < M, s k < m) (F : ℕ → ℝ≥0∞) :
    (∑ k ∈ range M, F (s k)) / (M : ℝ≥0∞)
      = ∑ j ∈ range m, ENNReal.ofReal ((((range M).filter fun k => s k = j).card : ℝ) / (M : ℝ)) * F j := by
  rw [← sum_fiberwise_of_maps_to (g := s) (t := range m) (fun k hk => mem_range.mpr (hs k (mem_range.mp hk))),
    ENNReal.div_eq_inv_mul, mul_sum]
  refine sum_congr rfl fun j _ => ?_
  rw [sum_congr rfl fun k hk => by rw [(mem_filter.mp hk).2], sum_const, nsmul_eq_mul, ← mul_assoc]
  congr 1
  rw [ENNReal.ofReal_div_of_pos (by exact_mod_cast hM), ENNReal.ofReal_natCast, ENNReal.ofReal_natCast,
    ENNReal.div_eq_inv_mul]

variable (R : Rounding)

theorem randomR_wp {β : Type} (g : ℝ → Prog β) (f : Py β → ℝ≥0∞) :
    (randomR.bind g).wp f = (∑ k ∈ range (2 ^ 53), (g ((k : ℝ) / 2 ^ 53)).wp f) / ((2 ^ 53 : ℕ) : ℝ≥0∞) := by
  unfold randomR Prog.randBelow
  simp only [Prog.bind_eq, Prog.bind, Prog.pure_eq, Prog.wp]
  rw [if_neg (by norm_num)]

theorem selLaw_eq (P : List ℝ) (j : ℕ) :
    selLaw R P j = (((range (2 ^ 53)).filter fun k : ℕ => gccSelect R ((k : ℝ) / 2 ^ 53) P = j).card : ℝ)
      / ((2 ^ 53 : ℕ) : ℝ) := by
  unfold selLaw
  congr 1
  norm_num

theorem selLaw_nonneg (P : List ℝ) (j : ℕ) : 0 ≤ selLaw R P j := by unfold selLaw; positivity

theorem two_pow_969_lt {x : ℝ} (h : (2 : ℝ) ^ (-969 : ℤ) ≤ x) : (2 : ℝ) ^ (-1022 : ℤ) < x :=
  lt_of_lt_of_le (by rw [zpow_lt_zpow_iff_right₀ (by norm_num)]; norm_num) h

theorem sampleR_wp (o : GccObj) (P : List ℝ) (O : List (List ℕ)) (hP : assocGet o.pmfs o.key = some P)
    (hO : assocGet o.outs o.key = some O) (hlen : O.length = P.length) (hW : Weights P)
    (hs : (2 : ℝ) ^ (-969 : ℤ) ≤ sumR R P) (f : Py GccObj → ℝ≥0∞) :
    (sampleFromLatestPmfR R o).wp f = ∑ j ∈ range P.length, ENNReal.ofReal (selLaw R P j) *
      f (.ok { o with r := O.getD j [], key := O.getD j [] }) := by
  unfold sampleFromLatestPmfR
  rw [assocGetPy_ok hP, assocGetPy_ok hO]
  simp only [Prog.bind_eq, Prog.lift_def, Prog.pure_eq, Prog.done_ok_bind]
  rw [randomR_wp]
  have hlt : ∀ k : ℕ, k < 2 ^ 53 → gccSelect R ((k : ℝ) / 2 ^ 53) P < P.length := fun k hk =>
    (gccSelect_lt R ⟨k, hk, rfl⟩ hW (two_pow_969_lt hs)).1
  simp only [selLaw_eq]
  rw [← sum_draws (2 ^ 53) P.length (by norm_num) (fun k => gccSelect R ((k : ℝ) / 2 ^ 53) P) hlt
    (fun j => f (.ok { o with r := O.getD j [], key := O.getD j [] }))]
  refine congrArg (· / ((2 ^ 53 : ℕ) : ℝ≥0∞)) (sum_congr rfl fun k hk => ?_)
  have h := hlt k (mem_range.mp hk)
  rw [pyGetN_ok h, Prog.done_ok_bind, pyGetN_ok (hlen.symm ▸ h), Prog.done_ok_bind, getD_of_lt _ _ (hlen.symm ▸ h)]
  rfl

theorem selLaw_sum {P : List ℝ} (hW : Weights P) (hs : (2 : ℝ) ^ (-969 : ℤ) ≤ sumR R P) :
    ∑ j ∈ range P.length, selLaw R P j = 1 := by
  have h := sum_draws (2 ^ 53) P.length (by norm_num) (fun k => gccSelect R ((k : ℝ) / 2 ^ 53) P)
    (fun k hk => (gccSelect_lt R ⟨k, hk, rfl⟩ hW (two_pow_969_lt hs)).1) (fun _ => 1)
  simp only [mul_one, sum_const, card_range, nsmul_eq_mul, ← selLaw_eq] at h
  rw [ENNReal.div_self (by norm_num) (by exact ENNReal.natCast_ne_top _),
    ← ENNReal.ofReal_sum_of_nonneg (fun j _ => selLaw_nonneg R P j)] at h
  have := congrArg ENNReal.toReal h
  rw [ENNReal.toReal_ofReal (sum_nonneg fun j _ => selLaw_nonneg R P j)] at this
  simpa using this.symm

/-! ### One step -/

theorem list_sum_getD (P : List ℝ) : P.sum = ∑ j ∈ range P.length, P.getD j 0 := by
  rw [sum_range, ← Fin.sum_univ_getElem]
  exact sum_congr rfl fun i _ => by simp

/-- The error of one step, relative to the probability of the current sample. -/
noncomputable def stepErr (m : ℕ) (C : ℝ) : ℝ := 2 * (C - 1) + 2 * m * selError m

/-- The error of one step that does not shrink with the probability of the current sample. -/
noncomputable def absErr (m : ℕ) (C B : ℝ) : ℝ := 2 * (m * (C * B)) + 2 ^ (-968 : ℤ)

theorem stepErr_nonneg (m : ℕ) {C : ℝ} (hC : 1 ≤ C) : 2 * (C - 1) ≤ stepErr m C ∧ 0 ≤ stepErr m C := by
  have := selError_nonneg m
  have h : 0 ≤ 2 * (m : ℝ) * selError m := by positivity
  unfold stepErr
  exact ⟨by linarith, by linarith⟩

theorem dist_close {P : List ℝ} {p : ℕ → ℝ} {C B : ℝ} (hC : 1 ≤ C) (hB : 0 ≤ B) (hp : ∀ j, 0 ≤ p j)
    (hN : ∀ j < P.length, Near C B (P.getD j 0) (p j)) :
    ∑ j ∈ range P.length, |P.getD j 0 - p j| ≤ (C - 1) * ∑ j ∈ range P.length, p j + P.length * (C * B) := by
  calc _ ≤ ∑ j ∈ range P.length, ((C - 1) * p j + C * B) :=
        sum_le_sum fun j hj => (hN j (mem_range.mp hj)).close hC (hp j) hB
    _ = _ := by rw [sum_add_distrib, ← mul_sum]; simp

/-- The distribution of the next particle, up to rounding. -/
theorem step_close {P : List ℝ} (hW : Weights P) (hs : (2 : ℝ) ^ (-969 : ℤ) ≤ sumR R P) {p : ℕ → ℝ} {C B s : ℝ} (hC : 1 ≤ C)
    (hB : 0 ≤ B) (hp : ∀ j, 0 ≤ p j) (hps : ∑ j ∈ range P.length, p j = s) (hs0 : 0 < s)
    (hN : ∀ j < P.length, Near C B (P.getD j 0) (p j)) :
    ∑ j ∈ range P.length, |s * selLaw R P j - p j| ≤ stepErr P.length C * s + 2 * (P.length * (C * B)) := by
  have hD := dist_close hC hB hp hN
  rw [hps] at hD
  set D := ∑ j ∈ range P.length, |P.getD j 0 - p j| with hDdef
  have hσpos : 0 < P.sum := (sumR_within R hW).symm.pos (lt_of_lt_of_le (two_zpow_pos _) hs) hW.sum_nonneg
  have hσ : |s - P.sum| ≤ D := by
    rw [← hps, list_sum_getD P, ← sum_sub_distrib]
    refine (abs_sum_le_sum_abs _ _).trans (sum_le_sum fun j _ => ?_)
    rw [abs_sub_comm]
  have hnn : ∀ j, 0 ≤ P.getD j 0 := by
    intro j
    by_cases hj : j < P.length
    · rw [getD_of_lt _ _ hj]; exact (hW _ (List.getElem_mem hj)).2
    · rw [List.getD_eq_getElem?_getD, List.getElem?_eq_none (by omega), Option.getD_none]
  have hterm : ∀ j ∈ range P.length, |s * selLaw R P j - p j|
      ≤ s * (2 * selError P.length) + (|P.getD j 0 - p j| + P.getD j 0 / P.sum * |s - P.sum|) := by
    intro j hj
    have h1 := selLaw_close R hW hs j (mem_range.mp hj)
    have e : s * selLaw R P j - p j = s * (selLaw R P j - P.getD j 0 / P.sum)
        + ((P.getD j 0 - p j) + P.getD j 0 / P.sum * (s - P.sum)) := by
      field_simp
      ring
    rw [e]
    refine (abs_add_le _ _).trans (add_le_add ?_ ((abs_add_le _ _).trans (add_le_add le_rfl ?_)))
    · rw [abs_mul, abs_of_pos hs0]
      exact mul_le_mul_of_nonneg_left h1 hs0.le
    · rw [abs_mul, abs_of_nonneg (div_nonneg (hnn j) hσpos.le)]
  refine (sum_le_sum hterm).trans ?_
  rw [sum_add_distrib, sum_add_distrib, sum_const, card_range, nsmul_eq_mul, ← sum_mul, ← sum_div, ← list_sum_getD,
    div_self hσpos.ne', one_mul]
  unfold stepErr
  have : (P.length : ℝ) * (s * (2 * selError P.length)) = 2 * P.length * selError P.length * s := by ring
  rw [this]
  linarith

/-- A sample whose computed pmf is too small has a small probability. -/
theorem small_close {P : List ℝ} (hW : Weights P) (hs : ¬ (2 : ℝ) ^ (-969 : ℤ) ≤ sumR R P) {p : ℕ → ℝ} {C B s : ℝ} (hC : 1 ≤ C)
    (hB : 0 ≤ B) (hp : ∀ j, 0 ≤ p j) (hps : ∑ j ∈ range P.length, p j = s) (hr : rho ^ P.length ≤ 2)
    (hN : ∀ j < P.length, Near C B (P.getD j 0) (p j)) :
    s ≤ stepErr P.length C * s + absErr P.length C B := by
  have hD := dist_close hC hB hp hN
  rw [hps] at hD
  have hs0 : 0 ≤ s := hps ▸ sum_nonneg fun j _ => hp j
  push Not at hs
  have h1 : s ≤ P.sum + ∑ j ∈ range P.length, |P.getD j 0 - p j| := by
    rw [← hps, list_sum_getD P, ← sum_add_distrib]
    refine sum_le_sum fun j _ => ?_
    have := neg_abs_le (P.getD j 0 - p j)
    linarith
  have h2 : P.sum ≤ 2 ^ (-968 : ℤ) := by
    have h3 := (sumR_within R hW).2
    have h4 := sumR_nonneg R hW
    have e : (2 : ℝ) ^ (-968 : ℤ) = 2 * 2 ^ (-969 : ℤ) := by
      rw [← zpow_one_add₀ (by norm_num)]; norm_num
    rw [e]
    calc P.sum ≤ rho ^ P.length * sumR R P := h3
      _ ≤ 2 * sumR R P := mul_le_mul_of_nonneg_right hr h4
      _ ≤ _ := by linarith
  have h5 := (stepErr_nonneg P.length hC).1
  have h6 : 0 ≤ (P.length : ℝ) * (C * B) := by positivity
  have h7 := mul_le_mul_of_nonneg_right h5 hs0
  have h8 : 0 ≤ (C - 1) * s := mul_nonneg (by linarith) hs0
  unfold absErr
  linarith

/-! ### The pmf of a sample -/

theorem mapM_exists {α β : Type} [Inhabited β] (f : α → Py β) (Q : α → β → Prop) (l : List α)
    (h : ∀ a ∈ l, ∃ b, f a = .ok b ∧ Q a b) :
    ∃ g : α → β, l.mapM f = .ok (l.map g) ∧ ∀ a ∈ l, Q a (g a) := by
  classical
  refine ⟨fun a => match f a with | .ok b => b | .error _ => default, ?_, ?_⟩
  · refine mapM_ok _ _ _ fun a ha => ?_
    obtain ⟨b, hb, -⟩ := h a ha
    rw [hb]
  · intro a ha
    obtain ⟨b, hb, hQ⟩ := h a ha
    simp only [hb]
    exact hQ

theorem length_inputSubstates (S : List ℕ) : (inputSubstates S).length = (S.map (· + 1)).prod := by
  induction S with
  | nil => rfl
  | cons s S ih =>
    simp only [inputSubstates, List.length_flatMap, List.length_map, List.map_cons, List.prod_cons, ← ih]
    rw [List.map_const', List.sum_replicate]
    simp

theorem length_subStates_le (S : List ℕ) (k : ℕ) : (subStates S k).length ≤ (S.map (· + 1)).prod := by
  rw [← length_inputSubstates]; exact List.length_filter_le _ _

/-- The factor by which a computed probability may be off. -/
noncomputable def pmfFactor (S : List ℕ) (c : ℝ) : ℝ := c * rho ^ (6 * S.length + 6 + 2 * (S.map (· + 1)).prod)

/-- The absolute error of a computed probability. -/
noncomputable def pmfAbs (S : List ℕ) (a : ℝ) : ℝ := ((S.map (· + 1)).prod : ℕ) * (a + (S.length + 2) * tiny)

theorem pmfAbs_nonneg (S : List ℕ) {a : ℝ} (ha : 0 ≤ a) : 0 ≤ pmfAbs S a := by
  have := tiny_pos
  unfold pmfAbs
  positivity

theorem one_le_pmfFactor (S : List ℕ) {c : ℝ} (hc : 1 ≤ c) : 1 ≤ pmfFactor S c := by
  unfold pmfFactor
  nlinarith [one_le_rho_pow (6 * S.length + 6 + 2 * (S.map (· + 1)).prod)]

theorem rho_pow_le_two {S : List ℕ} {c : ℝ} (hc : 1 ≤ c) (h2 : pmfFactor S c ≤ 2) (n : ℕ)
    (hn : n ≤ 6 * S.length + 6 + 2 * (S.map (· + 1)).prod) : rho ^ n ≤ 2 := by
  have h1 : rho ^ n ≤ rho ^ (6 * S.length + 6 + 2 * (S.map (· + 1)).prod) := pow_le_pow_right₀ one_lt_rho.le hn
  unfold pmfFactor at h2
  nlinarith [one_le_rho_pow (6 * S.length + 6 + 2 * (S.map (· + 1)).prod)]

section

variable {v : GccVariant} {S : List ℕ} (V : VariantOK v S)

theorem layerPmfR_near {sq : CalcCfg ℂ → Py ℝ} {U : List (List ℂ)} {c a : ℝ} (hsq : SqNear sq U S c a)
    (hc : 1 ≤ c) (ha : 0 ≤ a) (hn : S.sum ≤ 200) (h2 : pmfFactor S c ≤ 2) (r : List ℕ) (hr : V.val r)
    (hk : (V.seqOf r).length < S.sum) :
    ∃ P, layerPmfR R v sq U S (labeledStates S) r = .ok P ∧ P.length = S.length ∧ Weights P ∧
      ∀ j < S.length, Near (pmfFactor S c) (pmfAbs S a) (P.getD j 0)
        (seqProb (colOf U) S ((V.seqOf r).length + 1) (j :: V.seqOf r)) := by
  set k := (V.seqOf r).length + 1 with hkdef
  have hL := length_subStates_le S k
  have hns := V.nx_seq _ hr
  obtain ⟨g, hg, hQ⟩ := mapM_exists (fun out => do
      let occ ← v.occ S out
      pmfEntryR R sq U (subStates S k) ((subStates S k).map (weightR R S k)) occ)
    (fun out x => IsFloat x ∧ 0 ≤ x ∧ Near (pmfFactor S c) (pmfAbs S a) x (seqProb (colOf U) S k (V.seqOf out)))
    (v.next S r) (by
      intro out hout
      rw [V.next _ hr] at hout
      obtain ⟨j, hj, rfl⟩ := List.mem_map.mp hout
      have hj := List.mem_range.mp hj
      have hv := V.nx_val _ hr _ hj
      obtain ⟨x, hx1, hx2, hx3, hx4⟩ := pmfEntryR_near R hsq hc ha hn k hk
        (rho_pow_le_two hc h2 _ (by omega)) (occOf S.length (V.seqOf (V.nx r j))) (occOf_length _ _)
        (by rw [occOf_sum _ _ (V.lt _ hv), (hns j hj).length_eq, List.length_cons])
      refine ⟨x, ?_, hx2, hx3, ?_⟩
      · rw [V.occ _ hv, ok_bind, hx1]
      · rw [seqProb_perm _ _ _ (particles_occOf (V.lt _ hv))] at hx4
        have ht := tiny_pos
        refine hx4.mono (by have := rho_nonneg; positivity) hx3 (seqProb_nonneg _ _ _ _) (by positivity) ?_ ?_
        · unfold pmfFactor
          gcongr
          exact one_lt_rho.le
        · unfold pmfAbs
          gcongr)
  refine ⟨(v.next S r).map g, ?_, ?_, ?_, ?_⟩
  · unfold layerPmfR
    simp only
    rw [labeledStates_get, V.count _ hr]
    change (layerWeightsR R S (subStates S k) >>= _) = _
    rw [layerWeightsR_ok R S hn k hk, ok_bind]
    exact hg
  · rw [V.next _ hr]; simp
  · intro x hx
    obtain ⟨out, hout, rfl⟩ := List.mem_map.mp hx
    exact ⟨(hQ out hout).1, (hQ out hout).2.1⟩
  · intro j hj
    have hj' : j < ((v.next S r).map g).length := by rw [V.next _ hr]; simpa using hj
    rw [getD_of_lt _ _ hj', List.getElem_map]
    have hmem : (v.next S r)[j]'(by simpa using hj') = V.nx r j := by simp [V.next _ hr]
    rw [hmem]
    have := (hQ (V.nx r j) (by rw [V.next _ hr]; exact List.mem_map.mpr ⟨j, List.mem_range.mpr hj, rfl⟩)).2.2
    rwa [seqProb_perm _ _ _ (hns j hj)] at this

/-- The cache only contains what would be recomputed. -/
structure CacheR (sq : CalcCfg ℂ → Py ℝ) (U : List (List ℂ)) (o : GccObj) : Prop where
  input : o.input = S
  labeled : o.labeled = labeledStates S
  cache : ∀ key pmf, assocGet o.pmfs key = some pmf → V.val key → (V.seqOf key).length < S.sum →
    layerPmfR R v sq U S (labeledStates S) key = .ok pmf ∧ assocGet o.outs key = some (v.next S key)

theorem prepareR_ok {sq : CalcCfg ℂ → Py ℝ} {U : List (List ℂ)} (o : GccObj) (ho : CacheR R V sq U o) (hr : V.val o.r)
    (hkey : o.key = o.r) (hk : (V.seqOf o.r).length < S.sum) (P : List ℝ)
    (hP : layerPmfR R v sq U S (labeledStates S) o.r = .ok P) :
    ∃ o', (if assocGet o.pmfs o.key = none then newLayerR R v sq U o else pure o : Py _) = .ok o' ∧
      CacheR R V sq U o' ∧ o'.r = o.r ∧ o'.key = o.r ∧ assocGet o'.pmfs o'.key = some P ∧
      assocGet o'.outs o'.key = some (v.next S o.r) := by
  by_cases h : assocGet o.pmfs o.key = none
  · rw [if_pos h]
    unfold newLayerR
    rw [ho.input, ho.labeled, hP, ok_bind]
    refine ⟨_, rfl, ⟨rfl, rfl, ?_⟩, rfl, hkey, ?_, ?_⟩
    · intro key pmf h1 h2 h3
      simp only [assocGet_set] at h1 ⊢
      by_cases e : key = o.key
      · rw [if_pos e] at h1 ⊢
        injection h1 with h1
        rw [e, hkey, ← h1]
        exact ⟨hP, rfl⟩
      · rw [if_neg e] at h1 ⊢
        exact ho.cache key pmf h1 h2 h3
    · simp [assocGet_set]
    · simp [assocGet_set]
  · rw [if_neg h]
    obtain ⟨P', hP'⟩ := Option.ne_none_iff_exists'.mp h
    have := ho.cache _ _ hP' (hkey ▸ hr) (hkey ▸ hk)
    rw [hkey, hP] at this
    refine ⟨o, rfl, ho, rfl, hkey, ?_, by rw [hkey]; exact this.2⟩
    rw [hP']
    congr 1
    injection this.1 with h'
    exact h'.symm

theorem fillStepR_eq {sq : CalcCfg ℂ → Py ℝ} {U : List (List ℂ)} (o : GccObj) (ho : CacheR R V sq U o) (hr : V.val o.r)
    (hkey : o.key = o.r) (hk : (V.seqOf o.r).length < S.sum) (P : List ℝ)
    (hP : layerPmfR R v sq U S (labeledStates S) o.r = .ok P) :
    ∃ o', fillStepR R v sq U o = sampleFromLatestPmfR R o' ∧
      CacheR R V sq U o' ∧ o'.r = o.r ∧ o'.key = o.r ∧ assocGet o'.pmfs o'.key = some P ∧
      assocGet o'.outs o'.key = some (v.next S o.r) := by
  obtain ⟨o', h1, h2, h3, h4, h5, h6⟩ := prepareR_ok R V o ho hr hkey hk P hP
  refine ⟨o', ?_, h2, h3, h4, h5, h6⟩
  unfold fillStepR
  rw [h1]
  rfl

end

/-! ### The loop -/

theorem sum_words_seqProb {c : ℕ → ℕ → ℂ} {m : ℕ} {S : List ℕ} (hc : UsedOrtho c m S) (k d : ℕ) (rs : List ℕ)
    (hd : k + d ≤ S.sum) : ∑ w ∈ words m d, seqProb c S (k + d) (w ++ rs) = seqProb c S k rs := by
  induction d with
  | zero => simp [words]
  | succ d ih =>
    rw [sum_words_succ, ← ih (by omega)]
    refine sum_congr rfl fun w _ => ?_
    exact seqProb_marginal hc (k + d) (by omega) (w ++ rs)

/-- The number of sequences of fewer than `d` modes. -/
def pathCount (m d : ℕ) : ℕ := ∑ i ∈ range d, m ^ i

theorem pathCount_succ (m d : ℕ) : pathCount m (d + 1) = m * pathCount m d + 1 := by
  unfold pathCount
  rw [sum_range_succ', mul_sum]
  simp [pow_succ']

section

variable {v : GccVariant} {S : List ℕ} (V : VariantOK v S)

theorem fillLoopR_close {sq : CalcCfg ℂ → Py ℝ} {U : List (List ℂ)} {c a : ℝ} (hsq : SqNear sq U S c a)
    (hc : 1 ≤ c) (ha : 0 ≤ a) (hn : S.sum ≤ 200) (h2 : pmfFactor S c ≤ 2) (hU : UsedOrtho (colOf U) S.length S)
    (f : Py GccObj → ℝ≥0∞) (hf1 : ∀ r, f r ≤ 1) (G : List ℕ → ℝ) (hG : ∀ a b : List ℕ, a.Perm b → G a = G b)
    (hG0 : ∀ w, 0 ≤ G w ∧ G w ≤ 1) (γ : ℝ) (hγ : 0 ≤ γ)
    (hf : ∀ o, CacheR R V sq U o → V.val o.r → (V.seqOf o.r).length = S.sum → |(f (.ok o)).toReal - G (V.seqOf o.r)| ≤ γ)
    (d fuel : ℕ) (hfuel : d < fuel) (o : GccObj) (ho : CacheR R V sq U o) (hr : V.val o.r) (hkey : o.key = o.r)
    (hk : (V.seqOf o.r).length + d = S.sum) :
    |seqProb (colOf U) S (V.seqOf o.r).length (V.seqOf o.r) *
      ((Prog.loop fuel (fun o => decide (v.count o.r < o.input.sum)) (fillStepR R v sq U) o).wp f).toReal
      - ∑ w ∈ words S.length d, seqProb (colOf U) S S.sum (w ++ V.seqOf o.r) * G (w ++ V.seqOf o.r)|
    ≤ (γ + d * stepErr S.length (pmfFactor S c)) * seqProb (colOf U) S (V.seqOf o.r).length (V.seqOf o.r)
      + pathCount S.length d * absErr S.length (pmfFactor S c) (pmfAbs S a) := by
  have wp_le : ∀ p : Prog GccObj, p.wp f ≤ 1 := fun p => by
    rw [← Prog.wp_const p 1]; exact Prog.wp_mono p _ _ fun r _ => hf1 r
  have hC := one_le_pmfFactor S hc
  have hB := pmfAbs_nonneg S ha
  have hE := stepErr_nonneg S.length hC
  have hA : 2 * (S.length * (pmfFactor S c * pmfAbs S a)) ≤ absErr S.length (pmfFactor S c) (pmfAbs S a) := by
    unfold absErr
    have := two_zpow_pos (-968)
    linarith
  induction d generalizing fuel o with
  | zero =>
    obtain ⟨fuel, rfl⟩ : ∃ x, fuel = x + 1 := ⟨fuel - 1, by omega⟩
    have hk' : (V.seqOf o.r).length = S.sum := by omega
    rw [Prog.loop_succ, V.count _ hr, ho.input]
    rw [if_neg (by simp; omega)]
    simp only [Prog.wp, words, sum_singleton, List.nil_append]
    rw [← hk', ← mul_sub, abs_mul, abs_of_nonneg (seqProb_nonneg _ _ _ _), hk']
    have := mul_le_mul_of_nonneg_left (hf o ho hr hk') (seqProb_nonneg (colOf U) S S.sum (V.seqOf o.r))
    simp only [pathCount, range_zero, sum_empty, Nat.cast_zero, zero_mul, add_zero]
    linarith
  | succ d ih =>
    obtain ⟨fuel, rfl⟩ : ∃ x, fuel = x + 1 := ⟨fuel - 1, by omega⟩
    have hlt : (V.seqOf o.r).length < S.sum := by omega
    set k := (V.seqOf o.r).length with hkdef
    set s := seqProb (colOf U) S k (V.seqOf o.r) with hsdef
    have hs0 : 0 ≤ s := seqProb_nonneg _ _ _ _
    obtain ⟨P, hP1, hP2, hP3, hP4⟩ := layerPmfR_near R V hsq hc ha hn h2 o.r hr hlt
    rw [← hkdef] at hP4
    set p : ℕ → ℝ := fun j => seqProb (colOf U) S (k + 1) (j :: V.seqOf o.r) with hp
    have hp0 : ∀ j, 0 ≤ p j := fun j => seqProb_nonneg _ _ _ _
    have hps : ∑ j ∈ range P.length, p j = s := by rw [hP2]; exact seqProb_marginal hU k hlt _
    have hN : ∀ j < P.length, Near (pmfFactor S c) (pmfAbs S a) (P.getD j 0) (p j) := by rw [hP2]; exact hP4
    have hpc : (0 : ℝ) ≤ pathCount S.length (d + 1) := Nat.cast_nonneg _
    have hpc1 : (1 : ℝ) ≤ pathCount S.length (d + 1) := by rw [pathCount_succ]; exact_mod_cast Nat.le_add_left _ _
    have hA0 : 0 ≤ absErr S.length (pmfFactor S c) (pmfAbs S a) := by
      have : 0 ≤ (S.length : ℝ) * (pmfFactor S c * pmfAbs S a) := by positivity
      linarith
    -- both sides lie between 0 and `s`
    have triv : s ≤ stepErr S.length (pmfFactor S c) * s + absErr S.length (pmfFactor S c) (pmfAbs S a) →
        |s * ((Prog.loop (fuel + 1) (fun o => decide (v.count o.r < o.input.sum)) (fillStepR R v sq U) o).wp f).toReal
          - ∑ w ∈ words S.length (d + 1), seqProb (colOf U) S S.sum (w ++ V.seqOf o.r) * G (w ++ V.seqOf o.r)|
        ≤ (γ + ((d + 1 : ℕ) : ℝ) * stepErr S.length (pmfFactor S c)) * s
          + pathCount S.length (d + 1) * absErr S.length (pmfFactor S c) (pmfAbs S a) := by
      intro h
      have h3 : ∑ w ∈ words S.length (d + 1), seqProb (colOf U) S S.sum (w ++ V.seqOf o.r) = s := by
        have := sum_words_seqProb hU k (d + 1) (V.seqOf o.r) hk.le
        rwa [hk] at this
      have h4 : 0 ≤ ∑ w ∈ words S.length (d + 1), seqProb (colOf U) S S.sum (w ++ V.seqOf o.r) * G (w ++ V.seqOf o.r) :=
        sum_nonneg fun w _ => mul_nonneg (seqProb_nonneg _ _ _ _) (hG0 _).1
      have h5 : ∑ w ∈ words S.length (d + 1), seqProb (colOf U) S S.sum (w ++ V.seqOf o.r) * G (w ++ V.seqOf o.r) ≤ s := by
        rw [← h3]
        exact sum_le_sum fun w _ => mul_le_of_le_one_right (seqProb_nonneg _ _ _ _) (hG0 _).2
      have h6 : ((Prog.loop (fuel + 1) (fun o => decide (v.count o.r < o.input.sum)) (fillStepR R v sq U) o).wp f).toReal ≤ 1 := by
        have := ENNReal.toReal_mono ENNReal.one_ne_top
          (wp_le (Prog.loop (fuel + 1) (fun o => decide (v.count o.r < o.input.sum)) (fillStepR R v sq U) o))
        simpa using this
      have h7 := ENNReal.toReal_nonneg
        (a := (Prog.loop (fuel + 1) (fun o => decide (v.count o.r < o.input.sum)) (fillStepR R v sq U) o).wp f)
      have h8 := mul_le_of_le_one_right hs0 h6
      have h9 := mul_nonneg hs0 h7
      have h10 : |s * ((Prog.loop (fuel + 1) (fun o => decide (v.count o.r < o.input.sum)) (fillStepR R v sq U) o).wp f).toReal
          - ∑ w ∈ words S.length (d + 1), seqProb (colOf U) S S.sum (w ++ V.seqOf o.r) * G (w ++ V.seqOf o.r)| ≤ s := by
        rw [abs_le]; constructor <;> linarith
      refine h10.trans (h.trans ?_)
      push_cast
      have h11 : 0 ≤ γ * s := mul_nonneg hγ hs0
      have h12 : 0 ≤ (d : ℝ) * stepErr S.length (pmfFactor S c) * s :=
        mul_nonneg (mul_nonneg (Nat.cast_nonneg _) hE.2) hs0
      have h13 := mul_le_mul_of_nonneg_right hpc1 hA0
      nlinarith
    rcases eq_or_lt_of_le hs0 with h0 | hspos
    · refine triv ?_
      rw [← h0]; simpa using hA0
    by_cases hbig : (2 : ℝ) ^ (-969 : ℤ) ≤ sumR R P
    swap
    · refine triv ?_
      have := small_close R hP3 hbig hC hB hp0 hps (rho_pow_le_two hc h2 _ (by omega)) hN
      rwa [hP2] at this
    obtain ⟨o', e1, e2, e3, e4, e5, e6⟩ := fillStepR_eq R V o ho hr hkey hlt P hP1
    have hlen : (v.next S o.r).length = P.length := by rw [V.next _ hr, hP2]; simp
    -- the continuation after drawing `j`
    set W : ℕ → ℝ := fun j => ((Prog.loop fuel (fun o => decide (v.count o.r < o.input.sum)) (fillStepR R v sq U)
      { o' with r := V.nx o.r j, key := V.nx o.r j }).wp f).toReal with hW
    have hW0 : ∀ j, 0 ≤ W j ∧ W j ≤ 1 := fun j => ⟨ENNReal.toReal_nonneg, by
      have := ENNReal.toReal_mono ENNReal.one_ne_top (wp_le (Prog.loop fuel (fun o => decide (v.count o.r < o.input.sum))
        (fillStepR R v sq U) { o' with r := V.nx o.r j, key := V.nx o.r j }))
      simpa using this⟩
    have hwp : ((Prog.loop (fuel + 1) (fun o => decide (v.count o.r < o.input.sum)) (fillStepR R v sq U) o).wp f).toReal
        = ∑ j ∈ range S.length, selLaw R P j * W j := by
      rw [Prog.loop_succ, V.count _ hr, ho.input, if_pos (by simpa using hlt), Prog.wp_bind, e1,
        sampleR_wp R o' P _ e5 e6 hlen hP3 hbig, hP2, ENNReal.toReal_sum]
      · refine sum_congr rfl fun j hj => ?_
        have hj := mem_range.mp hj
        rw [ENNReal.toReal_mul, ENNReal.toReal_ofReal (selLaw_nonneg R P j), V.next _ hr,
          getD_of_lt _ _ (by simpa using hj)]
        simp only [List.getElem_map, List.getElem_range, Prog.post]
        rfl
      · intro j _
        refine ENNReal.mul_ne_top ENNReal.ofReal_ne_top ?_
        simp only [Prog.post]
        exact ne_top_of_le_ne_top ENNReal.one_ne_top (wp_le _)
    have hword : ∑ w ∈ words S.length (d + 1), seqProb (colOf U) S S.sum (w ++ V.seqOf o.r) * G (w ++ V.seqOf o.r)
        = ∑ j ∈ range S.length, ∑ w ∈ words S.length d,
          seqProb (colOf U) S S.sum (w ++ j :: V.seqOf o.r) * G (w ++ j :: V.seqOf o.r) :=
      sum_words_append _ _ _ (fun w => seqProb (colOf U) S S.sum w * G w)
        (fun a b h => by rw [seqProb_perm _ _ _ h, hG _ _ h])
    have hIH : ∀ j ∈ range S.length, |p j * W j - ∑ w ∈ words S.length d,
          seqProb (colOf U) S S.sum (w ++ j :: V.seqOf o.r) * G (w ++ j :: V.seqOf o.r)|
        ≤ (γ + d * stepErr S.length (pmfFactor S c)) * p j
          + pathCount S.length d * absErr S.length (pmfFactor S c) (pmfAbs S a) := by
      intro j hj
      have hj := mem_range.mp hj
      have hns := V.nx_seq _ hr j hj
      have := ih fuel (by omega) { o' with r := V.nx o.r j, key := V.nx o.r j }
        ⟨e2.input, e2.labeled, e2.cache⟩ (V.nx_val _ hr j hj) rfl
        (by simp only; rw [hns.length_eq, List.length_cons]; omega)
      simp only at this
      rw [hns.length_eq, List.length_cons, seqProb_perm _ _ _ hns] at this
      rw [sum_congr rfl fun w _ => by rw [seqProb_perm _ _ _ (hns.append_left w), hG _ _ (hns.append_left w)]] at this
      exact this
    have hstep := step_close R hP3 hbig hC hB hp0 hps hspos hN
    rw [hP2] at hstep hps
    rw [hwp, hword, mul_sum, ← sum_sub_distrib]
    have hsplit : ∀ j ∈ range S.length, |s * (selLaw R P j * W j) - ∑ w ∈ words S.length d,
          seqProb (colOf U) S S.sum (w ++ j :: V.seqOf o.r) * G (w ++ j :: V.seqOf o.r)|
        ≤ |s * selLaw R P j - p j| + ((γ + d * stepErr S.length (pmfFactor S c)) * p j
          + pathCount S.length d * absErr S.length (pmfFactor S c) (pmfAbs S a)) := by
      intro j hj
      have e : s * (selLaw R P j * W j) - ∑ w ∈ words S.length d,
          seqProb (colOf U) S S.sum (w ++ j :: V.seqOf o.r) * G (w ++ j :: V.seqOf o.r)
          = (s * selLaw R P j - p j) * W j + (p j * W j - ∑ w ∈ words S.length d,
            seqProb (colOf U) S S.sum (w ++ j :: V.seqOf o.r) * G (w ++ j :: V.seqOf o.r)) := by ring
      rw [e]
      refine (abs_add_le _ _).trans (add_le_add ?_ (hIH j hj))
      rw [abs_mul, abs_of_nonneg (hW0 j).1]
      exact mul_le_of_le_one_right (abs_nonneg _) (hW0 j).2
    refine (abs_sum_le_sum_abs _ _).trans ((sum_le_sum hsplit).trans ?_)
    rw [sum_add_distrib, sum_add_distrib, ← mul_sum, hps, sum_const, card_range, nsmul_eq_mul, pathCount_succ]
    push_cast
    linarith

/-- The error of one sample. -/
noncomputable def sampleErr (S : List ℕ) (c a : ℝ) : ℝ :=
  S.sum * stepErr S.length (pmfFactor S c)
    + pathCount S.length S.sum * absErr S.length (pmfFactor S c) (pmfAbs S a)

theorem fillR_close {sq : CalcCfg ℂ → Py ℝ} {U : List (List ℂ)} {c a : ℝ} (hsq : SqNear sq U S c a)
    (hc : 1 ≤ c) (ha : 0 ≤ a) (hn : S.sum ≤ 200) (h2 : pmfFactor S c ≤ 2) (hU : UsedOrtho (colOf U) S.length S)
    (f : Py GccObj → ℝ≥0∞) (hf1 : ∀ r, f r ≤ 1) (G : List ℕ → ℝ)
    (hG0 : ∀ w, 0 ≤ G w ∧ G w ≤ 1) (γ : ℝ) (hγ : 0 ≤ γ)
    (hf : ∀ o, CacheR R V sq U o → V.val o.r → (V.seqOf o.r).length = S.sum →
      |(f (.ok o)).toReal - G (occOf S.length (V.seqOf o.r))| ≤ γ)
    (fuel : ℕ) (hfuel : S.sum < fuel) (o : GccObj) (ho : CacheR R V sq U o) :
    |((fillRSampleR R v sq U fuel o).wp f).toReal - ∑ T ∈ statesFin S.length S.sum, bosonProb U S T * G T|
      ≤ γ + sampleErr S c a := by
  have h := fillLoopR_close R V hsq hc ha hn h2 hU f hf1 (fun w => G (occOf S.length w))
    (fun a b h => by rw [occOf_perm h]) (fun w => hG0 _) γ hγ hf
    S.sum fuel hfuel { o with r := v.start S, key := v.start S } ⟨ho.input, ho.labeled, ho.cache⟩
    V.start_val rfl (by simp only; rw [V.start_seq]; simp)
  simp only [V.start_seq, List.length_nil, seqProb_zero, one_mul, List.append_nil, mul_one] at h
  unfold fillRSampleR
  have e : v.start o.input = v.start S := by rw [ho.input]
  rw [e]
  have e2 : ∑ w ∈ words S.length S.sum, seqProb (colOf U) S S.sum w * G (occOf S.length w)
      = ∑ T ∈ statesFin S.length S.sum, bosonProb U S T * G T := by
    have h1 := sum_seq_states U S S.length S.sum (fun w => ENNReal.ofReal (G (occOf S.length w)))
      (fun a b h => by rw [occOf_perm h])
    have h2 := congrArg ENNReal.toReal h1
    rw [ENNReal.toReal_sum (fun w _ => ENNReal.mul_ne_top ENNReal.ofReal_ne_top ENNReal.ofReal_ne_top),
      ENNReal.toReal_sum (fun w _ => ENNReal.mul_ne_top ENNReal.ofReal_ne_top ENNReal.ofReal_ne_top)] at h2
    rw [sum_congr rfl fun w _ => by
      rw [ENNReal.toReal_mul, ENNReal.toReal_ofReal (seqProb_nonneg _ _ _ _), ENNReal.toReal_ofReal (hG0 _).1]] at h2
    rw [h2]
    refine sum_congr rfl fun T hT => ?_
    rw [ENNReal.toReal_mul, ENNReal.toReal_ofReal (fixedLossProb_nonneg _ _ _ _), ENNReal.toReal_ofReal (hG0 _).1,
      fixedLossProb_full]
    have := ((mem_statesFin _ _ T).mp hT).1
    rw [← this, occOf_particles]
  rw [← e2]
  unfold sampleErr
  rw [← add_assoc]
  exact h

theorem bosonProb_total {U : List (List ℂ)} (hU : UsedOrtho (colOf U) S.length S) :
    ∑ T ∈ statesFin S.length S.sum, ENNReal.ofReal (bosonProb U S T) = 1 := by
  have h1 := sum_seq_states U S S.length S.sum (fun _ => 1) (fun a b h => rfl)
  simp only [mul_one] at h1
  rw [sum_congr rfl fun T _ => by rw [← fixedLossProb_full], ← h1,
    ← ENNReal.ofReal_sum_of_nonneg fun w _ => seqProb_nonneg _ _ _ _]
  have := sum_words_seqProb hU 0 S.sum [] (by omega)
  simp only [List.append_nil, zero_add] at this
  rw [this, seqProb_zero, ENNReal.ofReal_one]

theorem expIid_le_one {U : List (List ℂ)} (hU : UsedOrtho (colOf U) S.length S) (N : ℕ) (g : List (List ℕ) → ℝ≥0∞)
    (hg : ∀ l, g l ≤ 1) :
    expIid (statesFin S.length S.sum) (fun T => ENNReal.ofReal (bosonProb U S T)) N g ≤ 1 := by
  induction N generalizing g with
  | zero => exact hg []
  | succ N ih =>
    rw [expIid, ← bosonProb_total hU]
    refine sum_le_sum fun T _ => ?_
    exact mul_le_of_le_one_right zero_le (ih _ fun l => hg _)

theorem simulateLoopR_close {sq : CalcCfg ℂ → Py ℝ} {U : List (List ℂ)} {c a : ℝ} (hsq : SqNear sq U S c a)
    (hc : 1 ≤ c) (ha : 0 ≤ a) (hn : S.sum ≤ 200) (h2 : pmfFactor S c ≤ 2) (hU : UsedOrtho (colOf U) S.length S)
    (fuel : ℕ) (hfuel : S.sum < fuel) (N : ℕ)
    (g : List (List ℕ) → ℝ≥0∞) (hg : ∀ l, g l ≤ 1) (f : Py (List (List ℕ) × GccObj) → ℝ≥0∞) (hf1 : ∀ r, f r ≤ 1)
    (hf : ∀ l o, f (.ok (l, o)) = g l) (o : GccObj) (ho : CacheR R V sq U o) :
    |((simulateLoopR R v sq U fuel N o).wp f).toReal
      - (expIid (statesFin S.length S.sum) (fun T => ENNReal.ofReal (bosonProb U S T)) N g).toReal|
      ≤ N * sampleErr S c a := by
  have hE : 0 ≤ sampleErr S c a := by
    have h1 := (stepErr_nonneg S.length (one_le_pmfFactor S hc)).2
    have h3 := pmfAbs_nonneg S ha
    have h4 := one_le_pmfFactor S hc
    have h5 := two_zpow_pos (-968)
    unfold sampleErr absErr
    positivity
  induction N generalizing g f o with
  | zero =>
    rw [simulateLoopR, expIid, Prog.pure_eq, Prog.wp, hf]
    simp
  | succ N ih =>
    rw [simulateLoopR, Prog.bind_eq, Prog.wp_bind, expIid]
    have wp_le : ∀ p : Prog (List (List ℕ) × GccObj), p.wp f ≤ 1 := fun p => by
      rw [← Prog.wp_const p 1]; exact Prog.wp_mono p _ _ fun r _ => hf1 r
    have := fillR_close R V hsq hc ha hn h2 hU
      (Prog.post (fun o => do
        let sample ← (v.occ o.input o.r : Py _)
        let (samples, o) ← simulateLoopR R v sq U fuel N o
        pure (sample :: samples, o)) f)
      (by rintro (e | o); exacts [hf1 _, wp_le _])
      (fun T => (expIid (statesFin S.length S.sum) (fun T => ENNReal.ofReal (bosonProb U S T)) N
        fun l => g (T :: l)).toReal)
      (fun T => ⟨ENNReal.toReal_nonneg, by
        have := ENNReal.toReal_mono ENNReal.one_ne_top (expIid_le_one hU N (fun l => g (T :: l)) fun l => hg _)
        simpa using this⟩)
      (N * sampleErr S c a) (by positivity) ?_ fuel hfuel o ho
    · have e : (∑ T ∈ statesFin S.length S.sum, ENNReal.ofReal (bosonProb U S T) *
            expIid (statesFin S.length S.sum) (fun T => ENNReal.ofReal (bosonProb U S T)) N fun l => g (T :: l)).toReal
          = ∑ T ∈ statesFin S.length S.sum, bosonProb U S T *
            (expIid (statesFin S.length S.sum) (fun T => ENNReal.ofReal (bosonProb U S T)) N
              fun l => g (T :: l)).toReal := by
        rw [ENNReal.toReal_sum]
        · refine sum_congr rfl fun T _ => ?_
          rw [ENNReal.toReal_mul, ENNReal.toReal_ofReal (bosonProb_nonneg _ _ _)]
        · intro T _
          exact ENNReal.mul_ne_top ENNReal.ofReal_ne_top (ne_top_of_le_ne_top ENNReal.one_ne_top
            (expIid_le_one hU N (fun l => g (T :: l)) fun l => hg _))
      rw [e]
      refine this.trans (le_of_eq ?_)
      push_cast
      ring
    · intro o' ho' hr' _
      rw [Prog.post, ho'.input, V.occ _ hr']
      simp only [Prog.lift_def, Prog.bind_eq, Prog.done_ok_bind]
      rw [Prog.wp_bind]
      exact ih (fun l => g (occOf S.length (V.seqOf o'.r) :: l)) (fun l => hg _) _
        (by rintro (e | x); exacts [hf1 _, hf1 _])
        (fun l o => hf _ o) o' ho'

include V in
theorem gccSimulateR_close {sq : CalcCfg ℂ → Py ℝ} {U : List (List ℂ)} {c a : ℝ} (hsq : SqNear sq U S c a)
    (hc : 1 ≤ c) (ha : 0 ≤ a) (hn : S.sum ≤ 200) (h2 : pmfFactor S c ≤ 2) (hU : UsedOrtho (colOf U) S.length S)
    (fuel : ℕ) (hfuel : S.sum < fuel) (N : ℤ)
    (g : List (List ℕ) → ℝ≥0∞) (hg : ∀ l, g l ≤ 1) (f : Py (List (List ℕ) × GccObj) → ℝ≥0∞) (hf1 : ∀ r, f r ≤ 1)
    (hf : ∀ l o, f (.ok (l, o)) = g l) (o : GccObj) :
    |((gccSimulateR R v sq U fuel o S N).wp f).toReal
      - (expIid (statesFin S.length S.sum) (fun T => ENNReal.ofReal (bosonProb U S T)) N.toNat g).toReal|
      ≤ N.toNat * sampleErr S c a :=
  simulateLoopR_close R V hsq hc ha hn h2 hU fuel hfuel N.toNat g hg f hf1 hf _
    ⟨rfl, rfl, fun _ _ h => by simp [assocGet] at h⟩

end

end Verif
