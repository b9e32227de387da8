import Verif.Model.RoundedCliffordsU
import Verif.Proofs.CliffordsU
import Verif.Proofs.RoundedDraws

/-! Helper lemmas: the generalized Clifford & Clifford sampler with uniform losses in floating-point arithmetic. -/
namespace Verif

open Finset
open scoped ENNReal

/-! ### Which photons are lost -/

/-- Whether a photon is kept: 0 or 1. -/
noncomputable def keepSel (eta : ℝ) (k : ℕ) : ℕ := if (k : ℝ) / 2 ^ 53 ≥ eta then 0 else 1

theorem keepSel_lt (eta : ℝ) (k : ℕ) : keepSel eta k < 2 := by unfold keepSel; split <;> omega

/-- The probability that `random()` returns a value below `eta`. -/
noncomputable def keepLaw (eta : ℝ) : ℝ := drawLaw (keepSel eta) 1

theorem keepLaw_compl (eta : ℝ) : drawLaw (keepSel eta) 0 = 1 - keepLaw eta := by
  have h := drawBelow_all (keepSel eta) 2 (fun k _ => keepSel_lt eta k)
  rw [drawBelow_succ, drawBelow_succ, drawBelow_zero] at h
  unfold keepLaw
  linarith

theorem keepLaw_close {eta : ℝ} (h0 : 0 ≤ eta) (h1 : eta ≤ 1) :
    0 ≤ keepLaw eta ∧ keepLaw eta ≤ 1 ∧ |keepLaw eta - eta| ≤ 1 / 2 ^ 53 := by
  refine ⟨drawLaw_nonneg _ _, ?_, ?_⟩
  · have := keepLaw_compl eta
    have h2 := drawLaw_nonneg (keepSel eta) 0
    linarith
  · have hk : ∀ k : ℕ, keepSel eta k = 1 ↔ (k : ℝ) / 2 ^ 53 < eta := by
      intro k
      unfold keepSel
      by_cases h : (k : ℝ) / 2 ^ 53 ≥ eta
      · rw [if_pos h]; exact ⟨fun hh => by omega, fun hh => absurd hh (not_lt.mpr h)⟩
      · rw [if_neg h]; exact ⟨fun _ => not_le.mp h, fun _ => rfl⟩
    have e : keepLaw eta = (((range (2 ^ 53)).filter fun k : ℕ => (k : ℝ) / 2 ^ 53 < eta).card : ℝ) / 2 ^ 53 := by
      unfold keepLaw drawLaw
      generalize range (2 ^ 53) = A
      rw [filter_congr fun k _ => hk k]
    obtain ⟨h2, h3⟩ := card_lt eta
    have hc : clip eta = eta := by unfold clip; rw [min_eq_right h1, max_eq_right h0]
    rw [← e, hc] at h2 h3
    rw [abs_le]
    constructor
    · have : (0 : ℝ) ≤ 1 / 2 ^ 53 := by positivity
      linarith
    · linarith

theorem binomial_mix_real (d : ℕ) (eta : ℝ) (H : ℕ → ℝ) :
    (1 - eta) * ∑ l ∈ range (d + 1), binomialWeight d l eta * H l
      + eta * ∑ l ∈ range (d + 1), binomialWeight d l eta * H (l + 1)
    = ∑ l ∈ range (d + 2), binomialWeight (d + 1) l eta * H l := by
  have hz : binomialWeight d (d + 1) eta = 0 := by unfold binomialWeight; simp
  have e1 : ∑ l ∈ range (d + 1), binomialWeight d l eta * H l = ∑ l ∈ range (d + 2), binomialWeight d l eta * H l := by
    rw [sum_range_succ _ (d + 1), hz]; simp
  rw [e1, sum_range_succ' _ (d + 1), sum_range_succ' _ (d + 1), binomialWeight_succ_zero,
    mul_add, mul_sum, mul_sum, add_right_comm, ← sum_add_distrib, ← mul_assoc]
  congr 1
  refine sum_congr rfl fun l hl => ?_
  rw [binomialWeight_succ_succ d l (by have := mem_range.mp hl; omega)]
  ring

/-- A binomial mixture of values between 0 and `s`. -/
theorem binomial_mix_bounds (d : ℕ) {eta : ℝ} (h0 : 0 ≤ eta) (h1 : eta ≤ 1) {H : ℕ → ℝ} {s : ℝ}
    (hH : ∀ l ≤ d, 0 ≤ H l ∧ H l ≤ s) :
    0 ≤ ∑ l ∈ range (d + 1), binomialWeight d l eta * H l ∧ ∑ l ∈ range (d + 1), binomialWeight d l eta * H l ≤ s := by
  have hl : ∀ l ∈ range (d + 1), l ≤ d := fun l hl => by have := mem_range.mp hl; omega
  constructor
  · exact sum_nonneg fun l h => mul_nonneg (binomialWeight_nonneg _ _ h0 h1) (hH l (hl l h)).1
  · calc ∑ l ∈ range (d + 1), binomialWeight d l eta * H l ≤ ∑ l ∈ range (d + 1), binomialWeight d l eta * s :=
        sum_le_sum fun l h => mul_le_mul_of_nonneg_left (hH l (hl l h)).2 (binomialWeight_nonneg _ _ h0 h1)
      _ = s := by rw [← sum_mul, binomialWeight_sum, one_mul]

variable (R : Rounding)

/-! ### Recorded values -/

/-- The entries of the two distributions are placeholders or meet a condition. -/
structure DistR (ph : ℝ) (Q₁ Q₂ : List ℕ → ℝ → Prop) (outputs : List (List ℕ)) (d : List ℝ × List ℝ) : Prop where
  len1 : d.1.length = outputs.length
  len2 : d.2.length = outputs.length
  val1 : ∀ i, (h : i < outputs.length) → d.1.getD i 0 = ph ∨ Q₁ outputs[i] (d.1.getD i 0)
  val2 : ∀ i, (h : i < outputs.length) → d.2.getD i 0 = ph ∨ Q₂ outputs[i] (d.2.getD i 0)

theorem recordEntryR_ok {ph : ℝ} {Q₁ Q₂ : List ℕ → ℝ → Prop} {outputs : List (List ℕ)} {binw : List ℝ} {T : List ℕ} {p : ℝ}
    (hT : T.sum < binw.length) (h1 : Q₁ T (R.rnd (recordValueR R T p * binw.getD T.sum 0))) (h2 : Q₂ T (recordValueR R T p))
    (d : List ℝ × List ℝ) (hd : DistR ph Q₁ Q₂ outputs d) :
    ∃ d', recordEntryR R outputs binw T p d = .ok d' ∧ DistR ph Q₁ Q₂ outputs d' := by
  unfold recordEntryR
  refine foldlM_inv _ (DistR ph Q₁ Q₂ outputs) _ ?_ d hd
  intro d hd i hi
  have hi := List.mem_range.mp hi
  have hi1 : i < d.1.length := by rw [hd.len1]; exact hi
  have hi2 : i < d.2.length := by rw [hd.len2]; exact hi
  rw [pyGetN_ok hi, ok_bind]
  by_cases e : T = outputs[i]
  · rw [if_pos e]
    rw [getD_of_lt _ _ hT] at h1
    rw [pySetN_ok hi2, ok_bind, pyGetN_ok hT, ok_bind, pySetN_ok hi1, ok_bind]
    refine ⟨_, rfl, ⟨by simpa using hd.len1, by simpa using hd.len2, ?_, ?_⟩⟩
    · intro j hj
      simp only
      rw [getD_set _ _ _ _ hi1]
      by_cases hij : i = j
      · subst hij
        rw [if_pos rfl, ← e]
        exact .inr h1
      · rw [if_neg hij]; exact hd.val1 j hj
    · intro j hj
      simp only
      rw [getD_set _ _ _ _ hi2]
      by_cases hij : i = j
      · subst hij
        rw [if_pos rfl, ← e]
        exact .inr h2
      · rw [if_neg hij]; exact hd.val2 j hj
  · rw [if_neg e]
    exact ⟨d, rfl, hd⟩

theorem fold_record {D : List ℝ × List ℝ → Prop} (e : List ℕ → Py ℝ)
    (rec : List ℕ → ℝ → List ℝ × List ℝ → Py (List ℝ × List ℝ)) (outs : List (List ℕ)) (P : List ℝ)
    (he : outs.mapM e = .ok P)
    (hrec : ∀ i, (h : i < outs.length) → ∀ d, D d → ∃ d', rec outs[i] (P.getD i 0) d = .ok d' ∧ D d')
    (acc : List ℝ × (List ℝ × List ℝ)) (hacc : D acc.2) :
    ∃ d', outs.foldlM (fun (acc : List ℝ × (List ℝ × List ℝ)) out => (do
        let p ← e out
        let d ← rec out p acc.2
        pure (acc.1 ++ [p], d) : Py _)) acc = .ok (acc.1 ++ P, d') ∧ D d' := by
  induction outs generalizing P acc with
  | nil =>
    rw [List.mapM_nil] at he
    injection he with he
    subst he
    exact ⟨acc.2, by simp [pure_eq_ok], hacc⟩
  | cons T outs ih =>
    rw [List.mapM_cons] at he
    cases hT : e T with
    | error x => rw [hT, error_bind] at he; cases he
    | ok p =>
      rw [hT, ok_bind] at he
      cases hP : outs.mapM e with
      | error x => rw [hP, error_bind] at he; cases he
      | ok P' =>
        rw [hP, ok_bind] at he
        injection he with he
        subst he
        obtain ⟨d, h1, h2⟩ := hrec 0 (by simp) acc.2 hacc
        simp only [List.getElem_cons_zero, List.getD_cons_zero] at h1
        obtain ⟨d', h3, h4⟩ := ih P' hP (fun i hi d hd => by
          have := hrec (i + 1) (by simpa using hi) d hd
          simpa using this) (acc.1 ++ [p], d) h2
        refine ⟨d', ?_, h4⟩
        rw [List.foldlM_cons, hT, ok_bind, h1, ok_bind, pure_eq_ok, ok_bind, h3]
        simp

section

variable {S : List ℕ} {sq : CalcCfg ℂ → Py ℝ} {U : List (List ℂ)} {eta ph : ℝ} {Q₁ Q₂ : List ℕ → ℝ → Prop}
  {outputs : List (List ℕ)} {binw : List ℝ}

/-- The object between two draws. -/
structure UInvR (S : List ℕ) (sq : CalcCfg ℂ → Py ℝ) (U : List (List ℂ)) (eta ph : ℝ) (Q₁ Q₂ : List ℕ → ℝ → Prop)
    (outputs : List (List ℕ)) (binw : List ℝ) (o : GccuObj) : Prop where
  cache : CacheR R (okA S) sq U o.base
  heta : o.eta = eta
  outs : o.outputs = outputs
  binw : o.binw = binw
  dist : DistR ph Q₁ Q₂ outputs (o.dist, o.udist)

/-- What is recorded meets the conditions. -/
def RecordsOK (S : List ℕ) (sq : CalcCfg ℂ → Py ℝ) (U : List (List ℂ)) (Q₁ Q₂ : List ℕ → ℝ → Prop) (binw : List ℝ) : Prop :=
  ∀ r : List ℕ, r.length = S.length → r.sum < S.sum → ∀ P, layerPmfR R gccA sq U S (labeledStates S) r = .ok P →
    ∀ j < S.length, Q₁ (r.modify j (· + 1)) (R.rnd (recordValueR R (r.modify j (· + 1)) (P.getD j 0) * binw.getD (r.sum + 1) 0)) ∧
      Q₂ (r.modify j (· + 1)) (recordValueR R (r.modify j (· + 1)) (P.getD j 0))

theorem gccuNewLayerR_ok (hrec : RecordsOK R S sq U Q₁ Q₂ binw) (hb : S.sum < binw.length) (o : GccuObj)
    (ho : UInvR R S sq U eta ph Q₁ Q₂ outputs binw o)
    (hr : o.base.r.length = S.length) (hk : o.base.r.sum < S.sum) (P : List ℝ)
    (hP : layerPmfR R gccA sq U S (labeledStates S) o.base.r = .ok P) :
    ∃ o', gccuNewLayerR R sq U o = .ok o' ∧ newLayerR R gccA sq U o.base = .ok o'.base ∧ o'.eta = eta ∧
      o'.outputs = outputs ∧ o'.binw = binw ∧ DistR ph Q₁ Q₂ outputs (o'.dist, o'.udist) := by
  have hP' := hP
  unfold layerPmfR at hP'
  simp only at hP'
  unfold newLayerR
  rw [ho.cache.input, ho.cache.labeled, hP, ok_bind]
  unfold gccuNewLayerR
  simp only [ho.cache.input, ho.cache.labeled]
  change (layerWeightsR R S ((assocGet (labeledStates S) (o.base.r.sum + 1)).getD []) >>= _) = _ at hP'
  cases hw : layerWeightsR R S ((assocGet (labeledStates S) (o.base.r.sum + 1)).getD []) with
  | error x => rw [hw, error_bind] at hP'; cases hP'
  | ok weights =>
    rw [hw, ok_bind] at hP'
    rw [ok_bind]
    have hm : (gccA.next S o.base.r).mapM (fun out => pmfEntryR R sq U
        ((assocGet (labeledStates S) (o.base.r.sum + 1)).getD []) weights out) = .ok P := hP'
    have hnext : gccA.next S o.base.r = (List.range S.length).map fun j => o.base.r.modify j (· + 1) :=
      (okA S).next _ hr
    obtain ⟨d', h1, h2⟩ := fold_record (D := DistR ph Q₁ Q₂ outputs) _ (recordEntryR R o.outputs o.binw) _ P hm (by
      intro i hi d hd
      have hi' : i < S.length := by rw [hnext] at hi; simpa using hi
      have hT : (gccA.next S o.base.r)[i] = o.base.r.modify i (· + 1) := by simp [hnext]
      have hs := modify_sum o.base.r i (by omega)
      obtain ⟨q1, q2⟩ := hrec _ hr hk P hP i hi'
      rw [hT, ho.outs, ho.binw]
      refine recordEntryR_ok R (by rw [hs]; omega) ?_ q2 d hd
      rw [hs]
      exact q1) ([], (o.dist, o.udist)) ho.dist
    rw [h1, ok_bind]
    refine ⟨_, rfl, ?_, ho.heta, ho.outs, ho.binw, h2⟩
    simp

/-- One surviving photon: the layer is available and the object stays valid. -/
theorem gccuPrepareR_ok (hrec : RecordsOK R S sq U Q₁ Q₂ binw) (hb : S.sum < binw.length) (o : GccuObj)
    (ho : UInvR R S sq U eta ph Q₁ Q₂ outputs binw o)
    (hr : o.base.r.length = S.length) (hkey : o.base.key = o.base.r) (hk : o.base.r.sum < S.sum) (P : List ℝ)
    (hP : layerPmfR R gccA sq U S (labeledStates S) o.base.r = .ok P) :
    ∃ o', (if assocGet o.base.pmfs o.base.key = none then gccuNewLayerR R sq U o else pure o : Py _) = .ok o' ∧
      UInvR R S sq U eta ph Q₁ Q₂ outputs binw o' ∧ o'.base.r = o.base.r ∧ o'.base.key = o.base.r ∧
      assocGet o'.base.pmfs o'.base.key = some P ∧
      assocGet o'.base.outs o'.base.key = some (gccA.next S o.base.r) := by
  have hseq : (particles o.base.r).length = o.base.r.sum := particlesFrom_length _ _
  obtain ⟨b, h1, h2, h3, h4, h5, h6⟩ := prepareR_ok R (okA S) o.base ho.cache hr hkey
    (by change (particles o.base.r).length < _; omega) P hP
  by_cases h : assocGet o.base.pmfs o.base.key = none
  · rw [if_pos h] at h1 ⊢
    obtain ⟨o', e1, e2, e3, e4, e5, e6⟩ := gccuNewLayerR_ok R hrec hb o ho hr hk P hP
    rw [e2] at h1
    injection h1 with h1
    subst h1
    exact ⟨o', e1, ⟨h2, e3, e4, e5, e6⟩, h3, h4, h5, h6⟩
  · rw [if_neg h] at h1 ⊢
    injection h1 with h1
    subst h1
    exact ⟨o, rfl, ho, h3, h4, h5, h6⟩

theorem gccuPhotonsR_succ (n : ℕ) (o : GccuObj) :
    gccuPhotonsR R sq U (n + 1) o = randomR.bind fun u =>
      if u ≥ o.eta then gccuPhotonsR R sq U n o
      else (Prog.done (if assocGet o.base.pmfs o.base.key = none then gccuNewLayerR R sq U o else pure o)).bind fun o =>
        (sampleFromLatestPmfR R o.base).bind fun b => gccuPhotonsR R sq U n { o with base := b } := rfl

/-- The expectation over the remaining photons of the exact sampler, times the mass of the current outcome. -/
noncomputable def lossTarget (S : List ℕ) (U : List (List ℂ)) (G : List ℕ → ℝ) (rs : List ℕ) (l : ℕ) : ℝ :=
  ∑ w ∈ words S.length l, seqProb (colOf U) S (rs.length + l) (w ++ rs) * G (w ++ rs)

theorem lossTarget_bounds (hU : UsedOrtho (colOf U) S.length S) {G : List ℕ → ℝ} (hG0 : ∀ w, 0 ≤ G w ∧ G w ≤ 1)
    (rs : List ℕ) (l : ℕ) (hl : rs.length + l ≤ S.sum) :
    0 ≤ lossTarget S U G rs l ∧ lossTarget S U G rs l ≤ seqProb (colOf U) S rs.length rs := by
  constructor
  · exact sum_nonneg fun w _ => mul_nonneg (seqProb_nonneg _ _ _ _) (hG0 _).1
  · rw [← sum_words_seqProb hU rs.length l rs hl]
    exact sum_le_sum fun w _ => mul_le_of_le_one_right (seqProb_nonneg _ _ _ _) (hG0 _).2

theorem lossTarget_succ {G : List ℕ → ℝ} (hG : ∀ a b : List ℕ, a.Perm b → G a = G b) (rs : List ℕ) (l : ℕ) :
    lossTarget S U G rs (l + 1) = ∑ j ∈ range S.length, lossTarget S U G (j :: rs) l := by
  unfold lossTarget
  rw [sum_words_append _ _ _ (fun w => seqProb (colOf U) S (rs.length + (l + 1)) w * G w)
    (fun a b h => by rw [seqProb_perm _ _ _ h, hG _ _ h])]
  refine sum_congr rfl fun j _ => sum_congr rfl fun w _ => ?_
  rw [List.length_cons, add_assoc, add_comm 1 l]

theorem gccuPhotonsR_close {c a : ℝ} (hsq : SqNear sq U S c a)
    (hc : 1 ≤ c) (ha : 0 ≤ a) (hn : S.sum ≤ 200) (h2 : pmfFactor S c ≤ 2) (hU : UsedOrtho (colOf U) S.length S)
    (he0 : 0 ≤ eta) (he1 : eta ≤ 1) (hrec : RecordsOK R S sq U Q₁ Q₂ binw) (hb : S.sum < binw.length)
    (f : Py GccuObj → ℝ≥0∞) (hf1 : ∀ r, f r ≤ 1) (G : List ℕ → ℝ) (hG : ∀ a b : List ℕ, a.Perm b → G a = G b)
    (hG0 : ∀ w, 0 ≤ G w ∧ G w ≤ 1) (γ : ℝ) (hγ : 0 ≤ γ)
    (hf : ∀ o, UInvR R S sq U eta ph Q₁ Q₂ outputs binw o → o.base.r.length = S.length →
      |(f (.ok o)).toReal - G (particles o.base.r)| ≤ γ)
    (d : ℕ) (o : GccuObj) (ho : UInvR R S sq U eta ph Q₁ Q₂ outputs binw o) (hr : o.base.r.length = S.length)
    (hkey : o.base.key = o.base.r) (hk : (particles o.base.r).length + d ≤ S.sum) :
    |seqProb (colOf U) S (particles o.base.r).length (particles o.base.r) * ((gccuPhotonsR R sq U d o).wp f).toReal
      - ∑ l ∈ range (d + 1), binomialWeight d l eta * lossTarget S U G (particles o.base.r) l|
    ≤ (γ + d * (stepErr S.length (pmfFactor S c) + 1 / 2 ^ 53)) *
        seqProb (colOf U) S (particles o.base.r).length (particles o.base.r)
      + pathCount S.length d * absErr S.length (pmfFactor S c) (pmfAbs S a) := by
  have wp_le : ∀ p : Prog GccuObj, p.wp f ≤ 1 := fun p => by
    rw [← Prog.wp_const p 1]; exact Prog.wp_mono p _ _ fun r _ => hf1 r
  have wp_real : ∀ p : Prog GccuObj, 0 ≤ (p.wp f).toReal ∧ (p.wp f).toReal ≤ 1 := fun p =>
    ⟨ENNReal.toReal_nonneg, by simpa using ENNReal.toReal_mono ENNReal.one_ne_top (wp_le p)⟩
  have hC := one_le_pmfFactor S hc
  have hB := pmfAbs_nonneg S ha
  have hE := stepErr_nonneg S.length hC
  have hA : 2 * (S.length * (pmfFactor S c * pmfAbs S a)) ≤ absErr S.length (pmfFactor S c) (pmfAbs S a) := by
    unfold absErr
    have := two_zpow_pos (-968)
    linarith
  have hA0 : 0 ≤ absErr S.length (pmfFactor S c) (pmfAbs S a) := by
    have : 0 ≤ (S.length : ℝ) * (pmfFactor S c * pmfAbs S a) := by positivity
    linarith
  obtain ⟨hq0, hq1, hq⟩ := keepLaw_close he0 he1
  set q := keepLaw eta with hqdef
  set E := stepErr S.length (pmfFactor S c) with hEdef
  set A := absErr S.length (pmfFactor S c) (pmfAbs S a) with hAdef
  obtain ⟨v, hv⟩ : ∃ v : ℝ, v = 1 / 2 ^ 53 := ⟨_, rfl⟩
  rw [← hv] at hq ⊢
  have hv0 : 0 ≤ v := by rw [hv]; positivity
  clear hv
  induction d generalizing o with
  | zero =>
    set s := seqProb (colOf U) S (particles o.base.r).length (particles o.base.r) with hs
    have e : ∑ l ∈ range (0 + 1), binomialWeight 0 l eta * lossTarget S U G (particles o.base.r) l
        = s * G (particles o.base.r) := by
      simp [binomialWeight, lossTarget, words, hs]
    rw [e, gccuPhotonsR, Prog.pure_eq, Prog.wp, ← mul_sub, abs_mul, abs_of_nonneg (seqProb_nonneg _ _ _ _)]
    have := mul_le_mul_of_nonneg_left (hf o ho hr) (seqProb_nonneg (colOf U) S (particles o.base.r).length (particles o.base.r))
    simp only [pathCount, range_zero, sum_empty, Nat.cast_zero, zero_mul, add_zero]
    linarith
  | succ d ih =>
    have hlt : (particles o.base.r).length < S.sum := by omega
    have hseq : (particles o.base.r).length = o.base.r.sum := particlesFrom_length _ _
    set rs := particles o.base.r with hrs
    set s := seqProb (colOf U) S rs.length rs with hsdef
    have hs0 : 0 ≤ s := seqProb_nonneg _ _ _ _
    -- the two parts of the target
    set X := ∑ l ∈ range (d + 1), binomialWeight d l eta * lossTarget S U G rs l with hX
    set Y := ∑ l ∈ range (d + 1), binomialWeight d l eta * lossTarget S U G rs (l + 1) with hY
    have hXb : 0 ≤ X ∧ X ≤ s := binomial_mix_bounds d he0 he1 fun l hl =>
      lossTarget_bounds hU hG0 rs l (by omega)
    have hYb : 0 ≤ Y ∧ Y ≤ s := binomial_mix_bounds d he0 he1 (H := fun l => lossTarget S U G rs (l + 1)) fun l hl =>
      lossTarget_bounds hU hG0 rs (l + 1) (by omega)
    rw [← binomial_mix_real d eta, ← hX, ← hY]
    have hpc : (pathCount S.length d : ℝ) ≤ pathCount S.length (d + 1) := by
      unfold pathCount; rw [sum_range_succ]; exact_mod_cast Nat.le_add_right _ _
    have hpc0 : (0 : ℝ) ≤ pathCount S.length d := Nat.cast_nonneg _
    -- the run
    set K : ℝ → Prog GccuObj := fun u =>
      if u ≥ o.eta then gccuPhotonsR R sq U d o
      else (Prog.done (if assocGet o.base.pmfs o.base.key = none then gccuNewLayerR R sq U o else pure o)).bind fun o =>
        (sampleFromLatestPmfR R o.base).bind fun b => gccuPhotonsR R sq U d { o with base := b } with hK
    set kept : Prog GccuObj :=
      (Prog.done (if assocGet o.base.pmfs o.base.key = none then gccuNewLayerR R sq U o else pure o)).bind fun o =>
        (sampleFromLatestPmfR R o.base).bind fun b => gccuPhotonsR R sq U d { o with base := b } with hkept
    have hwp : ((gccuPhotonsR R sq U (d + 1) o).wp f).toReal
        = (1 - q) * ((gccuPhotonsR R sq U d o).wp f).toReal + q * (kept.wp f).toReal := by
      rw [gccuPhotonsR_succ, drawLaw_wp (keepSel eta) 2 (fun k _ => keepSel_lt eta k) _
        (fun i => if i = 0 then (gccuPhotonsR R sq U d o).wp f else kept.wp f) f (by
          intro k _
          rw [ho.heta]
          unfold keepSel
          by_cases h : (k : ℝ) / 2 ^ 53 ≥ eta
          · rw [if_pos h, if_pos h, if_pos rfl]
          · rw [if_neg h, if_neg h]; exact (if_neg (by norm_num : ¬ (1 : ℕ) = 0)).symm)]
      rw [sum_range_succ, sum_range_one, if_pos rfl, if_neg (by norm_num), keepLaw_compl]
      change (ENNReal.ofReal (1 - q) * _ + ENNReal.ofReal q * _).toReal = _
      rw [ENNReal.toReal_add, ENNReal.toReal_mul, ENNReal.toReal_mul, ENNReal.toReal_ofReal (by linarith),
        ENNReal.toReal_ofReal hq0]
      · exact ENNReal.mul_ne_top ENNReal.ofReal_ne_top (ne_top_of_le_ne_top ENNReal.one_ne_top (wp_le _))
      · exact ENNReal.mul_ne_top ENNReal.ofReal_ne_top (ne_top_of_le_ne_top ENNReal.one_ne_top (wp_le _))
    -- a lost photon
    have hlost := ih o ho hr hkey (by rw [← hrs]; omega)
    rw [← hX] at hlost
    -- a surviving photon
    have hkeep : |s * (kept.wp f).toReal - Y| ≤ (γ + d * (E + v)) * s + E * s + (pathCount S.length (d + 1) : ℝ) * A := by
      have hpc1 : (1 : ℝ) ≤ pathCount S.length (d + 1) := by rw [pathCount_succ]; exact_mod_cast Nat.le_add_left _ _
      have hgd : 0 ≤ (γ + d * (E + v)) * s :=
        mul_nonneg (add_nonneg hγ (mul_nonneg (Nat.cast_nonneg _) (add_nonneg hE.2 hv0))) hs0
      have triv : s ≤ E * s + A → |s * (kept.wp f).toReal - Y|
          ≤ (γ + d * (E + v)) * s + E * s + (pathCount S.length (d + 1) : ℝ) * A := by
        intro h
        have h8 := mul_le_of_le_one_right hs0 (wp_real kept).2
        have h9 := mul_nonneg hs0 (wp_real kept).1
        have h10 : |s * (kept.wp f).toReal - Y| ≤ s := by rw [abs_le]; constructor <;> linarith
        have h13 := mul_le_mul_of_nonneg_right hpc1 hA0
        linarith
      obtain ⟨P, hP1, hP2, hP3, hP4⟩ := layerPmfR_near R (okA S) hsq hc ha hn h2 o.base.r hr hlt
      change ∀ j < S.length, Near (pmfFactor S c) (pmfAbs S a) (P.getD j 0)
        (seqProb (colOf U) S (rs.length + 1) (j :: rs)) at hP4
      set p : ℕ → ℝ := fun j => seqProb (colOf U) S (rs.length + 1) (j :: rs) with hp
      have hp0 : ∀ j, 0 ≤ p j := fun j => seqProb_nonneg _ _ _ _
      have hps : ∑ j ∈ range P.length, p j = s := by rw [hP2]; exact seqProb_marginal hU rs.length hlt _
      have hN : ∀ j < P.length, Near (pmfFactor S c) (pmfAbs S a) (P.getD j 0) (p j) := by rw [hP2]; exact hP4
      rcases eq_or_lt_of_le hs0 with h0 | hspos
      · refine triv ?_
        rw [← h0]; simpa using hA0
      by_cases hbig : (2 : ℝ) ^ (-969 : ℤ) ≤ sumR R P
      swap
      · refine triv ?_
        have := small_close R hP3 hbig hC hB hp0 hps (rho_pow_le_two hc h2 _ (by omega)) hN
        rwa [hP2] at this
      obtain ⟨o', e1, e2, e3, e4, e5, e6⟩ := gccuPrepareR_ok R hrec hb o ho hr hkey (by omega) P hP1
      have hnext : gccA.next S o.base.r = (List.range S.length).map fun j => o.base.r.modify j (· + 1) :=
        (okA S).next _ hr
      have hlen : (gccA.next S o.base.r).length = P.length := by rw [hnext, hP2]; simp
      set W : ℕ → ℝ := fun j => ((gccuPhotonsR R sq U d { o' with
        base := { o'.base with r := o.base.r.modify j (· + 1), key := o.base.r.modify j (· + 1) } }).wp f).toReal with hW
      have hW0 : ∀ j, 0 ≤ W j ∧ W j ≤ 1 := fun j => wp_real _
      have hwk : (kept.wp f).toReal = ∑ j ∈ range S.length, selLaw R P j * W j := by
        rw [hkept, e1, Prog.done_ok_bind, Prog.wp_bind, sampleR_wp R o'.base P _ e5 e6 hlen hP3 hbig, hP2,
          ENNReal.toReal_sum]
        · refine sum_congr rfl fun j hj => ?_
          have hj := mem_range.mp hj
          rw [ENNReal.toReal_mul, ENNReal.toReal_ofReal (selLaw_nonneg R P j), hnext,
            getD_of_lt _ _ (by simpa using hj)]
          simp only [List.getElem_map, List.getElem_range, Prog.post]
          rfl
        · intro j _
          refine ENNReal.mul_ne_top ENNReal.ofReal_ne_top ?_
          simp only [Prog.post]
          exact ne_top_of_le_ne_top ENNReal.one_ne_top (wp_le _)
      have hYs : Y = ∑ j ∈ range S.length, ∑ l ∈ range (d + 1), binomialWeight d l eta * lossTarget S U G (j :: rs) l := by
        rw [hY, sum_comm]
        refine sum_congr rfl fun l _ => ?_
        rw [← mul_sum, lossTarget_succ hG]
      have hIH : ∀ j ∈ range S.length, |p j * W j - ∑ l ∈ range (d + 1), binomialWeight d l eta * lossTarget S U G (j :: rs) l|
          ≤ (γ + d * (E + v)) * p j + pathCount S.length d * A := by
        intro j hj
        have hj := mem_range.mp hj
        have hns : (particles (o.base.r.modify j (· + 1))).Perm (j :: rs) := modify_particles o.base.r j (by omega)
        have := ih { o' with base := { o'.base with r := o.base.r.modify j (· + 1), key := o.base.r.modify j (· + 1) } }
          ⟨⟨e2.cache.input, e2.cache.labeled, e2.cache.cache⟩, e2.heta, e2.outs, e2.binw, e2.dist⟩
          (by simpa using hr) rfl (by simp only; rw [hns.length_eq, List.length_cons]; omega)
        simp only at this
        rw [hns.length_eq, List.length_cons, seqProb_perm _ _ _ hns] at this
        have hT : ∀ l, lossTarget S U G (particles (o.base.r.modify j (· + 1))) l = lossTarget S U G (j :: rs) l := by
          intro l
          unfold lossTarget
          rw [hns.length_eq]
          exact sum_congr rfl fun w _ => by rw [seqProb_perm _ _ _ (hns.append_left w), hG _ _ (hns.append_left w)]
        simp only [hT] at this
        exact this
      have hstep := step_close R hP3 hbig hC hB hp0 hps hspos hN
      rw [hP2] at hstep hps
      rw [hwk, hYs, mul_sum, ← sum_sub_distrib]
      have hsplit : ∀ j ∈ range S.length, |s * (selLaw R P j * W j)
            - ∑ l ∈ range (d + 1), binomialWeight d l eta * lossTarget S U G (j :: rs) l|
          ≤ |s * selLaw R P j - p j| + ((γ + d * (E + v)) * p j + pathCount S.length d * A) := by
        intro j hj
        have e : s * (selLaw R P j * W j) - ∑ l ∈ range (d + 1), binomialWeight d l eta * lossTarget S U G (j :: rs) l
            = (s * selLaw R P j - p j) * W j + (p j * W j
              - ∑ l ∈ range (d + 1), binomialWeight d l eta * lossTarget S U G (j :: rs) l) := by ring
        rw [e]
        refine (abs_add_le _ _).trans (add_le_add ?_ (hIH j hj))
        rw [abs_mul, abs_of_nonneg (hW0 j).1]
        exact mul_le_of_le_one_right (abs_nonneg _) (hW0 j).2
      refine (abs_sum_le_sum_abs _ _).trans ((sum_le_sum hsplit).trans ?_)
      rw [sum_add_distrib, sum_add_distrib, ← mul_sum, hps, sum_const, card_range, nsmul_eq_mul, pathCount_succ]
      push_cast
      linarith
    rw [hwp]
    set w0 := ((gccuPhotonsR R sq U d o).wp f).toReal
    set w1 := (kept.wp f).toReal
    have e : s * ((1 - q) * w0 + q * w1) - ((1 - eta) * X + eta * Y)
        = (1 - q) * (s * w0 - X) + q * (s * w1 - Y) + (q - eta) * (Y - X) := by ring
    rw [e]
    have hXY : |Y - X| ≤ s := by rw [abs_le]; constructor <;> linarith
    have t1 : |(1 - q) * (s * w0 - X)| ≤ (1 - q) * ((γ + d * (E + v)) * s + pathCount S.length d * A) := by
      rw [abs_mul, abs_of_nonneg (by linarith : 0 ≤ 1 - q)]
      exact mul_le_mul_of_nonneg_left hlost (by linarith)
    have t2 : |q * (s * w1 - Y)| ≤ q * ((γ + d * (E + v)) * s + E * s + (pathCount S.length (d + 1) : ℝ) * A) := by
      rw [abs_mul, abs_of_nonneg hq0]
      exact mul_le_mul_of_nonneg_left hkeep hq0
    have t3 : |(q - eta) * (Y - X)| ≤ v * s := by
      rw [abs_mul]
      exact mul_le_mul hq hXY (abs_nonneg _) hv0
    refine (abs_add_le _ _).trans ((add_le_add ((abs_add_le _ _).trans (add_le_add t1 t2)) t3).trans ?_)
    have hEs : 0 ≤ E * s := mul_nonneg hE.2 hs0
    have hpA := mul_le_mul_of_nonneg_right hpc hA0
    have u1 : (1 - q) * ((γ + d * (E + v)) * s + pathCount S.length d * A)
        ≤ (1 - q) * ((γ + d * (E + v)) * s + E * s + (pathCount S.length (d + 1) : ℝ) * A) :=
      mul_le_mul_of_nonneg_left (by linarith) (by linarith)
    push_cast
    linarith

/-- The error of one sample. -/
noncomputable def lossySampleErr (S : List ℕ) (c a : ℝ) : ℝ := sampleErr S c a + S.sum / 2 ^ 53

theorem lossySampleErr_nonneg {S : List ℕ} {c a : ℝ} (hc : 1 ≤ c) (ha : 0 ≤ a) : 0 ≤ lossySampleErr S c a := by
  have h1 := (stepErr_nonneg S.length (one_le_pmfFactor S hc)).2
  have h3 := pmfAbs_nonneg S ha
  have h4 := one_le_pmfFactor S hc
  have h5 := two_zpow_pos (-968)
  unfold lossySampleErr sampleErr absErr
  positivity

theorem gccuFillR_close {c a : ℝ} (hsq : SqNear sq U S c a)
    (hc : 1 ≤ c) (ha : 0 ≤ a) (hn : S.sum ≤ 200) (h2 : pmfFactor S c ≤ 2) (hU : UsedOrtho (colOf U) S.length S)
    (hlen : U.length = S.length) (he0 : 0 ≤ eta) (he1 : eta ≤ 1) (hrec : RecordsOK R S sq U Q₁ Q₂ binw) (hb : S.sum < binw.length)
    (f : Py GccuObj → ℝ≥0∞) (hf1 : ∀ r, f r ≤ 1) (G : List ℕ → ℝ)
    (hG0 : ∀ w, 0 ≤ G w ∧ G w ≤ 1) (γ : ℝ) (hγ : 0 ≤ γ)
    (hf : ∀ o, UInvR R S sq U eta ph Q₁ Q₂ outputs binw o → o.base.r.length = S.length →
      |(f (.ok o)).toReal - G o.base.r| ≤ γ)
    (o : GccuObj) (ho : UInvR R S sq U eta ph Q₁ Q₂ outputs binw o) :
    |((gccuFillR R sq U o).wp f).toReal - ∑ T ∈ statesUpTo S.length S.sum, uniformLossProb U S eta T * G T|
      ≤ γ + lossySampleErr S c a := by
  have hz : (U.map fun _ => 0 : List ℕ).sum = 0 := by simp
  have hpz : particles (U.map fun _ => 0) = [] := by
    apply List.eq_nil_of_length_eq_zero
    rw [particlesFrom_length, hz]
  have h := gccuPhotonsR_close R hsq hc ha hn h2 hU he0 he1 hrec hb f hf1 (fun w => G (occOf S.length w))
    (fun a b hab => by rw [occOf_perm hab]) (fun w => hG0 _) γ hγ
    (fun o ho hr => by have := hf o ho hr; rwa [← hr, occOf_particles]) S.sum
    { o with base := { o.base with r := U.map fun _ => 0, key := U.map fun _ => 0 } }
    ⟨⟨ho.cache.input, ho.cache.labeled, ho.cache.cache⟩, ho.heta, ho.outs, ho.binw, ho.dist⟩
    (by simpa using hlen) rfl (by simp only [hpz]; simp)
  simp only [hpz, List.length_nil, seqProb_zero, one_mul, mul_one] at h
  have e : ∑ l ∈ range (S.sum + 1), binomialWeight S.sum l eta * lossTarget S U (fun w => G (occOf S.length w)) [] l
      = ∑ T ∈ statesUpTo S.length S.sum, uniformLossProb U S eta T * G T := by
    rw [sum_statesUpTo]
    refine sum_congr rfl fun l _ => ?_
    have h1 := sum_seq_states U S S.length l (fun w => ENNReal.ofReal (G (occOf S.length w)))
      (fun a b hab => by rw [occOf_perm hab])
    have h3 := congrArg ENNReal.toReal h1
    rw [ENNReal.toReal_sum (fun w _ => ENNReal.mul_ne_top ENNReal.ofReal_ne_top ENNReal.ofReal_ne_top),
      ENNReal.toReal_sum (fun w _ => ENNReal.mul_ne_top ENNReal.ofReal_ne_top ENNReal.ofReal_ne_top)] at h3
    rw [sum_congr rfl fun w _ => by
      rw [ENNReal.toReal_mul, ENNReal.toReal_ofReal (seqProb_nonneg _ _ _ _), ENNReal.toReal_ofReal (hG0 _).1]] at h3
    unfold lossTarget
    simp only [List.append_nil, List.length_nil, zero_add]
    rw [h3, mul_sum]
    refine sum_congr rfl fun T hT => ?_
    obtain ⟨hT1, hT2⟩ := (mem_statesFin _ _ T).mp hT
    rw [ENNReal.toReal_mul, ENNReal.toReal_ofReal (fixedLossProb_nonneg _ _ _ _), ENNReal.toReal_ofReal (hG0 _).1,
      uniformLossProb, hT2, ← hT1, occOf_particles]
    ring
  rw [e] at h
  unfold gccuFillR
  rw [ho.cache.input]
  refine h.trans (le_of_eq ?_)
  unfold lossySampleErr sampleErr
  ring

/-- An expectation over independent draws lies below 1. -/
theorem expIid_le_one' {s : Finset (List ℕ)} {p : List ℕ → ℝ≥0∞} (hp : ∑ T ∈ s, p T = 1) (N : ℕ)
    (g : List (List ℕ) → ℝ≥0∞) (hg : ∀ l, g l ≤ 1) : expIid s p N g ≤ 1 := by
  induction N generalizing g with
  | zero => exact hg []
  | succ N ih =>
    rw [expIid, ← hp]
    refine sum_le_sum fun T _ => ?_
    exact mul_le_of_le_one_right zero_le (ih _ fun l => hg _)

theorem gccuLoopR_close {c a : ℝ} (hsq : SqNear sq U S c a)
    (hc : 1 ≤ c) (ha : 0 ≤ a) (hn : S.sum ≤ 200) (h2 : pmfFactor S c ≤ 2) (hU : UsedOrtho (colOf U) S.length S)
    (hlen : U.length = S.length) (he0 : 0 ≤ eta) (he1 : eta ≤ 1) (hrec : RecordsOK R S sq U Q₁ Q₂ binw) (hb : S.sum < binw.length)
    (htot : ∑ T ∈ statesUpTo S.length S.sum, ENNReal.ofReal (uniformLossProb U S eta T) = 1) (N : ℕ)
    (g : List (List ℕ) → ℝ≥0∞) (hg : ∀ l, g l ≤ 1) (f : Py (List (List ℕ) × GccuObj) → ℝ≥0∞) (hf1 : ∀ r, f r ≤ 1)
    (hf : ∀ l o, f (.ok (l, o)) = g l) (o : GccuObj) (ho : UInvR R S sq U eta ph Q₁ Q₂ outputs binw o) :
    |((gccuLoopR R sq U N o).wp f).toReal
      - (expIid (statesUpTo S.length S.sum) (fun T => ENNReal.ofReal (uniformLossProb U S eta T)) N g).toReal|
      ≤ N * lossySampleErr S c a := by
  have hE := lossySampleErr_nonneg (S := S) hc ha
  induction N generalizing g f o with
  | zero =>
    rw [gccuLoopR, expIid, Prog.pure_eq, Prog.wp, hf]
    simp
  | succ N ih =>
    rw [gccuLoopR, Prog.bind_eq, Prog.wp_bind, expIid]
    have wp_le : ∀ p : Prog (List (List ℕ) × GccuObj), p.wp f ≤ 1 := fun p => by
      rw [← Prog.wp_const p 1]; exact Prog.wp_mono p _ _ fun r _ => hf1 r
    have := gccuFillR_close (ph := ph) (outputs := outputs) R hsq hc ha hn h2 hU hlen he0 he1 hrec hb
      (Prog.post (fun o => do
        let (samples, o') ← gccuLoopR R sq U N o
        pure (o.base.r :: samples, o')) f)
      (by rintro (e | o); exacts [hf1 _, wp_le _])
      (fun T => (expIid (statesUpTo S.length S.sum) (fun T => ENNReal.ofReal (uniformLossProb U S eta T)) N
        fun l => g (T :: l)).toReal)
      (fun T => ⟨ENNReal.toReal_nonneg, by
        have := ENNReal.toReal_mono ENNReal.one_ne_top (expIid_le_one' htot N (fun l => g (T :: l)) fun l => hg _)
        simpa using this⟩)
      (N * lossySampleErr S c a) (by positivity) ?_ o ho
    · have e : (∑ T ∈ statesUpTo S.length S.sum, ENNReal.ofReal (uniformLossProb U S eta T) *
            expIid (statesUpTo S.length S.sum) (fun T => ENNReal.ofReal (uniformLossProb U S eta T)) N
              fun l => g (T :: l)).toReal
          = ∑ T ∈ statesUpTo S.length S.sum, uniformLossProb U S eta T *
            (expIid (statesUpTo S.length S.sum) (fun T => ENNReal.ofReal (uniformLossProb U S eta T)) N
              fun l => g (T :: l)).toReal := by
        rw [ENNReal.toReal_sum]
        · refine sum_congr rfl fun T _ => ?_
          rw [ENNReal.toReal_mul, ENNReal.toReal_ofReal (by
            unfold uniformLossProb
            exact mul_nonneg (binomialWeight_nonneg _ _ he0 he1) (fixedLossProb_nonneg ..))]
        · intro T _
          exact ENNReal.mul_ne_top ENNReal.ofReal_ne_top (ne_top_of_le_ne_top ENNReal.one_ne_top
            (expIid_le_one' htot N (fun l => g (T :: l)) fun l => hg _))
      rw [e]
      refine this.trans (le_of_eq ?_)
      push_cast
      ring
    · intro o' ho' _
      rw [Prog.post, Prog.bind_eq, Prog.wp_bind]
      exact ih (fun l => g (o'.base.r :: l)) (fun l => hg _) _
        (by rintro (e | x); exacts [hf1 _, hf1 _])
        (fun l o => hf _ o) o' ho'

end

/-- `_initialize_simulation` gives an object whose entries are placeholders, except the first. -/
theorem gccuInitializeR_ok (S : List ℕ) (sq : CalcCfg ℂ → Py ℝ) (U : List (List ℂ)) (Q₁ Q₂ : List ℕ → ℝ → Prop) (m : ℕ)
    (hm : S.length = m + 1) (fuel : ℕ) (hf : genFuel m S.sum ≤ fuel) (o : GccuObj)
    (hQ : Q₁ (List.replicate (m + 1) 0) ((gccuWeightsR R S.sum o.eta).getD 0 0)) :
    ∃ o', gccuInitializeR R fuel o S = .ok o' ∧
      UInvR R S sq U o.eta (if o.missing then -1 else 0) Q₁ Q₂ (allStates m S.sum true) (gccuWeightsR R S.sum o.eta) o' := by
  unfold gccuInitializeR
  simp only
  have hg := generatePossibleStates_ok fuel S.sum m true hf
  rw [← hm] at hg
  rw [hg, ok_bind]
  have hw : 0 < (gccuWeightsR R S.sum o.eta).length := by simp [gccuWeightsR]
  have hz : List.replicate (m + 1) 0 ∈ allStates m S.sum true := by
    rw [mem_allStates]; simp
  have hpos : 0 < (allStates m S.sum true).length := List.length_pos_of_mem hz
  rw [pyGetN_ok hw, ok_bind, pySetN_ok (by simpa using hpos), ok_bind]
  refine ⟨_, rfl, ⟨rfl, rfl, fun _ _ h => by simp [assocGet] at h⟩, rfl, rfl, rfl, ⟨by simp, by simp, ?_, ?_⟩⟩
  · intro i hi
    simp only
    rw [getD_set _ _ _ _ (by simpa using hpos)]
    by_cases h0 : 0 = i
    · subst h0
      rw [if_pos rfl]
      right
      have hs : ((allStates m S.sum true)[0]).sum = 0 := by
        obtain ⟨j, hj, hjv⟩ := List.getElem_of_mem hz
        have hsj : ((allStates m S.sum true)[j]).sum = 0 := by rw [hjv]; simp
        rcases Nat.eq_zero_or_pos j with rfl | hj0
        · exact hsj
        · have := List.pairwise_iff_getElem.mp (allStates_sorted m S.sum true) 0 j hpos hj hj0
          omega
      have hl : ((allStates m S.sum true)[0]).length = m + 1 := by
        have := (mem_allStates m S.sum true _).mp (List.getElem_mem hpos)
        exact this.1
      have he : (allStates m S.sum true)[0] = List.replicate (m + 1) 0 := by
        rw [List.eq_replicate_iff]
        refine ⟨hl, fun x hx => ?_⟩
        have := List.le_sum_of_mem hx
        omega
      rw [he, ← getD_of_lt _ 0 hw]
      exact hQ
    · rw [if_neg h0]
      left
      rw [getD_of_lt _ _ (by simpa using hi)]
      simp
  · intro i hi
    left
    simp only
    rw [getD_of_lt _ _ (by simpa using hi)]
    simp

end Verif
