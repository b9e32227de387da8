import Verif.Model.CliffordsU
import Verif.Proofs.CliffordsLoss

/-! Helper lemmas: the generalized Clifford & Clifford sampler with uniform losses. -/
namespace Verif

open Finset
open scoped ENNReal

theorem foldlM_inv {α β : Type} (f : β → α → Py β) (I : β → Prop) (l : List α)
    (h : ∀ b, I b → ∀ a ∈ l, ∃ b', f b a = .ok b' ∧ I b') (b : β) (hb : I b) :
    ∃ b', l.foldlM f b = .ok b' ∧ I b' := by
  induction l generalizing b with
  | nil => exact ⟨b, rfl, hb⟩
  | cons a l ih =>
    obtain ⟨b', h1, h2⟩ := h b hb a (by simp)
    rw [List.foldlM_cons, h1, ok_bind]
    exact ih (fun b hb a ha => h b hb a (by simp [ha])) b' h2

theorem gccuWeights_eq (n : ℕ) (eta : ℝ) : gccuWeights n eta = gccbWeights n eta := by
  unfold gccuWeights gccbWeights
  exact List.map_congr_left fun l _ => by ring

/-- The entries of the two distributions are placeholders or exact. -/
structure DistOK (U : List (List ℂ)) (S : List ℕ) (eta ph : ℝ) (outputs : List (List ℕ))
    (d : List ℝ × List ℝ) : Prop where
  len1 : d.1.length = outputs.length
  len2 : d.2.length = outputs.length
  val1 : ∀ i, (h : i < outputs.length) → d.1.getD i 0 = ph ∨ d.1.getD i 0 = uniformLossProb U S eta outputs[i]
  val2 : ∀ i, (h : i < outputs.length) → d.2.getD i 0 = ph ∨
    d.2.getD i 0 = fixedLossProb U S (outputs[i]).sum outputs[i]

theorem getD_set (l : List ℝ) (i j : ℕ) (x : ℝ) (hi : i < l.length) :
    (l.set i x).getD j 0 = if i = j then x else l.getD j 0 := by
  rw [List.getD_eq_getElem?_getD, List.getElem?_set, List.getD_eq_getElem?_getD]
  by_cases h : i = j
  · subst h; simp [hi]
  · simp [h]

theorem recordEntry_ok (U : List (List ℂ)) (S : List ℕ) (eta ph : ℝ) (outputs : List (List ℕ)) (T : List ℕ)
    (hT : T.sum ≤ S.sum) (d : List ℝ × List ℝ) (hd : DistOK U S eta ph outputs d) :
    ∃ d', recordEntry outputs (gccuWeights S.sum eta) T (seqProb (colOf U) S T.sum (particles T)) d = .ok d' ∧
      DistOK U S eta ph outputs d' := by
  unfold recordEntry
  refine foldlM_inv _ (DistOK U S eta ph outputs) _ ?_ d hd
  intro d hd i hi
  have hi := List.mem_range.mp hi
  have h1 : i < d.1.length := by rw [hd.len1]; exact hi
  have h2 : i < d.2.length := by rw [hd.len2]; exact hi
  rw [pyGetN_ok hi, ok_bind]
  by_cases e : T = outputs[i]
  · have hx : T.foldl (fun (x : ℝ) val => x / (val.factorial : ℝ))
        (seqProb (colOf U) S T.sum (particles T) * (T.sum.factorial : ℝ)) = fixedLossProb U S T.sum T := by
      rw [foldl_div_fact, fixedLossProb_eq_seq U S T T.sum rfl]
      ring
    have hw : T.sum < (gccuWeights S.sum eta).length := by rw [gccuWeights_eq, gccbWeights_length]; omega
    have hwv : (gccuWeights S.sum eta)[T.sum] = binomialWeight S.sum T.sum eta := by
      rw [← getD_of_lt _ 0 hw, gccuWeights_eq, gccbWeights_getD _ _ _ hT]
    rw [if_pos e]
    simp only [hx]
    rw [pySetN_ok h2, ok_bind, pyGetN_ok hw, ok_bind, pySetN_ok h1, ok_bind, hwv]
    refine ⟨_, rfl, ⟨by simpa using hd.len1, by simpa using hd.len2, ?_, ?_⟩⟩
    · intro j hj
      simp only
      rw [getD_set _ _ _ _ h1]
      by_cases hij : i = j
      · subst hij
        rw [if_pos rfl, ← e]
        right
        rw [uniformLossProb, mul_comm]
      · rw [if_neg hij]; exact hd.val1 j hj
    · intro j hj
      simp only
      rw [getD_set _ _ _ _ h2]
      by_cases hij : i = j
      · subst hij
        rw [if_pos rfl, ← e]
        right
        rfl
      · rw [if_neg hij]; exact hd.val2 j hj
  · rw [if_neg e]
    exact ⟨d, rfl, hd⟩

section

variable {perm : CalcCfg ℂ → Py ℂ} {U : List (List ℂ)} {S : List ℕ} {eta ph : ℝ} {outputs : List (List ℕ)}

/-- The object between two draws. -/
structure UInv (U : List (List ℂ)) (S : List ℕ) (eta ph : ℝ) (outputs : List (List ℕ)) (o : GccuObj) : Prop where
  cache : CacheOK (okA S) U o.base
  heta : o.eta = eta
  outs : o.outputs = outputs
  binw : o.binw = gccuWeights S.sum eta
  dist : DistOK U S eta ph outputs (o.dist, o.udist)

theorem gccuNewLayer_ok (hp : PermOn perm U S) (o : GccuObj) (ho : UInv U S eta ph outputs o)
    (hr : o.base.r.length = S.length) (hk : o.base.r.sum < S.sum) :
    ∃ o', gccuNewLayer perm U o = .ok o' ∧ newLayer gccA perm U o.base = .ok o'.base ∧ o'.eta = eta ∧
      o'.outputs = outputs ∧ o'.binw = gccuWeights S.sum eta ∧ DistOK U S eta ph outputs (o'.dist, o'.udist) := by
  have hseq : (particles o.base.r).length = o.base.r.sum := particlesFrom_length _ _
  have hnl := newLayer_ok (okA S) hp o.base ho.cache.input ho.cache.labeled hr
    (by change (particles o.base.r).length < _; omega)
  rw [hnl]
  unfold gccuNewLayer
  simp only [ho.cache.input, ho.cache.labeled]
  rw [labeledStates_get]
  change ∃ o', (layerWeights S (subStates S (o.base.r.sum + 1)) >>= _) = _ ∧ _
  rw [layerWeights_ok S _ hk, ok_bind]
  have hnext : gccA.next S o.base.r = (List.range S.length).map fun j => o.base.r.modify j (· + 1) :=
    (okA S).next _ hr
  have hfold : ∀ outs : List (List ℕ), (∀ T ∈ outs, T.length = S.length ∧ T.sum = o.base.r.sum + 1) →
      ∀ acc : List ℝ × (List ℝ × List ℝ), DistOK U S eta ph outputs acc.2 →
      ∃ d', outs.foldlM (fun (acc : List ℝ × (List ℝ × List ℝ)) out => (do
        let p ← pmfEntry perm U (subStates S (o.base.r.sum + 1)) ((subStates S (o.base.r.sum + 1)).map fun l =>
          ((List.zipWith Nat.choose S l).prod : ℝ) / (S.sum.choose (o.base.r.sum + 1) : ℝ)) out
        let d ← recordEntry o.outputs o.binw out p acc.2
        pure (acc.1 ++ [p], d) : Py _)) acc
        = .ok (acc.1 ++ outs.map (fun T => seqProb (colOf U) S (o.base.r.sum + 1) (particles T)), d') ∧
        DistOK U S eta ph outputs d' := by
    intro outs houts
    induction outs with
    | nil => intro acc hacc; exact ⟨acc.2, by simp [pure_eq_ok], hacc⟩
    | cons T outs ih =>
      intro acc hacc
      obtain ⟨h1, h2⟩ := houts T (by simp)
      rw [List.foldlM_cons, pmfEntry_ok hp _ T h1 h2, ok_bind, ho.outs, ho.binw]
      obtain ⟨d, hd1, hd2⟩ := recordEntry_ok U S eta ph outputs T (by omega) acc.2 hacc
      rw [h2] at hd1
      rw [hd1, ok_bind, pure_eq_ok, ok_bind]
      obtain ⟨d', hd3, hd4⟩ := ih (fun T hT => houts T (by simp [hT]))
        (acc.1 ++ [seqProb (colOf U) S (o.base.r.sum + 1) (particles T)], d) hd2
      rw [ho.outs, ho.binw] at hd3
      refine ⟨d', ?_, hd4⟩
      rw [hd3]
      simp
  obtain ⟨d', h1, h2⟩ := hfold (gccA.next S o.base.r) (by
    intro T hT
    rw [hnext] at hT
    obtain ⟨j, hj, rfl⟩ := List.mem_map.mp hT
    have hj := List.mem_range.mp hj
    exact ⟨by simpa using hr, modify_sum _ _ (by omega)⟩) ([], (o.dist, o.udist)) ho.dist
  change ∃ o', ((gccA.next S o.base.r).foldlM (fun (acc : List ℝ × (List ℝ × List ℝ)) out => (do
        let p ← pmfEntry perm U (subStates S (o.base.r.sum + 1)) ((subStates S (o.base.r.sum + 1)).map fun l =>
          ((List.zipWith Nat.choose S l).prod : ℝ) / (S.sum.choose (o.base.r.sum + 1) : ℝ)) out
        let d ← recordEntry o.outputs o.binw out p acc.2
        pure (acc.1 ++ [p], d) : Py _)) ([], (o.dist, o.udist)) >>= _) = _ ∧ _
  rw [h1, ok_bind]
  refine ⟨_, rfl, ?_, ho.heta, ho.outs, ho.binw, h2⟩
  have e : (gccA.next S o.base.r).map (fun T => seqProb (colOf U) S (o.base.r.sum + 1) (particles T))
      = pmfOf (okA S) U o.base.r := by
    unfold pmfOf
    rw [hnext, List.map_map]
    refine List.map_congr_left fun j hj => ?_
    have hj := List.mem_range.mp hj
    change seqProb _ _ _ (particles (o.base.r.modify j (· + 1))) = seqProb _ _ ((particles o.base.r).length + 1) (j :: particles o.base.r)
    rw [hseq]
    exact seqProb_perm _ _ _ (modify_particles _ _ (by omega))
  simp only [List.nil_append, e]

/-- One surviving photon: the layer is available and the object stays valid. -/
theorem gccuPrepare_ok (hp : PermOn perm U S) (o : GccuObj) (ho : UInv U S eta ph outputs o)
    (hr : o.base.r.length = S.length) (hkey : o.base.key = o.base.r) (hk : o.base.r.sum < S.sum) :
    ∃ o', (if assocGet o.base.pmfs o.base.key = none then gccuNewLayer perm U o else pure o : Py _) = .ok o' ∧
      UInv U S eta ph outputs o' ∧ o'.base.r = o.base.r ∧ o'.base.key = o.base.r ∧
      assocGet o'.base.pmfs o'.base.key = some (pmfOf (okA S) U o.base.r) ∧
      assocGet o'.base.outs o'.base.key = some (gccA.next S o.base.r) := by
  have hseq : (particles o.base.r).length = o.base.r.sum := particlesFrom_length _ _
  obtain ⟨b, h1, h2, h3, h4, h5, h6⟩ := prepare_ok (okA S) hp o.base ho.cache hr hkey
    (by change (particles o.base.r).length < _; omega)
  by_cases h : assocGet o.base.pmfs o.base.key = none
  · rw [if_pos h] at h1 ⊢
    obtain ⟨o', e1, e2, e3, e4, e5, e6⟩ := gccuNewLayer_ok hp o ho hr hk
    rw [e2] at h1
    injection h1 with h1
    subst h1
    exact ⟨o', e1, ⟨h2, e3, e4, e5, e6⟩, h3, h4, h5, h6⟩
  · rw [if_neg h] at h1 ⊢
    injection h1 with h1
    subst h1
    exact ⟨o, rfl, ho, h3, h4, h5, h6⟩

theorem gccuPhotons_succ (perm : CalcCfg ℂ → Py ℂ) (U : List (List ℂ)) (n : ℕ) (o : GccuObj) :
    gccuPhotons perm U (n + 1) o = .uniform fun u =>
      if u ≥ o.eta then gccuPhotons perm U n o
      else (Prog.done (if assocGet o.base.pmfs o.base.key = none then gccuNewLayer perm U o else pure o)).bind fun o =>
        (sampleFromLatestPmf o.base).bind fun b => gccuPhotons perm U n { o with base := b } := rfl

theorem lintegral_bernoulli {eta : ℝ} (h0 : 0 ≤ eta) (h1 : eta ≤ 1) (A B : ℝ≥0∞) (F : ℝ → ℝ≥0∞)
    (hA : ∀ u, u ≥ eta → F u = A) (hB : ∀ u, ¬ u ≥ eta → F u = B) :
    ∫⁻ u in Set.Ico (0 : ℝ) 1, F u = ENNReal.ofReal (1 - eta) * A + ENNReal.ofReal eta * B := by
  rw [← Set.Ico_union_Ico_eq_Ico h0 h1,
    MeasureTheory.lintegral_union measurableSet_Ico (Set.Ico_disjoint_Ico_same)]
  rw [MeasureTheory.setLIntegral_congr_fun (g := fun _ => B) measurableSet_Ico
      (fun u hu => hB u (not_le.mpr hu.2)),
    MeasureTheory.setLIntegral_congr_fun (g := fun _ => A) measurableSet_Ico (fun u hu => hA u hu.1),
    MeasureTheory.setLIntegral_const, MeasureTheory.setLIntegral_const, Real.volume_Ico, Real.volume_Ico,
    sub_zero, mul_comm A, mul_comm B, add_comm]

theorem binomialWeight_succ_zero (d : ℕ) (eta : ℝ) :
    binomialWeight (d + 1) 0 eta = (1 - eta) * binomialWeight d 0 eta := by
  unfold binomialWeight; simp [pow_succ]; ring

theorem binomialWeight_succ_succ (d l : ℕ) (hl : l ≤ d) (eta : ℝ) :
    binomialWeight (d + 1) (l + 1) eta = (1 - eta) * binomialWeight d (l + 1) eta + eta * binomialWeight d l eta := by
  unfold binomialWeight
  rw [Nat.choose_succ_succ, Nat.add_sub_add_right]
  push_cast
  rcases hl.lt_or_eq with h | rfl
  · obtain ⟨q, hq⟩ : ∃ q, d - l = q + 1 := ⟨d - l - 1, by omega⟩
    have h2 : d - (l + 1) = q := by omega
    rw [hq, h2]; ring
  · simp; ring

/-- Pascal's rule for binomial mixtures. -/
theorem binomial_mix (d : ℕ) {eta : ℝ} (h0 : 0 ≤ eta) (h1 : eta ≤ 1) (H : ℕ → ℝ≥0∞) :
    ENNReal.ofReal (1 - eta) * ∑ l ∈ range (d + 1), ENNReal.ofReal (binomialWeight d l eta) * H l
      + ENNReal.ofReal eta * ∑ l ∈ range (d + 1), ENNReal.ofReal (binomialWeight d l eta) * H (l + 1)
    = ∑ l ∈ range (d + 2), ENNReal.ofReal (binomialWeight (d + 1) l eta) * H l := by
  have h1' : 0 ≤ 1 - eta := by linarith
  have hz : binomialWeight d (d + 1) eta = 0 := by unfold binomialWeight; simp
  have e1 : ∑ l ∈ range (d + 1), ENNReal.ofReal (binomialWeight d l eta) * H l
      = ∑ l ∈ range (d + 2), ENNReal.ofReal (binomialWeight d l eta) * H l := by
    rw [sum_range_succ _ (d + 1), hz]; simp
  rw [e1, sum_range_succ' _ (d + 1), sum_range_succ' _ (d + 1), binomialWeight_succ_zero,
    ENNReal.ofReal_mul h1', mul_add, mul_sum, mul_sum, add_right_comm, ← sum_add_distrib, ← mul_assoc]
  congr 1
  refine sum_congr rfl fun l hl => ?_
  rw [binomialWeight_succ_succ d l (by have := mem_range.mp hl; omega), ENNReal.ofReal_add
    (mul_nonneg h1' (binomialWeight_nonneg _ _ h0 h1)) (mul_nonneg h0 (binomialWeight_nonneg _ _ h0 h1)),
    ENNReal.ofReal_mul h1', ENNReal.ofReal_mul h0, add_mul, mul_assoc, mul_assoc]

theorem gccuPhotons_wp (hp : PermOn perm U S) (hc : UsedOrtho (colOf U) S.length S) (h0 : 0 ≤ eta) (h1 : eta ≤ 1)
    (f : Py GccuObj → ℝ≥0∞) (G : List ℕ → ℝ≥0∞) (hG : ∀ a b : List ℕ, a.Perm b → G a = G b)
    (hf : ∀ o, UInv U S eta ph outputs o → o.base.r.length = S.length → f (.ok o) = G (particles o.base.r))
    (d : ℕ) (o : GccuObj) (ho : UInv U S eta ph outputs o) (hr : o.base.r.length = S.length)
    (hkey : o.base.key = o.base.r) (hk : o.base.r.sum + d ≤ S.sum) :
    ENNReal.ofReal (seqProb (colOf U) S o.base.r.sum (particles o.base.r)) * (gccuPhotons perm U d o).wp f
      = ∑ l ∈ range (d + 1), ENNReal.ofReal (binomialWeight d l eta) *
        ∑ w ∈ words S.length l, ENNReal.ofReal (seqProb (colOf U) S (o.base.r.sum + l) (w ++ particles o.base.r)) *
          G (w ++ particles o.base.r) := by
  induction d generalizing o with
  | zero =>
    simp only [zero_add, range_one, sum_singleton, words, List.nil_append, add_zero]
    have : binomialWeight 0 0 eta = 1 := by simp [binomialWeight]
    rw [this, ENNReal.ofReal_one, one_mul]
    congr 1
    exact hf o ho hr
  | succ d ih =>
    have hlt : o.base.r.sum < S.sum := by omega
    obtain ⟨o', e1, e2, e3, e4, e5, e6⟩ := gccuPrepare_ok hp o ho hr hkey hlt
    rw [gccuPhotons_succ, e1]
    simp only [Prog.done_ok_bind, Prog.wp]
    set B := ((sampleFromLatestPmf o'.base).bind fun b => gccuPhotons perm U d { o' with base := b }).wp f with hB
    rw [lintegral_bernoulli (eta := eta) h0 h1 ((gccuPhotons perm U d o).wp f) B _
      (fun u hu => by rw [if_pos (by rw [ho.heta]; exact hu)]) (fun u hu => by rw [if_neg (by rw [ho.heta]; exact hu)])]
    rw [mul_add, mul_left_comm, mul_left_comm _ (ENNReal.ofReal eta), ih o ho hr hkey (by omega),
      ← binomial_mix d h0 h1]
    congr 1
    congr 1
    by_cases hz : seqProb (colOf U) S o.base.r.sum (particles o.base.r) = 0
    · rw [hz, ENNReal.ofReal_zero, zero_mul]
      symm
      refine sum_eq_zero fun l hl => ?_
      have hl := mem_range.mp hl
      rw [sum_eq_zero, mul_zero]
      intro w hw
      rw [seqProb_zero_append hc _ _ hz (l + 1) (by omega) w hw, ENNReal.ofReal_zero, zero_mul]
    · have hpos := lt_of_le_of_ne (seqProb_nonneg (colOf U) S o.base.r.sum (particles o.base.r)) (Ne.symm hz)
      have hseq : (particles o.base.r).length = o.base.r.sum := particlesFrom_length _ _
      have hsum : (pmfOf (okA S) U o.base.r).sum = seqProb (colOf U) S o.base.r.sum (particles o.base.r) := by
        have := pmfOf_sum (okA S) hc o.base.r (by change (particles o.base.r).length < _; omega)
        rw [this]
        change seqProb _ _ (particles o.base.r).length _ = _
        rw [hseq]; rfl
      have hnext : gccA.next S o.base.r = (List.range S.length).map fun j => o.base.r.modify j (· + 1) :=
        (okA S).next _ hr
      rw [hB, Prog.wp_bind, sample_wp o'.base _ _ e5 e6 (by rw [hnext]; simp [pmfOf]) (pmfOf_nonneg (okA S) U _)
        (by rw [hsum]; exact hpos), mul_sum]
      have hlen : (pmfOf (okA S) U o.base.r).length = S.length := by simp [pmfOf]
      rw [hlen]
      have key : ∀ j ∈ range S.length,
          ENNReal.ofReal (seqProb (colOf U) S o.base.r.sum (particles o.base.r)) *
          (ENNReal.ofReal ((pmfOf (okA S) U o.base.r).getD j 0 / (pmfOf (okA S) U o.base.r).sum) *
            Prog.post (fun b => gccuPhotons perm U d { o' with base := b }) f
              (.ok { o'.base with r := (gccA.next S o.base.r).getD j [], key := (gccA.next S o.base.r).getD j [] }))
          = ∑ l ∈ range (d + 1), ENNReal.ofReal (binomialWeight d l eta) *
            ∑ w ∈ words S.length l,
              ENNReal.ofReal (seqProb (colOf U) S (o.base.r.sum + (l + 1)) (w ++ j :: particles o.base.r)) *
              G (w ++ j :: particles o.base.r) := by
        intro j hj
        have hj := mem_range.mp hj
        have hn := modify_particles o.base.r j (by omega)
        have hms := modify_sum o.base.r j (by omega)
        have e7 : (gccA.next S o.base.r).getD j [] = o.base.r.modify j (· + 1) := by
          rw [getD_of_lt _ _ (by rw [hnext]; simpa using hj)]
          simp [gccA]
        have e8 : (pmfOf (okA S) U o.base.r).getD j 0
            = seqProb (colOf U) S (o.base.r.sum + 1) (j :: particles o.base.r) := by
          rw [getD_of_lt _ _ (by rw [hlen]; exact hj)]
          unfold pmfOf
          rw [List.getElem_map, List.getElem_range]
          change seqProb _ _ ((particles o.base.r).length + 1) _ = _
          rw [hseq]; rfl
        rw [e7, e8, hsum, ← mul_assoc, ← ENNReal.ofReal_mul hpos.le, mul_div_cancel₀ _ hz]
        have hi := ih { o' with base := { o'.base with r := o.base.r.modify j (· + 1), key := o.base.r.modify j (· + 1) } }
          ⟨⟨e2.cache.input, e2.cache.labeled, e2.cache.cache⟩, e2.heta, e2.outs, e2.binw, e2.dist⟩
          (by simpa using hr) rfl (by simp only; rw [hms]; omega)
        simp only [hms] at hi
        rw [seqProb_perm _ _ _ hn] at hi
        simp only [Prog.post]
        rw [hi]
        refine sum_congr rfl fun l _ => ?_
        congr 1
        refine sum_congr rfl fun w _ => ?_
        rw [seqProb_perm _ _ _ (hn.append_left w), hG _ _ (hn.append_left w), add_assoc, add_comm 1 l]
      rw [sum_congr rfl key, sum_comm]
      refine sum_congr rfl fun l _ => ?_
      rw [← mul_sum, sum_words_append _ _ _ (fun w => ENNReal.ofReal (seqProb (colOf U) S (o.base.r.sum + (l + 1)) w) * G w)
        (fun a b h => by rw [seqProb_perm _ _ _ h, hG _ _ h])]

theorem gccuFill_wp (hp : PermOn perm U S) (hc : UsedOrtho (colOf U) S.length S) (hU : U.length = S.length)
    (h0 : 0 ≤ eta) (h1 : eta ≤ 1) (f : Py GccuObj → ℝ≥0∞) (G : List ℕ → ℝ≥0∞)
    (hf : ∀ o, UInv U S eta ph outputs o → o.base.r.length = S.length → f (.ok o) = G o.base.r)
    (o : GccuObj) (ho : UInv U S eta ph outputs o) :
    (gccuFill perm U o).wp f
      = ∑ T ∈ statesUpTo S.length S.sum, ENNReal.ofReal (uniformLossProb U S eta T) * G T := by
  have hz : (U.map fun _ => 0 : List ℕ).sum = 0 := by simp
  have hpz : particles (U.map fun _ => 0) = [] := by
    apply List.eq_nil_of_length_eq_zero
    rw [particlesFrom_length, hz]
  have h := gccuPhotons_wp hp hc h0 h1 f (fun w => G (occOf S.length w)) (fun a b hab => by rw [occOf_perm hab])
    (fun o ho hr => by rw [hf o ho hr, ← hr, occOf_particles]) S.sum
    { o with base := { o.base with r := U.map fun _ => 0, key := U.map fun _ => 0 } }
    ⟨⟨ho.cache.input, ho.cache.labeled, ho.cache.cache⟩, ho.heta, ho.outs, ho.binw, ho.dist⟩
    (by simpa using hU) rfl (by simp)
  simp only [hz, hpz, List.append_nil, zero_add, seqProb_zero, ENNReal.ofReal_one, one_mul] at h
  unfold gccuFill
  rw [ho.cache.input, h, sum_statesUpTo]
  refine sum_congr rfl fun l hl => ?_
  rw [sum_seq_states U S S.length l (fun w => G (occOf S.length w)) (fun a b hab => by rw [occOf_perm hab]), mul_sum]
  refine sum_congr rfl fun T hT => ?_
  obtain ⟨hT1, hT2⟩ := (mem_statesFin _ _ T).mp hT
  rw [← mul_assoc, ← ENNReal.ofReal_mul (binomialWeight_nonneg _ _ h0 h1), uniformLossProb, hT2]
  congr 2
  rw [← hT1, occOf_particles]

theorem gccuPhotons_all (hp : PermOn perm U S) (d : ℕ) (o : GccuObj) (ho : UInv U S eta ph outputs o)
    (hr : o.base.r.length = S.length) (hkey : o.base.key = o.base.r) (hk : o.base.r.sum + d ≤ S.sum) :
    (gccuPhotons perm U d o).All (fun o' => UInv U S eta ph outputs o' ∧ o'.base.r.length = S.length ∧
      o'.base.r.sum ≤ S.sum) NotFuel := by
  induction d generalizing o with
  | zero => exact Prog.all_done_ok ⟨ho, hr, by omega⟩
  | succ d ih =>
    rw [gccuPhotons_succ]
    refine Prog.all_uniform fun u _ _ => ?_
    by_cases hu : u ≥ o.eta
    · rw [if_pos hu]; exact ih o ho hr hkey (by omega)
    · rw [if_neg hu]
      obtain ⟨o', e1, e2, e3, e4, e5, e6⟩ := gccuPrepare_ok hp o ho hr hkey (by omega)
      rw [e1, Prog.done_ok_bind, sample_eq o'.base _ _ e5 e6]
      simp only [Prog.bind]
      refine Prog.all_uniform fun u' _ _ => ?_
      generalize scanIndex (u' * (pmfOf (okA S) U o.base.r).sum) (pmfOf (okA S) U o.base.r) 0 = i
      by_cases hi : i < S.length
      · have hlen : (pmfOf (okA S) U o.base.r).length = S.length := by simp [pmfOf]
        have hnext : gccA.next S o.base.r = (List.range S.length).map fun j => o.base.r.modify j (· + 1) :=
          (okA S).next _ hr
        rw [pyGetN_ok (by omega), hnext, pyGetN_ok (by simpa using hi)]
        simp only [Prog.done_ok_bind, List.getElem_map, List.getElem_range]
        refine ih _ ⟨⟨e2.cache.input, e2.cache.labeled, e2.cache.cache⟩, e2.heta, e2.outs, e2.binw, e2.dist⟩ ?_ rfl ?_
        · simpa using hr
        · simp only; rw [modify_sum _ _ (by omega)]; omega
      · rw [pyGetN_err (by simp [pmfOf]; omega)]
        exact Prog.all_done_error (by unfold NotFuel; decide)

theorem gccuFill_all (hp : PermOn perm U S) (hU : U.length = S.length) (o : GccuObj)
    (ho : UInv U S eta ph outputs o) :
    (gccuFill perm U o).All (fun o' => UInv U S eta ph outputs o' ∧ o'.base.r.length = S.length ∧
      o'.base.r.sum ≤ S.sum) NotFuel := by
  unfold gccuFill
  rw [ho.cache.input]
  exact gccuPhotons_all hp S.sum _
    ⟨⟨ho.cache.input, ho.cache.labeled, ho.cache.cache⟩, ho.heta, ho.outs, ho.binw, ho.dist⟩
    (by simpa using hU) rfl (by simp)

end

/-- `_initialize_simulation` gives an object whose entries are placeholders or exact. -/
theorem gccuInitialize_ok (U : List (List ℂ)) (S : List ℕ) (m : ℕ) (hm : S.length = m + 1) (fuel : ℕ)
    (hf : genFuel m S.sum ≤ fuel) (o : GccuObj) :
    ∃ o', gccuInitialize fuel o S = .ok o' ∧
      UInv U S o.eta (if o.missing then -1 else 0) (allStates m S.sum true) o' := by
  unfold gccuInitialize
  simp only
  have hg := generatePossibleStates_ok fuel S.sum m true hf
  rw [← hm] at hg
  rw [hg, ok_bind]
  have hw : 0 < (gccuWeights S.sum o.eta).length := by simp [gccuWeights]
  have hwv : (gccuWeights S.sum o.eta)[0] = binomialWeight S.sum 0 o.eta := by
    rw [← getD_of_lt _ 0 hw, gccuWeights_eq, gccbWeights_getD _ _ _ (Nat.zero_le _)]
  have hz : List.replicate (m + 1) 0 ∈ allStates m S.sum true := by
    rw [mem_allStates]; simp
  have hpos : 0 < (allStates m S.sum true).length := List.length_pos_of_mem hz
  rw [pyGetN_ok hw, ok_bind, pySetN_ok (by simpa using hpos), ok_bind]
  refine ⟨_, rfl, ⟨rfl, rfl, fun _ _ h => by simp [assocGet] at h⟩, rfl, rfl, rfl, ⟨by simp, by simp, ?_, ?_⟩⟩
  · intro i hi
    simp only
    rw [getD_set _ _ _ _ (by simpa using hpos)]
    by_cases h0 : 0 = i
    · subst h0
      rw [if_pos rfl, hwv]
      right
      have hs : ((allStates m S.sum true)[0]).sum = 0 := by
        obtain ⟨j, hj, hjv⟩ := List.getElem_of_mem hz
        have hsj : ((allStates m S.sum true)[j]).sum = 0 := by rw [hjv]; simp
        rcases Nat.eq_zero_or_pos j with rfl | hj0
        · exact hsj
        · have := List.pairwise_iff_getElem.mp (allStates_sorted m S.sum true) 0 j hpos hj hj0
          omega
      rw [uniformLossProb, hs, fixedLoss_vacuum U S _ hs, mul_one]
    · rw [if_neg h0]
      left
      rw [getD_of_lt _ _ (by simpa using hi)]
      simp
  · intro i hi
    left
    simp only
    rw [getD_of_lt _ _ (by simpa using hi)]
    simp

section

variable {perm : CalcCfg ℂ → Py ℂ} {U : List (List ℂ)} {S : List ℕ} {eta ph : ℝ} {outputs : List (List ℕ)}

theorem gccuLoop_wp (hp : PermOn perm U S) (hc : UsedOrtho (colOf U) S.length S) (hU : U.length = S.length)
    (h0 : 0 ≤ eta) (h1 : eta ≤ 1) (N : ℕ) (g : List (List ℕ) → ℝ≥0∞) (f : Py (List (List ℕ) × GccuObj) → ℝ≥0∞)
    (hf : ∀ l o, f (.ok (l, o)) = g l) (o : GccuObj) (ho : UInv U S eta ph outputs o) :
    (gccuLoop perm U N o).wp f
      = expIid (statesUpTo S.length S.sum) (fun T => ENNReal.ofReal (uniformLossProb U S eta T)) N g := by
  induction N generalizing g f o with
  | zero => exact hf [] o
  | succ N ih =>
    rw [gccuLoop, Prog.bind_eq, Prog.wp_bind, expIid]
    refine gccuFill_wp hp hc hU h0 h1 _ (fun T => expIid (statesUpTo S.length S.sum)
      (fun T => ENNReal.ofReal (uniformLossProb U S eta T)) N fun l => g (T :: l)) ?_ o ho
    intro o' ho' _
    rw [Prog.post, Prog.bind_eq, Prog.wp_bind]
    exact ih (fun l => g (o'.base.r :: l)) _ (fun l o => hf _ o) o' ho'

theorem gccuLoop_all (hp : PermOn perm U S) (hU : U.length = S.length) (N : ℕ) (o : GccuObj)
    (ho : UInv U S eta ph outputs o) :
    (gccuLoop perm U N o).All (fun x => x.1.length = N ∧ ∀ T ∈ x.1, T.length = S.length ∧ T.sum ≤ S.sum)
      NotFuel := by
  induction N generalizing o with
  | zero => exact Prog.all_done_ok ⟨rfl, by simp⟩
  | succ N ih =>
    refine Prog.all_bind (gccuFill_all hp hU o ho) ?_
    rintro o' ⟨h1, h2, h3⟩
    refine Prog.all_bind (ih o' h1) ?_
    rintro ⟨l, o''⟩ ⟨h4, h5⟩
    refine Prog.all_done_ok ⟨by simp only [List.length_cons]; rw [h4], ?_⟩
    intro T hT
    rcases List.mem_cons.mp hT with rfl | hT
    · exact ⟨h2, h3⟩
    · exact h5 T hT

/-- Repeating `_fill_r_sample` any number of times keeps the invariant. -/
theorem gccuRepeat_all (hp : PermOn perm U S) (hU : U.length = S.length) (cond : GccuObj → Bool) (fuel : ℕ)
    (o : GccuObj) (ho : UInv U S eta ph outputs o) :
    (Prog.loop fuel cond (gccuFill perm U) o).All
      (fun o' => UInv U S eta ph outputs o' ∧ cond o' = false) (fun _ => True) := by
  induction fuel generalizing o with
  | zero => exact Prog.all_done_error trivial
  | succ fuel ih =>
    rw [Prog.loop_succ]
    by_cases hc : cond o = true
    · rw [if_pos hc]
      exact Prog.all_bind (Prog.all_mono (gccuFill_all hp hU o ho) (fun o' h => h.1) fun _ _ => trivial)
        fun o' h => ih o' h
    · rw [if_neg hc]; exact Prog.all_done_ok ⟨ho, by simpa using hc⟩

end

end Verif
