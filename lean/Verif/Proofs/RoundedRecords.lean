import Verif.Proofs.RoundedCliffordsU
import Verif.Proofs.RoundedDist
import Verif.Proofs.RoundedSafe
import Verif.Proofs.RoundedLoss

/-! Helper lemmas: what the sampler with uniform losses records in floating-point arithmetic. -/
namespace Verif

open Finset

variable (R : Rounding)

/-! ### Runs -/

section

variable {S : List ℕ} {sq : CalcCfg ℂ → Py ℝ} {U : List (List ℂ)} {eta ph : ℝ} {Q₁ Q₂ : List ℕ → ℝ → Prop}
  {outputs : List (List ℕ)} {binw : List ℝ}

theorem gccuPhotonsR_all {c a : ℝ} (hsq : SqNear sq U S c a) (hc : 1 ≤ c) (ha : 0 ≤ a) (hn : S.sum ≤ 200)
    (h2 : pmfFactor S c ≤ 2) (hrec : RecordsOK R S sq U Q₁ Q₂ binw) (hb : S.sum < binw.length) (d : ℕ) (o : GccuObj)
    (ho : UInvR R S sq U eta ph Q₁ Q₂ outputs binw o) (hr : o.base.r.length = S.length) (hkey : o.base.key = o.base.r)
    (hk : o.base.r.sum + d ≤ S.sum) :
    (gccuPhotonsR R sq U d o).All (fun o' => UInvR R S sq U eta ph Q₁ Q₂ outputs binw o' ∧ o'.base.r.length = S.length ∧
      o'.base.r.sum ≤ S.sum) (fun _ => True) := by
  induction d generalizing o with
  | zero => exact Prog.all_done_ok ⟨ho, hr, by omega⟩
  | succ d ih =>
    rw [gccuPhotonsR_succ]
    refine all_randomR fun u _ => ?_
    by_cases hu : u ≥ o.eta
    · rw [if_pos hu]; exact ih o ho hr hkey (by omega)
    · rw [if_neg hu]
      have hseq : (particles o.base.r).length = o.base.r.sum := particlesFrom_length _ _
      obtain ⟨P, hP1, hP2, -, -⟩ := layerPmfR_near R (okA S) hsq hc ha hn h2 o.base.r hr
        (by change (particles o.base.r).length < _; omega)
      obtain ⟨o', e1, e2, e3, e4, e5, e6⟩ := gccuPrepareR_ok R hrec hb o ho hr hkey (by omega) P hP1
      have hnext : gccA.next S o.base.r = (List.range S.length).map fun j => o.base.r.modify j (· + 1) :=
        (okA S).next _ hr
      rw [e1, Prog.done_ok_bind]
      unfold sampleFromLatestPmfR
      rw [assocGetPy_ok e5, assocGetPy_ok e6]
      simp only [Prog.bind_eq, Prog.lift_def, Prog.pure_eq, Prog.done_ok_bind, Prog.bind_assoc]
      refine all_randomR fun u' _ => ?_
      generalize gccSelect R u' P = i
      by_cases hi : i < S.length
      · rw [pyGetN_ok (by omega), hnext, pyGetN_ok (by simpa using hi)]
        simp only [Prog.done_ok_bind, List.getElem_map, List.getElem_range]
        refine ih _ ⟨⟨e2.cache.input, e2.cache.labeled, e2.cache.cache⟩, e2.heta, e2.outs, e2.binw, e2.dist⟩ ?_ rfl ?_
        · simpa using hr
        · simp only; rw [modify_sum _ _ (by omega)]; omega
      · rw [pyGetN_err (by omega)]
        exact Prog.all_done_error trivial

theorem gccuFillR_all {c a : ℝ} (hsq : SqNear sq U S c a) (hc : 1 ≤ c) (ha : 0 ≤ a) (hn : S.sum ≤ 200)
    (h2 : pmfFactor S c ≤ 2) (hrec : RecordsOK R S sq U Q₁ Q₂ binw) (hb : S.sum < binw.length) (hU : U.length = S.length)
    (o : GccuObj) (ho : UInvR R S sq U eta ph Q₁ Q₂ outputs binw o) :
    (gccuFillR R sq U o).All (fun o' => UInvR R S sq U eta ph Q₁ Q₂ outputs binw o' ∧ o'.base.r.length = S.length ∧
      o'.base.r.sum ≤ S.sum) (fun _ => True) := by
  unfold gccuFillR
  rw [ho.cache.input]
  exact gccuPhotonsR_all R hsq hc ha hn h2 hrec hb S.sum _
    ⟨⟨ho.cache.input, ho.cache.labeled, ho.cache.cache⟩, ho.heta, ho.outs, ho.binw, ho.dist⟩
    (by simpa using hU) rfl (by simp)

theorem gccuRepeatR_all {c a : ℝ} (hsq : SqNear sq U S c a) (hc : 1 ≤ c) (ha : 0 ≤ a) (hn : S.sum ≤ 200)
    (h2 : pmfFactor S c ≤ 2) (hrec : RecordsOK R S sq U Q₁ Q₂ binw) (hb : S.sum < binw.length) (hU : U.length = S.length)
    (cond : GccuObj → Bool) (fuel : ℕ) (o : GccuObj) (ho : UInvR R S sq U eta ph Q₁ Q₂ outputs binw o) :
    (Prog.loop fuel cond (gccuFillR R sq U) o).All
      (fun o' => UInvR R S sq U eta ph Q₁ Q₂ outputs binw o' ∧ cond o' = false) (fun _ => True) := by
  induction fuel generalizing o with
  | zero => exact Prog.all_done_error trivial
  | succ fuel ih =>
    rw [Prog.loop_succ]
    by_cases h : cond o = true
    · rw [if_pos h]
      exact Prog.all_bind (Prog.all_mono (gccuFillR_all R hsq hc ha hn h2 hrec hb hU o ho) (fun o' h => h.1) fun _ _ => trivial)
        fun o' h => ih o' h
    · rw [if_neg h]; exact Prog.all_done_ok ⟨ho, by simpa using h⟩

end

/-! ### Values -/

theorem recordValueR_near (U : List (List ℂ)) (S T : List ℕ) {C B p : ℝ} (hC : 1 ≤ C) (hB : 0 ≤ B) (hp0 : 0 ≤ p)
    (hp : Near C B p (seqProb (colOf U) S T.sum (particles T))) :
    Near (C * rho ^ (2 * T.length + 2)) (B * T.sum.factorial + (T.length + 1) * tiny) (recordValueR R T p)
      (fixedLossProb U S T.sum T) ∧ 0 ≤ recordValueR R T p := by
  have hr := one_lt_rho
  have ht := tiny_pos
  have hf := Nat.factorial_pos T.sum
  have hs := seqProb_nonneg (colOf U) S T.sum (particles T)
  have hrf : 0 ≤ R.rnd (T.sum.factorial : ℝ) := R.nonneg (Nat.cast_nonneg _)
  have h1 := hp.mul_gen (rnd_nat_within R hf) (by linarith) hr.le hB hp0 hs hrf (Nat.cast_nonneg _)
  have hCr : 1 ≤ C * rho := one_le_mul_of_one_le_of_one_le hC hr.le
  have h3 := h1.rnd R hCr (mul_nonneg hp0 hrf) (by positivity)
  obtain ⟨h4, h5, -⟩ := foldDiv_near R T _ _ _ _ h3 (one_le_mul_of_one_le_of_one_le hCr hr.le)
    (R.nonneg (mul_nonneg hp0 hrf)) (by positivity) (by positivity)
  refine ⟨?_, h5⟩
  rw [foldl_div_fact] at h4
  have e1 : C * rho * rho * rho ^ (2 * T.length) = C * rho ^ (2 * T.length + 2) := by ring
  have e2 : B * (T.sum.factorial : ℝ) + tiny + T.length * tiny = B * T.sum.factorial + (T.length + 1) * tiny := by ring
  have e3 : seqProb (colOf U) S T.sum (particles T) * (T.sum.factorial : ℝ) / (factProd T : ℝ) = fixedLossProb U S T.sum T := by
    rw [fixedLossProb_eq_seq U S T T.sum rfl]; ring
  rw [e1, e2, e3] at h4
  exact h4

theorem gccuWeightsR_get (n : ℕ) (eta : ℝ) {l : ℕ} (h : l ≤ n) : (gccuWeightsR R n eta).getD l 0 = binomWeightR R n eta l := by
  rw [getD_of_lt _ _ (by simp [gccuWeightsR]; omega)]
  simp only [gccuWeightsR, binomWeightR, List.getElem_map, List.getElem_range]
  rw [mul_comm (R.rnd (eta ^ l))]

end Verif
