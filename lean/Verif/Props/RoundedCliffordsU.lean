import Verif.Props.RoundedPermanents
import Verif.Props.Cliffords
import Verif.Proofs.RoundedCliffordsU

/-!
C97: the generalized Clifford & Clifford sampler with uniform losses in floating-point arithmetic. `R : Rounding` is any
way to round to nearest, `A : ComplexArith` any complex arithmetic with the usual errors.
-/
namespace Verif

open Finset
open scoped ENNReal

variable (R : Rounding) (A : ComplexArith)

theorem gccuNewLayerR_matrix (sq : CalcCfg ℂ → Py ℝ) (U' U : List (List ℂ)) :
    gccuNewLayerR R sq U' = gccuNewLayerR R (fun c => sq { c with matrix := U' }) U := rfl

theorem gccuPhotonsR_matrix (sq : CalcCfg ℂ → Py ℝ) (U' U : List (List ℂ)) (n : ℕ) :
    ∀ o, gccuPhotonsR R sq U' n o = gccuPhotonsR R (fun c => sq { c with matrix := U' }) U n o := by
  induction n with
  | zero => intro o; rfl
  | succ n ih =>
    intro o
    simp only [gccuPhotonsR, ih]
    rw [gccuNewLayerR_matrix R sq U' U]

theorem gccuFillR_matrix (sq : CalcCfg ℂ → Py ℝ) {U' U : List (List ℂ)} (h : U'.length = U.length) (o : GccuObj) :
    gccuFillR R sq U' o = gccuFillR R (fun c => sq { c with matrix := U' }) U o := by
  have e : (U'.map fun _ => 0) = U.map fun _ => 0 := by
    rw [List.map_const', List.map_const', h]
  unfold gccuFillR
  rw [e, gccuPhotonsR_matrix R sq U' U]

theorem gccuLoopR_matrix (sq : CalcCfg ℂ → Py ℝ) {U' U : List (List ℂ)} (h : U'.length = U.length) (n : ℕ) :
    ∀ o, gccuLoopR R sq U' n o = gccuLoopR R (fun c => sq { c with matrix := U' }) U n o := by
  induction n with
  | zero => intro o; rfl
  | succ n ih =>
    intro o
    simp only [gccuLoopR, ih, gccuFillR_matrix R sq h]

theorem gccuSimulateR_matrix (sq : CalcCfg ℂ → Py ℝ) {U' U : List (List ℂ)} (h : U'.length = U.length) (fuel : ℕ)
    (o : GccuObj) (S : List ℕ) (N : ℤ) :
    gccuSimulateR R sq U' fuel o S N = gccuSimulateR R (fun c => sq { c with matrix := U' }) U fuel o S N := by
  simp only [gccuSimulateR, gccuLoopR_matrix R sq h]

theorem gccuSimulateR_close {U : List (List ℂ)} {S : List ℕ} (h : Interferometer U S) {sq : CalcCfg ℂ → Py ℝ} {c a : ℝ}
    (hsq : SqNear sq U S c a) (hc : 1 ≤ c) (hc2 : c ≤ 5 / 4) (ha : 0 ≤ a) (hn : S.sum ≤ 170)
    (hK : 6 * S.length + 6 + 2 * boxSize S ≤ 2 ^ 50) {eta : ℝ} (h0 : 0 ≤ eta) (h1 : eta ≤ 1) (o : GccuObj) (ho : o.eta = eta)
    (fuel : ℕ) (hf : genFuel (S.length - 1) S.sum ≤ fuel) (hf' : boxSize S ≤ fuel) (N : ℤ)
    (g : List (List ℕ) → ℝ≥0∞) (hg : ∀ l, g l ≤ 1) (f : Py (List (List ℕ) × GccuObj) → ℝ≥0∞) (hf1 : ∀ r, f r ≤ 1)
    (hfg : ∀ l o, f (.ok (l, o)) = g l) :
    |((gccuSimulateR R sq U fuel o S N).wp f).toReal
      - (expIid (statesUpTo S.length S.sum) (fun T => ENNReal.ofReal (uniformLossProb U S eta T)) N.toNat g).toReal|
      ≤ N.toNat * (lawBound S c a + S.sum / 2 ^ 53) := by
  have hpos := List.length_pos_of_ne_nil h.ne
  obtain ⟨o', e1, e2⟩ := gccuInitializeR_ok R S sq U (fun _ _ => True) (fun _ _ => True) (S.length - 1) (by omega) fuel hf o
    trivial
  obtain ⟨h2, hE⟩ := sampleErr_le hc hc2 ha hK
  rw [ho] at e2
  have htot := uniformLoss_total (h.bok fuel hf') h0 h1
  have := gccuLoopR_close R hsq hc ha (hn.trans (by norm_num)) h2 h.used h.len.symm h0 h1
    (fun _ _ _ _ _ _ _ => ⟨trivial, trivial⟩) (by simp [gccuWeightsR]) htot N.toNat g hg f hf1 hfg o' e2
  unfold gccuSimulateR
  rw [e1]
  simp only [Prog.lift_def, Prog.bind_eq, Prog.done_ok_bind]
  refine this.trans (mul_le_mul_of_nonneg_left ?_ (Nat.cast_nonneg _))
  unfold lossySampleErr
  linarith

section

variable (gray : ℕ → List ℕ) (hgray : ∀ n, IsGrayCode n (gray n)) (t : ℤ)
  {e : ℕ} {U' U : List (List ℂ)} {S : List ℕ} (h : Interferometer U S)
  (hsq : ∀ r ∈ U', r.length = U'.length) (hlen : U'.length = U.length) (hU : StoredAs e U' U) (hn : S.sum ≤ 170)
  (hK : 6 * S.length + 6 + 2 * boxSize S ≤ 2 ^ 50) {eta : ℝ} (h0 : 0 ≤ eta) (h1 : eta ≤ 1)
include hgray h hsq hlen hU hn hK h0 h1

/-- C97: for every set of lists of samples, the probability that `simulate` returns a list in the set, with a matrix
stored up to `e` operations and permanents and draws in floating-point arithmetic, differs from that of the exact sampler
by at most the bound per sample. -/
theorem C97_law (t₂ : ℤ) (o o₂ : GccuObj) (ho : o.eta = eta) (ho₂ : o₂.eta = eta) :
    ∃ F, ∀ fuel ≥ F, ∀ (N : ℤ) (P : List (List ℕ) → Prop),
      |((gccuSimulateR R (squaredPermanentR R A gray t fuel) U' fuel o S N).prob
          (fun r => ∃ l o', r = .ok (l, o') ∧ P l)).toReal
        - ((gccuSimulate (factoryPermanent gray t₂ fuel) U fuel o₂ S N).prob
          (fun r => ∃ l o', r = .ok (l, o') ∧ P l)).toReal|
        ≤ N.toNat * (lawBound S 1 (squareErr t e S) + S.sum / 2 ^ 53) := by
  classical
  have hpos := List.length_pos_of_ne_nil h.ne
  refine ⟨genFuel (S.length - 1) S.sum + boxSize S, fun fuel hf N P => ?_⟩
  have hp := factory_permOn gray hgray t₂ U S h.square h.len.le h.ne fuel (by unfold boxSize at hf; omega)
  have hfg : ∀ l (o : GccuObj), (if ∃ l' o', (.ok (l, o) : Py (List (List ℕ) × GccuObj)) = .ok (l', o') ∧ P l' then
      (1 : ℝ≥0∞) else 0) = if P l then 1 else 0 := by
    intro l o
    by_cases hA : P l
    · rw [if_pos hA, if_pos ⟨l, o, rfl, hA⟩]
    · rw [if_neg hA, if_neg]
      rintro ⟨l', o', e, h'⟩
      injection e with e
      injection e with e1 e2
      exact hA (e1 ▸ h')
  have c1 := gccuSimulateR_close R h (sqNear_calculators R A gray hgray t h hsq hlen hU (hn.trans (by norm_num)) fuel (by omega))
    le_rfl (by norm_num) (squareErr_nonneg t e S) hn hK h0 h1 o ho fuel (by omega) (by omega) N (fun l => if P l then 1 else 0)
    (fun l => by split <;> simp) (fun r => if ∃ l o', r = .ok (l, o') ∧ P l then 1 else 0) (fun r => by split <;> simp) hfg
  obtain ⟨o', e1, e2⟩ := gccuInitialize_ok U S (S.length - 1) (by omega) fuel (by omega) o₂
  rw [ho₂] at e2
  have c2 := gccuLoop_wp hp h.used h.len.symm h0 h1 N.toNat (fun l => if P l then 1 else 0)
    (fun r => if ∃ l o', r = .ok (l, o') ∧ P l then 1 else 0) hfg o' e2
  rw [← c2] at c1
  rw [gccuSimulateR_matrix R _ hlen]
  unfold Prog.prob
  refine le_trans (le_of_eq ?_) c1
  unfold gccuSimulate
  rw [e1]
  simp only [Prog.lift_def, Prog.bind_eq, Prog.done_ok_bind]

/-- C97: each sample equals the state `T` with the binomial probability that its number of particles is left times the
fixed-loss probability of `T`, up to the bound. -/
theorem C97_sample (o : GccuObj) (ho : o.eta = eta) :
    ∃ F, ∀ fuel ≥ F, ∀ (N : ℤ) (i : ℕ), i < N.toNat → ∀ T : List ℕ, T.length = S.length → T.sum ≤ S.sum →
      |((gccuSimulateR R (squaredPermanentR R A gray t fuel) U' fuel o S N).prob
          (fun r => ∃ l o', r = .ok (l, o') ∧ l[i]? = some T)).toReal
        - binomialWeight S.sum T.sum eta * fixedLossProb U S T.sum T|
        ≤ N.toNat * (lawBound S 1 (squareErr t e S) + S.sum / 2 ^ 53) := by
  obtain ⟨F1, hF1⟩ := C97_law R A gray hgray t h hsq hlen hU hn hK h0 h1 t o o ho ho
  obtain ⟨F2, hF2⟩ := C31_sample gray hgray t h eta h0 h1 o ho
  refine ⟨F1 + F2, fun fuel hf N i hi T hT hTs => ?_⟩
  have := hF1 fuel (by omega) N (fun l => l[i]? = some T)
  rwa [hF2 fuel (by omega) N i hi T hT hTs,
    ENNReal.toReal_ofReal (mul_nonneg (binomialWeight_nonneg _ _ h0 h1) (fixedLossProb_nonneg ..))] at this

/-- C97: the probability of a result other than `N` samples with the modes of the input and at most its particles is at
most the bound; raising counts as such a result. -/
theorem C97_rare (o : GccuObj) (ho : o.eta = eta) :
    ∃ F, ∀ fuel ≥ F, ∀ N : ℤ,
      ((gccuSimulateR R (squaredPermanentR R A gray t fuel) U' fuel o S N).prob
          (fun r => ¬ ∃ l o', r = .ok (l, o') ∧ l.length = N.toNat ∧
            ∀ T ∈ l, T.length = S.length ∧ T.sum ≤ S.sum)).toReal
        ≤ N.toNat * (lawBound S 1 (squareErr t e S) + S.sum / 2 ^ 53) := by
  classical
  have hpos := List.length_pos_of_ne_nil h.ne
  refine ⟨genFuel (S.length - 1) S.sum + boxSize S, fun fuel hf N => ?_⟩
  set P : List (List ℕ) → Prop := fun l => l.length = N.toNat ∧ ∀ T ∈ l, T.length = S.length ∧ T.sum ≤ S.sum with hP
  have hfg : ∀ l (o : GccuObj), (if ¬ ∃ l' o', (.ok (l, o) : Py (List (List ℕ) × GccuObj)) = .ok (l', o') ∧ P l' then
      (1 : ℝ≥0∞) else 0) = if P l then 0 else 1 := by
    intro l o
    by_cases hA : P l
    · rw [if_pos hA, if_neg (not_not.mpr ⟨l, o, rfl, hA⟩)]
    · rw [if_neg hA, if_pos]
      rintro ⟨l', o', e, h'⟩
      injection e with e
      injection e with e1 e2
      exact hA (e1 ▸ h')
  have c1 := gccuSimulateR_close R h (sqNear_calculators R A gray hgray t h hsq hlen hU (hn.trans (by norm_num)) fuel (by omega))
    le_rfl (by norm_num) (squareErr_nonneg t e S) hn hK h0 h1 o ho fuel (by omega) (by omega) N (fun l => if P l then 0 else 1)
    (fun l => by split <;> simp) (fun r => if ¬ ∃ l o', r = .ok (l, o') ∧ P l then 1 else 0) (fun r => by split <;> simp) hfg
  have hz : ∀ (n : ℕ) (g : List (List ℕ) → ℝ≥0∞), (∀ l : List (List ℕ), l.length = n →
      (∀ T ∈ l, T.length = S.length ∧ T.sum ≤ S.sum) → g l = 0) →
      expIid (statesUpTo S.length S.sum) (fun T => ENNReal.ofReal (uniformLossProb U S eta T)) n g = 0 := by
    intro n
    induction n with
    | zero => intro g hg; exact hg [] rfl (by simp)
    | succ n ih =>
      intro g hg
      rw [expIid]
      refine sum_eq_zero fun T hT => ?_
      rw [ih _ fun l hl hl' => hg (T :: l) (by rw [List.length_cons, hl]) (by
        intro T' hT'
        rcases List.mem_cons.mp hT' with rfl | hT'
        · exact (mem_statesUpTo _ _ _).mp hT
        · exact hl' T' hT'), mul_zero]
  rw [hz N.toNat _ fun l hl hl' => if_pos ⟨hl, hl'⟩, ENNReal.toReal_zero, sub_zero] at c1
  rw [gccuSimulateR_matrix R _ hlen]
  unfold Prog.prob
  refine le_trans (le_of_eq ?_) ((le_abs_self _).trans c1)
  congr 2
  funext r
  by_cases hr : ∃ l o', r = .ok (l, o') ∧ P l
  · rw [if_neg (not_not.mpr hr)]
    exact (if_neg (not_not.mpr hr)).symm
  · rw [if_pos hr]
    exact (if_pos hr).symm

end

/-! ### A concrete case -/

/-- Two particles through a rotation whose entries are rounded to floats; each is kept with probability `0.27`: the second of
three samples has both particles, one in each mode, with probability `0.27 ^ 2 * 49 / 625`, up to `2 ^ -23`. -/
example (t : ℤ) : ∃ F, ∀ fuel ≥ F,
    |((gccuSimulateR R (squaredPermanentR R (textbookArith R) reflectedGray t fuel)
      (([[3 / 5, 4 / 5], [4 / 5, -3 / 5]] : List (List ℂ)).map fun r => r.map R.rndC) fuel (gccuInit eta27 false) [1, 1] 3).prob
        (fun r => ∃ l o', r = .ok (l, o') ∧ l[1]? = some [1, 1])).toReal - eta27 ^ 2 * (49 / 625)| ≤ 1 / 2 ^ 23 := by
  have hsq : ∀ r ∈ ([[3 / 5, 4 / 5], [4 / 5, -3 / 5]] : List (List ℂ)).map (fun r => r.map R.rndC),
      r.length = (([[3 / 5, 4 / 5], [4 / 5, -3 / 5]] : List (List ℂ)).map fun r => r.map R.rndC).length := by
    simp
  have e : fixedLossProb [[3 / 5, 4 / 5], [4 / 5, -3 / 5]] [1, 1] 2 [1, 1] = 49 / 625 := by
    rw [← rotation_prob]; exact fixedLossProb_full _ [1, 1] [1, 1]
  obtain ⟨F, hF⟩ := C97_sample R (textbookArith R) reflectedGray reflectedGray_isGrayCode t
    (rotation_interferometer [1, 1] rfl) hsq (by simp) (storedAs_round R rotation_entries) (by decide)
    (by decide) (eta := eta27) (by unfold eta27; positivity) (by unfold eta27; norm_num) (gccuInit eta27 false) rfl
  refine ⟨F, fun fuel hf => ?_⟩
  have h := hF fuel hf 3 1 (by decide) [1, 1] rfl (by decide)
  simp only [List.sum_cons, List.sum_nil, Nat.reduceAdd, e, binomialWeight, Nat.choose_self, Nat.cast_one, one_mul,
    Nat.sub_self, pow_zero, mul_one] at h
  refine h.trans ?_
  have ha := squareErr_two t
  change ((3 : ℕ) : ℝ) * (lawBound [1, 1] 1 (squareErr t 1 [1, 1]) + _) ≤ _
  generalize squareErr t 1 [1, 1] = a at ha ⊢
  unfold lawBound boxSize
  simp [sum_range_succ]
  norm_num at ha ⊢
  linarith

end Verif
