import Verif.Proofs.RoundedUniformBobsRuns
import Verif.Props.UniformBobs

/-!
C104: the sampler with uniform losses applied to the input (`lossy_state_approximated_simulation_strategy.py`), entirely
in floating-point arithmetic. `R : Rounding` is any way to round to nearest, `C : ComplexArith` any complex arithmetic and
`Φ : PhaseArith` any computation of phases with the usual errors.
-/
namespace Verif

open Finset Prog Matrix
open scoped ENNReal

variable (R : Rounding) (C : ComplexArith) (Φ : PhaseArith) {m : ℕ}

/-- C104: the computed Fourier transform of the first `k` of `m` modes differs from the exact one by at most
`((k - 1)² + 1) / 2 ^ 46` in every entry. -/
theorem C104_qft {k : ℕ} (h : k ≤ m) (hk : k ≤ 2 ^ 20) :
    ∃ Q, generateQftR R C Φ k m = .ok Q ∧ ∀ i j, ‖Q i j - dftMatrix k m i j‖ ≤ (((k - 1 : ℕ) : ℝ) ^ 2 + 1) / 2 ^ 46 := by
  obtain ⟨Q, h1, h2⟩ := generateQftR_close R C Φ h hk
  refine ⟨Q, h1, fun i j => ?_⟩
  have h3 := (h2 i j).2
  have hle : (k - 1) ^ 2 ≤ (2 ^ 20) ^ 2 := Nat.pow_le_pow_left (by omega) 2
  have h4 := qf_pow_le (k := qftOps k) (by unfold qftOps; omega)
  rw [mul_one] at h3
  refine h3.trans (h4.trans (le_of_eq ?_))
  unfold qftOps
  rw [Nat.cast_add, Nat.cast_mul, Nat.cast_pow]
  push_cast
  ring

section

variable (hash : List ℕ → ℤ) {eta : ℝ} (h0 : 0 ≤ eta) (h1 : eta ≤ 1) (hf : IsFloat eta) {h : ℕ} (hh1 : 1 ≤ h) (hh2 : h < m)
  (S : List ℕ) (hS : S.length = m) (hhash : HashOk hash (S.take h)) (hn : S.sum ≤ 170) (hM : boxSize (S.take h) ≤ 2 ^ 20)
include h0 h1 hf hh1 hh2 hS hhash hn hM

open Classical in
/-- C104: with at most one particle in each exactly treated mode (or `η` 0 or 1) numpy accepts the computed weights, and the
input state given to the exact sampler has the law of C60 up to the bound: a binomial number `l` of the particles of the
approximated modes is left and put into mode `h`, the particles of the other modes are kept independently. -/
theorem C104_input (hp : eta = 0 ∨ eta = 1 ∨ ∀ a ∈ S.take h, a ≤ 1) : ∃ parts pw approx aw,
    uBobsParts hash (S.take h) = .ok parts ∧ uBobsPartsWeightsR R eta parts = .ok pw ∧
    uBobsApproximatedR R m h eta (S.drop h) = .ok (approx, aw) ∧ ∀ Q : Py NpState → Prop,
      |((uBobsInputR R parts pw approx aw).prob Q).toReal
        - (∑ l ∈ range ((S.drop h).sum + 1), ENNReal.ofReal (binomialWeight (S.drop h).sum l eta) *
            expLoss eta (S.take h) fun p => if Q (.ok (.ints (p ++ l :: List.replicate (m - h - 1) 0))) then 1 else 0).toReal|
      ≤ (18 * (S.drop h).sum + 45) / 2 ^ 53 + (16 * boxSize (S.take h) + 6 * (S.take h).sum + 45) / 2 ^ 53 := by
  have hsum : (S.take h).sum + (S.drop h).sum = S.sum := by rw [← List.sum_append, List.take_append_drop]
  have hd : (S.drop h).length = m - h := by simp [hS]
  obtain ⟨L, g1, g2, g3⟩ := uBobsParts_ok hash (S.take h) hhash
  have hlen : L.length = boxSize (S.take h) := by rw [g2.length_eq, length_lowerStates]
  have hlt : (S.take h).length = h := by rw [List.length_take]; omega
  refine ⟨L, _, _, _, g1, uBobsPartsWeightsR_ok R eta _ L g2 g3, uBobsApproximatedR_ok R h hh2 eta (S.drop h) (by
    intro h; have := congrArg List.length h; simp at this; omega), fun Q => ?_⟩
  have hc := (uBobsInputR_close R h0 h1 hf (S.take h) L g2 hp (by omega) (by omega)
    ((List.range ((S.drop h).sum + 1)).map fun l => l :: List.replicate ((S.drop h).length - 1) 0) (S.drop h).sum
    (by simp) (by omega)).close (uBobsInputErr_nonneg ..) Q
  rw [hlen] at hc
  refine Eq.trans_le ?_ hc
  congr 3
  unfold Prog.prob uBobsInput
  simp only [Prog.bind_eq, Prog.lift_def, Prog.pure_eq]
  rw [gccbWeights_eq, choice_wp, ← List.sum_toFinset _ List.nodup_range]
  · have : (List.range ((S.drop h).sum + 1)).toFinset = range ((S.drop h).sum + 1) := by ext; simp
    rw [this]
    refine sum_congr rfl fun l hl => ?_
    congr 1
    have := fun f => choice_wp (β := NpState) L id (partWeight eta (S.take h)) ((partWeight_prob h0 h1 _ L g2).mpr hp)
      (fun p => .done (.ok (hstackState p (l :: List.replicate ((S.drop h).length - 1) 0)))) f
    simp only [List.map_id] at this
    refine Eq.symm (Eq.trans (this _) ?_)
    rw [expLoss_lowerStates h0 h1, (g2.map _).sum_eq]
    congr 1
    refine List.map_congr_left fun p hp' => ?_
    have hne : p ≠ [] := by
      have := lower_length hp'
      rintro rfl
      simp at this
      omega
    rw [partWeight, part_weight hp ((mem_lowerStates _ _).mp hp'), id, hstack_ints hne (by simp), hd]
    rfl
  · rw [← gccbWeights_eq]
    exact ⟨gccbWeights_nonneg _ h0 h1, gccbWeights_sum _ _⟩

/-- C104 (the opposite case): when the exact weights `η^|l| (1 - η)^(|s| - |l|)` of the states `l` below the exactly treated
part `s` sum to at most `1 - 2 ^ -25`, numpy refuses the computed ones: every run that draws a sample raises
`ValueError`. The sum is the product over the modes of `∑ l ≤ a, η^l (1 - η)^(a - l)`, which is 1 for `a ≤ 1`. -/
theorem C104_refused (U : Matrix (Fin m) (Fin m) ℂ) (hm : m ≤ 2 ^ 20) (cpu : ℕ) (hc : 0 < cpu) (t : ℤ) (o : UBobsObj m)
    (ho : uBobsInitR R C Φ U cpu eta h t = .ok o) (sub : CalcCfg ℂ → Py (List ℂ)) (fuel : ℕ) (N : ℤ) (hN : 1 ≤ N)
    (htot : ((S.take h).map fun a => ∑ l ∈ range (a + 1), eta ^ l * (1 - eta) ^ (a - l)).prod ≤ 1 - 1 / 2 ^ 25)
    (r : Py (List (List ℕ))) (hr : (uBobsSimulateR R C Φ hash sub fuel o S N).Runs r) : r = .error .valueError := by
  obtain ⟨rfl, rfl, -, e4, -⟩ := uBobsInitR_ok R C Φ hm ho
  rcases uBobsSimulateR_refused R C Φ hash sub fuel o S hS hhash h0 h1 hf hn hM hh2
    (by rw [e4]; exact uBobsThreadsNumber_pos cpu hc t) N hN htot r hr with ⟨_, _, h⟩ | ⟨e, h2, h3⟩
  · exact h.elim
  · rw [h2, h3]

end

/-- How far rounding can move the law of one sample: the drawn input state, and version B of the exact sampler with a matrix
whose entries are known up to `m (2 (e + 3 + m) + 2 (m - h - 1)² + 3 + m)` operations. -/
noncomputable def uniformBobsBound (e m h : ℕ) (S : List ℕ) : ℝ :=
  (18 * (S.drop h).sum + 45) / 2 ^ 53 + (16 * boxSize (S.take h) + 6 * (S.take h).sum + 45) / 2 ^ 53
    + versionBBound m S.sum (entryBound (m * (2 * (e + 3 + m) + (2 * (m - h - 1) ^ 2 + 2) + 1 + m)) S.sum m
        (boxSize (S.take h) * ((S.drop h).sum + 1)))

section

variable (hash : List ℕ → ℤ) {e : ℕ} {U' U : Matrix (Fin m) (Fin m) ℂ} (hu : U ∈ unitaryGroup (Fin m) ℂ)
  (hU : ∀ i j, ‖U' i j - U i j‖ ≤ (1 + 1 / 2 ^ 48) ^ e - 1) (hm : m ≤ 2 ^ 20) (cpu : ℕ) (hc : 0 < cpu) {eta : ℝ}
  (h0 : 0 ≤ eta) (h1 : eta ≤ 1) (hf : IsFloat eta) {h : ℕ} (hh1 : 1 ≤ h) (hh2 : h < m) (t : ℤ) {o' o : UBobsObj m}
  (ho' : uBobsInitR R C Φ U' cpu eta h t = .ok o') (ho : uBobsInit U cpu eta h t = .ok o) (S : List ℕ) (hS : S.length = m)
  (hp : eta = 0 ∨ eta = 1 ∨ ∀ a ∈ S.take h, a ≤ 1) (hhash : HashOk hash (S.take h)) (hn : S.sum ≤ 170)
  (hM : boxSize (S.take h) ≤ 2 ^ 20) (fuel : ℕ)

include hu hU hm hc h0 h1 hf hh1 hh2 ho' ho hS hp hhash hn hM in
/-- C104: for every set of results, the probability that `simulate` has a result in the set differs by at most the bound per
sample from that of the exact sampler with the exact matrix. The exact sampler draws real phases, the other one multiples
of `2 ^ -53`. -/
theorem C104_law (hfu : boxSize (S.take h) * ((S.drop h).sum + 1) ≤ fuel) (N : ℤ) :
    (uBobsSimulateR R C Φ hash (ryserSubPermanentsR R C fuel) fuel o' S N).Close
      (uBobsSimulate hash (ryserSubPermanents fuel) fuel o S N) (N.toNat * uniformBobsBound e m h S) :=
  (uBobsSimulateR_close R C Φ hash hu hU hm cpu hc h0 h1 hf hh1 hh2 t ho' ho S hS hp hhash hn hM fuel hfu N).close
    (mul_nonneg (Nat.cast_nonneg _) (uBobsErr_nonneg ..))

theorem boxSize_fuel {S : List ℕ} {h : ℕ} (hh1 : 1 ≤ h) (hh2 : h < m) (hS : S.length = m) :
    boxSize (S.take h) * ((S.drop h).sum + 1) ≤ (S.sum + 1) ^ m := by
  have hsum : (S.take h).sum + (S.drop h).sum = S.sum := by rw [← List.sum_append, List.take_append_drop]
  have h2 := prod_le_pow (S.take h) S.sum fun x hx => (mem_le_sum hx).trans (by omega)
  rw [show (S.take h).length = h by rw [List.length_take]; omega] at h2
  calc boxSize (S.take h) * ((S.drop h).sum + 1) ≤ (S.sum + 1) ^ h * (S.sum + 1) := Nat.mul_le_mul h2 (by omega)
    _ = (S.sum + 1) ^ (h + 1) := by rw [pow_succ]
    _ ≤ (S.sum + 1) ^ m := Nat.pow_le_pow_right (by omega) hh2

include hu hU hm hc h0 h1 hf hh1 hh2 ho' hS hp hhash hn hM in
/-- C104: each sample equals `T` with the probability of C60, up to the bound. -/
theorem C104_sample (hfu : (S.sum + 1) ^ m ≤ fuel) (N : ℤ) (i : ℕ) (hi : i < N.toNat) (T : List ℕ) (hT : T.length = m) :
    |((uBobsSimulateR R C Φ hash (ryserSubPermanentsR R C fuel) fuel o' S N).prob
        (fun r => ∃ l, r = .ok l ∧ l[i]? = some T)).toReal
      - (∑ l ∈ range ((S.drop h).sum + 1), ENNReal.ofReal (binomialWeight (S.drop h).sum l eta) *
          expLoss eta (S.take h) fun p => expUniform (m - h) fun us =>
            (∑ σ : Equiv.Perm (Fin m), ENNReal.ofReal (lossyProb
              (rowsOf (U.submatrix id σ * phaseMatrix (m - h) m us * dftMatrix (m - h) m)) 0
              (p ++ l :: List.replicate (m - h - 1) 0) T)) / m.factorial).toReal|
      ≤ N.toNat * uniformBobsBound e m h S := by
  have ho : uBobsInit U cpu eta h t = .ok (uBobsNew U cpu eta h t) := by
    unfold uBobsInit
    rw [(generateQft_eq _ _ (Nat.sub_le _ _)).1]
    rfl
  rw [← C60_sample hash fuel U hu cpu hc eta h0 h1 h hh1 hh2 t _ ho S hS hp hhash hfu N i hi T hT]
  exact C104_law R C Φ hash hu hU hm cpu hc h0 h1 hf hh1 hh2 t ho' ho S hS hp hhash hn hM fuel
    ((boxSize_fuel hh1 hh2 hS).trans hfu) N _

include hu hU hm hc h0 h1 hf hh1 hh2 ho' hS hp hhash hn hM in
/-- C104: the probability of a result other than `N` samples with `m` modes and at most the particles of the input is at
most the bound. -/
theorem C104_rare (hfu : (S.sum + 1) ^ m ≤ fuel) (N : ℤ) :
    ((uBobsSimulateR R C Φ hash (ryserSubPermanentsR R C fuel) fuel o' S N).prob
      (fun r => ¬ ∃ l : List (List ℕ), r = .ok l ∧ l.length = N.toNat ∧ ∀ T ∈ l, T.length = m ∧ T.sum ≤ S.sum)).toReal
      ≤ N.toNat * uniformBobsBound e m h S := by
  have ho : uBobsInit U cpu eta h t = .ok (uBobsNew U cpu eta h t) := by
    unfold uBobsInit
    rw [(generateQft_eq _ _ (Nat.sub_le _ _)).1]
    rfl
  have := C104_law R C Φ hash hu hU hm cpu hc h0 h1 hf hh1 hh2 t ho' ho S hS hp hhash hn hM fuel
    ((boxSize_fuel hh1 hh2 hS).trans hfu) N
    (fun r => ¬ ∃ l : List (List ℕ), r = .ok l ∧ l.length = N.toNat ∧ ∀ T ∈ l, T.length = m ∧ T.sum ≤ S.sum)
  rw [prob_zero_of_runs (p := uBobsSimulate hash (ryserSubPermanents fuel) fuel (uBobsNew U cpu eta h t) S N)
    fun r hr => not_not.mpr ?_, ENNReal.toReal_zero, sub_zero] at this
  · exact (le_abs_self _).trans this
  · by_cases hN : N < 1
    · unfold uBobsSimulate at hr
      rw [if_pos hN] at hr
      cases hr
      exact ⟨[], rfl, by simp; omega, by simp⟩
    obtain ⟨L, h2, h3, -⟩ := uBobsSimulate_eq hash (ryserSubPermanents fuel) fuel (uBobsNew U cpu eta h t) S hS hhash
      (uBobsThreadsNumber_pos cpu hc t) N (by omega)
    rw [h3 hh2] at hr
    rcases Prog.repeatN_all (uBobsSample_all (o := uBobsNew U cpu eta h t) hh1 hh2 rfl hu h0 h1 hp hS L h2 fuel hfu) _ r hr
      with h | ⟨_, _, h⟩
    · exact h
    · exact h.elim

end

/-- A concrete case: the interferometer does nothing and the only particle, in the exactly treated first of two modes, is not
lost. Computed in floats, half of the samples show it in the second mode, up to `2 ^ -30`. -/
example (o : UBobsObj 2) (ho : uBobsInitR R (textbookArith R) (roundedPhases R) 1 4 1 1 2 = .ok o) :
    |((uBobsSimulateR R (textbookArith R) (roundedPhases R) (fun l => (Encodable.encode l : ℤ))
        (ryserSubPermanentsR R (textbookArith R) 4) 4 o [1, 0] 5).prob
      (fun r => ∃ l, r = .ok l ∧ l[3]? = some [0, 1])).toReal - 1 / 2| ≤ 1 / 2 ^ 30 := by
  have ho' : uBobsInit (1 : Matrix (Fin 2) (Fin 2) ℂ) 4 1 1 2 = .ok (uBobsNew 1 4 1 1 2) := by
    unfold uBobsInit
    rw [(generateQft_eq _ _ (Nat.sub_le _ _)).1]
    rfl
  have h := C104_law R (textbookArith R) (roundedPhases R) (fun l => (Encodable.encode l : ℤ)) (e := 0)
    (U' := (1 : Matrix (Fin 2) (Fin 2) ℂ)) (U := 1) (one_mem _) (by simp) (by norm_num) 4 (by decide) zero_le_one le_rfl
    isFloat_one le_rfl (by decide) 2 ho ho' [1, 0] rfl (.inr (.inl rfl)) (hashOk_encode _) (by decide) (by decide) 4
    (by decide) 5 (fun r => ∃ l, r = .ok l ∧ l[3]? = some [0, 1])
  rw [C60_permuted _ ho', ENNReal.toReal_ofReal (by norm_num)] at h
  refine h.trans ?_
  have hb := entryBound_le (e := 30) (n := 1) (m := 2) (L := 2) (K := 200) (by decide) (by norm_num)
  have e1 : uniformBobsBound 0 2 1 [1, 0] = (18 * 0 + 45) / 2 ^ 53 + (16 * 2 + 6 * 1 + 45) / 2 ^ 53
      + versionBBound 2 1 (entryBound 30 1 2 2) := by
    simp [uniformBobsBound, boxSize]
  rw [e1, show Int.toNat 5 = 5 from rfl]
  generalize entryBound 30 1 2 2 = a at hb ⊢
  unfold versionBBound
  simp only [sum_range_succ, sum_range_zero, Nat.factorial]
  norm_num at hb ⊢
  linarith

/-- A concrete case of refused weights: two particles in the exactly treated mode, each kept with probability `1 / 2`. -/
example (o : UBobsObj 2) (ho : uBobsInitR R C Φ 1 4 (1 / 2) 1 2 = .ok o) (sub : CalcCfg ℂ → Py (List ℂ)) (fuel : ℕ)
    (r : Py (List (List ℕ))) (hr : (uBobsSimulateR R C Φ (fun l => (Encodable.encode l : ℤ)) sub fuel o [2, 0] 3).Runs r) :
    r = .error .valueError :=
  C104_refused R C Φ _ (by norm_num) (by norm_num) ⟨1, -1, by norm_num, by norm_num, by norm_num⟩ le_rfl (by decide) [2, 0] rfl
    (hashOk_encode _) (by decide) (by decide) 1 (by norm_num) 4 (by decide) 2 o ho sub fuel 3 (by decide)
    (by simp [sum_range_succ]; norm_num) r hr

end Verif
