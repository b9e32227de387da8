import Verif.Proofs.RoundedLossLaw
import Verif.Props.Rounded
import Verif.Props.Cliffords
import Verif.Props.Bobs
import Verif.Props.FixedLoss

/-!
C92: how far rounding moves the losses drawn by the samplers. `R : Rounding` is any way to round to nearest.
-/
namespace Verif

open Finset Prog
open scoped ENNReal

variable (R : Rounding)

/-- What `Prog.Close` says, seen through one probability that is known exactly. -/
theorem close_known {α : Type} {p q : Prog α} {e : ℝ} (h : CloseF p q (ENNReal.ofReal e)) (he : 0 ≤ e) (Q : Py α → Prop)
    {x : ℝ} (hx : 0 ≤ x) (hq : q.prob Q = ENNReal.ofReal x) : |(p.prob Q).toReal - x| ≤ e := by
  have := h.close he Q
  rwa [hq, ENNReal.toReal_ofReal hx] at this

theorem prob_zero_of_runs {α : Type} {p : Prog α} {Q : Py α → Prop} (h : ∀ r, p.Runs r → ¬ Q r) : p.prob Q = 0 := by
  unfold Prog.prob
  refine (Prog.wp_congr p _ (fun _ => 0) fun r hr => ?_).trans (Prog.wp_const p 0)
  rw [if_neg (h r hr)]

/-- C92 (version B with uniform losses): `k` of `n` particles are left with a probability that differs from the
binomial one by at most `(10 n + 28) / 2 ^ 53`. -/
theorem C92_left (n : ℕ) (hn : n ≤ 170) {eta : ℝ} (h0 : 0 ≤ eta) (h1 : eta ≤ 1) (hf : IsFloat eta) (k : ℕ) :
    |((gccbParticlesLeftR R (gccbWeightsR R n eta)).prob (fun r => r = .ok k)).toReal - binomialWeight n k eta|
      ≤ (10 * n + 28) / 2 ^ 53 := by
  classical
  refine close_known (leftR_close R n hn h0 h1 hf) (by positivity) _ (binomialWeight_nonneg n k h0 h1) ?_
  unfold Prog.prob
  rw [gccbParticlesLeft_wp n h0 h1]
  simp only [Except.ok.injEq, mul_ite, mul_one, mul_zero]
  rw [sum_ite_eq' (range (n + 1)) k]
  split_ifs with h
  · rfl
  · rw [mem_range, not_lt] at h
    simp [binomialWeight, Nat.choose_eq_zero_of_lt (show n < k by omega)]

/-- A concrete case: both of two particles are left, each being kept with probability `0.27`. -/
example : |((gccbParticlesLeftR R (gccbWeightsR R 2 eta27)).prob (fun r => r = .ok 2)).toReal - eta27 ^ 2| ≤ 48 / 2 ^ 53 := by
  have := C92_left R 2 (by norm_num) (eta := eta27) (by unfold eta27; positivity) (by unfold eta27; norm_num) isFloat_eta27 2
  simp only [binomialWeight, Nat.choose_self, Nat.cast_one, one_mul, Nat.sub_self, pow_zero, mul_one] at this
  refine this.trans (le_of_eq ?_)
  norm_num

/-- C92 (version B with uniform losses): for every set of lists of samples, rounding the losses changes the
probability of the set by at most `N (10 n + 28) / 2 ^ 53`. -/
theorem C92_version_b (sub : CalcCfg ℂ → Py (List ℂ)) (U : List (List ℂ)) (fuel : ℕ) {eta : ℝ} (h0 : 0 ≤ eta)
    (h1 : eta ≤ 1) (hf : IsFloat eta) (S : List ℕ) (hn : S.sum ≤ 170) (N : ℤ) :
    (gccbLossySimulateR R sub U fuel eta S N).Close (gccbLossySimulate sub U fuel eta S N)
      (N.toNat * ((10 * S.sum + 28) / 2 ^ 53)) :=
  (gccbLossySimulateR_close R sub U fuel h0 h1 hf S hn N).close (by positivity)

/-- C92 (version B with uniform losses): each sample equals `T` with the probability of C32, up to
`N (10 n + 28) / 2 ^ 53`. -/
theorem C92_version_b_sample {U : List (List ℂ)} {S : List ℕ} (h : Interferometer U S) {eta : ℝ} (h0 : 0 ≤ eta)
    (h1 : eta ≤ 1) (hf : IsFloat eta) (hn : S.sum ≤ 170) (fuel : ℕ) (hfu : (S.map (· + 1)).prod ≤ fuel) (N : ℤ) (i : ℕ)
    (hi : i < N.toNat) (T : List ℕ) (hT : T.length = S.length) (hs : T.sum ≤ S.sum) :
    |((gccbLossySimulateR R (ryserSubPermanents fuel) U fuel eta S N).prob
        (fun r => ∃ l : List (List ℕ), r = .ok l ∧ l[i]? = some T)).toReal
      - binomialWeight S.sum T.sum eta * fixedLossProb U S T.sum T| ≤ N.toNat * ((10 * S.sum + 28) / 2 ^ 53) :=
  close_known (gccbLossySimulateR_close R _ U fuel h0 h1 hf S hn N) (by positivity) _
    (mul_nonneg (binomialWeight_nonneg _ _ h0 h1) (fixedLossProb_nonneg ..))
    (C32_sample h eta h0 h1 fuel hfu N i hi T hT hs)

/-- C92: a call of version B with uniform losses raises with probability at most `N (10 n + 28) / 2 ^ 53`. -/
theorem C92_version_b_rare {U : List (List ℂ)} {S : List ℕ} (h : Interferometer U S) {eta : ℝ} (h0 : 0 ≤ eta)
    (h1 : eta ≤ 1) (hf : IsFloat eta) (hn : S.sum ≤ 170) (fuel : ℕ) (hfu : (S.map (· + 1)).prod ≤ fuel) (N : ℤ) :
    ((gccbLossySimulateR R (ryserSubPermanents fuel) U fuel eta S N).prob (fun r => ¬ ∃ l : List (List ℕ), r = .ok l ∧
      l.length = N.toNat ∧ ∀ T ∈ l, T.length = S.length ∧ T.sum ≤ S.sum)).toReal
      ≤ N.toNat * ((10 * S.sum + 28) / 2 ^ 53) := by
  have := close_known (gccbLossySimulateR_close R (ryserSubPermanents fuel) U fuel h0 h1 hf S hn N) (by positivity)
    (fun r => ¬ ∃ l : List (List ℕ), r = .ok l ∧ l.length = N.toNat ∧ ∀ T ∈ l, T.length = S.length ∧ T.sum ≤ S.sum) (x := 0) le_rfl ?_
  · rw [sub_zero] at this
    exact (le_abs_self _).trans this
  · rw [ENNReal.ofReal_zero]
    exact prob_zero_of_runs fun r hr => not_not.mpr (C32_shape h eta fuel hfu N r hr)

/-- A concrete case: two particles through a rotation, each kept with probability `0.27`. -/
example : |((gccbLossySimulateR R (ryserSubPermanents 4) [[3 / 5, 4 / 5], [4 / 5, -3 / 5]] 4 eta27 [1, 1] 10).prob
      (fun r => ∃ l : List (List ℕ), r = .ok l ∧ l[3]? = some [1, 1])).toReal - eta27 ^ 2 * (49 / 625)| ≤ 480 / 2 ^ 53 ∧
    ((gccbLossySimulateR R (ryserSubPermanents 4) [[3 / 5, 4 / 5], [4 / 5, -3 / 5]] 4 eta27 [1, 1] 10).prob
      (fun r => ¬ ∃ l : List (List ℕ), r = .ok l ∧ l.length = 10 ∧ ∀ T ∈ l, T.length = 2 ∧ T.sum ≤ 2)).toReal ≤ 480 / 2 ^ 53 := by
  have e : fixedLossProb [[3 / 5, 4 / 5], [4 / 5, -3 / 5]] [1, 1] 2 [1, 1] = 49 / 625 := by
    rw [← rotation_prob]; exact fixedLossProb_full _ [1, 1] [1, 1]
  have g0 : 0 ≤ eta27 := by unfold eta27; positivity
  have g1 : eta27 ≤ 1 := by unfold eta27; norm_num
  have eb : ((10 : ℤ).toNat : ℝ) * ((10 * ([1, 1] : List ℕ).sum + 28) / 2 ^ 53) = 480 / 2 ^ 53 := by
    rw [show ([1, 1] : List ℕ).sum = 2 from rfl, show (10 : ℤ).toNat = 10 from rfl]
    norm_num
  constructor
  · have := C92_version_b_sample R (rotation_interferometer [1, 1] rfl) g0 g1 isFloat_eta27 (by decide) 4 (by decide) 10 3
      (by decide) [1, 1] rfl (by decide)
    rw [eb] at this
    simp only [List.sum_cons, List.sum_nil, Nat.reduceAdd, e, binomialWeight, Nat.choose_self, Nat.cast_one, one_mul,
      Nat.sub_self, pow_zero, mul_one] at this
    exact this
  · have := C92_version_b_rare R (rotation_interferometer [1, 1] rfl) g0 g1 isFloat_eta27 (by decide) 4 (by decide) 10
    rw [eb] at this
    exact this

/-- C92 (approximate sampling, the lossy input): it equals `L` with the probability of C42 of independent
losses, up to `(12 n + 28 m) / 2 ^ 53` for `n` particles in `m` modes. -/
theorem C92_bobs_input {losses : ℝ} (h0 : 0 ≤ losses) (h1 : losses ≤ 1) (hf : IsFloat losses) (mx : ℕ) (s : List ℕ)
    (hs : ∀ x ∈ s, x ≤ mx) (hn : ∀ x ∈ s, x ≤ 170) (L : List ℕ) (hL : L.length = s.length) (eta : ℝ)
    (heta : eta = if losses ≤ 1e-8 then 1 else 1 - losses) :
    |((bobsLossyInputR R losses (bobsTableR R losses mx) s).prob (fun r => r = .ok L)).toReal
      - ∏ i ∈ range s.length, binomialWeight (s.getD i 0) (L.getD i 0) eta| ≤ (12 * s.sum + 28 * s.length) / 2 ^ 53 := by
  have g0 : 0 ≤ eta := by rw [heta]; split_ifs <;> linarith
  have g1 : eta ≤ 1 := by rw [heta]; split_ifs <;> linarith
  exact close_known (bobsLossyInputR_close R h0 h1 hf mx s hs hn) (lossesErr_nonneg s) _
    (prod_nonneg fun i _ => binomialWeight_nonneg _ _ g0 g1) (C42_law losses h0 h1 mx s hs L hL eta heta)

/-- A concrete case: one of two particles of the first mode is lost, the other mode keeps its particle; every
particle is lost with probability `0.27`. -/
example : |((bobsLossyInputR R eta27 (bobsTableR R eta27 2) [2, 1]).prob (fun r => r = .ok [1, 1])).toReal
      - 2 * (1 - eta27) * eta27 * (1 - eta27)| ≤ 92 / 2 ^ 53 := by
  have g : 1e-8 < eta27 := by unfold eta27; norm_num
  have := C92_bobs_input R (losses := eta27) (by unfold eta27; positivity) (by unfold eta27; norm_num) isFloat_eta27 2 [2, 1]
    (by simp) (by simp) [1, 1] rfl (1 - eta27) (by rw [if_neg (not_le.mpr g)])
  simp only [List.length_cons, List.length_nil, prod_range_succ, prod_range_zero, one_mul, List.getD_cons_zero,
    List.getD_cons_succ, binomialWeight, Nat.choose_one_right, Nat.choose_self, List.sum_cons, List.sum_nil] at this
  norm_num at this ⊢
  exact this

/-- C92 (approximate sampling, whole call): for every set of lists of samples, rounding the losses changes the
probability of the set by at most `(12 n + 28 m) / 2 ^ 53` per sample; at most `⌊N / t⌋ + 1` samples are drawn by
each of the `t` threads. -/
theorem C92_bobs {m : ℕ} (svd : Matrix (Fin m) (Fin m) ℂ → Svd m) (sub : CalcCfg ℂ → Py (List ℂ)) (fuel : ℕ)
    (o : BobsObj m) (h0 : 0 ≤ o.losses) (h1 : o.losses ≤ 1) (hf : IsFloat o.losses) (ht : 0 < o.threads) (S : List ℕ)
    (hne : S ≠ []) (hk : o.k ≤ S.length) (hn : o.number + S.sum ≤ 170) (N : ℤ) :
    (bobsSimulateR R svd sub fuel o S N).Close ((bobsSimulate svd sub fuel o S N).bind fun r => .done (.ok r.1))
      ((o.threads * (N.toNat / o.threads + 1) : ℕ) * ((12 * (o.number + S.sum) + 28 * S.length) / 2 ^ 53)) :=
  (bobsSimulateR_close R svd sub fuel o h0 h1 hf ht S hne hk hn N).close (by positivity)

/-- C92 (approximate sampling without approximated modes): each sample equals `T` with the probability of the
lossy network `M` (C59), up to the bound of `C92_bobs`. -/
theorem C92_bobs_exact {m : ℕ} {M A : Matrix (Fin m) (Fin m) ℂ} {d : Svd m} {cpu th K : ℕ} {k t : ℤ} {l eta : ℝ}
    {svd : Matrix (Fin m) (Fin m) ℂ → Svd m} {fuel : ℕ}
    (h : BobsSetup M d cpu k t A l eta K th) (hsvd : ∀ B, IsSvd B (svd B)) (hk : k ≤ 0) (htol : l = 0 ∨ 1e-8 < l)
    (hf : IsFloat l)
    {calls : List (List ℕ × ℤ)} {o : BobsObj m} (hh : BobsHistory svd (ryserSubPermanents fuel) fuel d cpu k t calls o)
    (S : List ℕ) (hS : S.length = m) (hn : S.sum ≤ 170) (N : ℤ) (hN : 1 ≤ N) (hfu : (S.sum + 1) ^ m ≤ fuel)
    (hfu' : m < fuel) (W : List (List ℂ)) (b : ℕ) (hW : IsDilation (rowsOf M) W m b)
    (i : ℕ) (hi : i < N.toNat) (T : List ℕ) (hT : T.length = m) :
    |((bobsSimulateR R svd (ryserSubPermanents fuel) fuel o S N).prob
        (fun r => ∃ samples, r = .ok samples ∧ samples[i]? = some T)).toReal - lossyProb W b S T|
      ≤ (th * (N.toNat / th + 1) : ℕ) * ((12 * S.sum + 28 * m) / 2 ^ 53) := by
  obtain ⟨h3, h4, h5, h6, h7⟩ := hh.inv h
  have hK : K = 0 := by have := h.modes; omega
  have hnum : o.number = 0 := by
    rw [h5, hK]
    unfold pastParticles
    refine List.sum_eq_zero_iff.mpr fun x hx => ?_
    obtain ⟨c, -, rfl⟩ := List.mem_map.mp hx
    split_ifs <;> simp
  have hc := bobsSimulateR_close R svd (ryserSubPermanents fuel) fuel o h3.loss0 h3.loss1 (h7 ▸ hf) h3.threads S
    (by intro h; rw [h] at hS; have := h3.pos; simp at hS; omega) (by rw [h4, hK]; omega) (by rw [hnum]; omega) N
  rw [hnum, hS, h6] at hc
  simp only [Nat.cast_zero, zero_add] at hc
  refine close_known hc (by positivity) _ (sum_nonneg fun E _ => bosonProb_nonneg W S _) ?_
  rw [← C59_exact h hsvd hk htol hh S hS N hN hfu hfu' W b hW i hi T hT]
  unfold Prog.prob
  rw [Prog.wp_bind]
  congr 1
  funext r
  rcases r with e | ⟨l, o'⟩
  · simp [Prog.post]
  · simp [Prog.post, Prog.wp]

/-- A concrete case: half of the amplitude of one particle is transmitted, no mode is approximated; the
particle comes out with probability `1 / 4`, up to `240 / 2 ^ 53`. -/
example (svd : Matrix (Fin 1) (Fin 1) ℂ → Svd 1) (hsvd : ∀ B, IsSvd B (svd B)) :
    ∃ o, bobsInit halfSvd 4 0 3 = .ok o ∧
      |((bobsSimulateR R svd (ryserSubPermanents 2) 2 o [1] 5).prob
        (fun r => ∃ samples, r = .ok samples ∧ samples[4]? = some [1])).toReal - 1 / 4| ≤ 240 / 2 ^ 53 := by
  obtain ⟨o, h1, -⟩ := halfSetup.inv
  refine ⟨o, h1, ?_⟩
  have hfl : IsFloat (3 / 4) := ⟨3, -2, by norm_num, by norm_num, by norm_num⟩
  have := C92_bobs_exact R (fuel := 2) halfSetup hsvd le_rfl (.inr (by norm_num)) hfl (.new h1) [1] rfl (by decide) 5 (by decide)
    (by decide) (by decide) [[1 / 2], [(Real.sqrt 3 : ℝ) / 2]] 1 half_dilation 4 (by decide) [1] rfl
  rw [half_lossyProb] at this
  refine this.trans (le_of_eq ?_)
  rw [show (5 : ℤ).toNat = 5 from rfl, show ([1] : List ℕ).sum = 1 from rfl]
  norm_num

theorem multinomialProb_nonneg {q : List ℝ} (hq : ∀ x ∈ q, 0 ≤ x) (hqs : q.sum ≤ 1) (k : ℕ) (T : List ℕ) :
    0 ≤ multinomialProb q k T := by
  unfold multinomialProb
  refine mul_nonneg (mul_nonneg (by positivity) (List.prod_nonneg fun x hx => ?_)) (pow_nonneg (by linarith) _)
  obtain ⟨i, h1, rfl⟩ := List.getElem_of_mem hx
  rw [List.getElem_zipWith]
  exact pow_nonneg (hq _ (List.getElem_mem _)) _

/-- C92 (fixed losses): for mode probabilities `q`, computed as `P` with total error `d`, the outcome of `k`
photons equals `T` with the multinomial probability, up to `k (14 m / 2 ^ 53 + 4 d)`. -/
theorem C92_fixed {P q : List ℝ} (hW : Weights P) (hne : P ≠ []) (hlen : q.length = P.length)
    (hq : ∀ x ∈ q, 0 ≤ x) (hqs : q.sum ≤ 1) {d : ℝ} (hd : ∑ i ∈ range P.length, |P.getD i 0 - q.getD i 0| ≤ d)
    (hd2 : d ≤ 1 / 2) (hm : P.length ≤ 2 ^ 50) (k : ℕ) (T : List ℕ) (hT : T.length = P.length) (hk : T.sum ≤ k) :
    |((fixedPhotonsR R P k (List.replicate P.length 0)).prob (fun r => r = .ok T)).toReal - multinomialProb q k T|
      ≤ k * (14 * P.length / 2 ^ 53 + 4 * d) := by
  have hd0 : 0 ≤ d := (sum_nonneg fun i _ => abs_nonneg _).trans hd
  have hqe : q ≠ [] := by rintro rfl; exact hne (List.length_eq_zero_iff.mp hlen.symm)
  have hc := fixedPhotonsR_close R hW hne hlen hq hqs hd hd2 hm k (List.replicate P.length 0) (by simp)
  refine close_known hc (by positivity) _ (multinomialProb_nonneg hq hqs k T) ?_
  have := C38_outcome q hqe hq hqs k T (by rw [hT, hlen]) hk
  rw [fixedOutcome, hlen] at this
  exact this

/-- A concrete case: three photons, two modes with probability `1 / 2` and `1 / 4`. -/
example : |((fixedPhotonsR R [1 / 2, 1 / 4] 3 [0, 0]).prob (fun r => r = .ok [1, 1])).toReal - 3 / 16| ≤ 84 / 2 ^ 53 := by
  have hh : IsFloat (1 / 2) := ⟨1, -1, by norm_num, by norm_num, by norm_num⟩
  have hq : IsFloat (1 / 4) := ⟨1, -2, by norm_num, by norm_num, by norm_num⟩
  have hW : Weights [1 / 2, 1 / 4] := by
    intro x hx
    simp only [List.mem_cons, List.not_mem_nil, or_false] at hx
    rcases hx with rfl | rfl
    · exact ⟨hh, by norm_num⟩
    · exact ⟨hq, by norm_num⟩
  have := C92_fixed R (P := [1 / 2, 1 / 4]) (q := [1 / 2, 1 / 4]) hW (by simp) rfl (by simp) (by simp; norm_num) (d := 0)
    (by simp) (by norm_num) (by simp) 3 [1, 1] rfl (by decide)
  have e : multinomialProb [1 / 2, 1 / 4] 3 [1, 1] = 3 / 16 := by
    simp [multinomialProb, factProd, Nat.factorial]
    norm_num
  rw [e] at this
  refine this.trans (le_of_eq ?_)
  simp
  norm_num

end Verif
