import Verif.Proofs.RoundedBobs
import Verif.Props.RoundedUniformBobs

/-!
C119: the approximate sampler for non-uniform losses, with everything after the constructor in floating-point arithmetic.
-/
namespace Verif

open Finset Prog Matrix
open scoped ENNReal

variable (R : Rounding) (C : ComplexArith) (Φ : PhaseArith) {m : ℕ}

/-- An object of the class with its attributes as floats: the losses are a float in `[0, 1]`, the stored matrix is within
`(1 + 2^-48)^e - 1` of a matrix `A` whose singular values are at most one. `expand`, the computed embedding into an
interferometer, is within `(1 + 2^-48)^e₁ - 1` of some embedding for all the matrices of the samples, whose entries are known
up to `m (2 (e + 3 + m) + 2 (k - 1)² + 3 + m)` operations. -/
structure FloatBobs (expand : Matrix (Fin m) (Fin m) ℂ → Matrix (Fin (m + m)) (Fin (m + m)) ℂ) (o : BobsObj m)
    (A : Matrix (Fin m) (Fin m) ℂ) (e e₁ : ℕ) : Prop where
  pos : 0 < m
  size : m + m ≤ 2 ^ 20
  modes : o.k ≤ m
  threads : 0 < o.threads
  loss0 : 0 ≤ o.losses
  loss1 : o.losses ≤ 1
  float : IsFloat o.losses
  contraction : ∃ d, IsSvd A d ∧ ∀ i, d.s i ≤ 1
  matrix : ∃ A', o.initial = some A' ∧ ∀ i j, ‖A' i j - A i j‖ ≤ (1 + 1 / 2 ^ 48) ^ e - 1
  expands : ExpandsWithin expand A o.k (m * (2 * (e + 3 + m) + (2 * (o.k - 1) ^ 2 + 2) + 1 + m)) e₁

/-- How far rounding can move the law of one sample, for `n` particles of which `p` are in the `k` approximated modes: the
losses applied to the input, and version B of the exact sampler with an interferometer of `2m` modes. -/
noncomputable def bobsFloatBound (e₁ m k n p : ℕ) (S : List ℕ) : ℝ :=
  (12 * n + 28 * m) / 2 ^ 53 + versionBBound (m + m) n (entryBound e₁ n (m + m) ((p + 1) * boxSize (S.drop k)))

section

variable {expand : Matrix (Fin m) (Fin m) ℂ → Matrix (Fin (m + m)) (Fin (m + m)) ℂ} {o : BobsObj m}
  {A : Matrix (Fin m) (Fin m) ℂ} {e e₁ : ℕ} (h : FloatBobs expand o A e e₁)
  {svd : Matrix (Fin m) (Fin m) ℂ → Svd m} (hsvd : ∀ B, IsSvd B (svd B)) {fuel : ℕ}
  (S : List ℕ) (hS : S.length = m) (hn : o.number + S.sum ≤ 170) (hfu' : m < fuel)

include h hsvd hS hn hfu' in
/-- C119: for every set of results, the probability that `simulate` has a result in the set differs by at most the bound per
drawn sample from that of the exact sampler with the exact matrix. Each of the `t` threads draws `⌊N / t⌋ + 1` samples;
particles left over from earlier calls count (C40). -/
theorem C119_law (hfu : (o.number + (S.take o.k).sum + 1) * boxSize (S.drop o.k) ≤ fuel) (N : ℤ) :
    (bobsSimulateF R C Φ expand (ryserSubPermanentsR R C fuel) fuel o S N).Close
      ((bobsSimulate svd (ryserSubPermanents fuel) fuel { o with initial := some A } S N).bind fun r => .done (.ok r.1))
      ((o.threads * (N.toNat / o.threads + 1) : ℕ)
        * bobsFloatBound e₁ m o.k (o.number + S.sum) (o.number + (S.take o.k).sum) S) := by
  obtain ⟨d, hd, hd1⟩ := h.contraction
  obtain ⟨A', hi, hA'⟩ := h.matrix
  exact (bobsSimulateF_close R C Φ hsvd fuel hd hd1 hi h.pos h.size hA' h.expands h.loss0 h.loss1 h.float h.threads hS h.modes
    hn hfu hfu' N).close (mul_nonneg (Nat.cast_nonneg _) (bobsErrF_nonneg ..))

theorem FloatBobs.inv (h : FloatBobs expand o A e e₁) :
    BobsInv { o with initial := some A } (((Real.sqrt (1 - o.losses) : ℝ) : ℂ) • A) A :=
  ⟨h.pos, h.modes, h.threads, rfl, h.contraction, h.loss0, h.loss1, rfl⟩

theorem bunched_fuel {k n : ℕ} {S : List ℕ} (hS : S.length = m) (h0 : 0 < m) (hk : k ≤ m) :
    (n + (S.take k).sum + 1) * boxSize (S.drop k) ≤ (n + S.sum + 1) ^ (m + 1) := by
  have hsum : (S.take k).sum + (S.drop k).sum = S.sum := by rw [← List.sum_append, List.take_append_drop]
  have h2 := prod_le_pow (S.drop k) (n + S.sum) fun x hx => (mem_le_sum hx).trans (by omega)
  calc (n + (S.take k).sum + 1) * boxSize (S.drop k) ≤ (n + S.sum + 1) * (n + S.sum + 1) ^ (S.drop k).length :=
        Nat.mul_le_mul (by omega) h2
    _ = (n + S.sum + 1) ^ ((S.drop k).length + 1) := by rw [pow_succ, mul_comm]
    _ ≤ _ := Nat.pow_le_pow_right (by omega) (by rw [List.length_drop]; omega)

include h hS hn hfu' in
/-- C119: each sample equals `T` with the probability of the approximation (C40, C58), up to the bound: the particles of the
approximated modes are put together into one of them, each particle survives with probability `η`, the network `A` acts
after random phases and a Fourier transform of the approximated modes. -/
theorem C119_sample (hfu : (o.number + S.sum + 1) ^ (m + 1) ≤ fuel) (eta : ℝ)
    (heta : eta = if o.losses ≤ 1e-8 then 1 else 1 - o.losses) (W : (Fin o.k → ℝ) → List (List ℂ)) (b : ℕ)
    (hW : ∀ us, IsDilation (rowsOf (A * phaseMatrix o.k m us * dftMatrix o.k m)) (W us) m b)
    (N : ℤ) (i : ℕ) (hi : i < N.toNat) (T : List ℕ) (hT : T.length = m) :
    |((bobsSimulateF R C Φ expand (ryserSubPermanentsR R C fuel) fuel o S N).prob
        (fun r => ∃ l, r = .ok l ∧ l[i]? = some T)).toReal
      - (approxLaw o.k (o.number + (S.take o.k).sum) eta W b S T).toReal|
      ≤ (o.threads * (N.toNat / o.threads + 1) : ℕ)
        * bobsFloatBound e₁ m o.k (o.number + S.sum) (o.number + (S.take o.k).sum) S := by
  set svd : Matrix (Fin m) (Fin m) ℂ → Svd m := fun B => (svd_exists B).choose with hsv
  have hsvd : ∀ B, IsSvd B (svd B) := fun B => (svd_exists B).choose_spec
  have hlaw := C119_law R C Φ h hsvd (fuel := fuel) S hS hn hfu' ((bunched_fuel hS h.pos h.modes).trans hfu) N
    (fun r => ∃ l, r = .ok l ∧ l[i]? = some T)
  have hp : ((bobsSimulate svd (ryserSubPermanents fuel) fuel { o with initial := some A } S N).bind
      fun r => .done (.ok r.1)).prob (fun r => ∃ l, r = .ok l ∧ l[i]? = some T)
      = approxLaw o.k (o.number + (S.take o.k).sum) eta W b S T := by
    obtain ⟨o', e1, e2, e3, e4, e5, e6, e7, mx, e8, e9⟩ := h.inv.prepare S hS
    simp only at e2 e3 e4 e5 e6 e8
    have hfm : (mx + 1) ^ m ≤ fuel := (Nat.pow_le_pow_left (by omega) m).trans
      ((Nat.pow_le_pow_right (by omega) (Nat.le_succ m)).trans hfu)
    have hi' : i < o'.threads * (N.toNat / o'.threads + 1) := by
      have h8 := Nat.div_add_mod N.toNat o'.threads
      have h9 := Nat.mod_lt N.toNat e7.threads
      rw [Nat.mul_add, Nat.mul_one]; omega
    have e10 : ((bobsSimulate svd (ryserSubPermanents fuel) fuel { o with initial := some A } S N).bind
        fun r => .done (.ok r.1)).prob (fun r => ∃ l, r = .ok l ∧ l[i]? = some T)
        = (bobsSimulate svd (ryserSubPermanents fuel) fuel { o with initial := some A } S N).prob
          (fun r => ∃ l o', r = .ok (l, o') ∧ l[i]? = some T) := by
      unfold Prog.prob
      rw [Prog.wp_bind]
      refine Prog.wp_congr _ _ _ fun r _ => ?_
      rcases r with e | ⟨l, o'⟩
      · simp [Prog.post]
      · simp [Prog.post, Prog.wp]
    rw [e10, bobsSimulate_prob svd hsvd S N (by omega) e1 e7.threads e9 fuel hfm hfu' i hi' T]
    have e6' : o'.state = List.replicate o'.k 0 ++ S.drop o'.k := by rw [e6, e2]
    have hst : bobsStates o' = bunchedStates o.k (o.number + (S.take o.k).sum) S := by
      rw [bunchedStates_eq o' S e6', e2, e5]
    have hl : 1 - appliedLosses o'.losses = eta := by
      rw [e4, heta, appliedLosses, abs_of_nonneg h.loss0]
      split_ifs <;> ring
    clear e5 e6 e6'
    rcases o' with ⟨ok, ol, oi, ow, ot, os, on⟩
    simp only at e2
    subst e2
    rw [bobsSample_prob e9 svd hsvd fuel hfm hfu' W b hW T hT, hst, hl]
    rfl
  rw [hp] at hlaw
  exact hlaw

include h hS hn hfu' in
/-- C119: the probability of a result other than `⌊N / t⌋ + 1` samples from each of the `t` threads, with `m` modes and at most
the particles of the input and of earlier calls, is at most the bound. -/
theorem C119_rare (hfu : (o.number + S.sum + 1) ^ (m + 1) ≤ fuel) (N : ℤ) (hN : 1 ≤ N) :
    ((bobsSimulateF R C Φ expand (ryserSubPermanentsR R C fuel) fuel o S N).prob
      (fun r => ¬ ∃ l : List (List ℕ), r = .ok l ∧ l.length = o.threads * (N.toNat / o.threads + 1) ∧
        ∀ T ∈ l, T.length = m ∧ T.sum ≤ o.number + S.sum)).toReal
      ≤ (o.threads * (N.toNat / o.threads + 1) : ℕ)
        * bobsFloatBound e₁ m o.k (o.number + S.sum) (o.number + (S.take o.k).sum) S := by
  set svd : Matrix (Fin m) (Fin m) ℂ → Svd m := fun B => (svd_exists B).choose with hsv
  have hsvd : ∀ B, IsSvd B (svd B) := fun B => (svd_exists B).choose_spec
  have hlaw := C119_law R C Φ h hsvd (fuel := fuel) S hS hn hfu' ((bunched_fuel hS h.pos h.modes).trans hfu) N
    (fun r => ¬ ∃ l : List (List ℕ), r = .ok l ∧ l.length = o.threads * (N.toNat / o.threads + 1) ∧
        ∀ T ∈ l, T.length = m ∧ T.sum ≤ o.number + S.sum)
  have hall := bobsSimulate_all h.inv svd hsvd S hS N hN fuel
    ((Nat.pow_le_pow_right (by simp only; omega) (Nat.le_succ m)).trans hfu) hfu'
  have h2 : ((bobsSimulate svd (ryserSubPermanents fuel) fuel { o with initial := some A } S N).bind
      fun r => .done (.ok r.1)).All (fun l : List (List ℕ) => l.length = o.threads * (N.toNat / o.threads + 1) ∧
        ∀ T ∈ l, T.length = m ∧ T.sum ≤ o.number + S.sum) fun _ => False := by
    refine Prog.all_bind hall ?_
    rintro ⟨l, o'⟩ ⟨g1, g2, g3⟩
    refine Prog.all_done_ok ⟨g2, fun T hT => ⟨(g3 T hT).1, ?_⟩⟩
    obtain ⟨st, hst, hle⟩ := (g3 T hT).2
    refine hle.trans ?_
    obtain ⟨o'', e1, e2, -, -, e5, e6, -⟩ := h.inv.prepare S hS
    rw [e1] at g1
    injection g1 with g1
    subst g1
    simp only at e2 e5 e6
    have hsum : (S.take o.k).sum + (S.drop o.k).sum = S.sum := by rw [← List.sum_append, List.take_append_drop]
    have hk := h.modes
    unfold bobsStates at hst
    rw [e2, e5, e6] at hst
    split_ifs at hst with h0
    · rw [List.mem_singleton] at hst
      rw [hst, List.sum_append]
      simp
      omega
    · obtain ⟨j, hj, rfl⟩ := List.mem_map.mp hst
      rw [List.mem_range] at hj
      rw [List.set_append_left _ _ (by simpa using hj), List.sum_append]
      have : ((List.replicate o.k 0).set j (o.number + (S.take o.k).sum)).sum = o.number + (S.take o.k).sum := by
        rw [List.sum_set]
        simp [hj]
      omega
  rw [prob_zero_of_runs (p := (bobsSimulate svd (ryserSubPermanents fuel) fuel { o with initial := some A } S N).bind
      fun r => .done (.ok r.1)) fun r hr => not_not.mpr ?_, ENNReal.toReal_zero, sub_zero] at hlaw
  · exact (le_abs_self _).trans hlaw
  · rcases h2 r hr with ⟨l, g1, g2⟩ | ⟨_, _, g⟩
    · exact ⟨l, g1, g2⟩
    · exact g.elim

end

/-! ### A concrete case -/

/-- Two modes, the second one transmits half of the amplitude; one mode is approximated, a quarter of the particles is lost
before the network, two threads. -/
noncomputable def halfFloatObj : BobsObj 2 :=
  { k := 1, losses := 1 / 4, initial := some (Matrix.diagonal ![1, 1 / 2]), weights := [], threads := 2, state := [], number := 0 }

/-- An embedding for the networks of this object. -/
noncomputable def halfExpand (B : Matrix (Fin 2) (Fin 2) ℂ) : Matrix (Fin (2 + 2)) (Fin (2 + 2)) ℂ :=
  !![B 0 0, B 0 1, 0, 0; B 1 0, B 1 1, 0, 0; 0, 0, 0, 0; 0, (Real.sqrt 3 : ℝ) / 2, 0, 0]

theorem halfNet (us : Fin 1 → ℝ) :
    Matrix.diagonal ![1, 1 / 2] * phaseMatrix 1 2 us * dftMatrix 1 2
      = !![Complex.exp (2 * Real.pi * us 0 * Complex.I), 0; 0, 1 / 2] := by
  have h1 : phaseMatrix 1 2 us = Matrix.diagonal ![Complex.exp (2 * Real.pi * us 0 * Complex.I), 1] := by
    unfold phaseMatrix
    congr 1
    funext i
    fin_cases i <;> simp
  have h2 : dftMatrix 1 2 = 1 := by
    ext i j
    fin_cases i <;> fin_cases j <;> simp [dftMatrix]
  rw [h1, h2, mul_one, Matrix.diagonal_mul_diagonal]
  ext i j
  fin_cases i <;> fin_cases j <;> simp

theorem halfExpand_dilation (us : Fin 1 → ℝ) :
    IsDilation (rowsOf (Matrix.diagonal ![1, 1 / 2] * phaseMatrix 1 2 us * dftMatrix 1 2))
      (rowsOf (halfExpand !![Complex.exp (2 * Real.pi * us 0 * Complex.I), 0; 0, 1 / 2])) 2 2 := by
  have hp : (starRingEnd ℂ) (Complex.exp (2 * Real.pi * us 0 * Complex.I)) * Complex.exp (2 * Real.pi * us 0 * Complex.I) = 1 := by
    rw [← Complex.normSq_eq_conj_mul_self, Complex.normSq_eq_norm_sq]
    have : ‖Complex.exp (2 * Real.pi * us 0 * Complex.I)‖ = 1 := by
      rw [show (2 * Real.pi * us 0 * Complex.I : ℂ) = ((2 * Real.pi * us 0 : ℝ) : ℂ) * Complex.I by push_cast; ring]
      exact Complex.norm_exp_ofReal_mul_I _
    rw [this]
    simp
  have h3 : ((Real.sqrt 3 : ℝ) : ℂ) * ((Real.sqrt 3 : ℝ) : ℂ) = 3 := by
    rw [← Complex.ofReal_mul, Real.mul_self_sqrt (by norm_num)]
    norm_num
  rw [halfNet]
  generalize Complex.exp (2 * Real.pi * us 0 * Complex.I) = p at hp ⊢
  constructor
  · intro i hi j hj
    interval_cases i <;> interval_cases j <;> simp [mget, rowsOf, halfExpand]
  · intro a ha b hb
    interval_cases a <;> interval_cases b <;> simp [sum_range_succ, mget, rowsOf, halfExpand, hp]
    rw [map_ofNat]
    linear_combination h3 / 4

theorem halfExpands (n : ℕ) : ExpandsWithin halfExpand (Matrix.diagonal ![1, 1 / 2]) 1 n n := by
  intro (us : Fin 1 → ℝ) B' hB'
  refine ⟨_, halfExpand_dilation us, fun i j => ?_, fun i j => ?_⟩
  · have : ‖Complex.exp (2 * Real.pi * us 0 * Complex.I)‖ = 1 := by
      rw [show (2 * Real.pi * us 0 * Complex.I : ℂ) = ((2 * Real.pi * us 0 : ℝ) : ℂ) * Complex.I by push_cast; ring]
      exact Complex.norm_exp_ofReal_mul_I _
    have h3 : Real.sqrt 3 / 2 ≤ 1 := by
      have : Real.sqrt 3 ≤ 2 := by rw [Real.sqrt_le_left (by norm_num)]; norm_num
      linarith
    fin_cases i <;> fin_cases j <;> simp [halfExpand, this, abs_of_nonneg] <;> first | exact h3 | norm_num
  · have h0 : (0 : ℝ) ≤ (1 + 1 / 2 ^ 48) ^ n - 1 := sub_nonneg.mpr (one_le_pow₀ (by norm_num))
    change ∀ i j, ‖B' i j - (Matrix.diagonal ![(1 : ℂ), 1 / 2] * phaseMatrix 1 2 us * dftMatrix 1 2) i j‖ ≤ (1 + 1 / 2 ^ 48) ^ n - 1 at hB'
    rw [halfNet] at hB'
    have h00 := hB' 0 0
    have h01 := hB' 0 1
    have h10 := hB' 1 0
    have h11 := hB' 1 1
    generalize (1 + 1 / 2 ^ 48 : ℝ) ^ n - 1 = c at *
    fin_cases i <;> fin_cases j <;> simp_all [halfExpand]

theorem halfFloat : FloatBobs halfExpand halfFloatObj (Matrix.diagonal ![1, 1 / 2]) 0 30 := by
  refine ⟨by decide, by norm_num, by simp [halfFloatObj], by simp [halfFloatObj], by simp [halfFloatObj],
    by simp [halfFloatObj]; norm_num, ⟨1, -2, by norm_num, by norm_num, by simp [halfFloatObj]; norm_num⟩,
    ⟨⟨1, ![1, 1 / 2], 1⟩, ⟨one_mem _, one_mem _, fun i => by fin_cases i <;> simp, fun i j _ => ?_, ?_⟩,
      fun i => by fin_cases i <;> simp <;> norm_num⟩, ⟨_, rfl, by simp⟩, ?_⟩
  · fin_cases i <;> fin_cases j <;> simp_all <;> norm_num
  · rw [one_mul, mul_one]
    congr 1
    funext i
    fin_cases i <;> simp
  · exact halfExpands 30

theorem half_prob (p : ℂ) : lossyProb (rowsOf (halfExpand !![p, 0; 0, 1 / 2])) 2 [0, 1] [0, 1] = 1 / 4 := by
  have hE : (Fintype.piFinset fun _ : Fin 2 => range (List.sum [0, 1] + 1)).filter
      (fun E => ∑ i, E i + List.sum [0, 1] = List.sum [0, 1]) = {fun _ => 0} := by
    ext E
    simp [funext_iff, Fin.forall_fin_two]
    omega
  rw [lossyProb, hE, sum_singleton]
  have : scatteringPermanent (rowsOf (halfExpand !![p, 0; 0, 1 / 2])) [0, 1] ([0, 1] ++ List.ofFn fun _ : Fin 2 => 0)
      = 1 / 2 := by
    have hp : particles ([0, 1] ++ List.ofFn fun _ : Fin 2 => 0) = [1] := by decide
    have hq : particles [0, 1] = [1] := by decide
    unfold scatteringPermanent
    rw [hp, hq]
    change Matrix.permanent (Matrix.of fun (a b : Fin 1) => _) = _
    simp [Matrix.permanent, mget, rowsOf, halfExpand]
  rw [bosonProb, this]
  simp [factProd]
  norm_num

theorem half_law {eta : ℝ} (h : 0 ≤ eta) : approxLaw 1 0 eta
    (fun us => rowsOf (halfExpand !![Complex.exp (2 * Real.pi * us 0 * Complex.I), 0; 0, 1 / 2])) 2 [0, 1] [0, 1]
      = ENNReal.ofReal (eta / 4) := by
  have h0 : ∀ W, lossyProb W 2 [0, 0] [0, 1] = 0 := by
    intro W
    unfold lossyProb
    rw [filter_false_of_mem (by simp), sum_empty]
  have h1 := half_prob
  simp only [approxLaw, average, bunchedStates, if_neg one_ne_zero, List.range_one, List.map_cons, List.map_nil,
    List.sum_cons, List.sum_nil, add_zero, List.length_cons, List.length_nil, zero_add, Nat.cast_one, div_one,
    List.replicate_zero, List.nil_append, Nat.sub_self, List.drop_succ_cons, List.drop_zero, List.cons_append,
    expLoss, sum_range_succ, sum_range_zero, h0, h1, expUniform]
  simp [binomialWeight]
  rw [show (4 : ℝ≥0∞)⁻¹ = ENNReal.ofReal (1 / 4) by rw [ENNReal.ofReal_div_of_pos (by norm_num)]; simp, ← ENNReal.ofReal_mul h]
  congr 1
  ring

/-- A particle enters the second mode. Computed in floats, a sample shows it there with probability `3 / 16`, up to
`2 ^ -30`. -/
example : |((bobsSimulateF R (textbookArith R) (roundedPhases R) halfExpand (ryserSubPermanentsR R (textbookArith R) 8) 8
        halfFloatObj [0, 1] 5).prob (fun r => ∃ l, r = .ok l ∧ l[3]? = some [0, 1])).toReal - 3 / 16| ≤ 1 / 2 ^ 30 := by
  have h := C119_sample R (textbookArith R) (roundedPhases R) halfFloat (fuel := 8) [0, 1] rfl (by simp [halfFloatObj]) (by decide)
    (by simp [halfFloatObj]) (3 / 4) (by simp only [halfFloatObj]; norm_num)
    (fun us : Fin 1 → ℝ => rowsOf (halfExpand !![Complex.exp (2 * Real.pi * us 0 * Complex.I), 0; 0, 1 / 2])) 2
    halfExpand_dilation 5 3 (by decide) [0, 1] rfl
  have e0 : (approxLaw halfFloatObj.k (halfFloatObj.number + (List.take halfFloatObj.k [0, 1]).sum) (3 / 4)
      (fun us : Fin 1 → ℝ => rowsOf (halfExpand !![Complex.exp (2 * Real.pi * us 0 * Complex.I), 0; 0, 1 / 2])) 2 [0, 1] [0, 1])
        = ENNReal.ofReal (3 / 4 / 4) := half_law (by norm_num)
  rw [e0, ENNReal.toReal_ofReal (by norm_num), show (3 : ℝ) / 4 / 4 = 3 / 16 by norm_num] at h
  refine h.trans ?_
  have hb := entryBound_le (e := 30) (n := 1) (m := 4) (L := 2) (K := 300) (by decide) (by norm_num)
  have e1 : bobsFloatBound 30 2 halfFloatObj.k (halfFloatObj.number + [0, 1].sum)
      (halfFloatObj.number + (List.take halfFloatObj.k [0, 1]).sum) [0, 1]
      = (12 * 1 + 28 * 2) / 2 ^ 53 + versionBBound 4 1 (entryBound 30 1 4 2) := by
    simp [bobsFloatBound, boxSize, halfFloatObj]
  rw [e1, show halfFloatObj.threads = 2 from rfl, show Int.toNat 5 = 5 from rfl]
  generalize entryBound 30 1 4 2 = a at hb ⊢
  unfold versionBBound
  simp only [sum_range_succ, sum_range_zero, Nat.factorial]
  norm_num at hb ⊢
  linarith

end Verif
