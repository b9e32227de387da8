import Verif.Proofs.NormKept

/-! C37, C38, C57: the samplers built on particles that move independently. -/
namespace Verif

open Finset Matrix
open scoped ENNReal

variable {m : ℕ}

/-- `net` multiplies vectors of length `m` by `A`. -/
def NetworkOf (net : List ℂ → Py (List ℂ)) (A : Matrix (Fin m) (Fin m) ℂ) : Prop :=
  ∀ x : Fin m → ℂ, net (List.ofFn x) = .ok (List.ofFn (A *ᵥ x))

/-- Both network strategies of the package are of this kind; the lossy one is the default. -/
theorem networkOf_strategies (A : Matrix (Fin m) (Fin m) ℂ) (d : Svd m) (h : IsSvd A d) (fuel : ℕ) (hf : m < fuel) :
    NetworkOf (lossySimulate fuel d) A ∧ NetworkOf (losslessSimulate A) A :=
  ⟨fun x => (C36_lossy A d h x fuel hf).1, fun x => (C36_lossy A d h x fuel hf).2⟩

theorem NetworkOf.total {net : List ℂ → Py (List ℂ)} {A : Matrix (Fin m) (Fin m) ℂ} (h : NetworkOf net A) (x : List ℂ)
    (hx : x.length = m) : ∃ y, net x = .ok y ∧ y.length = m := by
  subst hx
  have : List.ofFn (fun i : Fin x.length => x[i]) = x := by simp
  have h' := h fun i => x[i]
  rw [this] at h'
  exact ⟨_, h', by simp⟩

/-- C37: with as many observed modes as the network has, no run raises, and every sample has one
entry per observed mode and at most `number_of_photons_left` particles. -/
theorem C37_shape {net : List ℂ → Py (List ℂ)} {A : Matrix (Fin m) (Fin m) ℂ} (h : NetworkOf net A) (hm : 0 < m) (k : ℤ)
    (S : List ℕ) (N : ℤ) (r : Py (List (List ℕ))) (hr : (fixedSimulate net m k S N).Runs r) :
    ∃ l, r = .ok l ∧ l.length = N.toNat ∧ ∀ T ∈ l, T.length = m ∧ T.sum ≤ k.toNat := by
  rw [fixedSimulate, fixedLoop_eq] at hr
  rcases Prog.repeatN_all (fixedSample_all net m hm h.total k S) _ r hr with ⟨l, h1, h2, h3⟩ | ⟨_, _, hf⟩
  · exact ⟨l, h1, h2, fun T hT => ⟨(h3 T hT).1, (h3 T hT).2.1⟩⟩
  · exact hf.elim

/-- C37: if the evolved states have norm at least 1, no particle gets lost. -/
theorem C37_exact {net : List ℂ → Py (List ℂ)} {A : Matrix (Fin m) (Fin m) ℂ} (h : NetworkOf net A) (hm : 0 < m) (k : ℤ)
    (S : List ℕ) (hA : ∀ us, 1 ≤ ∑ i, Complex.normSq ((A *ᵥ smeared m S.sum us) i)) (N : ℤ) (l : List (List ℕ))
    (hr : (fixedSimulate net m k S N).Runs (.ok l)) : ∀ T ∈ l, T.sum = k.toNat := by
  rw [fixedSimulate, fixedLoop_eq] at hr
  rcases Prog.repeatN_all (fixedSample_all net m hm h.total k S) _ _ hr with ⟨l', h1, h2, h3⟩ | ⟨_, _, hf⟩
  · injection h1 with h1
    subst h1
    refine fun T hT => (h3 T hT).2.2 fun us y hy => ?_
    rw [h] at hy
    injection hy with hy
    subst hy
    rw [sum_map_ofFn]
    exact hA us
  · exact hf.elim

/-- C37: in particular, nothing gets lost in a unitary network for inputs of 1 to `m` particles. -/
theorem C37_unitary {net : List ℂ → Py (List ℂ)} {A : Matrix (Fin m) (Fin m) ℂ} (h : NetworkOf net A)
    (hA : A ∈ unitaryGroup (Fin m) ℂ) (k : ℤ) (S : List ℕ) (h1 : 1 ≤ S.sum) (h2 : S.sum ≤ m) (N : ℤ) (l : List (List ℕ))
    (hr : (fixedSimulate net m k S N).Runs (.ok l)) : ∀ T ∈ l, T.sum = k.toNat := by
  refine C37_exact h (by omega) k S (fun us => ?_) N l hr
  rw [normSq_unitary A hA, sum_smeared, min_eq_left h2, div_self]
  exact_mod_cast (by omega : S.sum ≠ 0)

/-- A concrete case: the swap of two modes, two particles in, three out in each of four samples. -/
example (l : List (List ℕ)) (hr : (fixedSimulate (losslessSimulate !![0, 1; 1, 0]) 2 3 [1, 1] 4).Runs (.ok l)) :
    l.length = 4 ∧ ∀ T ∈ l, T.length = 2 ∧ T.sum = 3 := by
  have hA : (!![0, 1; 1, 0] : Matrix (Fin 2) (Fin 2) ℂ) ∈ unitaryGroup (Fin 2) ℂ := by
    rw [mem_unitaryGroup_iff]
    ext i j
    fin_cases i <;> fin_cases j <;> simp [Matrix.mul_apply, star_eq_conjTranspose]
  have hn : NetworkOf (losslessSimulate !![0, 1; 1, 0]) (!![0, 1; 1, 0] : Matrix (Fin 2) (Fin 2) ℂ) := by
    obtain ⟨d, hd⟩ := svd_exists (!![0, 1; 1, 0] : Matrix (Fin 2) (Fin 2) ℂ)
    exact (networkOf_strategies _ d hd 3 (by decide)).2
  obtain ⟨l', h1, h2, h3⟩ := C37_shape hn (by decide) 3 [1, 1] 4 _ hr
  injection h1 with h1
  subst h1
  exact ⟨h2, fun T hT => ⟨(h3 T hT).1, C37_unitary hn hA 3 [1, 1] (by decide) (by decide) 4 l hr T hT⟩⟩

/-- C37, an edge case: the prepared state of an input without particles is NaN everywhere, and all
`number_of_photons_left` particles are put into mode 0, on every run. -/
theorem C37_vacuum {net : List ℂ → Py (List ℂ)} {A : Matrix (Fin m) (Fin m) ℂ} (h : NetworkOf net A) (hm : 0 < m) (k : ℤ)
    (S : List ℕ) (hS : S.sum = 0) (N : ℤ) (l : List (List ℕ)) (hr : (fixedSimulate net m k S N).Runs (.ok l)) :
    ∀ T ∈ l, T = k.toNat :: List.replicate (m - 1) 0 := by
  rw [fixedSimulate, fixedLoop_eq] at hr
  have hs : (fixedSample net m k S).All (fun T => T = k.toNat :: List.replicate (m - 1) 0) fun _ => False := by
    unfold fixedSample
    refine Prog.all_bind (randVec_all m) fun us hus => ?_
    simp only [preparedState, hS, if_true]
    obtain ⟨y, h1, h2⟩ := h.total (List.replicate m 0) (by simp)
    rw [h1]
    simp only [Prog.lift_def, Prog.bind_eq, Prog.done_ok_bind]
    rw [h2, fixedOutcome]
    obtain ⟨n, rfl⟩ : ∃ n, m = n + 1 := ⟨m - 1, by omega⟩
    refine Prog.all_mono (fixedPhotons_nan n k.toNat _ (by simp)) ?_ fun _ h => h
    rintro T rfl
    simp [List.replicate_succ]
  rcases Prog.repeatN_all hs _ _ hr with ⟨l', h1, -, h3⟩ | ⟨_, _, hf⟩
  · injection h1 with h1; subst h1; exact h3
  · exact hf.elim

/-- C37: a number of observed modes other than that of the network is rejected. -/
theorem C37_modes (A : Matrix (Fin m) (Fin m) ℂ) (d : Svd m) (fuel M : ℕ) (hM : M ≠ m) (k : ℤ) (S : List ℕ) (N : ℤ)
    (hN : 0 < N) (r : Py (List (List ℕ))) :
    ((fixedSimulate (lossySimulate fuel d) M k S N).Runs r → r = .error .valueError) ∧
    ((fixedSimulate (losslessSimulate A) M k S N).Runs r → r = .error .valueError) := by
  obtain ⟨n, hn⟩ : ∃ n, N.toNat = n + 1 := ⟨N.toNat - 1, by omega⟩
  have key : ∀ net : List ℂ → Py (List ℂ), (∀ x, x.length = M → net x = .error .valueError) →
      (fixedSimulate net M k S N).Runs r → r = .error .valueError := by
    intro net hnet hr
    rw [fixedSimulate, hn, fixedLoop] at hr
    have hs : (fixedSample net M k S).All (fun _ => False) fun e => e = .valueError := by
      unfold fixedSample
      refine Prog.all_bind (Prog.all_mono (randVec_all M) (fun _ h => h) (F := fun e => e = .valueError)
        fun _ h => h.elim) fun us hus => ?_
      unfold preparedState
      by_cases h0 : S.sum = 0
      · simp only [h0, if_true]
        rw [hnet _ (by simp)]
        exact Prog.all_done_error rfl
      · simp only [h0, if_false]
        rw [hnet _ (by rw [withPhases_length _ _ (by simp [hus.1])]; simp)]
        exact Prog.all_done_error rfl
    rcases Prog.all_bind hs (J := fun _ => False) (fun _ h => h.elim) r hr with ⟨_, _, h⟩ | ⟨e, h1, h2⟩
    · exact h.elim
    · rw [h1, h2]
  exact ⟨key _ fun x hx => (C36_length A d x fuel (by omega)).1, key _ fun x hx => (C36_length A d x fuel (by omega)).2⟩

/-- C38: for mode probabilities `p` with sum at most 1 the outcome is the state `T` with the
multinomial probability. -/
theorem C38_outcome (p : List ℝ) (hne : p ≠ []) (h0 : ∀ x ∈ p, 0 ≤ x) (h1 : p.sum ≤ 1) (k : ℤ) (T : List ℕ)
    (hT : T.length = p.length) (hk : T.sum ≤ k.toNat) :
    (fixedOutcome p.length k (.vals p)).prob (fun r => r = .ok T) = ENNReal.ofReal (multinomialProb p k.toNat T) :=
  fixedOutcome_law p hne h0 h1 k T hT hk

example : (fixedOutcome 2 3 (.vals [1 / 2, 1 / 4])).prob (fun r => r = .ok [1, 1]) = ENNReal.ofReal (3 / 16) := by
  have := C38_outcome [1 / 2, 1 / 4] (by simp) (by simp) (by simp; norm_num) 3 [1, 1] rfl (by decide)
  rw [show ([1 / 2, 1 / 4] : List ℝ).length = 2 from rfl] at this
  rw [this]
  congr 1
  simp [multinomialProb, factProd, Nat.factorial]
  norm_num

/-- C38: the prepared state is a unit vector for inputs of 1 to `m` particles, whatever the
phases, and unitary networks keep norms. -/
theorem C38_norm (n : ℕ) (h1 : 1 ≤ n) (h2 : n ≤ m) (us : Fin m → ℝ) (A : Matrix (Fin m) (Fin m) ℂ)
    (hA : A ∈ unitaryGroup (Fin m) ℂ) :
    preparedState m n = .vals (List.ofFn fun i : Fin m => if (i : ℕ) < n then 1 / Real.sqrt n else 0) ∧
    withPhases (List.ofFn us) (List.ofFn fun i : Fin m => if (i : ℕ) < n then 1 / Real.sqrt n else 0)
      = List.ofFn (smeared m n us) ∧
    ∑ i, Complex.normSq (smeared m n us i) = 1 ∧
    ∑ i, Complex.normSq ((A *ᵥ smeared m n us) i) = 1 := by
  have e : (List.ofFn fun i : Fin m => if (i : ℕ) < n then 1 / Real.sqrt n else 0)
      = (List.range m).map fun i => (if i < n then 1 else 0) / Real.sqrt n := by
    refine List.ext_getElem (by simp) fun i h1 h2 => ?_
    simp only [List.getElem_ofFn, List.getElem_map, List.getElem_range]
    split_ifs <;> simp
  have e2 : ∑ i, Complex.normSq (smeared m n us i) = 1 := by
    rw [sum_smeared, min_eq_left h2, div_self]
    exact_mod_cast (by omega : n ≠ 0)
  refine ⟨?_, ?_, e2, by rw [normSq_unitary A hA, e2]⟩
  · rw [preparedState, if_neg (by omega), e]
  · rw [e, withPhases_ofFn]

theorem fixedSample_law {net : List ℂ → Py (List ℂ)} {A : Matrix (Fin m) (Fin m) ℂ} (h : NetworkOf net A) (hm : 0 < m)
    (d : Svd m) (hd : IsSvd A d) (hs : ∀ i, d.s i ≤ 1) (k : ℤ) (S : List ℕ) (hS : 1 ≤ S.sum) (T : List ℕ)
    (hT : T.length = m) (hk : T.sum ≤ k.toNat) :
    (fixedSample net m k S).prob (fun r => r = .ok T)
      = expUniform m fun us => ENNReal.ofReal (multinomialProb
          (List.ofFn fun i => Complex.normSq ((A *ᵥ smeared m S.sum us) i)) k.toNat T) := by
  unfold Prog.prob fixedSample
  rw [Prog.bind_eq, Prog.wp_bind, randVec_wp]
  refine expUniform_congr _ _ _ fun us => ?_
  rw [Prog.post, preparedState, if_neg (by omega)]
  simp only
  rw [withPhases_ofFn, h]
  simp only [Prog.lift_def, Prog.bind_eq, Prog.done_ok_bind]
  have e : modeProbabilities (List.ofFn (A *ᵥ smeared m S.sum us))
      = List.ofFn fun i => Complex.normSq ((A *ᵥ smeared m S.sum us) i) := by
    rw [modeProbabilities, List.map_ofFn]; rfl
  rw [e]
  have hlen : (List.ofFn fun i => Complex.normSq ((A *ᵥ smeared m S.sum us) i)).length = m := by simp
  have := fixedOutcome_law (List.ofFn fun i => Complex.normSq ((A *ᵥ smeared m S.sum us) i))
    (by intro h0; rw [h0] at hlen; simp at hlen; omega)
    (by intro x hx; obtain ⟨i, rfl⟩ := List.mem_ofFn.mp hx; exact Complex.normSq_nonneg _)
    (by rw [List.sum_ofFn]; exact (normSq_contraction A d hd hs _).trans (sum_smeared_le _ us)) k T (by rw [hT, hlen]) hk
  rw [hlen] at this
  exact this

/-- C38, whole call: each sample equals `T` with the multinomial probability for the squared
amplitudes of the evolved state, averaged over independent uniform phases of the `m` modes. -/
theorem C38_sample {net : List ℂ → Py (List ℂ)} {A : Matrix (Fin m) (Fin m) ℂ} (h : NetworkOf net A) (hm : 0 < m)
    (d : Svd m) (hd : IsSvd A d) (hs : ∀ i, d.s i ≤ 1) (k : ℤ) (S : List ℕ) (hS : 1 ≤ S.sum) (N : ℤ) (i : ℕ)
    (hi : i < N.toNat) (T : List ℕ) (hT : T.length = m) (hk : T.sum ≤ k.toNat) :
    (fixedSimulate net m k S N).prob (fun r => ∃ l, r = .ok l ∧ l[i]? = some T)
      = expUniform m fun us => ENNReal.ofReal (multinomialProb
          (List.ofFn fun i => Complex.normSq ((A *ᵥ smeared m S.sum us) i)) k.toNat T) := by
  rw [fixedSimulate, fixedLoop_eq, Prog.repeatN_marginal (fixedSample_all net m hm h.total k S) _ i hi T]
  exact fixedSample_law h hm d hd hs k S hS T hT hk

/-! ### Uniform losses -/

theorem fixedFirst (net : List ℂ → Py (List ℂ)) (M : ℕ) (k : ℤ) (S : List ℕ) :
    ((fixedSimulate net M k S 1).bind fun res => .done (pyGetN res 0)) = fixedSample net M k S := by
  have : ∀ p : Prog (List ℕ), (p.bind fun s => .done (.ok s)) = p := by
    intro p
    induction p with
    | done r => cases r <;> rfl
    | uniform k ih => rw [Prog.bind]; congr 1; funext u; exact ih u
    | randint n k ih => rw [Prog.bind]; congr 1; funext u; exact ih u
    | choice n k ih => rw [Prog.bind]; congr 1; funext u; exact ih u
    | shuffle n k ih => rw [Prog.bind]; congr 1; funext u; exact ih u
  rw [fixedSimulate, fixedLoop_eq, show (1 : ℤ).toNat = 1 from rfl, Prog.repeatN, Prog.repeatN, Prog.bind_eq,
    Prog.bind_assoc]
  exact this _

/-- One sample of the uniform-loss sampler. -/
noncomputable def uniformSample (net : List ℂ → Py (List ℂ)) (M : ℕ) (eta : ℝ) (S : List ℕ) : Prog (List ℕ) :=
  .choice (separableWeights S.sum eta) fun l => fixedSample net M l S

theorem uniformLoop_eq (net : List ℂ → Py (List ℂ)) (M : ℕ) (eta : ℝ) (S : List ℕ) (n : ℕ) :
    uniformLoop net M eta S n = (uniformSample net M eta S).repeatN n := by
  induction n with
  | zero => rfl
  | succ n ih =>
    rw [uniformLoop, ih, Prog.repeatN, uniformSample]
    simp only [Prog.categorical, Prog.bind_eq, Prog.bind, Prog.pure_eq, Prog.lift_def]
    congr 1
    funext l
    rw [← fixedFirst, Prog.bind_assoc, ← uniformSample]

theorem separableWeights_eq (n : ℕ) (eta : ℝ) : separableWeights n eta = gccbWeights n eta :=
  List.map_congr_left fun l _ => by ring

theorem separableWeights_prob (n : ℕ) {eta : ℝ} (h0 : 0 ≤ eta) (h1 : eta ≤ 1) :
    Prog.IsProbVector (separableWeights n eta) := by
  rw [separableWeights_eq]
  exact ⟨gccbWeights_nonneg n h0 h1, gccbWeights_sum n eta⟩

theorem uniformSample_all {net : List ℂ → Py (List ℂ)} {A : Matrix (Fin m) (Fin m) ℂ} (h : NetworkOf net A) (hm : 0 < m)
    {eta : ℝ} (h0 : 0 ≤ eta) (h1 : eta ≤ 1) (S : List ℕ) :
    (uniformSample net m eta S).All (fun T => T.length = m ∧ T.sum ≤ S.sum) fun _ => False := by
  refine Prog.all_choice (fun h => h (separableWeights_prob _ h0 h1)) fun l hl _ => ?_
  refine Prog.all_mono (fixedSample_all net m hm h.total l S) (fun T hT => ⟨hT.1, ?_⟩) fun _ h => h
  rw [separableWeights_eq, gccbWeights_length] at hl
  have := hT.2.1
  rw [Int.toNat_natCast] at this
  omega

/-- C57: no run of the uniform-loss sampler raises; every sample has one entry per mode and at most
as many particles as the input. -/
theorem C57_shape {A : Matrix (Fin m) (Fin m) ℂ} (hm : 0 < m) (d : Svd m) (hd : IsSvd A d) (fuel : ℕ) (hf : m < fuel)
    (eta : ℝ) (h0 : 0 ≤ eta) (h1 : eta ≤ 1) (S : List ℕ) (N : ℤ) (r : Py (List (List ℕ)))
    (hr : (uniformSimulate fuel d m eta S N).Runs r) :
    ∃ l, r = .ok l ∧ l.length = N.toNat ∧ ∀ T ∈ l, T.length = m ∧ T.sum ≤ S.sum := by
  rw [uniformSimulate, uniformLoop_eq] at hr
  rcases Prog.repeatN_all (uniformSample_all (networkOf_strategies A d hd fuel hf).1 hm h0 h1 S) _ r hr with h | ⟨_, _, h⟩
  · exact h
  · exact h.elim

/-- C57: each sample equals `T` with probability
`∑_l binom(n,l) η^l (1-η)^(n-l) · P_l(T)`, where `P_l` is the phase-averaged multinomial law for `l`
particles and the sum starts at the number of particles of `T`. -/
theorem C57_sample {A : Matrix (Fin m) (Fin m) ℂ} (hm : 0 < m) (d : Svd m) (hd : IsSvd A d) (hs : ∀ i, d.s i ≤ 1)
    (fuel : ℕ) (hf : m < fuel) (eta : ℝ) (h0 : 0 ≤ eta) (h1 : eta ≤ 1) (S : List ℕ) (hS : 1 ≤ S.sum) (N : ℤ) (i : ℕ)
    (hi : i < N.toNat) (T : List ℕ) (hT : T.length = m) :
    (uniformSimulate fuel d m eta S N).prob (fun r => ∃ l, r = .ok l ∧ l[i]? = some T)
      = ∑ l ∈ Icc T.sum S.sum, ENNReal.ofReal ((S.sum.choose l : ℝ) * eta ^ l * (1 - eta) ^ (S.sum - l)) *
          expUniform m fun us => ENNReal.ofReal (multinomialProb
            (List.ofFn fun i => Complex.normSq ((A *ᵥ smeared m S.sum us) i)) l T) := by
  have hn := (networkOf_strategies A d hd fuel hf).1
  rw [uniformSimulate, uniformLoop_eq, Prog.repeatN_marginal (uniformSample_all hn hm h0 h1 S) _ i hi T, Prog.prob,
    uniformSample, Prog.wp, if_pos (separableWeights_prob _ h0 h1), separableWeights_eq, gccbWeights_length]
  symm
  refine Eq.trans ?_ (sum_subset (s₁ := Icc T.sum S.sum) ?_ ?_)
  · refine sum_congr rfl fun l hl => ?_
    rw [mem_Icc] at hl
    rw [gccbWeights_getD _ _ _ hl.2, binomialWeight]
    congr 1
    have := fixedSample_law hn hm d hd hs l S hS T hT (by simpa using hl.1)
    rw [Int.toNat_natCast] at this
    exact this.symm
  · intro l hl
    rw [mem_Icc] at hl
    rw [mem_range]; omega
  · intro l hl hl'
    rw [mem_range] at hl
    rw [mem_Icc] at hl'
    have : (fixedSample (lossySimulate fuel d) m l S).prob (fun r => r = .ok T) = 0 := by
      rw [Prog.prob, Prog.wp_congr _ _ (fun _ => 0), Prog.wp_const]
      intro r hr
      rw [if_neg]
      rintro rfl
      rcases fixedSample_all _ m hm hn.total l S _ hr with ⟨a, h2, h3⟩ | ⟨_, _, h⟩
      · injection h2 with h2
        subst h2
        have := h3.2.1
        rw [Int.toNat_natCast] at this
        omega
      · exact h
    exact mul_eq_zero_of_right _ this

/-- A concrete case: half of the amplitude transmitted, half of the particles lost before. -/
example : (uniformSimulate 2 halfSvd 1 (1 / 2) [1] 3).prob (fun r => ∃ l, r = .ok l ∧ l[2]? = some [1])
    = ENNReal.ofReal (1 / 8) := by
  have h1 : ∀ i, halfSvd.s i ≤ 1 := fun i => by simp only [halfSvd]; norm_num
  rw [C57_sample (by decide) halfSvd halfSvd_isSvd h1 2 (by decide) (1 / 2) (by norm_num) (by norm_num) [1] (by decide)
    3 2 (by decide) [1] rfl]
  simp only [List.sum_cons, List.sum_nil, add_zero, Icc_self, sum_singleton, expUniform]
  have e : ∀ us : Fin 1 → ℝ, (List.ofFn fun i =>
      Complex.normSq (((Matrix.of fun (_ _ : Fin 1) => (1 / 2 : ℂ)) *ᵥ smeared 1 1 us) i)) = [1 / 4] := by
    intro us
    have h3 := normSq_smeared (m := 1) 1 us 0
    simp only [List.ofFn_succ, List.ofFn_zero, mulVec, dotProduct, Fin.sum_univ_one, Matrix.of_apply,
      Complex.normSq_mul, h3]
    norm_num
  simp only [e, multinomialProb, factProd]
  norm_num
  rw [← ENNReal.ofReal_mul (by norm_num)]
  norm_num

end Verif
