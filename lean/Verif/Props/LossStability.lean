import Verif.Proofs.LossStability

/-!
C121: how much the law of the samples depends on the losses: the tolerance of the samplers, and the rounded constructor.
-/
namespace Verif

open Finset Prog Matrix
open scoped ENNReal

variable {m : ℕ}

/-! ### The law of the losses -/

/-- C121: if each of the particles of `S` survives with probability `x` instead of `y`, the probability of an event changes by
at most `n |x - y|`, for `n` particles. `g L` is the probability of the event given the survivors. -/
theorem C121_losses {x y : ℝ} (hx0 : 0 ≤ x) (hx1 : x ≤ 1) (hy0 : 0 ≤ y) (hy1 : y ≤ 1) (S : List ℕ) (g : List ℕ → ℝ≥0∞)
    (hg : ∀ L, L.length = S.length → g L ≤ 1) :
    |(expLoss x S g).toReal - (expLoss y S g).toReal| ≤ S.sum * |x - y| := by
  have hfin : ∀ z : ℝ, 0 ≤ z → z ≤ 1 → expLoss z S g ≠ ⊤ := fun z h0 h1 =>
    ne_top_of_le_ne_top ENNReal.one_ne_top ((expLoss_mono' S hg).trans (expLoss_const h0 h1 S 1).le)
  have key : ∀ x y : ℝ, 0 ≤ x → x ≤ 1 → 0 ≤ y → y ≤ 1 → (expLoss x S g).toReal ≤ (expLoss y S g).toReal + S.sum * |x - y| := by
    intro x y hx0 hx1 hy0 hy1
    have := ENNReal.toReal_mono (ENNReal.add_ne_top.mpr ⟨hfin y hy0 hy1, ENNReal.ofReal_ne_top⟩)
      (expLoss_stable hx0 hx1 hy0 hy1 S g hg)
    rwa [ENNReal.toReal_add (hfin y hy0 hy1) ENNReal.ofReal_ne_top, ENNReal.toReal_ofReal (by positivity)] at this
  have h1 := key x y hx0 hx1 hy0 hy1
  have h2 := key y x hy0 hy1 hx0 hx1
  rw [abs_sub_comm y x] at h2
  rw [abs_le]
  constructor <;> linarith

section

variable {A : Matrix (Fin m) (Fin m) ℂ} {d : Svd m} (hd : IsSvd A d) (hd1 : ∀ i, d.s i ≤ 1) (hm : 0 < m) {k : ℕ} (hk : k ≤ m)
  {W : (Fin k → ℝ) → List (List ℂ)} {b : ℕ}
  (hW : ∀ us, IsDilation (rowsOf (A * phaseMatrix k m us * dftMatrix k m)) (W us) m b)
  {S : List ℕ} (hS : S.length = m) (p : ℕ) (𝒯 : Finset (List ℕ)) (h𝒯 : ∀ T ∈ 𝒯, T.length = m)

include hd hd1 hm hk hW hS h𝒯 in
/-- C121: the total variation distance between the laws of the approximation for the transmissivities `x` and `y` is at most
`n |x - y|`, for `n` particles. -/
theorem C121_law {x y : ℝ} (hx0 : 0 ≤ x) (hx1 : x ≤ 1) (hy0 : 0 ≤ y) (hy1 : y ≤ 1) :
    1 / 2 * ∑ T ∈ 𝒯, |(approxLaw k p x W b S T).toReal - (approxLaw k p y W b S T).toReal|
      ≤ (p + (S.drop k).sum : ℕ) * |x - y| := by
  have hfin : ∀ z : ℝ, 0 ≤ z → z ≤ 1 → ∀ T ∈ 𝒯, approxLaw k p z W b S T ≠ ⊤ := fun z h0 h1 T hT => by
    have := approxLaw_le hd hd1 hm hk hW hS p {T} (by simpa using h𝒯 T hT) h0 h1
    rw [sum_singleton] at this
    exact ne_top_of_le_ne_top ENNReal.one_ne_top this
  have key : ∀ x y : ℝ, 0 ≤ x → x ≤ 1 → 0 ≤ y → y ≤ 1 → ∀ s ⊆ 𝒯, ∑ T ∈ s, (approxLaw k p x W b S T).toReal
      ≤ ∑ T ∈ s, (approxLaw k p y W b S T).toReal + (p + (S.drop k).sum : ℕ) * |x - y| := by
    intro x y hx0 hx1 hy0 hy1 s hs
    have h1 := approxLaw_stable hd hd1 hm hk hW hS p s (fun T hT => h𝒯 T (hs hT)) hx0 hx1 hy0 hy1
    have hf : ∀ z : ℝ, 0 ≤ z → z ≤ 1 → ∑ T ∈ s, approxLaw k p z W b S T ≠ ⊤ := fun z h0 h1 =>
      ne_top_of_le_ne_top ENNReal.one_ne_top (approxLaw_le hd hd1 hm hk hW hS p s (fun T hT => h𝒯 T (hs hT)) h0 h1)
    have h2 := ENNReal.toReal_mono (ENNReal.add_ne_top.mpr ⟨hf y hy0 hy1, ENNReal.ofReal_ne_top⟩) h1
    rwa [ENNReal.toReal_add (hf y hy0 hy1) ENNReal.ofReal_ne_top, ENNReal.toReal_ofReal (by positivity),
      ENNReal.toReal_sum fun T hT => hfin x hx0 hx1 T (hs hT), ENNReal.toReal_sum fun T hT => hfin y hy0 hy1 T (hs hT)] at h2
  set f := fun T => (approxLaw k p x W b S T).toReal with hf
  set g := fun T => (approxLaw k p y W b S T).toReal with hg
  have h1 := key x y hx0 hx1 hy0 hy1 (𝒯.filter fun T => g T ≤ f T) (filter_subset _ _)
  have h2 := key y x hy0 hy1 hx0 hx1 (𝒯.filter fun T => ¬ g T ≤ f T) (filter_subset _ _)
  rw [abs_sub_comm y x] at h2
  change 1 / 2 * ∑ T ∈ 𝒯, |f T - g T| ≤ _
  have e : ∑ T ∈ 𝒯, |f T - g T| = ∑ T ∈ 𝒯.filter (fun T => g T ≤ f T), (f T - g T)
      + ∑ T ∈ 𝒯.filter (fun T => ¬ g T ≤ f T), (g T - f T) := by
    rw [← sum_filter_add_sum_filter_not 𝒯 (fun T => g T ≤ f T)]
    congr 1
    · exact sum_congr rfl fun T hT => abs_of_nonneg (by have := (mem_filter.mp hT).2; linarith)
    · refine sum_congr rfl fun T hT => ?_
      rw [abs_of_nonpos (by have := (mem_filter.mp hT).2; linarith)]
      ring
  rw [e, sum_sub_distrib, sum_sub_distrib]
  linarith

include hd hd1 hm hk hW hS in
/-- C121: the probability of each result changes by at most `n |x - y|`. -/
theorem C121_point (T : List ℕ) (hT : T.length = m) {x y : ℝ} (hx0 : 0 ≤ x) (hx1 : x ≤ 1) (hy0 : 0 ≤ y) (hy1 : y ≤ 1) :
    |(approxLaw k p x W b S T).toReal - (approxLaw k p y W b S T).toReal| ≤ (p + (S.drop k).sum : ℕ) * |x - y| := by
  have hT' : ∀ U ∈ ({T} : Finset (List ℕ)), U.length = m := by simpa using hT
  have hfin : ∀ z : ℝ, 0 ≤ z → z ≤ 1 → approxLaw k p z W b S T ≠ ⊤ := fun z h0 h1 => by
    have := approxLaw_le hd hd1 hm hk hW hS p {T} hT' h0 h1
    rw [sum_singleton] at this
    exact ne_top_of_le_ne_top ENNReal.one_ne_top this
  have key : ∀ x y : ℝ, 0 ≤ x → x ≤ 1 → 0 ≤ y → y ≤ 1 → (approxLaw k p x W b S T).toReal
      ≤ (approxLaw k p y W b S T).toReal + (p + (S.drop k).sum : ℕ) * |x - y| := by
    intro x y hx0 hx1 hy0 hy1
    have h1 := approxLaw_stable hd hd1 hm hk hW hS p {T} hT' hx0 hx1 hy0 hy1
    rw [sum_singleton, sum_singleton] at h1
    have h2 := ENNReal.toReal_mono (ENNReal.add_ne_top.mpr ⟨hfin y hy0 hy1, ENNReal.ofReal_ne_top⟩) h1
    rwa [ENNReal.toReal_add (hfin y hy0 hy1) ENNReal.ofReal_ne_top, ENNReal.toReal_ofReal (by positivity)] at h2
  have h1 := key x y hx0 hx1 hy0 hy1
  have h2 := key y x hy0 hy1 hx0 hx1
  rw [abs_sub_comm y x] at h2
  rw [abs_le]
  constructor <;> linarith

end

/-! ### The tolerance -/

section

variable {M A : Matrix (Fin m) (Fin m) ℂ} {d : Svd m} {cpu : ℕ} {k t : ℤ} {l eta : ℝ} {K th : ℕ}
  {svd : Matrix (Fin m) (Fin m) ℂ → Svd m} {fuel : ℕ} (h : BobsSetup M d cpu k t A l eta K th) (hsvd : ∀ B, IsSvd B (svd B))
  {calls : List (List ℕ × ℤ)} {o : BobsObj m} (hh : BobsHistory svd (ryserSubPermanents fuel) fuel d cpu k t calls o)
  (hp : ∀ c ∈ calls, ∀ x ∈ c.1.take K, x = 0)
  (S : List ℕ) (hS : S.length = m) (N : ℤ) (hN : 1 ≤ N) (hf : (S.sum + 1) ^ m ≤ fuel) (hf' : m < fuel)
  (i : ℕ) (hi : i < N.toNat) (𝒯 : Finset (List ℕ)) (h𝒯 : ∀ T ∈ 𝒯, T.length = m)

include h hsvd hh hp hS hN hf hf' hi h𝒯 in
/-- C121: the sampler neglects extracted losses `l` up to `10^-8` (C58). The total variation distance between the law of a
sample and the law of the approximation with the losses `l` is at most `n · l ≤ n · 10^-8` then, and zero otherwise. -/
theorem C121_tolerance (W : (Fin K → ℝ) → List (List ℂ)) (b : ℕ)
    (hW : ∀ us, IsDilation (rowsOf (A * phaseMatrix K m us * dftMatrix K m)) (W us) m b) :
    1 / 2 * ∑ T ∈ 𝒯, |((bobsSimulate svd (ryserSubPermanents fuel) fuel o S N).prob
        fun r => ∃ samples o', r = .ok (samples, o') ∧ samples[i]? = some T).toReal
          - (approxLaw K (S.take K).sum (1 - l) W b S T).toReal| ≤ if l ≤ 1e-8 then S.sum * l else 0 := by
  obtain ⟨h3, -, -, -, h7⟩ := hh.inv h
  obtain ⟨d', hd', hd1⟩ := h3.contraction
  have hl0 : 0 ≤ l := h7 ▸ h3.loss0
  have hl1 : l ≤ 1 := h7 ▸ h3.loss1
  rw [sum_congr rfl fun T hT => by rw [C58_sample h hsvd hh hp S hS N hN hf hf' W b hW i hi T (h𝒯 T hT)]]
  have hsum : (S.take K).sum + (S.drop K).sum = S.sum := by rw [← List.sum_append, List.take_append_drop]
  have he0 : 0 ≤ eta := by rw [h.left]; split_ifs <;> linarith
  have he1 : eta ≤ 1 := by rw [h.left]; split_ifs <;> linarith
  have := C121_law hd' hd1 h3.pos h.modes_le hW hS (S.take K).sum 𝒯 h𝒯 he0 he1 (sub_nonneg.mpr hl1) (by linarith : 1 - l ≤ 1)
  rw [hsum] at this
  refine this.trans (le_of_eq ?_)
  rw [h.left]
  split_ifs
  · rw [sub_sub_cancel, abs_of_nonneg hl0]
  · rw [sub_self, abs_zero, mul_zero]

include h hsvd hh hp hS hN hf hf' hi h𝒯 in
/-- C121: the bound of C115 for all extracted losses `l`: for one particle in each of the `K` approximated modes, the total
variation distance between the law of a sample and the exact output law of the lossy network is at most
`(1 - l)² (K - 1) / 2`, plus `n · l` if `l ≤ 10^-8`. -/
theorem C121_distance (hK : 0 < K) (hones : S.take K = List.replicate K 1)
    (W : List (List ℂ)) (b : ℕ) (hW : IsDilation (rowsOf M) W m b) :
    1 / 2 * ∑ T ∈ 𝒯, |((bobsSimulate svd (ryserSubPermanents fuel) fuel o S N).prob
        fun r => ∃ samples o', r = .ok (samples, o') ∧ samples[i]? = some T).toReal - lossyProb W b S T|
      ≤ (1 - l) ^ 2 * (K - 1) / 2 + if l ≤ 1e-8 then S.sum * l else 0 := by
  obtain ⟨h3, -, -, -, h7⟩ := hh.inv h
  obtain ⟨d', hd', hd1⟩ := h3.contraction
  have hl0 : 0 ≤ l := h7 ▸ h3.loss0
  have hl1 : l ≤ 1 := h7 ▸ h3.loss1
  have hdil := fun us => smeared_dilation h.modes_le (expanded_isDilation hd' hd1) us
  have h1 := C121_tolerance h hsvd hh hp S hS N hN hf hf' i hi 𝒯 h𝒯 _ m hdil
  have hsum : (S.take K).sum = K := by rw [hones]; simp
  rw [hsum] at h1
  have h2 := approx_distance hd' hd1 (sub_nonneg.mpr hl1) (by linarith : 1 - l ≤ 1) hK h.modes_le hS hones hdil
    (W := W) (b := b) (by rw [← h.split]; exact hW) 𝒯 h𝒯
  refine le_trans ?_ (add_le_add h2 h1)
  rw [← mul_add, ← sum_add_distrib]
  refine mul_le_mul_of_nonneg_left (sum_le_sum fun T _ => ?_) (by norm_num)
  rw [add_comm]
  exact abs_sub_le _ _ _

end

/-! ### The rounded constructor -/

section

variable (R : Rounding) (C : ComplexArith) (Φ : PhaseArith)
  {d : Svd m} {V U A : Matrix (Fin m) (Fin m) ℂ} {e₀ c : ℕ} {M : ℝ} (h : SvdWithin d V U e₀) (hm0 : 0 < m)
  (hM : IsGreatest (Set.range fun i => d.s i ^ 2) M) (hM1 : 1 / 2 ^ 48 ≤ M)

include h hm0 hM hM1 in
/-- C121: constructor and `simulate` in floating-point arithmetic, from the computed decomposition of the network to the
samples. Each sample equals `T` with the probability of the approximation for the exact network: the transmissivity is the
largest squared singular value `M`, the other factor is `A`; up to the bound of C119 and `n (10^-8 + 2^-51)`. -/
theorem C121_floats (hm : m + m ≤ 2 ^ 20) (hc : 1 ≤ c * M)
    (hA : V * Matrix.diagonal (fun i => (d.s i : ℂ)) * U = ((Real.sqrt M : ℝ) : ℂ) • A) (cpu : ℕ) (hcpu : 0 < cpu) (k t : ℤ) :
    ∃ o, bobsInitF R C d cpu k t = .ok o ∧ (o.k : ℤ) = max 0 (min k m) ∧ o.threads = bobsThreadsNumber cpu t ∧
      ∀ (expand : Matrix (Fin m) (Fin m) ℂ → Matrix (Fin (m + m)) (Fin (m + m)) ℂ) (e₁ : ℕ),
        ExpandsWithin expand A o.k (m * (2 * (splitOps e₀ c m + 3 + m) + (2 * (o.k - 1) ^ 2 + 2) + 1 + m)) e₁ →
      ∀ (S : List ℕ) (_ : S.length = m) (_ : S.sum ≤ 170) (fuel : ℕ) (_ : m < fuel) (_ : (S.sum + 1) ^ (m + 1) ≤ fuel)
        (W : (Fin o.k → ℝ) → List (List ℂ)) (b : ℕ)
        (_ : ∀ us, IsDilation (rowsOf (A * phaseMatrix o.k m us * dftMatrix o.k m)) (W us) m b)
        (N : ℤ) (i : ℕ) (_ : i < N.toNat) (T : List ℕ) (_ : T.length = m),
      |((bobsSimulateF R C Φ expand (ryserSubPermanentsR R C fuel) fuel o S N).prob
          (fun r => ∃ l, r = .ok l ∧ l[i]? = some T)).toReal
        - (approxLaw o.k (S.take o.k).sum (min M 1) W b S T).toReal|
        ≤ (o.threads * (N.toNat / o.threads + 1) : ℕ) * bobsFloatBound e₁ m o.k S.sum (S.take o.k).sum S
          + S.sum * (1e-8 + 1 / 2 ^ 51) := by
  have hM0 : 0 < M := lt_of_lt_of_le (by norm_num) hM1
  obtain ⟨o, h1, h2, h3, h4, h5⟩ := C120_object R C Φ h hm0 hM hM1 hm hc hA cpu hcpu k t
  have hth : o.threads = bobsThreadsNumber cpu t := by
    unfold bobsInitF at h1
    cases e : extractLossesF R C d with
    | error x => rw [e] at h1; cases h1
    | ok r => rw [e] at h1; cases h1; rfl
  refine ⟨o, h1, h4, hth, fun expand e₁ hex S hS hn fuel hf' hfu W b hW N i hi T hT => ?_⟩
  obtain ⟨h6, h7⟩ := h5 expand e₁ hex
  rw [h7 _ _ S N hS]
  have h8 := C119_sample R C Φ h6 S hS (by simp only [h3]; omega) hf' (by simp only [h3, Nat.zero_add]; exact hfu) _ rfl W b hW N i hi
    T hT
  simp only [h3, Nat.zero_add] at h8
  obtain ⟨d', hd', hd1⟩ := h6.contraction
  have hl1 := h6.loss1
  have hl0 := h6.loss0
  have hkm := h6.modes
  simp only at hl1 hl0 hkm
  set l := max o.losses 0 with hl
  have he0 : 0 ≤ (if l ≤ 1e-8 then 1 else 1 - l : ℝ) := by split_ifs <;> linarith
  have he1 : (if l ≤ 1e-8 then 1 else 1 - l : ℝ) ≤ 1 := by split_ifs <;> linarith
  have h9 := C121_point hd' hd1 hm0 hkm hW hS (S.take o.k).sum T hT he0 he1 (le_min hM0.le zero_le_one) (min_le_right M 1)
  have hsum : (S.take o.k).sum + (S.drop o.k).sum = S.sum := by rw [← List.sum_append, List.take_append_drop]
  rw [hsum] at h9
  have h10 : |(if l ≤ 1e-8 then 1 else 1 - l : ℝ) - min M 1| ≤ 1e-8 + 1 / 2 ^ 51 := by
    have g1 : |1 - l - min M 1| ≤ 3 / 2 ^ 53 := by
      obtain ⟨a1, a2⟩ := abs_le.mp h2
      rw [abs_le]
      rcases max_cases o.losses 0 with ⟨e1, e2⟩ | ⟨e1, e2⟩ <;> rcases min_cases M 1 with ⟨e3, e4⟩ | ⟨e3, e4⟩ <;>
        rw [hl, e1, e3] <;> constructor <;> norm_num at * <;> linarith
    obtain ⟨a1, a2⟩ := abs_le.mp g1
    have g2 : (3 : ℝ) / 2 ^ 53 ≤ 1 / 2 ^ 51 := by norm_num
    have g3 : (0 : ℝ) ≤ 1e-8 := by norm_num
    rw [abs_le]
    split_ifs with h0 <;> constructor <;> linarith
  have h11 := mul_le_mul_of_nonneg_left h10 (Nat.cast_nonneg (α := ℝ) S.sum)
  simp only [h3]
  refine (abs_sub_le _ _ _).trans (add_le_add h8 ?_)
  linarith

end

/-! ### The bound is attained -/

/-- One mode with losses `l`. -/
noncomputable def dimSvd (l : ℝ) : Svd 1 := ⟨1, fun _ => Real.sqrt (1 - l), 1⟩

theorem dimSetup {l : ℝ} (h0 : 0 ≤ l) (h1 : l ≤ 1e-8) :
    BobsSetup (((Real.sqrt (1 - l) : ℝ) : ℂ) • (1 : Matrix (Fin 1) (Fin 1) ℂ)) (dimSvd l) 1 1 1 1 l 1 1 1 := by
  have hl : (0 : ℝ) < 1 - l := by norm_num at h1; linarith
  refine ⟨⟨one_mem _, one_mem _, fun i => Real.sqrt_nonneg _, fun i j _ => le_rfl, ?_⟩, fun i => Real.sqrt_le_one.mpr (by linarith),
    ?_, by decide, ?_, rfl, by rw [if_pos h1], by decide, by decide⟩
  · rw [dimSvd, one_mul, mul_one]
    ext i j
    fin_cases i; fin_cases j
    simp
  · intro h
    have := congrFun (congrFun h 0) 0
    simp at this
    rw [Real.sqrt_eq_zero'] at this
    linarith
  · have e : ∀ i, (dimSvd l).s i ^ 2 = 1 - l := fun i => Real.sq_sqrt hl.le
    simp [e, IsGreatest, upperBounds]

theorem dim_law {l : ℝ} (h0 : 0 ≤ l) (h1 : l ≤ 1) :
    approxLaw 1 1 (1 - l) (fun us => rowsOf ((1 : Matrix (Fin 1) (Fin 1) ℂ) * phaseMatrix 1 1 us * dftMatrix 1 1)) 0 [1] [1]
      = ENNReal.ofReal (1 - l) ∧
    approxLaw 1 1 (1 - l) (fun us => rowsOf ((1 : Matrix (Fin 1) (Fin 1) ℂ) * phaseMatrix 1 1 us * dftMatrix 1 1)) 0 [1] [0]
      = ENNReal.ofReal l := by
  have hU : ∀ us, (1 : Matrix (Fin 1) (Fin 1) ℂ) * phaseMatrix 1 1 us * dftMatrix 1 1 ∈ Matrix.unitaryGroup (Fin 1) ℂ :=
    fun us => mul_mem (mul_mem (one_mem _) (generatePhases_eq 1 1 le_rfl us).2) (generateQft_eq 1 1 le_rfl).2
  have e1 := fun us => lossyProb_single (hU us) 1
  have e0 := fun us => lossyProb_single (hU us) 0
  have e2 : ∀ us, lossyProb (rowsOf ((1 : Matrix (Fin 1) (Fin 1) ℂ) * phaseMatrix 1 1 us * dftMatrix 1 1)) 0 [0] [1] = 0 :=
    fun us => by rw [lossyProb_zero, if_neg (by decide)]
  have e3 : ∀ us, lossyProb (rowsOf ((1 : Matrix (Fin 1) (Fin 1) ℂ) * phaseMatrix 1 1 us * dftMatrix 1 1)) 0 [1] [0] = 0 :=
    fun us => by rw [lossyProb_zero, if_neg (by decide)]
  constructor <;>
    simp only [approxLaw, average, bunchedStates, if_neg one_ne_zero, List.range_one, List.map_cons, List.map_nil,
      List.sum_cons, List.sum_nil, add_zero, List.length_cons, List.length_nil, zero_add, Nat.cast_one, div_one,
      List.replicate_zero, List.nil_append, Nat.sub_self, List.drop_succ_cons, List.drop_nil, List.cons_append,
      expLoss, sum_range_succ, sum_range_zero, e0, e1, e2, e3, expUniform] <;>
    simp [binomialWeight]

/-- C121: the bound `n · l` for neglected losses is attained: for a particle in a single mode with losses `l ≤ 10^-8` every
sample shows the particle, the approximation with the losses `l` loses it with probability `l`. -/
theorem C121_attained {l : ℝ} (h0 : 0 ≤ l) (h1 : l ≤ 1e-8) (svd : Matrix (Fin 1) (Fin 1) ℂ → Svd 1) (hsvd : ∀ B, IsSvd B (svd B)) :
    ∃ o, bobsInit (dimSvd l) 1 1 1 = .ok o ∧
      1 / 2 * ∑ T ∈ {[1], [0]}, |((bobsSimulate svd (ryserSubPermanents 3) 3 o [1] 1).prob
        fun r => ∃ samples o', r = .ok (samples, o') ∧ samples[0]? = some T).toReal
          - (approxLaw 1 1 (1 - l) (fun us => rowsOf ((1 : Matrix (Fin 1) (Fin 1) ℂ) * phaseMatrix 1 1 us * dftMatrix 1 1)) 0
              [1] T).toReal| = ([1] : List ℕ).sum * l := by
  have hl : l ≤ 1 := h1.trans (by norm_num)
  obtain ⟨o, e1, -⟩ := (dimSetup h0 h1).inv
  have hW : ∀ us, IsDilation (rowsOf ((1 : Matrix (Fin 1) (Fin 1) ℂ) * phaseMatrix 1 1 us * dftMatrix 1 1))
      (rowsOf ((1 : Matrix (Fin 1) (Fin 1) ℂ) * phaseMatrix 1 1 us * dftMatrix 1 1)) 1 0 := fun us =>
    unitary_isDilation (mul_mem (mul_mem (one_mem _) (generatePhases_eq 1 1 le_rfl us).2) (generateQft_eq 1 1 le_rfl).2)
  have h := fun T hT => C58_sample (dimSetup h0 h1) hsvd (.new e1) (by simp) [1] rfl 1 le_rfl (fuel := 3) (by decide) (by decide)
    _ 0 hW 0 (by decide) T hT
  have g1 := dim_law (l := 0) le_rfl zero_le_one
  rw [sub_zero] at g1
  refine ⟨o, e1, ?_⟩
  rw [sum_insert (by decide), sum_singleton, h [1] rfl, h [0] rfl, (dim_law h0 hl).1, (dim_law h0 hl).2]
  rw [show (List.take 1 [1]).sum = 1 from rfl, g1.1, g1.2, ENNReal.toReal_ofReal zero_le_one, ENNReal.toReal_ofReal le_rfl,
    ENNReal.toReal_ofReal (by linarith), ENNReal.toReal_ofReal h0, sub_sub_cancel, zero_sub, abs_neg, abs_of_nonneg h0]
  simp
  ring

/-! ### Concrete cases -/

/-- One particle of two survives with probability `1 / 2` instead of `1 / 4` per particle. -/
example : |(expLoss (1 / 2) [1, 1] fun L => if L.sum = 1 then 1 else 0).toReal
    - (expLoss (1 / 4) [1, 1] fun L => if L.sum = 1 then 1 else 0).toReal| ≤ 1 / 2 := by
  refine (C121_losses (by norm_num) (by norm_num) (by norm_num) (by norm_num) [1, 1] _ fun L _ => ?_).trans (by norm_num)
  split_ifs <;> simp

variable (R : Rounding) in
/-- The network of C120: a particle enters the second mode and is found there with probability `1 / 16`, up to `2 ^ -25`:
three quarters of the particles are lost, and the network `diag(1, 1 / 2)` loses three quarters of those in the second mode. -/
example : ∃ o, bobsInitF R (textbookArith R) quarterSvd 8 1 2 = .ok o ∧
    |((bobsSimulateF R (textbookArith R) (roundedPhases R) halfExpand (ryserSubPermanentsR R (textbookArith R) 8) 8 o [0, 1] 5).prob
      (fun r => ∃ l, r = .ok l ∧ l[3]? = some [0, 1])).toReal - 1 / 16| ≤ 1 / 2 ^ 25 := by
  obtain ⟨o, h1, h2, h3, h4⟩ := C121_floats R (textbookArith R) (roundedPhases R) quarterSvd_within (by decide) quarterSvd_greatest
    (by norm_num) (c := 4) (by norm_num) (by norm_num) quarterSvd_split 8 (by decide) 1 2
  refine ⟨o, h1, ?_⟩
  have hk : o.k = 1 := by omega
  have ht : o.threads = 2 := h3
  clear h1 h2 h3
  rcases o with ⟨ok, ol, oi, ow, ot, os, on⟩
  simp only at hk ht
  subst hk ht
  have h := h4 halfExpand 166 (halfExpands 166) [0, 1] rfl (by decide) 8 (by decide) (by decide)
    (fun us : Fin 1 → ℝ => rowsOf (halfExpand !![Complex.exp (2 * Real.pi * us 0 * Complex.I), 0; 0, 1 / 2])) 2
    halfExpand_dilation 5 3 (by decide) [0, 1] rfl
  have e0 : approxLaw 1 (List.take 1 [0, 1]).sum (min (1 / 4) 1)
      (fun us : Fin 1 → ℝ => rowsOf (halfExpand !![Complex.exp (2 * Real.pi * us 0 * Complex.I), 0; 0, 1 / 2])) 2 [0, 1] [0, 1]
        = ENNReal.ofReal (1 / 4 / 4) := by
    rw [min_eq_left (by norm_num)]
    exact half_law (by norm_num)
  simp only at h
  rw [e0, ENNReal.toReal_ofReal (by norm_num), show (1 : ℝ) / 4 / 4 = 1 / 16 by norm_num] at h
  refine h.trans ?_
  have hb := entryBound_le (e := 166) (n := 1) (m := 4) (L := 2) (K := 900) (by decide) (by norm_num)
  have e1 : bobsFloatBound 166 2 1 ([0, 1] : List ℕ).sum (List.take 1 [0, 1]).sum [0, 1]
      = (12 * 1 + 28 * 2) / 2 ^ 53 + versionBBound 4 1 (entryBound 166 1 4 2) := by
    simp [bobsFloatBound, boxSize]
  rw [e1, show Int.toNat 5 = 5 from rfl]
  generalize entryBound 166 1 4 2 = a at hb ⊢
  unfold versionBBound
  simp only [sum_range_succ, sum_range_zero, Nat.factorial]
  norm_num at hb ⊢
  linarith

end Verif
