import Verif.Proofs.PhaseMeans
import Verif.Props.Independence

/-! Helper lemmas: mean numbers of particles of the approximate samplers. -/
namespace Verif

open Finset
open scoped ENNReal

/-- The number of particles in mode `j` of a single sample. -/
def countOf (j : ℕ) : Py (List ℕ) → ℝ≥0∞
  | .ok T => (T.getD j 0 : ℕ)
  | .error _ => 0

theorem meanCount_repeatN {p : Prog (List ℕ)} {I : List ℕ → Prop} (h : p.All I fun _ => False) (n i : ℕ) (hi : i < n) (j : ℕ) :
    meanCount (p.repeatN n) id i j = p.wp (countOf j) :=
  Prog.repeatN_mean h n i hi [] (fun T => (T.getD j 0 : ℕ)) _ (fun _ => rfl) _ fun _ => rfl

theorem meanCount_expIid {p : Prog (List (List ℕ))} {𝒯 : Finset (List ℕ)} {q : List ℕ → ℝ} (hq : ∀ T ∈ 𝒯, 0 ≤ q T)
    (ht : ∑ T ∈ 𝒯, ENNReal.ofReal (q T) = 1) {n : ℕ}
    (hp : ∀ f : Py (List (List ℕ)) → ℝ≥0∞, p.wp f = expIid 𝒯 (fun T => ENNReal.ofReal (q T)) n fun l => f (.ok l))
    (i : ℕ) (hi : i < n) (j : ℕ) :
    meanCount p id i j = ENNReal.ofReal (∑ T ∈ 𝒯, q T * (T.getD j 0 : ℝ)) := by
  unfold meanCount
  rw [hp, ← ofReal_sum_count 𝒯 q hq]
  exact expIid_at ht n i hi fun T => ((T.getD j 0 : ℕ) : ℝ≥0∞)

theorem sum_range_getD (T : List ℕ) : ∑ c ∈ range T.length, T.getD c 0 = T.sum := by
  rw [Finset.sum_range, ← List.sum_ofFn]
  congr 1
  refine List.ext_getElem (by simp) fun i h1 h2 => ?_
  simp [List.getD_eq_getElem?_getD]

/-! ### Independent particles -/

/-- One particle in each of the first `n` of `m` modes. -/
def firstModes (m n : ℕ) : List ℕ := (List.range m).map fun i => if i < n then 1 else 0

theorem withLoss_total (ps : List ℝ) (h : ∀ p ∈ ps, 0 ≤ p) (hs : ps.sum ≤ 1) :
    ∑ i ∈ range (ps.length + 1), ENNReal.ofReal ((withLoss ps).getD i 0) = 1 := by
  have := reach_uniform ps h hs fun _ => 1
  simp only [MeasureTheory.lintegral_const, mul_one] at this
  rw [← this]
  simp

theorem fixedPhotons_mean (ps : List ℝ) (hne : ps ≠ []) (h : ∀ p ∈ ps, 0 ≤ p) (hs : ps.sum ≤ 1) (k : ℕ) (out : List ℕ)
    (ho : out.length = ps.length) (j : ℕ) (hj : j < ps.length) :
    (fixedPhotons (.vals ps) k out).wp (countOf j) = (out.getD j 0 : ℕ) + k * ENNReal.ofReal (ps.getD j 0) := by
  induction k generalizing out with
  | zero => simp [fixedPhotons, Prog.wp, countOf]
  | succ k ih =>
    rw [fixedPhotons_succ ps hne k out ho, Prog.wp,
      reach_uniform ps h hs (fun i => (fixedPhotons (.vals ps) k (out.modify i (· + 1))).wp (countOf j))]
    have e : ∀ i ∈ range (ps.length + 1), ENNReal.ofReal ((withLoss ps).getD i 0) *
        (fixedPhotons (.vals ps) k (out.modify i (· + 1))).wp (countOf j)
        = ENNReal.ofReal ((withLoss ps).getD i 0) * ((out.getD j 0 : ℕ) + k * ENNReal.ofReal (ps.getD j 0))
          + if i = j then ENNReal.ofReal (ps.getD j 0) else 0 := by
      intro i hi
      rw [ih _ (by simpa using ho)]
      have hc : (out.modify i (· + 1)).getD j 0 = out.getD j 0 + if i = j then 1 else 0 := by
        rw [getD_of_lt _ _ (by simp; omega), getD_of_lt _ _ (by omega), List.getElem_modify]
        split_ifs <;> rfl
      rw [hc]
      split_ifs with hij
      · subst hij
        rw [withLoss, List.getD_append _ _ _ _ hj]
        push_cast
        ring
      · simp
    rw [sum_congr rfl e, sum_add_distrib, ← sum_mul, withLoss_total ps h hs, one_mul, sum_ite_eq' ,
      if_pos (by simp; omega)]
    push_cast
    ring

section
variable {m : ℕ}

open Matrix in
theorem smeared_mean (A : Matrix (Fin m) (Fin m) ℂ) (n : ℕ) (k : ℕ) (j : Fin m) :
    expUniform m (fun us => k * ENNReal.ofReal (Complex.normSq ((A *ᵥ smeared m n us) j)))
      = ENNReal.ofReal (k / n * intensity (rowsOf A) (firstModes m n) j) := by
  have h := expUniform_normSq ({()} : Finset Unit) (fun _ => (k : ℝ)) (by simp) m (fun _ => 0)
    fun _ i => A j i * (if (i : ℕ) < n then 1 / (Real.sqrt n : ℂ) else 0)
  simp only [sum_singleton, zero_add, Complex.normSq_zero] at h
  rw [expUniform_congr _ _ (fun us => ENNReal.ofReal (k * Complex.normSq
    (∑ i, A j i * (if (i : ℕ) < n then 1 / (Real.sqrt n : ℂ) else 0) * phaseOf (us i)))), h]
  · congr 1
    rw [div_mul_eq_mul_div, mul_div_assoc]
    congr 1
    unfold intensity
    rw [show (firstModes m n).length = m by simp [firstModes], Finset.sum_range, sum_div]
    refine sum_congr rfl fun i _ => ?_
    rw [Complex.normSq_mul, mget_rowsOf _ _ _ j.2 i.2, getD_of_lt _ _ (by simp [firstModes])]
    simp only [firstModes, List.getElem_map, List.getElem_range]
    split_ifs with hi
    · rw [Complex.normSq_div, Complex.normSq_one, Complex.normSq_ofReal, Real.mul_self_sqrt (by positivity)]
      simp; ring
    · simp
  · intro us
    rw [ENNReal.ofReal_mul (by positivity), ENNReal.ofReal_natCast]
    congr 4
    unfold Matrix.mulVec dotProduct
    refine sum_congr rfl fun i _ => ?_
    unfold smeared phaseOf
    split_ifs
    · ring
    · simp

open Matrix in
theorem fixedSample_mean {net : List ℂ → Py (List ℂ)} {A : Matrix (Fin m) (Fin m) ℂ} (h : NetworkOf net A) (d : Svd m)
    (hd : IsSvd A d) (hs : ∀ i, d.s i ≤ 1) (k : ℤ) (S : List ℕ) (hS : 1 ≤ S.sum) (j : Fin m) :
    (fixedSample net m k S).wp (countOf j)
      = ENNReal.ofReal (k.toNat / S.sum * intensity (rowsOf A) (firstModes m S.sum) j) := by
  rw [← smeared_mean]
  unfold fixedSample
  rw [Prog.bind_eq, Prog.wp_bind, randVec_wp]
  refine expUniform_congr _ _ _ fun us => ?_
  rw [Prog.post, preparedState, if_neg (by omega)]
  simp only
  rw [withPhases_ofFn, h]
  simp only [Prog.lift_def, Prog.bind_eq, Prog.done_ok_bind]
  have e : modeProbabilities (List.ofFn (A *ᵥ smeared m S.sum us))
      = List.ofFn fun i => Complex.normSq ((A *ᵥ smeared m S.sum us) i) := by
    rw [modeProbabilities, List.map_ofFn]; rfl
  have hlen : (List.ofFn fun i => Complex.normSq ((A *ᵥ smeared m S.sum us) i)).length = m := by simp
  rw [e, fixedOutcome, fixedPhotons_mean _ (by intro h0; rw [h0] at hlen; simp at hlen; have := j.2; omega)
    (by intro x hx; obtain ⟨i, rfl⟩ := List.mem_ofFn.mp hx; exact Complex.normSq_nonneg _)
    (by rw [List.sum_ofFn]; exact (normSq_contraction A d hd hs _).trans (sum_smeared_le _ us)) _ _ (by simp) j
    (by rw [hlen]; exact j.2)]
  simp

theorem intensity_nonneg (U : List (List ℂ)) (S : List ℕ) (j : ℕ) : 0 ≤ intensity U S j :=
  sum_nonneg fun _ _ => mul_nonneg (by positivity) (Complex.normSq_nonneg _)

theorem intensity_first (A : Matrix (Fin m) (Fin m) ℂ) (n : ℕ) (j : Fin m) :
    intensity (rowsOf A) (firstModes m n) j = ∑ c : Fin m, if (c : ℕ) < n then Complex.normSq (A j c) else 0 := by
  rw [intensity, show (firstModes m n).length = m by simp [firstModes], Finset.sum_range]
  refine sum_congr rfl fun c _ => ?_
  rw [mget_rowsOf _ _ _ j.2 c.2, getD_of_lt _ _ (by simp [firstModes])]
  simp only [firstModes, List.getElem_map, List.getElem_range]
  split_ifs <;> simp

theorem binomial_mean_ofReal (n : ℕ) {eta : ℝ} (h0 : 0 ≤ eta) (h1 : eta ≤ 1) (C x : ℝ) (hC : 0 ≤ C) (hx : 0 ≤ x) :
    ∑ l ∈ range (n + 1), ENNReal.ofReal (binomialWeight n l eta) * ENNReal.ofReal (C + l * x)
      = ENNReal.ofReal (C + eta * n * x) := by
  rw [sum_congr rfl fun l _ => (ENNReal.ofReal_mul (binomialWeight_nonneg n l h0 h1)).symm,
    ← ENNReal.ofReal_sum_of_nonneg fun l _ => mul_nonneg (binomialWeight_nonneg n l h0 h1) (by positivity)]
  congr 1
  simp only [mul_add, sum_add_distrib, ← sum_mul, binomialWeight_sum, one_mul, ← mul_assoc, binomial_mean]

theorem uniformSample_mean {net : List ℂ → Py (List ℂ)} {A : Matrix (Fin m) (Fin m) ℂ} (h : NetworkOf net A) (d : Svd m)
    (hd : IsSvd A d) (hs : ∀ i, d.s i ≤ 1) {eta : ℝ} (h0 : 0 ≤ eta) (h1 : eta ≤ 1) (S : List ℕ) (hS : 1 ≤ S.sum) (j : Fin m) :
    (uniformSample net m eta S).wp (countOf j)
      = ENNReal.ofReal (eta * intensity (rowsOf A) (firstModes m S.sum) j) := by
  rw [uniformSample, Prog.wp, if_pos (separableWeights_prob _ h0 h1), separableWeights_eq, gccbWeights_length]
  have hn : (S.sum : ℝ) ≠ 0 := by exact_mod_cast (by omega : S.sum ≠ 0)
  have := binomial_mean_ofReal S.sum h0 h1 0 (intensity (rowsOf A) (firstModes m S.sum) j / S.sum) le_rfl
    (div_nonneg (intensity_nonneg _ _ _) (by positivity))
  rw [zero_add, mul_assoc, mul_div_cancel₀ _ hn] at this
  rw [← this]
  refine sum_congr rfl fun l hl => ?_
  rw [gccbWeights_getD _ _ _ (by have := mem_range.mp hl; omega), fixedSample_mean h d hd hs l S hS j, Int.toNat_natCast]
  congr 2
  ring

/-! ### Lossy networks -/

theorem lossyNet_wp (M : Matrix (Fin m) (Fin m) ℂ) (d : Svd m) (h : IsSvd M d) (h1 : ∀ i, d.s i ≤ 1)
    (S : List ℕ) (hS : S.length = m) (hm : 0 < m) (fuel : ℕ) (hf : (S.map (· + 1)).prod ≤ fuel) (hf' : m < fuel)
    (N : ℕ) (f : Py (List (List ℕ)) → ℝ≥0∞) :
    (lossyNetSimulate (ryserSubPermanents fuel) d fuel S N).wp f
      = expIid (statesFin (m + m) S.sum) (fun T => ENNReal.ofReal
          (bosonProb (rowsOf (expandedMatrix d)) (S ++ S.map fun _ => 0) T)) N
        fun l' => f (.ok (l'.map fun T => T.take m)) := by
  have hB := lossyNet_bok h h1 hS hm fuel hf
  unfold lossyNetSimulate
  simp only
  rw [Prog.bind_eq, Prog.wp_bind, gccbSimulate_eq, gccbLoop_wp hB fuel (by
    rw [expanded_sum]; exact lt_of_lt_of_le (sum_lt_prod_succ S) hf), expanded_sum, expanded_len, hS]
  refine expIid_congr _ _ _ fun l' hl' hl'' => ?_
  simp only [Prog.post, Prog.lift_def]
  rw [mapM_trim fuel m hf' l' fun T hT => ((mem_statesFin _ _ T).mp (hl'' T hT)).1]
  rfl

theorem intensity_expanded (M : Matrix (Fin m) (Fin m) ℂ) (d : Svd m) (h : IsSvd M d) (S : List ℕ) (hS : S.length = m)
    (j : Fin m) : intensity (rowsOf (expandedMatrix d)) (S ++ S.map fun _ => 0) j = intensity (rowsOf M) S j := by
  unfold intensity
  rw [List.length_append, List.length_map, sum_range_add]
  have e : ∑ c ∈ range S.length, ((S ++ S.map fun _ => 0).getD (S.length + c) 0 : ℝ)
      * Complex.normSq (mget (rowsOf (expandedMatrix d)) j (S.length + c)) = 0 := by
    refine sum_eq_zero fun c hc => ?_
    have hc := mem_range.mp hc
    rw [List.getD_append_right _ _ _ _ (by omega), Nat.add_sub_cancel_left, getD_of_lt _ _ (by simpa using hc)]
    simp
  rw [e, add_zero]
  refine sum_congr rfl fun c hc => ?_
  have hc := mem_range.mp hc
  have hj := j.2
  rw [List.getD_append _ _ _ _ hc, mget_rowsOf _ _ _ (by omega) (by omega), mget_rowsOf _ _ _ hj (by omega)]
  congr 2
  exact (C34_embeds_partial M d h).1 j ⟨c, by omega⟩

theorem lossyNet_mean (M : Matrix (Fin m) (Fin m) ℂ) (d : Svd m) (h : IsSvd M d) (h1 : ∀ i, d.s i ≤ 1)
    (S : List ℕ) (hS : S.length = m) (fuel : ℕ) (hf : (S.map (· + 1)).prod ≤ fuel) (hf' : m < fuel)
    (N : ℕ) (i : ℕ) (hi : i < N) (j : Fin m) :
    meanCount (lossyNetSimulate (ryserSubPermanents fuel) d fuel S N) id i j = ENNReal.ofReal (intensity (rowsOf M) S j) := by
  have hm : 0 < m := by have := j.2; omega
  have hB := lossyNet_bok h h1 hS hm fuel hf
  have ht := boson_total' hB
  rw [expanded_sum, expanded_len, hS] at ht
  have hj := j.2
  unfold meanCount
  rw [lossyNet_wp M d h h1 S hS hm fuel hf hf', ← intensity_expanded M d h S hS j,
    ← boson_mean (expanded_used M d h h1 S hS) j (by omega), expanded_sum,
    ← ofReal_sum_count _ _ fun T _ => bosonProb_nonneg _ _ _, ← expIid_at ht N i hi fun T => ((T.getD j 0 : ℕ) : ℝ≥0∞)]
  refine expIid_congr _ _ _ fun l hl _ => ?_
  simp only [id]
  congr 1
  have e : (l.map fun T => T.take m).getD i [] = (l.getD i []).take m := by
    rw [List.getD_eq_getElem?_getD, List.getD_eq_getElem?_getD, List.getElem?_map]
    cases l[i]? <;> simp
  rw [e]
  simp [List.getD_eq_getElem?_getD, hj]

theorem lossyOne_mean {M : Matrix (Fin m) (Fin m) ℂ} {d : Svd m} (h : IsSvd M d) (h1 : ∀ i, d.s i ≤ 1)
    (S : List ℕ) (hS : S.length = m) (fuel : ℕ) (hf : (S.map (· + 1)).prod ≤ fuel) (hf' : m < fuel) (j : Fin m) :
    (lossyOne d fuel S).wp (countOf j) = ENNReal.ofReal (intensity (rowsOf M) S j) := by
  rw [← lossyNet_mean M d h h1 S hS fuel hf hf' 1 0 one_pos j, lossyOne, Prog.wp_bind]
  unfold meanCount
  refine Prog.wp_congr _ _ _ fun r hr => ?_
  obtain ⟨l, rfl, h2, -⟩ := C35_shape M d h h1 S hS (by have := j.2; omega) fuel hf hf' 1 r hr
  obtain ⟨T, rfl⟩ := List.length_eq_one_iff.mp h2
  simp [Prog.post, Prog.wp, pyGetN, countOf]

/-! ### The approximation of Brod and Oszmaniec -/

theorem expLoss_linear {eta : ℝ} (h0 : 0 ≤ eta) (h1 : eta ≤ 1) (S : List ℕ) (x : ℕ → ℝ) (hx : ∀ c, 0 ≤ x c) (C : ℝ)
    (hC : 0 ≤ C) :
    expLoss eta S (fun L => ENNReal.ofReal (C + ∑ c ∈ range S.length, (L.getD c 0 : ℝ) * x c))
      = ENNReal.ofReal (C + eta * ∑ c ∈ range S.length, (S.getD c 0 : ℝ) * x c) := by
  induction S generalizing x C with
  | nil => simp [expLoss]
  | cons a S ih =>
    rw [expLoss]
    have e : ∀ l ∈ range (a + 1), ENNReal.ofReal (binomialWeight a l eta) * expLoss eta S (fun L =>
        ENNReal.ofReal (C + ∑ c ∈ range (a :: S).length, (((l :: L).getD c 0 : ℕ) : ℝ) * x c))
        = ENNReal.ofReal (binomialWeight a l eta) *
          ENNReal.ofReal (C + eta * ∑ c ∈ range S.length, (S.getD c 0 : ℝ) * x (c + 1) + l * x 0) := by
      intro l _
      congr 1
      have := ih (fun c => x (c + 1)) (fun c => hx _) (C + l * x 0) (by have := hx 0; positivity)
      rw [show C + eta * ∑ c ∈ range S.length, (S.getD c 0 : ℝ) * x (c + 1) + l * x 0
        = C + l * x 0 + eta * ∑ c ∈ range S.length, (S.getD c 0 : ℝ) * x (c + 1) by ring, ← this]
      congr 1
      funext L
      rw [List.length_cons, sum_range_succ']
      simp only [List.getD_cons_succ, List.getD_cons_zero]
      congr 1
      ring
    rw [sum_congr rfl e, binomial_mean_ofReal a h0 h1 _ _ (add_nonneg hC (mul_nonneg h0 (sum_nonneg fun c _ =>
      mul_nonneg (by positivity) (hx _)))) (hx 0), List.length_cons, sum_range_succ']
    simp only [List.getD_cons_succ, List.getD_cons_zero]
    congr 1
    ring

theorem sum_first (k : ℕ) (hk : k ≤ m) (g : Fin k → ℂ) :
    ∑ a : Fin m, (if h : (a : ℕ) < k then g ⟨a, h⟩ else 0) = ∑ i, g i := by
  obtain ⟨r, rfl⟩ : ∃ r, m = k + r := ⟨m - k, by omega⟩
  rw [Fin.sum_univ_add]
  simp

/-- The mean intensity that one particle in mode `c` causes in mode `j`, after a Fourier transform and random
phases of the first `k` modes. -/
noncomputable def bunchedIntensity (k : ℕ) (B : Matrix (Fin m) (Fin m) ℂ) (j c : Fin m) : ℝ :=
  if (c : ℕ) < k then (∑ a : Fin m, if (a : ℕ) < k then Complex.normSq (B j a) else 0) / k else Complex.normSq (B j c)

theorem bunchedIntensity_nonneg (k : ℕ) (B : Matrix (Fin m) (Fin m) ℂ) (j c : Fin m) : 0 ≤ bunchedIntensity k B j c := by
  unfold bunchedIntensity
  split_ifs
  · refine div_nonneg (sum_nonneg fun a _ => ?_) (by positivity)
    split_ifs
    · exact Complex.normSq_nonneg _
    · exact le_rfl
  · exact Complex.normSq_nonneg _

theorem normSq_dft (k : ℕ) (a c : Fin m) (ha : (a : ℕ) < k) (hc : (c : ℕ) < k) :
    Complex.normSq (dftMatrix k m a c) = 1 / k := by
  rw [dftMatrix, Matrix.of_apply, if_pos ⟨ha, hc⟩, Complex.normSq_div, Complex.normSq_ofReal,
    Real.mul_self_sqrt (by positivity), Complex.normSq_eq_norm_sq]
  have : (2 * Real.pi * Complex.I * ((a : ℕ) * (c : ℕ)) / k : ℂ)
      = ((2 * Real.pi * ((a : ℕ) * (c : ℕ)) / k : ℝ) : ℂ) * Complex.I := by push_cast; ring
  rw [this, Complex.norm_exp_ofReal_mul_I]
  norm_num

theorem net_entry (k : ℕ) (hk : k ≤ m) (B : Matrix (Fin m) (Fin m) ℂ) (us : Fin k → ℝ) (j c : Fin m) :
    (B * phaseMatrix k m us * dftMatrix k m) j c
      = (if (c : ℕ) < k then 0 else B j c)
        + ∑ i : Fin k, (if (c : ℕ) < k then B j (Fin.castLE hk i) * dftMatrix k m (Fin.castLE hk i) c else 0) * phaseOf (us i) := by
  rw [Matrix.mul_apply]
  simp only [phaseMatrix, Matrix.mul_diagonal]
  by_cases hc : (c : ℕ) < k
  · simp only [if_pos hc, zero_add]
    rw [← sum_first k hk]
    refine sum_congr rfl fun a _ => ?_
    by_cases ha : (a : ℕ) < k
    · rw [dif_pos ha, dif_pos ha]
      unfold phaseOf
      rw [show Fin.castLE hk ⟨a, ha⟩ = a from rfl]
      ring
    · rw [dif_neg ha, dif_neg ha, dftMatrix, Matrix.of_apply, if_neg (by omega), if_neg (by rintro rfl; exact ha hc), mul_zero]
  · simp only [if_neg hc, zero_mul, sum_const_zero, add_zero]
    rw [sum_eq_single c]
    · rw [dif_neg hc, dftMatrix, Matrix.of_apply, if_neg (by omega), if_pos rfl, mul_one, mul_one]
    · intro a _ hac
      rw [dftMatrix, Matrix.of_apply, if_neg (by omega), if_neg hac, mul_zero]
    · simp

theorem expUniform_net {ι : Type*} (s : Finset ι) (w : ι → ℝ) (hw : ∀ t ∈ s, 0 ≤ w t) (k : ℕ) (hk : k ≤ m)
    (B : ι → Matrix (Fin m) (Fin m) ℂ) (j : Fin m) (c : ι → Fin m) :
    expUniform k (fun us => ENNReal.ofReal (∑ t ∈ s, w t * Complex.normSq ((B t * phaseMatrix k m us * dftMatrix k m) j (c t))))
      = ENNReal.ofReal (∑ t ∈ s, w t * bunchedIntensity k (B t) j (c t)) := by
  have h := expUniform_normSq s w hw k (fun t => if (c t : ℕ) < k then 0 else B t j (c t))
    fun t i => if (c t : ℕ) < k then B t j (Fin.castLE hk i) * dftMatrix k m (Fin.castLE hk i) (c t) else 0
  rw [expUniform_congr _ _ _ fun us => by
    simp only [net_entry k hk]; rfl, h]
  congr 1
  refine sum_congr rfl fun t _ => ?_
  congr 1
  unfold bunchedIntensity
  split_ifs with hc
  · rw [Complex.normSq_zero, zero_add]
    simp only [Complex.normSq_mul]
    rw [sum_congr rfl fun i _ => by rw [normSq_dft k (Fin.castLE hk i) (c t) i.2 hc], ← sum_mul, mul_one_div]
    congr 1
    obtain ⟨r, rfl⟩ : ∃ r, m = k + r := ⟨m - k, by omega⟩
    rw [Fin.sum_univ_add]
    simp
    rfl
  · simp

theorem bobsSample_mean {o : BobsObj m} {A : Matrix (Fin m) (Fin m) ℂ} {mx : ℕ} (h : BobsReady o A mx)
    (svd : Matrix (Fin m) (Fin m) ℂ → Svd m) (hsvd : ∀ B, IsSvd B (svd B))
    (fuel : ℕ) (hf : (mx + 1) ^ m ≤ fuel) (hf' : m < fuel) (hl : 0 ≤ 1 - appliedLosses o.losses)
    (hl' : 1 - appliedLosses o.losses ≤ 1) (j : Fin m) :
    (bobsSample svd (ryserSubPermanents fuel) fuel o).wp (countOf j)
      = average (bobsStates o) fun st => ENNReal.ofReal ((1 - appliedLosses o.losses) *
          ∑ c : Fin m, (st.getD c 0 : ℝ) * bunchedIntensity o.k A j c) := by
  rw [bobsSample_eq, Prog.wp_bind, bobsSymm_wp o (by rw [h.len]; exact h.kle), average]
  congr 2
  refine List.map_congr_left fun st hst => ?_
  obtain ⟨h1, h2⟩ := h.states hst
  rw [Prog.post, Prog.wp_bind, h.weights, bobsLossyInput_wp h.loss0 h.loss1 mx st h2]
  have e := expLoss_linear hl hl' st (fun c => if hc : c < m then bunchedIntensity o.k A j ⟨c, hc⟩ else 0)
    (fun c => by split_ifs; exacts [bunchedIntensity_nonneg _ _ _ _, le_rfl]) 0 le_rfl
  simp only [zero_add, h1, Finset.sum_range, Fin.is_lt, dif_pos] at e
  rw [← e]
  refine expLoss_congr _ _ _ _ fun L hL => ?_
  rw [Prog.post, Prog.wp_bind, bobsMatrix_wp o A h.initial h.kle]
  have hlen : L.length = m := by rw [hL.length_eq, h1]
  rw [← expUniform_net univ (fun c : Fin m => (L.getD c 0 : ℝ)) (fun c _ => by positivity) o.k h.kle (fun _ => A) j fun c => c]
  refine expUniform_congr _ _ _ fun us => ?_
  rw [Prog.post, lossyOne_mean (hsvd _) (h.le_one us _ (hsvd _)) L hlen fuel ?_ hf']
  · congr 1
    rw [intensity, hlen, Finset.sum_range]
    refine sum_congr rfl fun c _ => ?_
    rw [mget_rowsOf _ _ _ j.2 c.2]
  · refine (prod_le_pow L mx (hL.le_of_mem h2)).trans ?_
    rw [hlen]; exact hf

theorem average_const {α : Type} {l : List α} (hl : l ≠ []) {g : α → ℝ≥0∞} {x : ℝ≥0∞} (h : ∀ a ∈ l, g a = x) :
    average l g = x := by
  rw [average, List.map_congr_left h, List.map_const', List.sum_replicate, nsmul_eq_mul]
  refine ENNReal.eq_div_iff ?_ ?_ |>.mpr rfl |>.symm
  · have := List.length_pos_of_ne_nil hl
    exact_mod_cast this.ne'
  · exact ENNReal.natCast_ne_top _

theorem bunched_mean (k : ℕ) (hk : k ≤ m) (p : ℕ) (S : List ℕ) (hS : S.length = m) (eta : ℝ) (A : Matrix (Fin m) (Fin m) ℂ)
    (j : Fin m) :
    (average (bunchedStates k p S) fun st => ENNReal.ofReal (eta * ∑ c : Fin m, (st.getD c 0 : ℝ) * bunchedIntensity k A j c))
      = ENNReal.ofReal (eta * ∑ c : Fin m, (if (c : ℕ) < k then (p : ℝ) / k else S.getD c 0) * Complex.normSq (A j c)) := by
  refine average_const ?_ fun st hst => ?_
  · unfold bunchedStates
    split_ifs
    · simp
    · simp; omega
  congr 2
  unfold bunchedStates at hst
  split_ifs at hst with h0
  · obtain rfl := List.mem_singleton.mp hst
    refine sum_congr rfl fun c _ => ?_
    rw [bunchedIntensity, if_neg (by omega), if_neg (by omega)]
  · obtain ⟨b, hb, rfl⟩ := List.mem_map.mp hst
    rw [List.mem_range] at hb
    have hlen : (List.replicate b 0 ++ p :: List.replicate (k - 1 - b) 0).length = k := by simp; omega
    have e : ∀ c : Fin m, ((List.replicate b 0 ++ p :: List.replicate (k - 1 - b) 0 ++ S.drop k).getD c 0 : ℝ)
          * bunchedIntensity k A j c
        = (if c = ⟨b, by omega⟩ then (p : ℝ) * ((∑ a : Fin m, if (a : ℕ) < k then Complex.normSq (A j a) else 0) / k) else 0)
          + if (c : ℕ) < k then 0 else (S.getD c 0 : ℝ) * Complex.normSq (A j c) := by
      intro c
      unfold bunchedIntensity
      by_cases hc : (c : ℕ) < k
      · rw [if_pos hc, if_pos hc, add_zero, List.getD_append _ _ _ _ (by rw [hlen]; exact hc)]
        by_cases hcb : c = ⟨b, by omega⟩
        · have hcb' : (c : ℕ) = b := congrArg Fin.val hcb
          rw [if_pos hcb, hcb', List.getD_append_right _ _ _ _ (by simp)]
          simp
        · rw [if_neg hcb]
          have hcb' : (c : ℕ) ≠ b := fun h => hcb (Fin.ext h)
          have : (List.replicate b 0 ++ p :: List.replicate (k - 1 - b) 0).getD c 0 = 0 := by
            rcases Nat.lt_or_ge c b with h1 | h1
            · rw [List.getD_append _ _ _ _ (by simpa using h1)]
              simp [h1]
            · rw [List.getD_append_right _ _ _ _ (by simpa using h1), List.length_replicate]
              obtain ⟨x, hx⟩ : ∃ x, (c : ℕ) - b = x + 1 := ⟨c - b - 1, by omega⟩
              rw [hx, List.getD_cons_succ, getD_of_lt _ _ (by simp; omega)]
              simp
          rw [this]
          simp
      · rw [if_neg hc, if_neg hc, if_neg (by rintro rfl; exact hc hb), zero_add,
          List.getD_append_right _ _ _ _ (by rw [hlen]; omega), hlen]
        congr 2
        rw [getD_of_lt _ _ (by simp; omega), getD_of_lt _ _ (by omega), List.getElem_drop]
        congr 1
        omega
    rw [sum_congr rfl fun c _ => e c, sum_add_distrib, sum_ite_eq' univ, if_pos (mem_univ _), mul_div_assoc', mul_sum, sum_div,
      ← sum_add_distrib]
    refine sum_congr rfl fun c _ => ?_
    split_ifs <;> ring

/-! ### Uniform losses -/

theorem gccbOne_mean {B : Matrix (Fin m) (Fin m) ℂ} (hB : B ∈ Matrix.unitaryGroup (Fin m) ℂ)
    (S : List ℕ) (hS : S.length = m) (fuel : ℕ) (hf : (S.map (· + 1)).prod ≤ fuel) (j : Fin m) :
    (gccbOne B fuel S).wp (countOf j) = ENNReal.ofReal (intensity (rowsOf B) S j) := by
  have hm : 0 < m := by have := j.2; omega
  have hI := rowsOf_interferometer hB hm S hS
  have hb := hI.bok fuel hf
  rw [← boson_mean hI.used j (by rw [hS]; exact j.2), ← ofReal_sum_count _ _ fun T _ => bosonProb_nonneg _ _ _,
    gccbOne, Prog.wp_bind, gccbSimulate_eq, show ((1 : ℤ)).toNat = 1 from rfl,
    gccbLoop_wp hb fuel (lt_of_lt_of_le (sum_lt_prod_succ S) hf),
    ← expIid_at (boson_total' hb) 1 0 one_pos fun T => ((T.getD j 0 : ℕ) : ℝ≥0∞)]
  refine expIid_congr _ _ _ fun l hl _ => ?_
  obtain ⟨T, rfl⟩ := List.length_eq_one_iff.mp hl
  simp [Prog.post, Prog.wp, pyGetN, countOf]

theorem sum_perm_const (f : Fin m → ℝ) (a b : Fin m) :
    ∑ σ : Equiv.Perm (Fin m), f (σ a) = ∑ σ : Equiv.Perm (Fin m), f (σ b) := by
  refine (Equiv.sum_comp (Equiv.mulRight (Equiv.swap a b)) fun σ : Equiv.Perm (Fin m) => f (σ a)).symm.trans ?_
  simp

theorem sum_perm (f : Fin m → ℝ) (a : Fin m) :
    (m : ℝ) * ∑ σ : Equiv.Perm (Fin m), f (σ a) = m.factorial * ∑ x, f x := by
  have h : ∑ b : Fin m, ∑ σ : Equiv.Perm (Fin m), f (σ b) = m * ∑ σ : Equiv.Perm (Fin m), f (σ a) := by
    rw [sum_congr rfl fun b _ => sum_perm_const f b a]
    simp
  rw [← h, sum_comm, sum_congr rfl fun σ _ => Equiv.sum_comp σ f]
  simp [Fintype.card_perm]

theorem permuted_intensity {U : Matrix (Fin m) (Fin m) ℂ} (hU : U ∈ Matrix.unitaryGroup (Fin m) ℂ) (k : ℕ) (hk : k ≤ m)
    (j c : Fin m) :
    ∑ σ : Equiv.Perm (Fin m), bunchedIntensity k (U.submatrix id σ) j c = m.factorial / m := by
  have hm : (m : ℝ) ≠ 0 := by have := j.2; exact_mod_cast (by omega : m ≠ 0)
  have h1 : ∑ x, Complex.normSq (U j x) = 1 := by
    have h := congrFun (congrFun (Matrix.mem_unitaryGroup_iff.mp hU) j) j
    rw [Matrix.mul_apply, Matrix.one_apply_eq] at h
    have : ((∑ x, Complex.normSq (U j x) : ℝ) : ℂ) = 1 := by
      rw [← h]
      push_cast
      refine sum_congr rfl fun x _ => ?_
      rw [Matrix.star_apply, ← Complex.mul_conj]
      rfl
    exact_mod_cast this
  have hs : ∀ a : Fin m, ∑ σ : Equiv.Perm (Fin m), Complex.normSq (U j (σ a)) = m.factorial / m := by
    intro a
    have := sum_perm (fun x => Complex.normSq (U j x)) a
    rw [h1, mul_one] at this
    rw [eq_div_iff hm, mul_comm]
    exact this
  unfold bunchedIntensity
  simp only [Matrix.submatrix_apply, id]
  split_ifs with hc
  · have hk0 : (k : ℝ) ≠ 0 := by exact_mod_cast (by omega : k ≠ 0)
    rw [← sum_div, sum_comm, div_eq_iff hk0]
    have : ∀ a : Fin m, (∑ σ : Equiv.Perm (Fin m), if (a : ℕ) < k then Complex.normSq (U j (σ a)) else 0)
        = if (a : ℕ) < k then (m.factorial / m : ℝ) else 0 := by
      intro a
      split_ifs
      · exact hs a
      · simp
    rw [sum_congr rfl fun a _ => this a]
    obtain ⟨r, rfl⟩ : ∃ r, m = k + r := ⟨m - k, by omega⟩
    rw [Fin.sum_univ_add]
    simp
    ring
  · exact hs c

theorem uBobsSample_mean {o : UBobsObj m} {S : List ℕ} (h1 : 1 ≤ o.h) (h2 : o.h < m) (hq : o.qft = dftMatrix (m - o.h) m)
    (hU : o.U ∈ Matrix.unitaryGroup (Fin m) ℂ) (h0 : 0 ≤ o.eta) (h0' : o.eta ≤ 1) (hg : GoodPart o.eta (S.take o.h))
    (hS : S.length = m) (L : List (List ℕ)) (hL : L.Perm (lowerStates (S.take o.h))) (fuel : ℕ) (hf : (S.sum + 1) ^ m ≤ fuel)
    (j : Fin m) :
    (uBobsSample (ryserSubPermanents fuel) fuel o L (L.map (partWeight o.eta (S.take o.h))) (approxStates o.h S)
      (gccbWeights (S.drop o.h).sum o.eta)).wp (countOf j) = ENNReal.ofReal (o.eta * S.sum / m) := by
  have hd : (S.drop o.h).length = m - o.h := by simp [hS]
  have hm : (m : ℝ) ≠ 0 := by exact_mod_cast (by omega : m ≠ 0)
  rw [uBobsSample_eq, approxStates, gccbWeights_eq, choice_wp, ← List.sum_toFinset _ List.nodup_range]
  · have : (List.range ((S.drop o.h).sum + 1)).toFinset = range ((S.drop o.h).sum + 1) := by ext; simp
    rw [this]
    have hsum : (S.sum : ℝ) = (S.take o.h).sum + (S.drop o.h).sum := by
      rw [← Nat.cast_add, ← List.sum_append, List.take_append_drop]
    rw [hsum, show o.eta * (((S.take o.h).sum : ℝ) + (S.drop o.h).sum) / m
      = o.eta * (S.take o.h).sum / m + o.eta * (S.drop o.h).sum * (1 / m) by ring,
      ← binomial_mean_ofReal _ h0 h0' _ _ (by positivity) (by positivity)]
    refine sum_congr rfl fun l hl => ?_
    congr 1
    have := fun f => choice_wp (β := List ℕ) L id (partWeight o.eta (S.take o.h)) ((partWeight_prob h0 h0' _ L hL).mpr hg)
      (fun p => (uBobsMatrix o).bind fun B => gccbOnArray (ryserSubPermanents fuel) B fuel
          (hstackState p (l :: List.replicate ((S.drop o.h).length - 1) 0))) f
    simp only [List.map_id] at this
    refine Eq.trans (this _) ?_
    have e := expLoss_linear h0 h0' (S.take o.h) (fun _ => 1 / (m : ℝ)) (fun _ => by positivity) (l * (1 / m)) (by positivity)
    have hT : ∑ c ∈ range (S.take o.h).length, ((S.take o.h).getD c 0 : ℝ) = (S.take o.h).sum := by
      rw [← Nat.cast_sum, sum_range_getD]
    rw [← sum_mul, hT, expLoss_lowerStates h0 h0'] at e
    rw [show o.eta * ((S.take o.h).sum : ℝ) / m + l * (1 / m) = l * (1 / m) + o.eta * ((S.take o.h).sum * (1 / m)) by ring,
      ← e, (hL.map _).sum_eq]
    congr 1
    refine List.map_congr_left fun p hp => ?_
    obtain ⟨e1, e2, e3⟩ := uBobs_state h1 h2 hS hp (l := l) (by have := mem_range.mp hl; omega)
    rw [partWeight, part_weight hg ((mem_lowerStates _ _).mp hp), id, Prog.wp_bind, uBobsMatrix_wp hq]
    congr 1
    have hst : ∑ c : Fin m, ((p ++ l :: List.replicate ((S.drop o.h).length - 1) 0).getD c 0 : ℝ) = l + p.sum := by
      have := sum_range_getD (p ++ l :: List.replicate ((S.drop o.h).length - 1) 0)
      rw [e2, Finset.sum_range] at this
      rw [← Nat.cast_sum, this]
      simp [add_comm]
    have hp' : ∑ c ∈ range (S.take o.h).length, (p.getD c 0 : ℝ) * (1 / m) = p.sum * (1 / m) := by
      rw [← sum_mul, ← lower_length hp, ← Nat.cast_sum, sum_range_getD]
    have key := expUniform_net (univ : Finset (Equiv.Perm (Fin m) × Fin m))
      (fun t => ((p ++ l :: List.replicate ((S.drop o.h).length - 1) 0).getD t.2 0 : ℝ) / m.factorial)
      (fun t _ => by positivity) (m - o.h) (Nat.sub_le _ _) (fun t => o.U.submatrix id t.1) j fun t => t.2
    rw [hp', ← add_mul, ← hst]
    refine Eq.trans (expUniform_congr _ _ _ fun us => ?_) (key.trans ?_)
    · have hpos : (0 : ℝ) < m.factorial := by exact_mod_cast m.factorial_pos
      rw [← ENNReal.ofReal_natCast, Fintype.sum_prod_type]
      have e4 : ∀ σ : Equiv.Perm (Fin m), Prog.post (fun r => gccbOnArray (ryserSubPermanents fuel) r fuel
          (hstackState p (l :: List.replicate ((S.drop o.h).length - 1) 0))) (countOf j)
            (.ok (uBobsNet o.U o.h us σ))
          = ENNReal.ofReal (intensity (rowsOf (uBobsNet o.U o.h us σ))
              (p ++ l :: List.replicate ((S.drop o.h).length - 1) 0) j) := by
        intro σ
        rw [Prog.post, hstack_ints e1 (by simp)]
        exact gccbOne_mean (uBobsNet_unitary hU o.h us σ) _ e2 fuel (uBobs_fuel e2 e3 hf) j
      rw [sum_congr rfl fun σ _ => e4 σ, ← ENNReal.ofReal_sum_of_nonneg fun σ _ => intensity_nonneg _ _ _,
        ← ENNReal.ofReal_div_of_pos hpos]
      congr 1
      rw [sum_div]
      refine sum_congr rfl fun σ _ => ?_
      rw [intensity, e2, Finset.sum_range, sum_div]
      refine sum_congr rfl fun c _ => ?_
      rw [mget_rowsOf _ _ _ j.2 c.2, uBobsNet]
      ring
    · congr 1
      rw [Fintype.sum_prod_type, sum_comm, sum_mul]
      refine sum_congr rfl fun c _ => ?_
      change ∑ σ : Equiv.Perm (Fin m), ((p ++ l :: List.replicate ((S.drop o.h).length - 1) 0).getD c 0 : ℝ) / m.factorial *
        bunchedIntensity (m - o.h) (o.U.submatrix id σ) j c = _
      rw [← mul_sum, permuted_intensity hU _ (Nat.sub_le _ _)]
      have : (m.factorial : ℝ) ≠ 0 := by exact_mod_cast m.factorial_ne_zero
      field_simp
  · rw [← gccbWeights_eq]
    exact ⟨gccbWeights_nonneg _ h0 h0', gccbWeights_sum _ _⟩

end

end Verif
