import Verif.Proofs.NearlyUnitary
import Verif.Proofs.ApproxCalc
import Verif.Model.Networks
import Verif.Props.MatrixDistance
import Verif.Props.NetworkErrors

/-!
C125: the distributions calculated for matrices that are only nearly unitary, as are all matrices of floats.
-/
namespace Verif

open Finset Matrix

variable {m : ℕ}

/-- The bound of C125 for `k` particles and a matrix at distance `d` from a unitary matrix. -/
noncomputable def nearError (k : ℕ) (d : ℝ) : ℝ :=
  k * d * (1 + d) ^ (k - 1) + (k * d * (1 + d) ^ (k - 1)) ^ 2 / 2

theorem nearError_mono {k l : ℕ} {d : ℝ} (hd : 0 ≤ d) (h : k ≤ l) : nearError k d ≤ nearError l d := by
  have h1 : k * d * (1 + d) ^ (k - 1) ≤ l * d * (1 + d) ^ (l - 1) := by
    have hk : (k : ℝ) ≤ l := by exact_mod_cast h
    exact mul_le_mul (mul_le_mul_of_nonneg_right hk hd) (pow_le_pow_right₀ (by linarith) (by omega)) (by positivity)
      (by positivity)
  have h2 : 0 ≤ k * d * (1 + d) ^ (k - 1) := by positivity
  have h3 := pow_le_pow_left₀ h2 h1 2
  unfold nearError
  linarith

section

variable {A B : Matrix (Fin m) (Fin m) ℂ} (hA : A ∈ unitaryGroup (Fin m) ℂ)
include hA

/-- C125: the probabilities calculated with any matrix `B` and the output law of a unitary matrix `A`. -/
theorem C125_law (S : List ℕ) (hS : S.length ≤ m) (𝒯 : Finset (List ℕ)) (h𝒯 : ∀ T ∈ 𝒯, T.length = m ∧ T.sum = S.sum) :
    1 / 2 * ∑ T ∈ 𝒯, |bosonProb (rowsOf B) S T - bosonProb (rowsOf A) S T| ≤ nearError S.sum (matrixDistance A B) := by
  have h0 : 0 ≤ matrixDistance A B := Real.sqrt_nonneg _
  have hBA : ∀ x, nrm ((B - A) *ᵥ x) ≤ matrixDistance A B * nrm x := fun x => by
    rw [(C73_metric A B A).2.2.1]; exact nrm_distance B A x
  refine boson_near S (n := m) h0 (κ := 1 + matrixDistance A B) (by linarith)
    (opLe_of_nrm (colOf_rowsOf B) fun x => ?_) (unitary_isDilation hA).isometric
    (opLe_of_nrm (M := B - A) (fun i j => ?_) hBA) hS 𝒯 h𝒯
  · have : B *ᵥ x = A *ᵥ x + (B - A) *ᵥ x := by rw [← Matrix.add_mulVec, add_sub_cancel]
    rw [this]
    refine (nrm_add _ _).trans ?_
    rw [nrm_unitary hA]
    have := hBA x
    linarith
  · rw [colOf_rowsOf, colOf_rowsOf, Matrix.sub_apply]

/-- C125 with a random set of `k` surviving particles. -/
theorem C125_survivors (S : List ℕ) (hS : S.length = m) (k : ℕ) (hk : k ≤ S.sum) (𝒯 : Finset (List ℕ))
    (h𝒯 : ∀ T ∈ 𝒯, T.length = m ∧ T.sum = k) :
    1 / 2 * ∑ T ∈ 𝒯, |fixedLossProb (rowsOf B) S k T - fixedLossProb (rowsOf A) S k T| ≤ nearError k (matrixDistance A B) := by
  have hC : (0 : ℝ) < S.sum.choose k := by exact_mod_cast Nat.choose_pos hk
  have h1 : ∀ T ∈ 𝒯, |fixedLossProb (rowsOf B) S k T - fixedLossProb (rowsOf A) S k T|
      ≤ (∑ P ∈ powersetCard k (univ : Finset (Particle S)),
          |bosonProb (rowsOf B) (stateOf P) T - bosonProb (rowsOf A) (stateOf P) T|) / S.sum.choose k := fun T _ => by
    rw [fixedLossProb, fixedLossProb, ← sub_div, abs_div, abs_of_pos hC, ← sum_sub_distrib]
    exact div_le_div_of_nonneg_right (abs_sum_le_sum_abs _ _) hC.le
  have h2 : ∀ P ∈ powersetCard k (univ : Finset (Particle S)),
      ∑ T ∈ 𝒯, |bosonProb (rowsOf B) (stateOf P) T - bosonProb (rowsOf A) (stateOf P) T|
        ≤ 2 * nearError k (matrixDistance A B) := by
    intro P hP
    have hs : (stateOf P).sum = k := by rw [stateOf_sum, (mem_powersetCard.mp hP).2]
    have := C125_law (B := B) hA (stateOf P) (by rw [stateOf_length, hS]) 𝒯 (fun T hT => by rw [hs]; exact h𝒯 T hT)
    rw [hs] at this
    linarith
  have h3 := sum_le_sum h1
  rw [← sum_div, sum_comm] at h3
  have h4 := div_le_div_of_nonneg_right (sum_le_sum h2) hC.le
  rw [sum_const, card_powersetCard, card_univ, nsmul_eq_mul] at h4
  rw [card_particle, mul_div_assoc, mul_comm, div_mul_cancel₀ _ hC.ne'] at h4
  linarith

/-- C125 with uniform losses. -/
theorem C125_uniform (S : List ℕ) (hS : S.length = m) {eta : ℝ} (h0 : 0 ≤ eta) (h1 : eta ≤ 1) (𝒯 : Finset (List ℕ))
    (h𝒯 : ∀ T ∈ 𝒯, T.length = m ∧ T.sum ≤ S.sum) :
    1 / 2 * ∑ T ∈ 𝒯, |binomialWeight S.sum T.sum eta * fixedLossProb (rowsOf B) S T.sum T
        - binomialWeight S.sum T.sum eta * fixedLossProb (rowsOf A) S T.sum T| ≤ nearError S.sum (matrixDistance A B) := by
  have hw : ∀ l, 0 ≤ binomialWeight S.sum l eta := fun l => by
    unfold binomialWeight
    have : 0 ≤ 1 - eta := by linarith
    positivity
  have e : ∀ T ∈ 𝒯, |binomialWeight S.sum T.sum eta * fixedLossProb (rowsOf B) S T.sum T
        - binomialWeight S.sum T.sum eta * fixedLossProb (rowsOf A) S T.sum T|
      = binomialWeight S.sum T.sum eta * |fixedLossProb (rowsOf B) S T.sum T - fixedLossProb (rowsOf A) S T.sum T| := fun T _ => by
    rw [← mul_sub, abs_mul, abs_of_nonneg (hw _)]
  rw [sum_congr rfl e, ← sum_fiberwise_of_maps_to (g := List.sum) (t := range (S.sum + 1))
    (fun T hT => mem_range.mpr (Nat.lt_succ_of_le (h𝒯 T hT).2)), mul_sum]
  have h2 : ∀ l ∈ range (S.sum + 1), 1 / 2 * (∑ T ∈ 𝒯.filter fun T => T.sum = l,
      binomialWeight S.sum T.sum eta * |fixedLossProb (rowsOf B) S T.sum T - fixedLossProb (rowsOf A) S T.sum T|)
        ≤ binomialWeight S.sum l eta * nearError S.sum (matrixDistance A B) := by
    intro l hl
    have hl' := Nat.lt_succ_iff.mp (mem_range.mp hl)
    have h3 := (C125_survivors (B := B) hA S hS l hl' (𝒯.filter fun T => T.sum = l)
      (fun T hT => ⟨(h𝒯 T (mem_filter.mp hT).1).1, (mem_filter.mp hT).2⟩)).trans (nearError_mono (Real.sqrt_nonneg _) hl')
    rw [sum_congr rfl fun T hT => by rw [(mem_filter.mp hT).2], ← mul_sum]
    have := mul_le_mul_of_nonneg_left h3 (hw l)
    linarith
  refine (sum_le_sum h2).trans (le_of_eq ?_)
  rw [← sum_mul]
  have := add_pow eta (1 - eta) S.sum
  rw [show eta + (1 - eta) = 1 by ring, one_pow] at this
  have h4 : ∑ l ∈ range (S.sum + 1), binomialWeight S.sum l eta = 1 := by
    rw [this]
    refine sum_congr rfl fun l _ => ?_
    unfold binomialWeight; ring
  rw [h4, one_mul]

/-- C125 for the exact calculator with `k` particles left. -/
theorem C125_calculator (gray : Nat → List Nat) (hgray : ∀ n, IsGrayCode n (gray n)) (t : Int) (hash : List Nat → Int)
    (S : List ℕ) (hS : S.length = m) (hm : 0 < m) (k : ℕ) (hk : k ≤ S.sum) (eta : ℝ)
    (hinj : ∀ a b : List Nat, StateLE a S → a.sum = k → StateLE b S → b.sum = k → hash a = hash b → a = b) :
    ∃ p q tv F, (∀ fuel ≥ F,
      fixedLossDistribution Complex.normSq (factoryPermanent gray t fuel) hash fuel (expConfig (rowsOf B) S k eta) = .ok p ∧
      fixedLossDistribution Complex.normSq (factoryPermanent gray t fuel) hash fuel (expConfig (rowsOf A) S k eta) = .ok q) ∧
      countTvd p q = .ok tv ∧ tv ≤ nearError k (matrixDistance A B) ∧
      (∀ x ∈ p, 0 ≤ x) ∧ |p.sum - 1| ≤ 2 * nearError k (matrixDistance A B) := by
  obtain ⟨j, hj⟩ : ∃ j, S.length = j + 1 := ⟨S.length - 1, by omega⟩
  have hne : S ≠ [] := by rintro rfl; simp at hj
  have hmem : ∀ T, T ∈ allStates j k false ↔ T.length = m ∧ T.sum = k := by
    intro T; rw [mem_allStates, ← hS, hj]; simp
  have key : ∀ (M : Matrix (Fin m) (Fin m) ℂ) (fuel : ℕ), genFuel j k + (S.map (· + 1)).prod ≤ fuel →
      fixedLossDistribution Complex.normSq (factoryPermanent gray t fuel) hash fuel (expConfig (rowsOf M) S k eta)
        = .ok ((allStates j k false).map (fixedLossProb (rowsOf M) S k)) := by
    intro M fuel hf
    have hgen : fixedLossOutcomes fuel (expConfig (rowsOf M) S k eta) = .ok (allStates j k false) := by
      have := generatePossibleStates_ok fuel k j false (by omega)
      rw [← hj, hS] at this
      rw [fixedLossOutcomes, expConfig]
      simpa [rowsOf, hS] using this
    rw [fixedLossDistribution, hgen, ok_bind, fixedLossProbabilities]
    refine mapM_ok _ _ _ fun T hT => ?_
    have := (hmem T).mp hT
    exact (C22_probability gray hgray t hash (rowsOf M) S T k eta (by rw [rowsOf_length]; exact rowsOf_row M) (by omega)
      (by rw [rowsOf_length]; omega) hne hk this.2 fuel (by omega) hinj).1
  have h1 := C125_survivors (B := B) hA S hS k hk (allStates j k false).toFinset
    (fun T hT => (hmem T).mp (List.mem_toFinset.mp hT))
  have h2 := fixedLoss_total (rowsOf A) S k (unitary_isDilation hA).isometric hS.le hk (allStates j k false).toFinset
    (fun T => List.mem_toFinset.trans (hmem T))
  refine ⟨_, _, _, _, fun fuel hf => ⟨key B fuel hf, key A fuel hf⟩, countTvd_ok _ _ (by simp), ?_, ?_, ?_⟩
  · rw [List.sum_toFinset _ (allStates_nodup _ _ _)] at h1
    rw [List.zipWith_map, List.zipWith_self]
    linarith
  · intro x hx
    obtain ⟨T, -, rfl⟩ := List.mem_map.mp hx
    exact fixedLossProb_nonneg _ _ _ _
  · have e : ((allStates j k false).map (fixedLossProb (rowsOf B) S k)).sum - 1 = ∑ T ∈ (allStates j k false).toFinset,
        (fixedLossProb (rowsOf B) S k T - fixedLossProb (rowsOf A) S k T) := by
      rw [sum_sub_distrib, h2, List.sum_toFinset _ (allStates_nodup _ _ _)]
    rw [e]
    have := abs_sum_le_sum_abs (fun T => fixedLossProb (rowsOf B) S k T - fixedLossProb (rowsOf A) S k T)
      (allStates j k false).toFinset
    linarith

/-- C125 for the exact calculator with uniform losses. -/
theorem C125_uniform_calculator (gray : Nat → List Nat) (hgray : ∀ n, IsGrayCode n (gray n)) (t : Int) (hash : List Nat → Int)
    (S : List ℕ) (hS : S.length = m) (hm : 0 < m) (k : ℕ) {eta : ℝ} (h0 : 0 ≤ eta) (h1 : eta ≤ 1)
    (hinj : ∀ a b : List Nat, StateLE a S → StateLE b S → a.sum = b.sum → hash a = hash b → a = b) :
    ∃ p q tv F, (∀ fuel ≥ F,
      uniformDistribution Complex.normSq (factoryPermanent gray t fuel) hash fuel (uniformCalc (expConfig (rowsOf B) S k eta))
        = .ok p ∧
      uniformDistribution Complex.normSq (factoryPermanent gray t fuel) hash fuel (uniformCalc (expConfig (rowsOf A) S k eta))
        = .ok q) ∧
      countTvd p q = .ok tv ∧ tv ≤ nearError S.sum (matrixDistance A B) ∧
      (∀ x ∈ p, 0 ≤ x) ∧ |p.sum - 1| ≤ 2 * nearError S.sum (matrixDistance A B) := by
  have hIA := rowsOf_interferometer hA hm S hS
  obtain ⟨o, q, F, h, rfl, hn, hmem, -, hq⟩ := C24_distribution gray hgray t hash (rowsOf A) S k eta h0 h1 hIA.square hIA.len
    hIA.ne hIA.ortho hinj
  have hw : ∀ l, 0 ≤ binomialWeight S.sum l eta := fun l => by
    unfold binomialWeight
    have : 0 ≤ 1 - eta := by linarith
    positivity
  have key : ∀ fuel, max F (S.map (· + 1)).prod ≤ fuel →
      uniformDistribution Complex.normSq (factoryPermanent gray t fuel) hash fuel (uniformCalc (expConfig (rowsOf B) S k eta))
        = .ok (o.map fun T => binomialWeight S.sum T.sum eta * fixedLossProb (rowsOf B) S T.sum T) := by
    intro fuel hf
    have hgen : uniformOutcomes fuel (expConfig (rowsOf B) S k eta) = .ok o := by
      rw [← (h fuel (le_of_max_le_left hf)).1]
      simp [uniformOutcomes, expConfig, rowsOf]
    rw [uniformDistribution, show (uniformCalc (expConfig (rowsOf B) S k eta)).config = expConfig (rowsOf B) S k eta from rfl,
      hgen, ok_bind, uniformProbabilities]
    refine mapM_ok _ _ _ fun T hT => ?_
    have := (hmem T).mp hT
    exact C24_probability gray hgray t hash (rowsOf B) S T k eta (by rw [rowsOf_length]; exact rowsOf_row B) (by omega)
      (by rw [rowsOf_length]; omega) hIA.ne this.2 fuel (le_of_max_le_right hf)
      (fun a b ha ha' hb hb' => hinj a b ha hb (ha'.trans hb'.symm))
  have h2 := C125_uniform (B := B) hA S hS h0 h1 o.toFinset (fun T hT => by
    have := (hmem T).mp (List.mem_toFinset.mp hT)
    exact ⟨by omega, this.2⟩)
  refine ⟨_, _, _, _, fun fuel hf => ⟨key fuel hf, (h fuel (le_of_max_le_left hf)).2⟩, countTvd_ok _ _ (by simp), ?_, ?_, ?_⟩
  · rw [List.sum_toFinset _ hn] at h2
    rw [List.zipWith_map, List.zipWith_self]
    linarith
  · intro x hx
    obtain ⟨T, -, rfl⟩ := List.mem_map.mp hx
    exact mul_nonneg (hw _) (fixedLossProb_nonneg _ _ _ _)
  · rw [← List.sum_toFinset _ hn] at hq ⊢
    rw [← hq, ← sum_sub_distrib]
    have := abs_sum_le_sum_abs (fun T => binomialWeight S.sum T.sum eta * fixedLossProb (rowsOf B) S T.sum T
      - binomialWeight S.sum T.sum eta * fixedLossProb (rowsOf A) S T.sum T) o.toFinset
    linarith

end

/-- C125: entries with errors of at most `u`. -/
theorem C125_entries {A B : Matrix (Fin m) (Fin m) ℂ} {u : ℝ} (hu : 0 ≤ u) (h : ∀ i j, ‖A i j - B i j‖ ≤ u) :
    matrixDistance A B ≤ m * u := by
  refine Real.sqrt_le_iff.mpr ⟨by positivity, ?_⟩
  have : ∑ i, ∑ j, ‖(A - B) i j‖ ^ 2 ≤ ∑ _i : Fin m, ∑ _j : Fin m, u ^ 2 :=
    sum_le_sum fun i _ => sum_le_sum fun j _ => pow_le_pow_left₀ (norm_nonneg _) (h i j) 2
  refine this.trans (le_of_eq ?_)
  simp
  ring

/-- C125: every matrix is at the distance `√(∑ (sᵢ - 1)²)` from the product of the unitary factors of its singular value
decomposition. -/
theorem C125_singular {B : Matrix (Fin m) (Fin m) ℂ} {d : Svd m} (h : IsSvd B d) :
    d.V * d.U ∈ unitaryGroup (Fin m) ℂ ∧ matrixDistance (d.V * d.U) B = Real.sqrt (∑ i, (d.s i - 1) ^ 2) := by
  refine ⟨mul_mem h.unitaryV h.unitaryU, ?_⟩
  have hV := mem_unitaryGroup_iff'.mp h.unitaryV
  have hU := mem_unitaryGroup_iff.mp h.unitaryU
  have h1 := (C73_unitary (d.V * 1) (d.V * diagonal fun i => (d.s i : ℂ)) 1 d.U (by simp) hU).2
  have h2 := (C73_unitary (1 : Matrix (Fin m) (Fin m) ℂ) (diagonal fun i => (d.s i : ℂ)) d.V 1 hV (by simp)).1
  rw [h2, ← h.product, mul_one] at h1
  rw [h1, matrixDistance]
  congr 1
  refine sum_congr rfl fun i _ => ?_
  rw [sum_eq_single i]
  · rw [Matrix.sub_apply, one_apply_eq, diagonal_apply_eq, ← Complex.ofReal_one, ← Complex.ofReal_sub, Complex.norm_real,
      Real.norm_eq_abs, sq_abs]
    ring
  · intro j _ hj
    rw [Matrix.sub_apply, one_apply_ne hj.symm, diagonal_apply_ne _ hj.symm]
    simp
  · simp

/-- A scaled network. -/
theorem bosonProb_scaled (A : Matrix (Fin m) (Fin m) ℂ) (x : ℝ) (S T : List ℕ) :
    bosonProb (rowsOf ((x : ℂ) • A)) S T = (x ^ 2) ^ T.sum * bosonProb (rowsOf A) S T := by
  have e : ∀ i j, mget (rowsOf ((x : ℂ) • A)) i j = (x : ℂ) * mget (rowsOf A) i j := by
    intro i j
    by_cases hi : i < m
    · by_cases hj : j < m
      · simp [mget, rowsOf, hi, hj]
      · simp [mget, rowsOf, hi, hj]
    · simp [mget, rowsOf, hi]
  have : scatteringPermanent (rowsOf ((x : ℂ) • A)) S T = (x : ℂ) ^ T.sum * scatteringPermanent (rowsOf A) S T := by
    unfold scatteringPermanent
    simp only [e]
    have := Matrix.permanent_smul (Matrix.of fun (a b : Fin T.sum) =>
      mget (rowsOf A) ((particles T).getD a 0) ((particles S).getD b 0)) (x : ℂ)
    rw [Fintype.card_fin] at this
    rw [← this]
    rfl
  rw [bosonProb, this, Complex.normSq_mul, map_pow, Complex.normSq_ofReal, bosonProb, mul_div_assoc, ← sq]

/-- C125: the calculators do not normalise their results. If all entries of a unitary matrix are too large by the factor
`1 + δ`, the probabilities of `n` particles sum up to `(1 + δ)^(2n)`, at least `1 + 2nδ`. -/
theorem C125_scaled {A : Matrix (Fin m) (Fin m) ℂ} (hA : A ∈ unitaryGroup (Fin m) ℂ) {δ : ℝ} (hδ : 0 ≤ δ) (S : List ℕ)
    (hS : S.length ≤ m) (𝒯 : Finset (List ℕ)) (h𝒯 : ∀ T, T ∈ 𝒯 ↔ T.length = m ∧ T.sum = S.sum) :
    matrixDistance A (((1 + δ : ℝ) : ℂ) • A) = Real.sqrt m * δ ∧
    ∑ T ∈ 𝒯, bosonProb (rowsOf (((1 + δ : ℝ) : ℂ) • A)) S T = (1 + δ) ^ (2 * S.sum) ∧
    1 + 2 * S.sum * δ ≤ (1 + δ) ^ (2 * S.sum) := by
  refine ⟨?_, ?_, ?_⟩
  · have h1 := (C73_unitary (1 : Matrix (Fin m) (Fin m) ℂ) (((1 + δ : ℝ) : ℂ) • 1) A 1 (mem_unitaryGroup_iff'.mp hA) (by simp)).1
    rw [mul_one, Matrix.mul_smul, mul_one] at h1
    rw [h1, matrixDistance]
    have : ∑ i : Fin m, ∑ j : Fin m, ‖((1 : Matrix (Fin m) (Fin m) ℂ) - ((1 + δ : ℝ) : ℂ) • 1) i j‖ ^ 2 = m * δ ^ 2 := by
      rw [sum_congr rfl (g := fun _ => δ ^ 2)]
      · simp
      · intro i _
        rw [sum_eq_single i]
        · have : (1 : ℂ) - ((1 + δ : ℝ) : ℂ) = ((-δ : ℝ) : ℂ) := by push_cast; ring
          rw [Matrix.sub_apply, Matrix.smul_apply, one_apply_eq, smul_eq_mul, mul_one, this, Complex.norm_real, Real.norm_eq_abs, sq_abs]
          ring
        · intro j _ hj
          simp [Matrix.sub_apply, one_apply_ne hj.symm]
        · simp
    rw [this, Real.sqrt_mul (by positivity), Real.sqrt_sq hδ]
  · rw [sum_congr rfl fun T hT => by rw [bosonProb_scaled, ((h𝒯 T).mp hT).2], ← mul_sum,
      boson_total (rowsOf A) S (unitary_isDilation hA).isometric hS 𝒯 h𝒯, mul_one, ← pow_mul]
  · have := one_add_mul_le_pow (a := δ) (by linarith) (2 * S.sum)
    rw [Nat.cast_mul, Nat.cast_ofNat] at this
    linarith

/-- A rotation with too large entries: two particles, and a total probability of `(11 / 10)⁴`. -/
example : ∑ T ∈ statesFin 2 2, bosonProb (rowsOf (((1 + 1 / 10 : ℝ) : ℂ) • twoModeRotation (3 / 5) (4 / 5))) [1, 1] T
      = (1 + 1 / 10) ^ 4 ∧
    1 / 2 * ∑ T ∈ statesFin 2 2, |bosonProb (rowsOf (((1 + 1 / 10 : ℝ) : ℂ) • twoModeRotation (3 / 5) (4 / 5))) [1, 1] T
        - bosonProb (rowsOf (twoModeRotation (3 / 5) (4 / 5))) [1, 1] T| ≤ nearError 2 (Real.sqrt 2 * (1 / 10)) := by
  have hu := twoModeRotation_unitary (x := 3 / 5) (y := 4 / 5) (by norm_num)
  have h := C125_scaled hu (δ := 1 / 10) (by norm_num) [1, 1] (by simp) (statesFin 2 2) (mem_statesFin 2 2)
  refine ⟨by simpa using h.2.1, ?_⟩
  have h1 := h.1
  rw [Nat.cast_ofNat] at h1
  rw [← h1]
  exact C125_law hu [1, 1] (by simp) (statesFin 2 2) fun T hT => (mem_statesFin 2 2 T).mp hT

end Verif
