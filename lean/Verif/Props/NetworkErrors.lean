import Verif.Proofs.NetworkErrors
import Verif.Proofs.SingularValues
import Verif.Proofs.Means
import Verif.Proofs.UniformBobsSample
import Verif.Proofs.QuantumUtilities
import Verif.Props.Cliffords
import Verif.Props.Distributions

/-!
C124: a small error in the matrix of the interferometer changes the distributions by little.
-/
namespace Verif

open Finset Matrix

variable {m : ℕ}

theorem opLe_of_nrm {M : Matrix (Fin m) (Fin m) ℂ} {c : ℕ → ℕ → ℂ} (hc : ∀ i j : Fin m, c j i = M i j) {κ : ℝ}
    (h : ∀ x, nrm (M *ᵥ x) ≤ κ * nrm x) : OpLe c m m κ := by
  intro y
  have h1 := pow_le_pow_left₀ (nrm_nonneg _) (h fun i => y i) 2
  rw [mul_pow, nrm_sq, nrm_sq] at h1
  rw [Finset.sum_range, Finset.sum_range (fun a => Complex.normSq (y a))]
  refine le_trans (le_of_eq (sum_congr rfl fun i _ => ?_)) h1
  rw [Finset.sum_range, mulVec, dotProduct]
  simp only [hc]

theorem colOf_rowsOf (M : Matrix (Fin m) (Fin m) ℂ) (i j : Fin m) : colOf (rowsOf M) j i = M i j :=
  mget_rowsOf M i j i.2 j.2

section

variable {A B : Matrix (Fin m) (Fin m) ℂ} (hA : A ∈ unitaryGroup (Fin m) ℂ) (hB : B ∈ unitaryGroup (Fin m) ℂ)
include hA hB

/-- C124: for `n` particles the total variation distance between the output laws of two interferometers is at most `n` times the
distance of their matrices. -/
theorem C124_law (S : List ℕ) (hS : S.length ≤ m) (𝒯 : Finset (List ℕ)) (h𝒯 : ∀ T ∈ 𝒯, T.length = m ∧ T.sum = S.sum) :
    1 / 2 * ∑ T ∈ 𝒯, |bosonProb (rowsOf A) S T - bosonProb (rowsOf B) S T| ≤ S.sum * matrixDistance A B := by
  refine boson_diff S (n := m) (Real.sqrt_nonneg _) (unitary_isDilation hA).isometric
    (opLe_of_nrm (colOf_rowsOf A) fun x => by rw [one_mul, nrm_unitary hA]) (unitary_isDilation hB).isometric
    (opLe_of_nrm (M := A - B) (fun i j => ?_) (nrm_distance A B)) hS 𝒯 h𝒯
  rw [colOf_rowsOf, colOf_rowsOf, Matrix.sub_apply]

/-- C124 with a random set of `k` surviving particles. -/
theorem C124_survivors (S : List ℕ) (hS : S.length = m) (k : ℕ) (hk : k ≤ S.sum) (𝒯 : Finset (List ℕ))
    (h𝒯 : ∀ T ∈ 𝒯, T.length = m ∧ T.sum = k) :
    1 / 2 * ∑ T ∈ 𝒯, |fixedLossProb (rowsOf A) S k T - fixedLossProb (rowsOf B) S k T| ≤ k * matrixDistance A B := by
  have hC : (0 : ℝ) < S.sum.choose k := by exact_mod_cast Nat.choose_pos hk
  have h1 : ∀ T ∈ 𝒯, |fixedLossProb (rowsOf A) S k T - fixedLossProb (rowsOf B) S k T|
      ≤ (∑ P ∈ powersetCard k (univ : Finset (Particle S)),
          |bosonProb (rowsOf A) (stateOf P) T - bosonProb (rowsOf B) (stateOf P) T|) / S.sum.choose k := fun T _ => by
    rw [fixedLossProb, fixedLossProb, ← sub_div, abs_div, abs_of_pos hC, ← sum_sub_distrib]
    exact div_le_div_of_nonneg_right (abs_sum_le_sum_abs _ _) hC.le
  have h2 : ∀ P ∈ powersetCard k (univ : Finset (Particle S)),
      ∑ T ∈ 𝒯, |bosonProb (rowsOf A) (stateOf P) T - bosonProb (rowsOf B) (stateOf P) T| ≤ 2 * (k * matrixDistance A B) := by
    intro P hP
    have hs : (stateOf P).sum = k := by rw [stateOf_sum, (mem_powersetCard.mp hP).2]
    have := C124_law hA hB (stateOf P) (by rw [stateOf_length, hS]) 𝒯 (fun T hT => by rw [hs]; exact h𝒯 T hT)
    rw [hs] at this
    linarith
  have h3 := sum_le_sum h1
  rw [← sum_div, sum_comm] at h3
  have h4 := div_le_div_of_nonneg_right (sum_le_sum h2) hC.le
  rw [sum_const, card_powersetCard, card_univ, nsmul_eq_mul] at h4
  rw [card_particle, mul_div_assoc, mul_comm, div_mul_cancel₀ _ hC.ne'] at h4
  linarith

/-- C124 with uniform losses, over outcomes with any number of particles: `η n` particles survive on average. -/
theorem C124_uniform (S : List ℕ) (hS : S.length = m) {eta : ℝ} (h0 : 0 ≤ eta) (h1 : eta ≤ 1) (𝒯 : Finset (List ℕ))
    (h𝒯 : ∀ T ∈ 𝒯, T.length = m ∧ T.sum ≤ S.sum) :
    1 / 2 * ∑ T ∈ 𝒯, |binomialWeight S.sum T.sum eta * fixedLossProb (rowsOf A) S T.sum T
        - binomialWeight S.sum T.sum eta * fixedLossProb (rowsOf B) S T.sum T| ≤ eta * S.sum * matrixDistance A B := by
  have hw : ∀ l, 0 ≤ binomialWeight S.sum l eta := fun l => by
    unfold binomialWeight
    have : 0 ≤ 1 - eta := by linarith
    positivity
  have e : ∀ T ∈ 𝒯, |binomialWeight S.sum T.sum eta * fixedLossProb (rowsOf A) S T.sum T
        - binomialWeight S.sum T.sum eta * fixedLossProb (rowsOf B) S T.sum T|
      = binomialWeight S.sum T.sum eta * |fixedLossProb (rowsOf A) S T.sum T - fixedLossProb (rowsOf B) S T.sum T| := fun T _ => by
    rw [← mul_sub, abs_mul, abs_of_nonneg (hw _)]
  rw [sum_congr rfl e, ← sum_fiberwise_of_maps_to (g := List.sum) (t := range (S.sum + 1))
    (fun T hT => mem_range.mpr (Nat.lt_succ_of_le (h𝒯 T hT).2)), mul_sum]
  have h2 : ∀ l ∈ range (S.sum + 1), 1 / 2 * (∑ T ∈ 𝒯.filter fun T => T.sum = l,
      binomialWeight S.sum T.sum eta * |fixedLossProb (rowsOf A) S T.sum T - fixedLossProb (rowsOf B) S T.sum T|)
        ≤ binomialWeight S.sum l eta * l * matrixDistance A B := by
    intro l hl
    have h3 := C124_survivors hA hB S hS l (Nat.lt_succ_iff.mp (mem_range.mp hl)) (𝒯.filter fun T => T.sum = l)
      (fun T hT => ⟨(h𝒯 T (mem_filter.mp hT).1).1, (mem_filter.mp hT).2⟩)
    rw [sum_congr rfl fun T hT => by rw [(mem_filter.mp hT).2], ← mul_sum]
    have := mul_le_mul_of_nonneg_left h3 (hw l)
    linarith
  refine (sum_le_sum h2).trans (le_of_eq ?_)
  rw [← sum_mul, binomial_mean]

/-- C124 for the exact calculator with `k` particles left: `count_total_variation_distance` of the two calculated distributions
is at most `k` times `count_distance_between_matrices`. -/
theorem C124_calculator (gray : Nat → List Nat) (hgray : ∀ n, IsGrayCode n (gray n)) (t : Int) (hash : List Nat → Int)
    (S : List ℕ) (hS : S.length = m) (hm : 0 < m) (k : ℕ) (hk : k ≤ S.sum) (eta : ℝ)
    (hinj : ∀ a b : List Nat, StateLE a S → a.sum = k → StateLE b S → b.sum = k → hash a = hash b → a = b) :
    ∃ p q tv F, (∀ fuel ≥ F,
      fixedLossDistribution Complex.normSq (factoryPermanent gray t fuel) hash fuel (expConfig (rowsOf A) S k eta) = .ok p ∧
      fixedLossDistribution Complex.normSq (factoryPermanent gray t fuel) hash fuel (expConfig (rowsOf B) S k eta) = .ok q) ∧
      countTvd p q = .ok tv ∧ tv ≤ k * matrixDistance A B := by
  have hne : S ≠ [] := by rintro rfl; simp at hS; omega
  have key : ∀ {M : Matrix (Fin m) (Fin m) ℂ}, M ∈ unitaryGroup (Fin m) ℂ → ∃ outcomes F, ∀ fuel ≥ F,
      fixedLossOutcomes fuel (expConfig (rowsOf M) S k eta) = .ok outcomes ∧
      fixedLossDistribution Complex.normSq (factoryPermanent gray t fuel) hash fuel
          (expConfig (rowsOf M) S k eta) = .ok (outcomes.map (fixedLossProb (rowsOf M) S k)) ∧
      outcomes.Nodup ∧ (∀ T, T ∈ outcomes ↔ T.length = S.length ∧ T.sum = k) := fun {M} hM => by
    have hI := rowsOf_interferometer hM hm S hS
    obtain ⟨o, F, h⟩ := C23_distribution gray hgray t hash (rowsOf M) S k eta hI.square hI.len hne hI.ortho hk hinj
    exact ⟨o, F, fun fuel hf => ⟨(h fuel hf).1, (h fuel hf).2.1, (h fuel hf).2.2.1, (h fuel hf).2.2.2.1⟩⟩
  obtain ⟨o, F, h⟩ := key hA
  obtain ⟨o', F', h'⟩ := key hB
  obtain rfl : o = o' := by
    have h1 := (h (max F F') (le_max_left _ _)).1
    have h2 := (h' (max F F') (le_max_right _ _)).1
    have : fixedLossOutcomes (max F F') (expConfig (rowsOf A) S k eta) = fixedLossOutcomes (max F F') (expConfig (rowsOf B) S k eta) := by
      simp [fixedLossOutcomes, expConfig, rowsOf]
    rw [this, h2] at h1
    exact (Except.ok.inj h1).symm
  obtain ⟨-, -, hn, hmem⟩ := h F le_rfl
  refine ⟨_, _, _, max F F', fun fuel hf => ⟨(h fuel (le_of_max_le_left hf)).2.1, (h' fuel (le_of_max_le_right hf)).2.1⟩,
    countTvd_ok _ _ (by simp), ?_⟩
  have h1 := C124_survivors hA hB S hS k hk o.toFinset (fun T hT => hS ▸ (hmem T).mp (List.mem_toFinset.mp hT))
  rw [List.sum_toFinset _ hn] at h1
  rw [List.zipWith_map, List.zipWith_self]
  linarith

/-- C124 for the exact calculator with uniform losses. -/
theorem C124_uniform_calculator (gray : Nat → List Nat) (hgray : ∀ n, IsGrayCode n (gray n)) (t : Int) (hash : List Nat → Int)
    (S : List ℕ) (hS : S.length = m) (hm : 0 < m) (k : ℕ) {eta : ℝ} (h0 : 0 ≤ eta) (h1 : eta ≤ 1)
    (hinj : ∀ a b : List Nat, StateLE a S → StateLE b S → a.sum = b.sum → hash a = hash b → a = b) :
    ∃ p q tv F, (∀ fuel ≥ F,
      uniformDistribution Complex.normSq (factoryPermanent gray t fuel) hash fuel (uniformCalc (expConfig (rowsOf A) S k eta))
        = .ok p ∧
      uniformDistribution Complex.normSq (factoryPermanent gray t fuel) hash fuel (uniformCalc (expConfig (rowsOf B) S k eta))
        = .ok q) ∧
      countTvd p q = .ok tv ∧ tv ≤ eta * S.sum * matrixDistance A B := by
  have hne : S ≠ [] := by rintro rfl; simp at hS; omega
  have hIA := rowsOf_interferometer hA hm S hS
  have hIB := rowsOf_interferometer hB hm S hS
  obtain ⟨o, p, F, h, rfl, hn, hmem, -⟩ := C24_distribution gray hgray t hash (rowsOf A) S k eta h0 h1 hIA.square hIA.len hne
    hIA.ortho hinj
  obtain ⟨o', q, F', h', rfl, hn', hmem', -⟩ := C24_distribution gray hgray t hash (rowsOf B) S k eta h0 h1 hIB.square hIB.len hne
    hIB.ortho hinj
  obtain rfl : o = o' := by
    have e1 := (h (max F F') (le_max_left _ _)).1
    have e2 := (h' (max F F') (le_max_right _ _)).1
    have : uniformOutcomes (max F F') (expConfig (rowsOf A) S k eta) = uniformOutcomes (max F F') (expConfig (rowsOf B) S k eta) := by
      simp [uniformOutcomes, expConfig, rowsOf]
    rw [this, e2] at e1
    exact (Except.ok.inj e1).symm
  refine ⟨_, _, _, max F F', fun fuel hf => ⟨(h fuel (le_of_max_le_left hf)).2, (h' fuel (le_of_max_le_right hf)).2⟩,
    countTvd_ok _ _ (by simp), ?_⟩
  have e1 := C124_uniform hA hB S hS h0 h1 o.toFinset (fun T hT => hS ▸ (hmem T).mp (List.mem_toFinset.mp hT))
  rw [List.sum_toFinset _ hn] at e1
  rw [List.zipWith_map, List.zipWith_self]
  linarith

/-- C124 for the samplers: whatever calls the objects have seen before, the total variation distance between the laws of a sample
is at most `n` times the distance of the matrices. -/
theorem C124_sampler (gray : Nat → List Nat) (hgray : ∀ n, IsGrayCode n (gray n)) (t : Int) (S : List ℕ) (hS : S.length = m)
    (hm : 0 < m) (fuel : ℕ) (hf : (S.map (· + 1)).prod ≤ fuel) (o o' : GccObj) (N : ℤ) (i : ℕ) (hi : i < N.toNat)
    (𝒯 : Finset (List ℕ)) (h𝒯 : ∀ T ∈ 𝒯, T.length = m ∧ T.sum = S.sum) :
    1 / 2 * ∑ T ∈ 𝒯,
      |((gccSimulate gccA (factoryPermanent gray t fuel) (rowsOf A) fuel o S N).prob
          fun r => ∃ l o', r = .ok (l, o') ∧ l[i]? = some T).toReal
        - ((gccSimulate gccA (factoryPermanent gray t fuel) (rowsOf B) fuel o' S N).prob
          fun r => ∃ l o', r = .ok (l, o') ∧ l[i]? = some T).toReal| ≤ S.sum * matrixDistance A B := by
  refine le_trans (le_of_eq ?_) (C124_law hA hB S hS.le 𝒯 h𝒯)
  congr 1
  refine sum_congr rfl fun T hT => ?_
  obtain ⟨h1, h2⟩ := h𝒯 T hT
  rw [C26_sample gray hgray t (rowsOf_interferometer hA hm S hS) fuel hf o N i hi T (by omega) h2,
    C26_sample gray hgray t (rowsOf_interferometer hB hm S hS) fuel hf o' N i hi T (by omega) h2,
    ENNReal.toReal_ofReal (bosonProb_nonneg ..), ENNReal.toReal_ofReal (bosonProb_nonneg ..)]

/-- C124 for version B of the sampler. -/
theorem C124_sampler_b (S : List ℕ) (hS : S.length = m) (hm : 0 < m) (fuel : ℕ) (hf : (S.map (· + 1)).prod ≤ fuel) (N : ℤ) (i : ℕ)
    (hi : i < N.toNat) (𝒯 : Finset (List ℕ)) (h𝒯 : ∀ T ∈ 𝒯, T.length = m ∧ T.sum = S.sum) :
    1 / 2 * ∑ T ∈ 𝒯,
      |((gccbSimulate (ryserSubPermanents fuel) (rowsOf A) fuel S N).prob fun r => ∃ l, r = .ok l ∧ l[i]? = some T).toReal
        - ((gccbSimulate (ryserSubPermanents fuel) (rowsOf B) fuel S N).prob fun r => ∃ l, r = .ok l ∧ l[i]? = some T).toReal|
      ≤ S.sum * matrixDistance A B := by
  refine le_trans (le_of_eq ?_) (C124_law hA hB S hS.le 𝒯 h𝒯)
  congr 1
  refine sum_congr rfl fun T hT => ?_
  obtain ⟨h1, h2⟩ := h𝒯 T hT
  rw [C28_sample (rowsOf_interferometer hA hm S hS) fuel hf N i hi T (by omega) h2,
    C28_sample (rowsOf_interferometer hB hm S hS) fuel hf N i hi T (by omega) h2,
    ENNReal.toReal_ofReal (bosonProb_nonneg ..), ENNReal.toReal_ofReal (bosonProb_nonneg ..)]

end

/-! ### How sharp the bound is -/

/-- The rotation of two modes. -/
noncomputable def twoModeRotation (x y : ℝ) : Matrix (Fin 2) (Fin 2) ℂ := !![(x : ℂ), -(y : ℂ); (y : ℂ), (x : ℂ)]

theorem twoModeRotation_unitary {x y : ℝ} (h : x ^ 2 + y ^ 2 = 1) : twoModeRotation x y ∈ unitaryGroup (Fin 2) ℂ := by
  have h' : (x : ℂ) ^ 2 + (y : ℂ) ^ 2 = 1 := by exact_mod_cast h
  rw [mem_unitaryGroup_iff]
  ext i j
  fin_cases i <;> fin_cases j <;> simp [twoModeRotation, Matrix.mul_apply, Fin.sum_univ_two, Matrix.star_apply]
  · linear_combination h'
  · ring
  · ring
  · linear_combination h'

theorem twoModeRotation_prob (x y : ℝ) : bosonProb (rowsOf (twoModeRotation x y)) [1, 0] [1, 0] = x ^ 2 ∧
    bosonProb (rowsOf (twoModeRotation x y)) [1, 0] [0, 1] = y ^ 2 := by
  constructor
  · rw [bosonProb_eq_phi _ [1, 0] [1, 0] rfl, phi, multFact_particles]
    simp [particles, particlesFrom, amp, lperm, picks, colOf, mget, rowsOf, twoModeRotation, factProd, sq]
  · rw [bosonProb_eq_phi _ [1, 0] [0, 1] rfl, phi, multFact_particles]
    simp [particles, particlesFrom, amp, lperm, picks, colOf, mget, rowsOf, twoModeRotation, factProd, sq]

/-- C124: a particle behind two rotations of two modes. The bound exceeds the total variation distance by the factor
`2 / |x + y|`, which tends to `√2` when the rotations approach the balanced beam splitter. -/
theorem C124_sharp {x y : ℝ} (h : x ^ 2 + y ^ 2 = 1) :
    twoModeRotation x y ∈ unitaryGroup (Fin 2) ℂ ∧ twoModeRotation y x ∈ unitaryGroup (Fin 2) ℂ ∧
    1 / 2 * ∑ T ∈ {[1, 0], [0, 1]}, |bosonProb (rowsOf (twoModeRotation x y)) [1, 0] T - bosonProb (rowsOf (twoModeRotation y x)) [1, 0] T|
      = |x + y| / 2 * (([1, 0] : List ℕ).sum * matrixDistance (twoModeRotation x y) (twoModeRotation y x)) := by
  refine ⟨twoModeRotation_unitary h, twoModeRotation_unitary (by linarith), ?_⟩
  have hd : matrixDistance (twoModeRotation x y) (twoModeRotation y x) = 2 * |x - y| := by
    rw [matrixDistance]
    have e : ∀ z : ℝ, ‖((z : ℝ) : ℂ)‖ ^ 2 = z ^ 2 := fun z => by rw [Complex.norm_real, Real.norm_eq_abs, sq_abs]
    have : ∑ i, ∑ j, ‖(twoModeRotation x y - twoModeRotation y x) i j‖ ^ 2 = (2 * |x - y|) ^ 2 := by
      rw [mul_pow, sq_abs]
      have e1 := e (x - y)
      have e2 := e (y - x)
      have e3 := e (-y + x)
      push_cast at e1 e2 e3
      simp [Fin.sum_univ_two, twoModeRotation, e1, e2, e3]
      ring
    rw [this, Real.sqrt_sq (by positivity)]
  rw [hd, sum_pair (by decide), (twoModeRotation_prob x y).1, (twoModeRotation_prob x y).2, (twoModeRotation_prob y x).1, (twoModeRotation_prob y x).2,
    abs_sub_comm (y ^ 2), sq_sub_sq, abs_mul]
  simp
  ring

/-- Two rotations with distance `2 / 5`: the total variation distance is `7 / 25`. -/
example : 1 / 2 * ∑ T ∈ {[1, 0], [0, 1]},
    |bosonProb (rowsOf (twoModeRotation (3 / 5) (4 / 5))) [1, 0] T - bosonProb (rowsOf (twoModeRotation (4 / 5) (3 / 5))) [1, 0] T| = 7 / 25 ∧
    7 / 25 ≤ (([1, 0] : List ℕ).sum : ℝ) * matrixDistance (twoModeRotation (3 / 5) (4 / 5)) (twoModeRotation (4 / 5) (3 / 5)) := by
  have h := C124_law (twoModeRotation_unitary (x := 3 / 5) (y := 4 / 5) (by norm_num)) (twoModeRotation_unitary (x := 4 / 5) (y := 3 / 5) (by norm_num))
    [1, 0] (by simp) {[1, 0], [0, 1]} (by simp)
  have e : 1 / 2 * ∑ T ∈ {[1, 0], [0, 1]}, |bosonProb (rowsOf (twoModeRotation (3 / 5) (4 / 5))) [1, 0] T
      - bosonProb (rowsOf (twoModeRotation (4 / 5) (3 / 5))) [1, 0] T| = 7 / 25 := by
    rw [sum_pair (by decide), (twoModeRotation_prob _ _).1, (twoModeRotation_prob _ _).2, (twoModeRotation_prob _ _).1, (twoModeRotation_prob _ _).2]
    norm_num
  exact ⟨e, e ▸ h⟩

end Verif
