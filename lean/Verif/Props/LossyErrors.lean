import Verif.Proofs.LossyErrors
import Verif.Proofs.BlockNetworks
import Verif.Props.NetworkErrors
import Verif.Props.LossyNetworks
import Verif.Props.Bobs
import Verif.Proofs.NetworkSymmetry

/-!
C127: a small error in the matrix of a lossy network changes the law of the samples by little.
-/
namespace Verif

open Finset Matrix

variable {m : ℕ}

theorem IsDilation.opLe {A : List (List ℂ)} {W : List (List ℂ)} {b : ℕ} (h : IsDilation A W m b) (y : ℕ → ℂ) :
    ∑ r ∈ range m, Complex.normSq (∑ a ∈ range m, colOf W a r * y a) ≤ ∑ a ∈ range m, Complex.normSq (y a) := by
  rw [← (orthoCols_of W h.isometric).isometry y, sum_range_add]
  exact le_add_of_nonneg_right (sum_nonneg fun _ _ => Complex.normSq_nonneg _)

/-- An interferometer is a network without losses. -/
theorem gccb_lossyProb {B : Matrix (Fin m) (Fin m) ℂ} (hB : B ∈ unitaryGroup (Fin m) ℂ)
    (S : List ℕ) (hS : S.length = m) (hm : 0 < m) (fuel : ℕ) (hf : (S.map (· + 1)).prod ≤ fuel)
    (N : ℤ) (j : ℕ) (hj : j < N.toNat) (T : List ℕ) (hT : T.length = m) :
    (gccbSimulate (ryserSubPermanents fuel) (rowsOf B) fuel S N).prob (fun r => ∃ l, r = .ok l ∧ l[j]? = some T)
      = ENNReal.ofReal (lossyProb (rowsOf B) 0 S T) := by
  have hI := rowsOf_interferometer hB hm S hS
  by_cases h2 : T.sum = S.sum
  · rw [C28_sample hI fuel hf N j hj T (by omega) h2, lossyProb_full (unitary_isDilation hB) S T hS hT h2]
  · have h0 : lossyProb (rowsOf B) 0 S T = 0 := by
      unfold lossyProb
      rw [filter_eq_empty_iff.mpr (fun E _ => by simpa using h2), sum_empty]
    rw [h0, ENNReal.ofReal_zero]
    classical
    refine Eq.trans (Prog.wp_congr _ _ (fun _ => 0) fun r hr => ?_) (Prog.wp_const _ _)
    obtain ⟨l, rfl, h3⟩ := C29_gccb_total hI fuel hf N r hr
    rw [if_neg]
    rintro ⟨l', hl, hT'⟩
    injection hl with hl
    subst hl
    exact h2 (h3.2 T (List.mem_of_getElem? hT')).2

section

variable {A B : Matrix (Fin m) (Fin m) ℂ}

/-- C127: let two networks with losses be parts of interferometers `W` and `W'`. For `n` particles the total variation distance
between the laws of the particles left in the modes of the networks is at most `2 n` times the distance of their matrices. -/
theorem C127_law {W W' : List (List ℂ)} {b b' : ℕ} (hA : IsDilation (rowsOf A) W m b) (hB : IsDilation (rowsOf B) W' m b')
    (S : List ℕ) (hS : S.length = m) (𝒯 : Finset (List ℕ)) (h𝒯 : ∀ T ∈ 𝒯, T.length = m) :
    1 / 2 * ∑ T ∈ 𝒯, |lossyProb W b S T - lossyProb W' b' S T| ≤ 2 * S.sum * matrixDistance A B := by
  have hcut : ∑ T ∈ 𝒯, |lossyProb W b S T - lossyProb W' b' S T|
      = ∑ T ∈ 𝒯.filter (fun T => T.sum ≤ S.sum), |lossyProb W b S T - lossyProb W' b' S T| := by
    rw [sum_filter]
    refine sum_congr rfl fun T _ => ?_
    split
    · rfl
    · rw [lossyProb_eq_zero _ _ _ _ (by omega), lossyProb_eq_zero _ _ _ _ (by omega), sub_zero, abs_zero]
  rw [hcut]
  have hcol : ∀ {M : Matrix (Fin m) (Fin m) ℂ} {V : List (List ℂ)} {c : ℕ}, IsDilation (rowsOf M) V m c → ∀ i j : Fin m,
      colOf V j i = M i j := fun {M} _ _ h i j =>
    (h.embeds i i.2 j j.2).trans (colOf_rowsOf M i j)
  have hd : ∀ ε, matrixDistance A B ≤ ε → OpLe (fun a r => colOf W a r + (-1) * colOf W' a r) m m ε := fun ε he =>
    opLe_of_nrm (M := A - B) (fun i j => by rw [hcol hA, hcol hB, Matrix.sub_apply]; ring)
      fun x => (nrm_distance A B x).trans (mul_le_mul_of_nonneg_right he (nrm_nonneg x))
  have hs : OpLe (fun a r => colOf W a r + 1 * colOf W' a r) m m 2 := fun y => by
    have h1 := hA.opLe y
    have h2 := hB.opLe y
    have h3 : ∑ r ∈ range m, Complex.normSq (∑ a ∈ range m, (colOf W a r + 1 * colOf W' a r) * y a)
        ≤ ∑ r ∈ range m, (2 * Complex.normSq (∑ a ∈ range m, colOf W a r * y a)
          + 2 * Complex.normSq (∑ a ∈ range m, colOf W' a r * y a)) := by
      refine sum_le_sum fun r _ => ?_
      have e : ∑ a ∈ range m, (colOf W a r + 1 * colOf W' a r) * y a
          = (∑ a ∈ range m, colOf W a r * y a) + ∑ a ∈ range m, colOf W' a r * y a := by
        rw [← sum_add_distrib]
        exact sum_congr rfl fun a _ => by ring
      rw [e]
      generalize ∑ a ∈ range m, colOf W a r * y a = p
      generalize ∑ a ∈ range m, colOf W' a r * y a = q
      rw [Complex.normSq_apply, Complex.normSq_apply, Complex.normSq_apply, Complex.add_re, Complex.add_im]
      nlinarith [sq_nonneg (p.re - q.re), sq_nonneg (p.im - q.im)]
    rw [sum_add_distrib, ← mul_sum, ← mul_sum] at h3
    linarith
  have h0 : 0 ≤ matrixDistance A B := Real.sqrt_nonneg _
  refine le_of_forall_pos_le_add fun t ht => ?_
  have hp : (0 : ℝ) < 2 * S.sum + 1 := by positivity
  have ht' : 0 < t / (2 * S.sum + 1) := by positivity
  refine (lossy_diff S (ε := matrixDistance A B + t / (2 * S.sum + 1)) (by linarith) hA.isometric hB.isometric
    (hd _ (by linarith)) hs hS.le _ fun T hT => ?_).trans ?_
  · rw [mem_filter] at hT
    exact ⟨h𝒯 T hT.1, hT.2⟩
  · have h1 : 2 * (S.sum : ℝ) * (t / (2 * S.sum + 1)) ≤ t := by
      rw [← mul_div_assoc, div_le_iff₀ hp]
      nlinarith
    linarith

/-- C127 for the sampler of lossy networks, whatever decompositions of the two networks it is given. -/
theorem C127_sampler {dA dB : Svd m} (hA : IsSvd A dA) (hB : IsSvd B dB) (hA1 : ∀ i, dA.s i ≤ 1) (hB1 : ∀ i, dB.s i ≤ 1)
    (S : List ℕ) (hS : S.length = m) (hm : 0 < m) (fuel : ℕ) (hf : (S.map (· + 1)).prod ≤ fuel) (hf' : m < fuel)
    (N : ℤ) (i : ℕ) (hi : i < N.toNat) (𝒯 : Finset (List ℕ)) (h𝒯 : ∀ T ∈ 𝒯, T.length = m) :
    1 / 2 * ∑ T ∈ 𝒯,
      |((lossyNetSimulate (ryserSubPermanents fuel) dA fuel S N).prob fun r => ∃ l, r = .ok l ∧ l[i]? = some T).toReal
        - ((lossyNetSimulate (ryserSubPermanents fuel) dB fuel S N).prob fun r => ∃ l, r = .ok l ∧ l[i]? = some T).toReal|
      ≤ 2 * S.sum * matrixDistance A B := by
  refine le_trans (le_of_eq ?_) (C127_law (expanded_isDilation hA hA1) (expanded_isDilation hB hB1) S hS 𝒯 h𝒯)
  congr 1
  refine sum_congr rfl fun T hT => ?_
  rw [C35_dilation A dA hA hA1 _ m (expanded_isDilation hA hA1) S hS hm fuel hf hf' N i hi T (h𝒯 T hT),
    C35_dilation B dB hB hB1 _ m (expanded_isDilation hB hB1) S hS hm fuel hf hf' N i hi T (h𝒯 T hT),
    ENNReal.toReal_ofReal (lossyProb_nonneg ..), ENNReal.toReal_ofReal (lossyProb_nonneg ..)]

/-- C127: how much neglecting the losses costs. The law of the sampler of lossy networks differs from that of the sampler for a
unitary matrix by at most `2 n` times the distance of the matrices. -/
theorem C127_lossless {d : Svd m} (hA : IsSvd A d) (hA1 : ∀ i, d.s i ≤ 1) (hB : B ∈ unitaryGroup (Fin m) ℂ)
    (S : List ℕ) (hS : S.length = m) (hm : 0 < m) (fuel : ℕ) (hf : (S.map (· + 1)).prod ≤ fuel) (hf' : m < fuel)
    (N N' : ℤ) (i j : ℕ) (hi : i < N.toNat) (hj : j < N'.toNat) (𝒯 : Finset (List ℕ)) (h𝒯 : ∀ T ∈ 𝒯, T.length = m) :
    1 / 2 * ∑ T ∈ 𝒯,
      |((lossyNetSimulate (ryserSubPermanents fuel) d fuel S N).prob fun r => ∃ l, r = .ok l ∧ l[i]? = some T).toReal
        - ((gccbSimulate (ryserSubPermanents fuel) (rowsOf B) fuel S N').prob fun r => ∃ l, r = .ok l ∧ l[j]? = some T).toReal|
      ≤ 2 * S.sum * matrixDistance A B := by
  refine le_trans (le_of_eq ?_) (C127_law (expanded_isDilation hA hA1) (unitary_isDilation hB) S hS 𝒯 h𝒯)
  congr 1
  refine sum_congr rfl fun T hT => ?_
  rw [C35_dilation A d hA hA1 _ m (expanded_isDilation hA hA1) S hS hm fuel hf hf' N i hi T (h𝒯 T hT),
    gccb_lossyProb hB S hS hm fuel hf N' j hj T (h𝒯 T hT),
    ENNReal.toReal_ofReal (lossyProb_nonneg ..), ENNReal.toReal_ofReal (lossyProb_nonneg ..)]

end

/-! ### The constant cannot be improved -/

/-- A mode that transmits the amplitude `x`. -/
noncomputable def oneModeLoss (x : ℝ) : Matrix (Fin 1) (Fin 1) ℂ := !![(x : ℂ)]

noncomputable def oneModeSplit (x : ℝ) : List (List ℂ) := [[(x : ℂ)], [(Real.sqrt (1 - x ^ 2) : ℂ)]]

theorem oneModeSplit_isDilation {x : ℝ} (h : x ^ 2 ≤ 1) : IsDilation (rowsOf (oneModeLoss x)) (oneModeSplit x) 1 1 := by
  constructor
  · intro i hi j hj
    obtain rfl : i = 0 := by omega
    obtain rfl : j = 0 := by omega
    simp [oneModeSplit, oneModeLoss, rowsOf, mget]
  · intro a ha b hb
    obtain rfl : a = 0 := by omega
    obtain rfl : b = 0 := by omega
    have hs : Real.sqrt (1 - x ^ 2) * Real.sqrt (1 - x ^ 2) = 1 - x ^ 2 := Real.mul_self_sqrt (by linarith)
    simp only [sum_range_succ, sum_range_zero, oneModeSplit, mget]
    simp only [if_true]
    apply Complex.ext
    · simp; nlinarith
    · simp

theorem oneModeSplit_prob {x : ℝ} (h : x ^ 2 ≤ 1) :
    lossyProb (oneModeSplit x) 1 [1] [1] = x ^ 2 ∧ lossyProb (oneModeSplit x) 1 [1] [0] = 1 - x ^ 2 := by
  have hs : Real.sqrt (1 - x ^ 2) * Real.sqrt (1 - x ^ 2) = 1 - x ^ 2 := Real.mul_self_sqrt (by linarith)
  constructor
  · rw [lossyProb_eq_words _ _ _ _ (by simp)]
    simp [words, phi, particles, particlesFrom, amp, lperm, picks, colOf, mget, oneModeSplit, factProd, sq, multFact]
  · rw [lossyProb_eq_words _ _ _ _ (by simp)]
    simp [words, phi, particles, particlesFrom, amp, lperm, picks, colOf, mget, oneModeSplit, factProd, multFact]
    linarith

theorem oneModeLoss_distance (x y : ℝ) : matrixDistance (oneModeLoss x) (oneModeLoss y) = |x - y| := by
  rw [matrixDistance]
  simp only [Fin.sum_univ_one, oneModeLoss, Matrix.sub_apply]
  simp only [Matrix.of_apply, Matrix.cons_val', Matrix.cons_val_fin_one]
  rw [← Complex.ofReal_sub, Complex.norm_real, Real.norm_eq_abs, sq_abs, Real.sqrt_sq_eq_abs]

/-- C127: one particle in one mode with the transmission amplitudes `x` and `y`. The total variation distance is the bound times
`(x + y) / 2`, which tends to 1 when both approach 1: no factor below `2` would do. -/
theorem C127_sharp {x y : ℝ} (hx0 : 0 ≤ x) (hx : x ≤ 1) (hy0 : 0 ≤ y) (hy : y ≤ 1) :
    IsDilation (rowsOf (oneModeLoss x)) (oneModeSplit x) 1 1 ∧ IsDilation (rowsOf (oneModeLoss y)) (oneModeSplit y) 1 1 ∧
    1 / 2 * ∑ T ∈ {[0], [1]}, |lossyProb (oneModeSplit x) 1 [1] T - lossyProb (oneModeSplit y) 1 [1] T|
      = (x + y) / 2 * (2 * ([1] : List ℕ).sum * matrixDistance (oneModeLoss x) (oneModeLoss y)) := by
  have hx2 : x ^ 2 ≤ 1 := by nlinarith
  have hy2 : y ^ 2 ≤ 1 := by nlinarith
  refine ⟨oneModeSplit_isDilation hx2, oneModeSplit_isDilation hy2, ?_⟩
  rw [sum_pair (by decide), (oneModeSplit_prob hx2).1, (oneModeSplit_prob hx2).2, (oneModeSplit_prob hy2).1,
    (oneModeSplit_prob hy2).2, oneModeLoss_distance]
  have e1 : |1 - x ^ 2 - (1 - y ^ 2)| = (x + y) * |x - y| := by
    rw [show 1 - x ^ 2 - (1 - y ^ 2) = -((x + y) * (x - y)) by ring, abs_neg, abs_mul, abs_of_nonneg (by linarith)]
  have e2 : |x ^ 2 - y ^ 2| = (x + y) * |x - y| := by
    rw [show x ^ 2 - y ^ 2 = (x + y) * (x - y) by ring, abs_mul, abs_of_nonneg (by linarith)]
  rw [e1, e2]
  simp
  ring

/-- C127: for every smaller constant there are networks with losses and an input that violate the bound. -/
theorem C127_optimal {c : ℝ} (hc : c < 2) : ∃ (A B : Matrix (Fin 1) (Fin 1) ℂ) (W W' : List (List ℂ)) (S : List ℕ) (𝒯 : Finset (List ℕ)),
    IsDilation (rowsOf A) W 1 1 ∧ IsDilation (rowsOf B) W' 1 1 ∧ S.length = 1 ∧ (∀ T ∈ 𝒯, T.length = 1) ∧
    c * S.sum * matrixDistance A B < 1 / 2 * ∑ T ∈ 𝒯, |lossyProb W 1 S T - lossyProb W' 1 S T| := by
  have hy0 : 0 ≤ max 0 (c / 2) := le_max_left _ _
  have hy1 : max 0 (c / 2) < 1 := max_lt one_pos (by linarith)
  have hy2 : c / 2 ≤ max 0 (c / 2) := le_max_right _ _
  obtain ⟨h1, h2, h3⟩ := C127_sharp zero_le_one le_rfl hy0 hy1.le
  refine ⟨_, _, _, _, [1], {[0], [1]}, h1, h2, rfl, fun T hT => by simp at hT; rcases hT with rfl | rfl <;> rfl, ?_⟩
  have hd : 0 < matrixDistance (oneModeLoss 1) (oneModeLoss (max 0 (c / 2))) := by
    rw [oneModeLoss_distance]
    exact abs_pos.mpr (by linarith)
  rw [h3]
  simp only [List.sum_cons, List.sum_nil, Nat.add_zero, Nat.cast_one, mul_one]
  nlinarith

/-! ### A non-trivial instance: 90 % and 80 % transmitted amplitude -/

example : 1 / 2 * ∑ T ∈ {[0], [1], [2]},
    |lossyProb (oneModeSplit (9 / 10)) 1 [2] T - lossyProb (oneModeSplit (8 / 10)) 1 [2] T|
      ≤ 2 * ([2] : List ℕ).sum * matrixDistance (oneModeLoss (9 / 10)) (oneModeLoss (8 / 10)) :=
  C127_law (oneModeSplit_isDilation (by norm_num)) (oneModeSplit_isDilation (by norm_num)) [2] rfl _ fun T hT => by
    simp at hT; rcases hT with rfl | rfl | rfl <;> rfl

end Verif
