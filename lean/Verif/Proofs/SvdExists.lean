import Verif.Model.Networks
import Mathlib.Analysis.Matrix.Spectrum
import Mathlib.Analysis.Matrix.PosDef
import Mathlib.Analysis.InnerProductSpace.GramSchmidtOrtho
import Mathlib.Data.Fin.Tuple.Sort

/-! Every square complex matrix has a singular value decomposition, so `IsSvd` is never vacuous. -/
namespace Verif

open Matrix
open scoped ComplexOrder

variable {m : ℕ}

/-- Columns with a diagonal Gram matrix are scaled columns of a unitary matrix. -/
theorem polar_columns (P : Matrix (Fin m) (Fin m) ℂ) (t : Fin m → ℝ)
    (h : Pᴴ * P = diagonal fun i => ((t i ^ 2 : ℝ) : ℂ)) :
    ∃ V ∈ Matrix.unitaryGroup (Fin m) ℂ, P = V * diagonal fun i => (t i : ℂ) := by
  have hdot : ∀ i j, ∑ a, star (P a i) * P a j = if i = j then ((t i ^ 2 : ℝ) : ℂ) else 0 := by
    intro i j
    have := congrFun (congrFun h i) j
    rwa [Matrix.mul_apply, Matrix.diagonal_apply] at this
  let v : Fin m → EuclideanSpace ℂ (Fin m) := fun i => WithLp.toLp 2 fun a => P a i / (t i : ℂ)
  have hinner : ∀ i j, inner ℂ (v i) (v j)
      = (∑ a, star (P a i) * P a j) / ((t i : ℂ) * (t j : ℂ)) := by
    intro i j
    rw [EuclideanSpace.inner_eq_star_dotProduct, dotProduct, Finset.sum_div]
    refine Finset.sum_congr rfl fun a _ => ?_
    simp only [v, Pi.star_apply]
    rw [star_div₀]
    simp only [Complex.star_def]
    rw [Complex.conj_ofReal, div_mul_div_comm]
    congr 1 <;> ring
  have hv : Orthonormal ℂ (({i | t i ≠ 0} : Set (Fin m)).domRestrict v) := by
    rw [orthonormal_iff_ite]
    rintro ⟨i, hi⟩ ⟨j, hj⟩
    simp only [Set.domRestrict_apply, Subtype.mk.injEq]
    rw [hinner, hdot]
    by_cases hij : i = j
    · subst hij
      have hi' : (t i : ℂ) ≠ 0 := by exact_mod_cast hi
      rw [if_pos rfl, if_pos rfl]
      push_cast
      field_simp
    · rw [if_neg hij, if_neg hij, zero_div]
  obtain ⟨b, hb⟩ := hv.exists_orthonormalBasis_extension_of_card_eq (by simp)
  refine ⟨Matrix.of fun a i => b i a, ?_, ?_⟩
  · rw [Matrix.mem_unitaryGroup_iff']
    ext i j
    have := orthonormal_iff_ite.mp b.orthonormal i j
    rw [EuclideanSpace.inner_eq_star_dotProduct, dotProduct] at this
    rw [Matrix.mul_apply, Matrix.one_apply, ← this]
    refine Finset.sum_congr rfl fun a _ => ?_
    simp only [Matrix.star_apply, Matrix.of_apply, Pi.star_apply]
    ring
  · ext a i
    rw [Matrix.mul_diagonal, Matrix.of_apply]
    by_cases hi : t i = 0
    · rw [hi]
      have h0 := hdot i i
      rw [if_pos rfl, hi] at h0
      have h1 : ∑ a, Complex.normSq (P a i) = 0 := by
        have h2 : ((∑ a, Complex.normSq (P a i) : ℝ) : ℂ) = 0 := by
          rw [Complex.ofReal_sum]
          rw [show ((0 ^ 2 : ℝ) : ℂ) = 0 by simp] at h0
          rw [← h0]
          refine Finset.sum_congr rfl fun a _ => ?_
          rw [Complex.star_def, mul_comm, Complex.mul_conj]
        exact_mod_cast h2
      have h3 := (Finset.sum_eq_zero_iff_of_nonneg fun a _ => Complex.normSq_nonneg (P a i)).mp h1 a
        (Finset.mem_univ _)
      rw [Complex.normSq_eq_zero.mp h3]; simp
    · have hi' : (t i : ℂ) ≠ 0 := by exact_mod_cast hi
      rw [hb i hi]
      simp only [v]
      rw [div_mul_cancel₀ _ hi']

theorem svd_exists (M : Matrix (Fin m) (Fin m) ℂ) : ∃ d, IsSvd M d := by
  have hH : (Mᴴ * M).IsHermitian := Matrix.isHermitian_conjTranspose_mul_self M
  have hpos : (Mᴴ * M).PosSemidef := Matrix.posSemidef_conjTranspose_mul_self M
  let lam := hH.eigenvalues
  have hlam : ∀ i, 0 ≤ lam i := hpos.eigenvalues_nonneg
  let W0 : Matrix (Fin m) (Fin m) ℂ := hH.eigenvectorUnitary
  have hW0 : W0 ∈ Matrix.unitaryGroup (Fin m) ℂ := hH.eigenvectorUnitary.2
  have hdiag : (Mᴴ * M) * W0 = W0 * diagonal fun i => (lam i : ℂ) := by
    ext a i
    have := congrFun (hH.mulVec_eigenvectorBasis i) a
    rw [Matrix.mul_diagonal, Matrix.mul_apply]
    have hW : ∀ c j, W0 c j = hH.eigenvectorBasis j c := fun c j => hH.eigenvectorUnitary_apply c j
    simp only [hW]
    rw [Matrix.mulVec, dotProduct] at this
    rw [this, Pi.smul_apply, Complex.real_smul, mul_comm]
  -- sort the eigenvalues in descending order
  let σ : Equiv.Perm (Fin m) := Tuple.sort fun i => -lam i
  have hσ : ∀ i j, i ≤ j → lam (σ j) ≤ lam (σ i) := by
    intro i j hij
    have := Tuple.monotone_sort (fun i => -lam i) hij
    simpa using this
  let W : Matrix (Fin m) (Fin m) ℂ := W0.submatrix id σ
  have hW : W ∈ Matrix.unitaryGroup (Fin m) ℂ := by
    rw [Matrix.mem_unitaryGroup_iff']
    ext i j
    have := congrFun (congrFun (Matrix.mem_unitaryGroup_iff'.mp hW0) (σ i)) (σ j)
    rw [Matrix.mul_apply, Matrix.one_apply] at this
    rw [Matrix.mul_apply, Matrix.one_apply]
    simp only [W, Matrix.star_apply, Matrix.submatrix_apply, id]
    simp only [Matrix.star_apply] at this
    rw [this]
    simp
  have hWdiag : (Mᴴ * M) * W = W * diagonal fun i => (lam (σ i) : ℂ) := by
    ext a i
    have := congrFun (congrFun hdiag a) (σ i)
    rw [Matrix.mul_diagonal] at this ⊢
    exact this
  have hgram : (M * W)ᴴ * (M * W)
      = diagonal fun i => ((Real.sqrt (lam (σ i)) ^ 2 : ℝ) : ℂ) := by
    rw [Matrix.conjTranspose_mul, Matrix.mul_assoc, ← Matrix.mul_assoc Mᴴ, hWdiag, ← Matrix.mul_assoc,
      ← Matrix.star_eq_conjTranspose, Matrix.mem_unitaryGroup_iff'.mp hW, Matrix.one_mul]
    congr 1; funext i
    rw [Real.sq_sqrt (hlam _)]
  obtain ⟨V, hV, hP⟩ := polar_columns (M * W) (fun i => Real.sqrt (lam (σ i)))
    hgram
  refine ⟨⟨V, fun i => Real.sqrt (lam (σ i)), star W⟩, hV, ?_, fun i => Real.sqrt_nonneg _,
    fun i j hij => Real.sqrt_le_sqrt (hσ i j hij), ?_⟩
  · exact Unitary.star_mem hW
  · rw [← hP, Matrix.mul_assoc, Matrix.mem_unitaryGroup_iff.mp hW, Matrix.mul_one]

end Verif
