import Verif.Proofs.NormKept
import Verif.Proofs.SvdExists
import Mathlib.Algebra.Order.Chebyshev

/-! Helper lemmas: `√(1 - BᴴB)` as a function of the contraction `B`. -/
namespace Verif

open Finset Matrix

variable {m : ℕ}

/-! ### Norms of vectors -/

/-- The Euclidean norm. -/
noncomputable def nrm (x : Fin m → ℂ) : ℝ := ‖(WithLp.toLp 2 x : EuclideanSpace ℂ (Fin m))‖

theorem nrm_nonneg (x : Fin m → ℂ) : 0 ≤ nrm x := norm_nonneg _

theorem nrm_sq (x : Fin m → ℂ) : nrm x ^ 2 = ∑ i, Complex.normSq (x i) := by
  rw [nrm, EuclideanSpace.norm_sq_eq]
  exact sum_congr rfl fun i _ => (Complex.normSq_eq_norm_sq _).symm

theorem nrm_add (x y : Fin m → ℂ) : nrm (x + y) ≤ nrm x + nrm y := by
  unfold nrm
  rw [WithLp.toLp_add]
  exact norm_add_le _ _

theorem nrm_sub_comm (x y : Fin m → ℂ) : nrm (x - y) = nrm (y - x) := by
  unfold nrm
  rw [WithLp.toLp_sub, WithLp.toLp_sub]
  exact norm_sub_rev _ _

theorem abs_nrm_sub (x y : Fin m → ℂ) : |nrm x - nrm y| ≤ nrm (x - y) := by
  unfold nrm
  rw [WithLp.toLp_sub]
  exact abs_norm_sub_norm_le _ _

theorem nrm_unitary {A : Matrix (Fin m) (Fin m) ℂ} (h : A ∈ unitaryGroup (Fin m) ℂ) (x : Fin m → ℂ) : nrm (A *ᵥ x) = nrm x := by
  have := normSq_unitary A h x
  rw [← nrm_sq, ← nrm_sq] at this
  exact (sq_eq_sq₀ (nrm_nonneg _) (nrm_nonneg _)).mp this

theorem nrm_le {x y : Fin m → ℂ} {c : ℝ} (hc : 0 ≤ c) (h : ∑ i, Complex.normSq (x i) ≤ c ^ 2 * ∑ i, Complex.normSq (y i)) :
    nrm x ≤ c * nrm y := by
  rw [← nrm_sq, ← nrm_sq, ← mul_pow] at h
  exact (sq_le_sq₀ (nrm_nonneg _) (mul_nonneg hc (nrm_nonneg _))).mp h

theorem entry_le_nrm (x : Fin m → ℂ) (i : Fin m) : ‖x i‖ ≤ nrm x := by
  have : ‖x i‖ ^ 2 ≤ nrm x ^ 2 := by
    rw [nrm_sq, ← Complex.normSq_eq_norm_sq]
    exact single_le_sum (f := fun i => Complex.normSq (x i)) (fun i _ => Complex.normSq_nonneg _) (mem_univ i)
  exact (sq_le_sq₀ (norm_nonneg _) (nrm_nonneg _)).mp this

theorem nrm_single (j : Fin m) : nrm (Pi.single j 1 : Fin m → ℂ) = 1 := by
  have : nrm (Pi.single j 1 : Fin m → ℂ) ^ 2 = 1 := by
    rw [nrm_sq, sum_eq_single j]
    · simp
    · intro i _ hi; simp [hi]
    · simp
  have h0 := nrm_nonneg (Pi.single j 1 : Fin m → ℂ)
  nlinarith

/-- A matrix with entries of modulus at most `ε`. -/
theorem nrm_mulVec_entries {M : Matrix (Fin m) (Fin m) ℂ} {ε : ℝ} (hε : 0 ≤ ε) (h : ∀ i j, ‖M i j‖ ≤ ε) (x : Fin m → ℂ) :
    nrm (M *ᵥ x) ≤ m * ε * nrm x := by
  refine nrm_le (by positivity) ?_
  have h1 : ∀ i, Complex.normSq ((M *ᵥ x) i) ≤ ε ^ 2 * (m * ∑ j, Complex.normSq (x j)) := by
    intro i
    have e1 : ‖(M *ᵥ x) i‖ ≤ ε * ∑ j, ‖x j‖ := by
      rw [Matrix.mulVec, dotProduct, mul_sum]
      refine (norm_sum_le _ _).trans (sum_le_sum fun j _ => ?_)
      rw [norm_mul]
      exact mul_le_mul_of_nonneg_right (h i j) (norm_nonneg _)
    have e2 : (∑ j, ‖x j‖) ^ 2 ≤ m * ∑ j, Complex.normSq (x j) := by
      have := sq_sum_le_card_mul_sum_sq (s := (univ : Finset (Fin m))) (f := fun j => ‖x j‖)
      rw [card_univ, Fintype.card_fin] at this
      refine this.trans (le_of_eq ?_)
      congr 1
      exact sum_congr rfl fun j _ => (Complex.normSq_eq_norm_sq _).symm
    rw [Complex.normSq_eq_norm_sq]
    calc ‖(M *ᵥ x) i‖ ^ 2 ≤ (ε * ∑ j, ‖x j‖) ^ 2 := pow_le_pow_left₀ (norm_nonneg _) e1 2
      _ = ε ^ 2 * (∑ j, ‖x j‖) ^ 2 := mul_pow _ _ _
      _ ≤ _ := mul_le_mul_of_nonneg_left e2 (sq_nonneg _)
  calc ∑ i, Complex.normSq ((M *ᵥ x) i) ≤ ∑ _i : Fin m, ε ^ 2 * (m * ∑ j, Complex.normSq (x j)) := sum_le_sum fun i _ => h1 i
    _ = _ := by rw [sum_const, card_univ, Fintype.card_fin, nsmul_eq_mul]; ring

/-! ### Roots -/

/-- `Uᴴ diag(t) U` -/
noncomputable def conjDiag (U : Matrix (Fin m) (Fin m) ℂ) (t : Fin m → ℝ) : Matrix (Fin m) (Fin m) ℂ :=
  Uᴴ * Matrix.diagonal (fun i => (t i : ℂ)) * U

theorem conjDiag_herm (U : Matrix (Fin m) (Fin m) ℂ) (t : Fin m → ℝ) : (conjDiag U t).IsHermitian := by
  unfold conjDiag Matrix.IsHermitian
  rw [conjTranspose_mul, conjTranspose_mul, conjTranspose_conjTranspose, diagonal_conjTranspose, Matrix.mul_assoc]
  congr 3
  funext i
  simp

/-- The real part of the scalar product. -/
noncomputable def ip (x y : Fin m → ℂ) : ℝ := ∑ i, ((starRingEnd ℂ) (x i) * y i).re

theorem ip_self (x : Fin m → ℂ) : ip x x = nrm x ^ 2 := by
  rw [nrm_sq, ip]
  refine sum_congr rfl fun i _ => ?_
  rw [mul_comm, Complex.mul_conj, Complex.ofReal_re]

theorem ip_conjDiag (U : Matrix (Fin m) (Fin m) ℂ) {t : Fin m → ℝ} (ht : ∀ i, 0 ≤ t i) (v : Fin m → ℂ) :
    0 ≤ ip v (conjDiag U t *ᵥ v) := by
  have e : ip v (conjDiag U t *ᵥ v) = ∑ i, t i * Complex.normSq ((U *ᵥ v) i) := by
    have h1 : ip v (conjDiag U t *ᵥ v) = (star v ⬝ᵥ (conjDiag U t *ᵥ v)).re := by
      rw [ip, dotProduct, Complex.re_sum]
      rfl
    rw [h1, conjDiag, ← mulVec_mulVec, ← mulVec_mulVec, dotProduct_mulVec, ← star_mulVec, dotProduct, Complex.re_sum]
    refine sum_congr rfl fun i _ => ?_
    rw [mulVec_diagonal, Pi.star_apply, Complex.star_def, mul_left_comm, mul_comm ((starRingEnd ℂ) _), Complex.mul_conj,
      ← Complex.ofReal_mul, Complex.ofReal_re]
  rw [e]
  exact sum_nonneg fun i _ => mul_nonneg (ht i) (Complex.normSq_nonneg _)

theorem eigenvalue_bound {a b v : Fin m → ℂ} {lam c : ℝ} (h : ∀ i, a i - b i = lam * v i) (ha : 0 ≤ ip v a) (hb : 0 ≤ ip v b)
    (hv : nrm v = 1) (hc : |nrm a ^ 2 - nrm b ^ 2| ≤ c) : lam ^ 2 ≤ c := by
  have e1 : ip v a - ip v b = lam := by
    have : ip v a - ip v b = lam * ip v v := by
      unfold ip
      rw [mul_sum, ← sum_sub_distrib]
      refine sum_congr rfl fun i _ => ?_
      rw [← Complex.sub_re, ← mul_sub, h i, mul_left_comm, Complex.re_ofReal_mul]
    rw [this, ip_self, hv]
    ring
  have e2 : nrm a ^ 2 - nrm b ^ 2 = lam * (ip v a + ip v b) := by
    rw [nrm_sq, nrm_sq, ← sum_sub_distrib]
    unfold ip
    rw [← sum_add_distrib, mul_sum]
    refine sum_congr rfl fun i _ => ?_
    have h1 := h i
    have hr := congrArg Complex.re h1
    have hi := congrArg Complex.im h1
    rw [Complex.sub_re, Complex.re_ofReal_mul] at hr
    rw [Complex.sub_im, Complex.im_ofReal_mul] at hi
    simp only [Complex.normSq_apply, Complex.mul_re, Complex.conj_re, Complex.conj_im]
    linear_combination (a i).re * hr + (b i).re * hr + (a i).im * hi + (b i).im * hi
  rw [e2, abs_mul, abs_of_nonneg (add_nonneg ha hb)] at hc
  have h3 : |lam| ≤ ip v a + ip v b := by
    rw [← e1, abs_le]
    constructor <;> linarith
  calc lam ^ 2 = |lam| * |lam| := by rw [← sq, sq_abs]
    _ ≤ |lam| * (ip v a + ip v b) := mul_le_mul_of_nonneg_left h3 (abs_nonneg _)
    _ ≤ c := hc

/-- If the squares of two positive matrices differ by at most `r²` as quadratic forms, the matrices differ by at most `r`. -/
theorem root_stable {U₁ U₂ : Matrix (Fin m) (Fin m) ℂ} {t₁ t₂ : Fin m → ℝ} (h₁ : ∀ i, 0 ≤ t₁ i) (h₂ : ∀ i, 0 ≤ t₂ i) {r : ℝ}
    (hr : 0 ≤ r)
    (h : ∀ v, |nrm (conjDiag U₁ t₁ *ᵥ v) ^ 2 - nrm (conjDiag U₂ t₂ *ᵥ v) ^ 2| ≤ r ^ 2 * nrm v ^ 2) (x : Fin m → ℂ) :
    nrm ((conjDiag U₁ t₁ - conjDiag U₂ t₂) *ᵥ x) ≤ r * nrm x := by
  have hH : (conjDiag U₁ t₁ - conjDiag U₂ t₂).IsHermitian := (conjDiag_herm U₁ t₁).sub (conjDiag_herm U₂ t₂)
  set H := conjDiag U₁ t₁ - conjDiag U₂ t₂ with hHdef
  obtain ⟨W, hW⟩ : ∃ W : Matrix (Fin m) (Fin m) ℂ, W = hH.eigenvectorUnitary := ⟨_, rfl⟩
  have hWu : W ∈ unitaryGroup (Fin m) ℂ := hW ▸ hH.eigenvectorUnitary.2
  set lam := hH.eigenvalues with hlam
  have hcol : ∀ k, H *ᵥ (W *ᵥ Pi.single k 1) = (lam k : ℂ) • (W *ᵥ Pi.single k 1) := by
    intro k
    have e : W *ᵥ Pi.single k 1 = fun a => hH.eigenvectorBasis k a := by
      funext a
      rw [mulVec_single_one, hW]
      exact hH.eigenvectorUnitary_apply a k
    rw [e]
    have := hH.mulVec_eigenvectorBasis k
    funext a
    have := congrFun this a
    simpa using this
  have hle : ∀ k, lam k ^ 2 ≤ r ^ 2 := by
    intro k
    set v := W *ᵥ (Pi.single k 1 : Fin m → ℂ) with hv
    have hn : nrm v = 1 := by rw [hv, nrm_unitary hWu, nrm_single]
    refine eigenvalue_bound (a := conjDiag U₁ t₁ *ᵥ v) (b := conjDiag U₂ t₂ *ᵥ v) (v := v) (fun i => ?_) (ip_conjDiag U₁ h₁ v)
      (ip_conjDiag U₂ h₂ v) hn ?_
    · have := congrFun (hcol k) i
      rw [hHdef, Matrix.sub_mulVec] at this
      exact this
    · have := h v
      rwa [hn, one_pow, mul_one] at this
  have hmul : H * W = W * Matrix.diagonal fun k => (lam k : ℂ) := by
    ext a k
    have := congrFun (hcol k) a
    rw [mulVec_mulVec, mulVec_single_one, mulVec_single_one] at this
    rw [Matrix.mul_diagonal, mul_comm (W a k)]
    exact this
  have hx : W *ᵥ (star W *ᵥ x) = x := by rw [mulVec_mulVec, mem_unitaryGroup_iff.mp hWu, one_mulVec]
  have e1 : H *ᵥ x = W *ᵥ (Matrix.diagonal (fun k => (lam k : ℂ)) *ᵥ (star W *ᵥ x)) := by
    conv_lhs => rw [← hx]
    rw [mulVec_mulVec, hmul, ← mulVec_mulVec]
  have e2 : nrm x = nrm (star W *ᵥ x) := (nrm_unitary (Unitary.star_mem hWu) x).symm
  rw [e1, nrm_unitary hWu, e2]
  refine nrm_le hr ?_
  rw [mul_sum]
  refine sum_le_sum fun k _ => ?_
  rw [mulVec_diagonal, Complex.normSq_mul, Complex.normSq_ofReal, ← sq]
  exact mul_le_mul_of_nonneg_right (hle k) (Complex.normSq_nonneg _)

/-! ### The part of a network that loses particles -/

/-- `√(1 - s²)` -/
noncomputable def lossRoot (s : Fin m → ℝ) (i : Fin m) : ℝ := Real.sqrt (1 - s i ^ 2)

theorem lossRoot_nrm {V U : Matrix (Fin m) (Fin m) ℂ} (hV : V ∈ unitaryGroup (Fin m) ℂ) (hU : U ∈ unitaryGroup (Fin m) ℂ)
    {s : Fin m → ℝ} (h0 : ∀ i, 0 ≤ s i) (h1 : ∀ i, s i ≤ 1) (v : Fin m → ℂ) :
    nrm (conjDiag U (lossRoot s) *ᵥ v) ^ 2 = nrm v ^ 2 - nrm ((V * Matrix.diagonal (fun i => (s i : ℂ)) * U) *ᵥ v) ^ 2 := by
  rw [conjDiag, ← mulVec_mulVec, ← mulVec_mulVec, ← mulVec_mulVec, ← mulVec_mulVec, nrm_unitary hV,
    ← Matrix.star_eq_conjTranspose, nrm_unitary (Unitary.star_mem hU), ← nrm_unitary hU v, nrm_sq, nrm_sq, nrm_sq,
    ← sum_sub_distrib]
  refine sum_congr rfl fun i _ => ?_
  rw [mulVec_diagonal, mulVec_diagonal, Complex.normSq_mul, Complex.normSq_mul, Complex.normSq_ofReal, Complex.normSq_ofReal,
    lossRoot, Real.mul_self_sqrt (by nlinarith [h0 i, h1 i])]
  ring

theorem nrm_contraction {V U : Matrix (Fin m) (Fin m) ℂ} (hV : V ∈ unitaryGroup (Fin m) ℂ) (hU : U ∈ unitaryGroup (Fin m) ℂ)
    {t : Fin m → ℝ} {c : ℝ} (hc : 0 ≤ c) (h : ∀ i, |t i| ≤ c) (v : Fin m → ℂ) :
    nrm ((V * Matrix.diagonal (fun i => (t i : ℂ)) * U) *ᵥ v) ≤ c * nrm v := by
  rw [← mulVec_mulVec, ← mulVec_mulVec, nrm_unitary hV, ← nrm_unitary hU v]
  refine nrm_le hc ?_
  rw [mul_sum]
  refine sum_le_sum fun i _ => ?_
  rw [mulVec_diagonal, Complex.normSq_mul, Complex.normSq_ofReal, ← sq]
  exact mul_le_mul_of_nonneg_right (sq_le_sq' (neg_le_of_abs_le (h i)) (le_of_abs_le (h i))) (Complex.normSq_nonneg _)

section

variable {B V U : Matrix (Fin m) (Fin m) ℂ} {d : Svd m} (hB : IsSvd B d) (hd : ∀ i, d.s i ≤ 1)
  (hV : V ∈ unitaryGroup (Fin m) ℂ) (hU : U ∈ unitaryGroup (Fin m) ℂ) {s : Fin m → ℝ} (hs : ∀ i, 0 ≤ s i) {ω : ℝ}
  (hω0 : 0 ≤ ω) (hω : ∀ x, nrm ((V * Matrix.diagonal (fun i => (s i : ℂ)) * U - B) *ᵥ x) ≤ ω * nrm x)

include hB hd in
theorem nrm_svd (x : Fin m → ℂ) : nrm (B *ᵥ x) ≤ nrm x := by
  have := normSq_contraction B d hB hd x
  rw [← one_mul (nrm x)]
  exact nrm_le zero_le_one (by rw [one_pow, one_mul]; exact this)

include hB hd hV hU hs hω in
theorem singular_le (i : Fin m) : s i ≤ 1 + ω := by
  have hx : U *ᵥ (star U *ᵥ Pi.single i 1) = (Pi.single i 1 : Fin m → ℂ) := by
    rw [mulVec_mulVec, mem_unitaryGroup_iff.mp hU, one_mulVec]
  set x := star U *ᵥ (Pi.single i 1 : Fin m → ℂ) with hxd
  have hn : nrm x = 1 := by rw [hxd, nrm_unitary (Unitary.star_mem hU), nrm_single]
  have e : nrm ((V * Matrix.diagonal (fun i => (s i : ℂ)) * U) *ᵥ x) = s i := by
    rw [← mulVec_mulVec, ← mulVec_mulVec, nrm_unitary hV, hx]
    have : nrm (Matrix.diagonal (fun i => (s i : ℂ)) *ᵥ (Pi.single i 1 : Fin m → ℂ)) ^ 2 = s i ^ 2 := by
      rw [nrm_sq, sum_eq_single i]
      · rw [mulVec_diagonal, Pi.single_eq_same, mul_one, Complex.normSq_ofReal, sq]
      · intro j _ hj; rw [mulVec_diagonal, Pi.single_eq_of_ne hj]; simp
      · simp
    exact (sq_eq_sq₀ (nrm_nonneg _) (hs i)).mp this
  have h1 := nrm_add (B *ᵥ x) ((V * Matrix.diagonal (fun i => (s i : ℂ)) * U - B) *ᵥ x)
  rw [← Matrix.add_mulVec, add_sub_cancel, e] at h1
  have h2 := nrm_svd hB hd x
  have h3 := hω x
  rw [hn] at h2 h3
  linarith

include hB hd hV hU hs hω0 hω in
theorem clamped_near (x : Fin m → ℂ) :
    nrm ((V * Matrix.diagonal (fun i => ((min (s i) 1 : ℝ) : ℂ)) * U - B) *ᵥ x) ≤ 2 * ω * nrm x := by
  have e : V * Matrix.diagonal (fun i => ((min (s i) 1 : ℝ) : ℂ)) * U - B
      = V * Matrix.diagonal (fun i => ((min (s i) 1 - s i : ℝ) : ℂ)) * U + (V * Matrix.diagonal (fun i => (s i : ℂ)) * U - B) := by
    rw [← add_sub_assoc, ← Matrix.add_mul, ← Matrix.mul_add, diagonal_add]
    congr 4
    funext i
    push_cast
    ring
  rw [e, Matrix.add_mulVec]
  refine (nrm_add _ _).trans ?_
  have h1 := nrm_contraction hV hU (t := fun i => min (s i) 1 - s i) hω0 (fun i => ?_) x
  · have h2 := hω x
    linarith
  · have := singular_le hB hd hV hU hs hω i
    rcases min_cases (s i) 1 with ⟨h, -⟩ | ⟨h, h'⟩
    · rw [h, sub_self, abs_zero]; exact hω0
    · rw [h, abs_of_nonpos (by linarith)]; linarith

include hB hd hV hU hs hω0 hω in
/-- Near the lossy part `diag(√(1 - s²)) U` of an approximate decomposition there is a matrix `D` with `DᴴD = 1 - BᴴB`. -/
theorem lossy_part_near : ∃ D : Matrix (Fin m) (Fin m) ℂ, (∀ x, nrm (D *ᵥ x) ^ 2 = nrm x ^ 2 - nrm (B *ᵥ x) ^ 2) ∧
    (Dᴴ * D = 1 - Bᴴ * B) ∧
    ∀ x, nrm ((Matrix.diagonal (fun i => (lossRoot (fun i => min (s i) 1) i : ℂ)) * U - D) *ᵥ x) ≤ Real.sqrt (4 * ω) * nrm x := by
  set s' : Fin m → ℝ := fun i => min (s i) 1 with hs'
  have h0 : ∀ i, 0 ≤ s' i := fun i => le_min (hs i) zero_le_one
  have h1 : ∀ i, s' i ≤ 1 := fun i => min_le_right _ _
  have hUU : U * Uᴴ = 1 := mem_unitaryGroup_iff.mp hU
  have hUU' : Uᴴ * U = 1 := mem_unitaryGroup_iff'.mp hU
  refine ⟨U * conjDiag d.U (lossRoot d.s), fun x => ?_, ?_, fun x => ?_⟩
  · rw [← mulVec_mulVec, nrm_unitary hU, lossRoot_nrm hB.unitaryV hB.unitaryU hB.nonneg hd, ← hB.product]
  · have hW : d.U * d.Uᴴ = 1 := hB.conjU'
    have hVV : d.Vᴴ * d.V = 1 := hB.conjV
    have e1 : (U * conjDiag d.U (lossRoot d.s))ᴴ * (U * conjDiag d.U (lossRoot d.s))
        = d.Uᴴ * Matrix.diagonal (fun i => ((1 - d.s i ^ 2 : ℝ) : ℂ)) * d.U := by
      rw [conjTranspose_mul, (conjDiag_herm _ _).eq, Matrix.mul_assoc, ← Matrix.mul_assoc Uᴴ, hUU', Matrix.one_mul, conjDiag]
      simp only [Matrix.mul_assoc]
      rw [← Matrix.mul_assoc d.U, hW, Matrix.one_mul, ← Matrix.mul_assoc (Matrix.diagonal _), diagonal_mul_diagonal]
      congr 3
      funext i
      rw [← Complex.ofReal_mul, lossRoot, Real.mul_self_sqrt (by nlinarith [hB.nonneg i, hd i])]
    have e2 : Bᴴ * B = d.Uᴴ * Matrix.diagonal (fun i => ((d.s i ^ 2 : ℝ) : ℂ)) * d.U := by
      conv_lhs => rw [hB.product]
      rw [conjTranspose_mul, conjTranspose_mul, diagonal_conjTranspose]
      simp only [Matrix.mul_assoc]
      rw [← Matrix.mul_assoc d.Vᴴ, hVV, Matrix.one_mul, ← Matrix.mul_assoc (Matrix.diagonal _), diagonal_mul_diagonal]
      congr 3
      funext i
      simp [sq]
    have e3 : (1 : Matrix (Fin m) (Fin m) ℂ) = d.Uᴴ * Matrix.diagonal (fun _ => (1 : ℂ)) * d.U := by
      rw [diagonal_one, Matrix.mul_one, hB.conjU]
    rw [e1, e2, e3, ← Matrix.sub_mul, ← Matrix.mul_sub, diagonal_sub]
    congr 3
    funext i
    push_cast
    rfl
  · have e1 : Matrix.diagonal (fun i => (lossRoot s' i : ℂ)) * U - U * conjDiag d.U (lossRoot d.s)
        = U * (conjDiag U (lossRoot s') - conjDiag d.U (lossRoot d.s)) := by
      rw [Matrix.mul_sub]
      congr 1
      rw [conjDiag, ← Matrix.mul_assoc, ← Matrix.mul_assoc, hUU, Matrix.one_mul]
    rw [e1, ← mulVec_mulVec, nrm_unitary hU]
    refine root_stable (t₁ := lossRoot s') (t₂ := lossRoot d.s) (fun i => Real.sqrt_nonneg _) (fun i => Real.sqrt_nonneg _) (Real.sqrt_nonneg _) (fun v => ?_) x
    rw [lossRoot_nrm hV hU h0 h1, lossRoot_nrm hB.unitaryV hB.unitaryU hB.nonneg hd, ← hB.product, Real.sq_sqrt (by linarith)]
    set a := nrm ((V * Matrix.diagonal (fun i => (s' i : ℂ)) * U) *ᵥ v) with ha
    have ha1 : a ≤ 1 * nrm v := nrm_contraction hV hU zero_le_one (fun i => by rw [abs_of_nonneg (h0 i)]; exact h1 i) v
    have hb1 := nrm_svd hB hd v
    have hab : |a - nrm (B *ᵥ v)| ≤ 2 * ω * nrm v := by
      refine (abs_nrm_sub _ _).trans ?_
      rw [← Matrix.sub_mulVec]
      exact clamped_near hB hd hV hU hs hω0 hω v
    have ha0 : 0 ≤ a := nrm_nonneg _
    have hb0 := nrm_nonneg (B *ᵥ v)
    have hv0 := nrm_nonneg v
    rw [show nrm v ^ 2 - a ^ 2 - (nrm v ^ 2 - nrm (B *ᵥ v) ^ 2) = -((a - nrm (B *ᵥ v)) * (a + nrm (B *ᵥ v))) by ring, abs_neg,
      abs_mul, abs_of_nonneg (add_nonneg ha0 hb0)]
    calc |a - nrm (B *ᵥ v)| * (a + nrm (B *ᵥ v)) ≤ (2 * ω * nrm v) * (2 * nrm v) :=
          mul_le_mul hab (by linarith) (by linarith) (by positivity)
      _ = _ := by ring

end

theorem entry_of_nrm {M : Matrix (Fin m) (Fin m) ℂ} {c : ℝ} (h : ∀ x, nrm (M *ᵥ x) ≤ c * nrm x) (i j : Fin m) : ‖M i j‖ ≤ c := by
  have := (entry_le_nrm _ i).trans (h (Pi.single j 1))
  rwa [mulVec_single_one, nrm_single, mul_one] at this

end Verif
