import Verif.Model.RoundedExpansion
import Verif.Spec.RoundedExpansion
import Verif.Proofs.RootStability
import Verif.Proofs.RoundedExtraction

/-! Helper lemmas: the expanded interferometer in floating-point arithmetic. -/
namespace Verif

open Finset Matrix

variable (R : Rounding) (C : ComplexArith) {m : ℕ}

/-! ### Blocks -/

theorem blockArray_apply (a b c d : Matrix (Fin m) (Fin m) ℂ) (i j : Fin m ⊕ Fin m) :
    blockArray a b c d (finSumFinEquiv i) (finSumFinEquiv j) = fromBlocks a b c d i j := by
  simp [blockArray]

theorem blockArray_mul (a b c d a' b' c' d' : Matrix (Fin m) (Fin m) ℂ) :
    blockArray a b c d * blockArray a' b' c' d'
      = blockArray (a * a' + b * c') (a * b' + b * d') (c * a' + d * c') (c * b' + d * d') := by
  unfold blockArray
  rw [← fromBlocks_multiply]
  simp only [reindex_apply]
  rw [submatrix_mul_equiv]

theorem blockArray_close {k : ℕ} {X : ℝ} {a b c d a' b' c' d' : Matrix (Fin m) (Fin m) ℂ}
    (ha : ∀ i j, Close k X (a' i j) (a i j)) (hb : ∀ i j, Close k X (b' i j) (b i j))
    (hc : ∀ i j, Close k X (c' i j) (c i j)) (hd : ∀ i j, Close k X (d' i j) (d i j)) (i j : Fin (m + m)) :
    Close k X (blockArray a' b' c' d' i j) (blockArray a b c d i j) := by
  obtain ⟨i, rfl⟩ := finSumFinEquiv.surjective i
  obtain ⟨j, rfl⟩ := finSumFinEquiv.surjective j
  rw [blockArray_apply, blockArray_apply]
  rcases i with i | i <;> rcases j with j | j
  · exact ha i j
  · exact hb i j
  · exact hc i j
  · exact hd i j

theorem blockArray_norm {X : ℝ} {a b c d : Matrix (Fin m) (Fin m) ℂ} (ha : ∀ i j, ‖a i j‖ ≤ X) (hb : ∀ i j, ‖b i j‖ ≤ X)
    (hc : ∀ i j, ‖c i j‖ ≤ X) (hd : ∀ i j, ‖d i j‖ ≤ X) (i j : Fin (m + m)) : ‖blockArray a b c d i j‖ ≤ X := by
  obtain ⟨i, rfl⟩ := finSumFinEquiv.surjective i
  obtain ⟨j, rfl⟩ := finSumFinEquiv.surjective j
  rw [blockArray_apply]
  rcases i with i | i <;> rcases j with j | j
  · exact ha i j
  · exact hb i j
  · exact hc i j
  · exact hd i j

/-- The position within a block. -/
def blockPos (l : Fin (m + m)) : Fin m := Sum.elim id id (finSumFinEquiv.symm l)

theorem blockArray_diagonal {a b c d : Fin m → ℂ} {l j : Fin (m + m)} (h : blockPos l ≠ blockPos j) :
    blockArray (Matrix.diagonal a) (Matrix.diagonal b) (Matrix.diagonal c) (Matrix.diagonal d) l j = 0 := by
  obtain ⟨i, rfl⟩ := finSumFinEquiv.surjective l
  obtain ⟨j, rfl⟩ := finSumFinEquiv.surjective j
  rw [blockArray_apply]
  simp only [blockPos, Equiv.symm_apply_apply] at h
  rcases i with i | i <;> rcases j with j | j <;> exact Matrix.diagonal_apply_ne _ h

theorem sum_blockPos (hm : m + m ≤ 2 ^ 20) (j : Fin (m + m)) :
    ∑ l : Fin (m + m), (if blockPos l = blockPos j then (1 : ℝ) else 2 ^ (-1000 : ℤ)) ≤ (3 : ℕ) := by
  have hz : (0 : ℝ) < 2 ^ (-1000 : ℤ) := by positivity
  calc ∑ l : Fin (m + m), (if blockPos l = blockPos j then (1 : ℝ) else 2 ^ (-1000 : ℤ))
      ≤ ∑ l : Fin (m + m), ((if blockPos l = blockPos j then (1 : ℝ) else 0) + 2 ^ (-1000 : ℤ)) := by
        refine sum_le_sum fun l _ => ?_
        split_ifs <;> linarith
    _ = 2 + (m + m : ℕ) * 2 ^ (-1000 : ℤ) := by
        rw [sum_add_distrib, sum_const, card_univ, Fintype.card_fin, nsmul_eq_mul, ← finSumFinEquiv.sum_comp,
          Fintype.sum_sum_type]
        congr 1
        simp only [blockPos, Equiv.symm_apply_apply, Sum.elim_inl, Sum.elim_inr, id]
        rw [sum_ite_eq' univ, if_pos (mem_univ _)]
        norm_num
    _ ≤ 2 + 2 ^ 20 * 2 ^ (-20 : ℤ) := by
        have hm' : ((m + m : ℕ) : ℝ) ≤ 2 ^ 20 := by exact_mod_cast hm
        have h2 : (2 : ℝ) ^ (-1000 : ℤ) ≤ 2 ^ (-20 : ℤ) := zpow_le_zpow_right₀ (by norm_num) (by norm_num)
        gcongr
    _ ≤ (3 : ℕ) := by norm_num

/-! ### The products -/

theorem expanded_products {e b : ℕ} {V' V U' U : Matrix (Fin m) (Fin m) ℂ} {s' s : Fin m → ℝ} {x : Fin m → ℝ}
    (hm : m + m ≤ 2 ^ 20) (hV : V ∈ unitaryGroup (Fin m) ℂ) (hU : U ∈ unitaryGroup (Fin m) ℂ)
    (hV' : ∀ i j, ‖V' i j - V i j‖ ≤ qf ^ e - 1) (hU' : ∀ i j, ‖U' i j - U i j‖ ≤ qf ^ e - 1)
    (hs0 : ∀ i, 0 ≤ s i) (hs1 : ∀ i, s i ≤ 1) (hs : ∀ i, |s' i - s i| ≤ b / 2 ^ 48) (hx0 : ∀ i, 0 ≤ x i) (hx1 : ∀ i, x i ≤ 1)
    (i j : Fin (m + m)) :
    Close ((m + m) * (3 * (e + b + 1 + (m + m)) + e + 1 + (m + m))) 1
      (matMulR C (matMulR C (blockArray V' 0 0 1) (blockArray (Matrix.diagonal fun i => (s' i : ℂ))
        (Matrix.diagonal fun i => (x i : ℂ)) (Matrix.diagonal fun i => (x i : ℂ)) (Matrix.diagonal fun i => (s' i : ℂ))))
        (blockArray U' 0 0 1) i j)
      (blockArray (V * Matrix.diagonal (fun i => (s i : ℂ)) * U) (V * Matrix.diagonal fun i => (x i : ℂ))
        (Matrix.diagonal (fun i => (x i : ℂ)) * U) (Matrix.diagonal fun i => (s i : ℂ)) i j) := by
  have hz : (0 : ℝ) < 2 ^ (-1000 : ℤ) := by positivity
  have hu : ∀ B ∈ unitaryGroup (Fin m) ℂ, ∀ i j, ‖B i j‖ ≤ 1 := fun B hB i j => entry_norm_bound_of_unitary hB i j
  have hzero : ∀ i j, Close e 1 ((0 : Matrix (Fin m) (Fin m) ℂ) i j) ((0 : Matrix (Fin m) (Fin m) ℂ) i j) := fun i j =>
    (Close.exact (by simp)).mono (Nat.zero_le _)
  have hone : ∀ i j, Close e 1 ((1 : Matrix (Fin m) (Fin m) ℂ) i j) ((1 : Matrix (Fin m) (Fin m) ℂ) i j) := fun i j =>
    (Close.exact (hu 1 (one_mem _) i j)).mono (Nat.zero_le _)
  have hdiag : ∀ (t : Fin m → ℝ), (∀ i, 0 ≤ t i) → (∀ i, t i ≤ 1) → ∀ i j, ‖Matrix.diagonal (fun i => (t i : ℂ)) i j‖ ≤ 1 := by
    intro t h0 h1 i j
    rw [Matrix.diagonal_apply]
    split_ifs
    · rw [Complex.norm_real, Real.norm_of_nonneg (h0 i)]; exact h1 i
    · simp
  have cV := blockArray_close (k := e) (X := 1) (a' := V') (a := V) (fun i j => ⟨hu V hV i j, by rw [mul_one]; exact hV' i j⟩)
    hzero hzero hone
  have cU := blockArray_close (k := e) (X := 1) (a' := U') (a := U) (fun i j => ⟨hu U hU i j, by rw [mul_one]; exact hU' i j⟩)
    hzero hzero hone
  have cs : ∀ i j, Close b 1 (Matrix.diagonal (fun i => (s' i : ℂ)) i j) (Matrix.diagonal (fun i => (s i : ℂ)) i j) := by
    intro i j
    refine close_of_norm (hdiag s hs0 hs1 i j) ?_
    rw [Matrix.diagonal_apply, Matrix.diagonal_apply]
    split_ifs
    · rw [← Complex.ofReal_sub, Complex.norm_real]
      exact hs i
    · rw [sub_self, norm_zero]; positivity
  have cx : ∀ i j, Close b 1 (Matrix.diagonal (fun i => (x i : ℂ)) i j) (Matrix.diagonal (fun i => (x i : ℂ)) i j) := fun i j =>
    (Close.exact (hdiag x hx0 hx1 i j)).mono (Nat.zero_le _)
  have cS := blockArray_close cs cx cx cs
  set S' := blockArray (Matrix.diagonal fun i => (s' i : ℂ)) (Matrix.diagonal fun i => (x i : ℂ))
    (Matrix.diagonal fun i => (x i : ℂ)) (Matrix.diagonal fun i => (s' i : ℂ)) with hS'
  set S := blockArray (Matrix.diagonal fun i => (s i : ℂ)) (Matrix.diagonal fun i => (x i : ℂ))
    (Matrix.diagonal fun i => (x i : ℂ)) (Matrix.diagonal fun i => (s i : ℂ)) with hS
  have e1 : blockArray V 0 0 1 * S = blockArray (V * Matrix.diagonal fun i => (s i : ℂ)) (V * Matrix.diagonal fun i => (x i : ℂ))
      (Matrix.diagonal fun i => (x i : ℂ)) (Matrix.diagonal fun i => (s i : ℂ)) := by
    rw [hS, blockArray_mul]
    simp
  have e2 : blockArray V 0 0 1 * S * blockArray U 0 0 1
      = blockArray (V * Matrix.diagonal (fun i => (s i : ℂ)) * U) (V * Matrix.diagonal fun i => (x i : ℂ))
        (Matrix.diagonal (fun i => (x i : ℂ)) * U) (Matrix.diagonal fun i => (s i : ℂ)) := by
    rw [e1, blockArray_mul]
    simp
  have hVd : ∀ (t : Fin m → ℝ), (∀ i, 0 ≤ t i) → (∀ i, t i ≤ 1) → ∀ i j, ‖(V * Matrix.diagonal fun i => (t i : ℂ)) i j‖ ≤ 1 := by
    intro t h0 h1 i j
    rw [Matrix.mul_diagonal, norm_mul, Complex.norm_real, Real.norm_of_nonneg (h0 j)]
    exact mul_le_one₀ (hu V hV i j) (h0 j) (h1 j)
  have hdU : ∀ (t : Fin m → ℝ), (∀ i, 0 ≤ t i) → (∀ i, t i ≤ 1) → ∀ i j, ‖(Matrix.diagonal (fun i => (t i : ℂ)) * U) i j‖ ≤ 1 := by
    intro t h0 h1 i j
    rw [Matrix.diagonal_mul, norm_mul, Complex.norm_real, Real.norm_of_nonneg (h0 i)]
    exact mul_le_one₀ (h1 i) (norm_nonneg _) (hu U hU i j)
  have n1 : ∀ i j, ‖(blockArray V 0 0 1 * S) i j‖ ≤ 1 := by
    rw [e1]
    exact blockArray_norm (hVd s hs0 hs1) (hVd x hx0 hx1) (hdiag x hx0 hx1) (hdiag s hs0 hs1)
  have n2 : ∀ i j, ‖(blockArray V 0 0 1 * S * blockArray U 0 0 1) i j‖ ≤ 1 := by
    rw [e2]
    refine blockArray_norm (fun i j => ?_) (hVd x hx0 hx1) (hdU x hx0 hx1) (hdiag s hs0 hs1)
    exact entry_of_nrm (nrm_contraction hV hU zero_le_one fun i => by rw [abs_of_nonneg (hs0 i)]; exact hs1 i) i j
  have h1 : ∀ i j, Close (3 * (e + b + 1 + (m + m))) 1 (matMulR C (blockArray V' 0 0 1) S' i j) ((blockArray V 0 0 1 * S) i j) := by
    intro i j
    have := matMulR_close C (A' := blockArray V' 0 0 1) (A := blockArray V 0 0 1) (B' := S') (B := S) (k := e + b + 1)
      (fun _ l j => if blockPos l = blockPos j then 1 else 2 ^ (-1000 : ℤ)) (fun i l j => by
        split_ifs
        · exact small_of_one le_rfl
        · exact le_rfl) (fun i l j => by
        split_ifs with hl
        · have := C.mul_close (cV i l) (cS l j) (by rw [one_mul]; exact small_of_one le_rfl)
          rwa [one_mul] at this
        · have h2 : Close 0 ((2 : ℝ) ^ (-1000 : ℤ)) (S' l j) (S l j) := by
            rw [hS', hS, blockArray_diagonal hl, blockArray_diagonal hl]
            exact .exact (by rw [norm_zero]; exact hz.le)
          have := C.mul_close (cV i l) h2 (by rw [one_mul])
          rw [one_mul] at this
          exact this.mono (by omega)) i j
    exact this.scale (sum_blockPos hm j) (n1 i j)
  have h2 := matMulR_close C (A' := matMulR C (blockArray V' 0 0 1) S') (A := blockArray V 0 0 1 * S) (B' := blockArray U' 0 0 1)
    (B := blockArray U 0 0 1)
    (k := 3 * (e + b + 1 + (m + m)) + e + 1) (fun _ _ _ => 1) (fun _ _ _ => small_of_one le_rfl) (fun i l j => by
      have := C.mul_close (h1 i l) (cU l j) (by rw [one_mul]; exact small_of_one le_rfl)
      rwa [one_mul] at this) i j
  have h3 := h2.scale (c := m + m) (by simp) (n2 i j)
  rw [e2] at h3
  exact h3

/-! ### The transfer to the additional modes -/

/-- The computed `√(1 - s²)`. -/
noncomputable def lossRootR (s : ℝ) : ℝ :=
  R.rnd (Real.sqrt (if R.rnd (1 - R.rnd (s ^ 2)) < 0 then 0 else R.rnd (1 - R.rnd (s ^ 2))))

theorem lossRootR_nonneg (s : ℝ) : 0 ≤ lossRootR R s := R.nonneg (Real.sqrt_nonneg _)

theorem lossRootR_le (s : ℝ) : lossRootR R s ≤ 1 := by
  refine R.le_of_le isFloat_one (Real.sqrt_le_one.mpr ?_)
  split_ifs
  · exact zero_le_one
  · exact R.le_of_le isFloat_one (by have := R.nonneg (sq_nonneg s); linarith)

theorem lossRootR_error {s : ℝ} (h0 : 0 ≤ s) (h1 : s ≤ 5 / 4) : |lossRootR R s - Real.sqrt (1 - min s 1 ^ 2)| ≤ 1 / 2 ^ 25 := by
  have ht := rnd_abs_le R (x := s ^ 2) (b := 2) (by rw [abs_of_nonneg (sq_nonneg _)]; nlinarith)
  set t := R.rnd (s ^ 2) with htd
  have ht0 : 0 ≤ t := R.nonneg (sq_nonneg _)
  have hs2 : s ^ 2 ≤ 25 / 16 := by nlinarith
  have hd := rnd_abs_le R (x := 1 - t) (b := 1) (by
    have := (abs_le.mp ht).2
    rw [abs_le]
    norm_num at *
    constructor <;> linarith)
  set u := R.rnd (1 - t) with hud
  set q : ℝ := if u < 0 then 0 else u with hq
  have hq0 : 0 ≤ q := by
    rw [hq]; split_ifs with h
    · exact le_rfl
    · exact not_lt.mp h
  have hq1 : q ≤ 1 := by
    rw [hq]; split_ifs
    · exact zero_le_one
    · exact R.le_of_le isFloat_one (by linarith)
  have hz0 : 0 ≤ 1 - min s 1 ^ 2 := by
    have : min s 1 ≤ 1 := min_le_right _ _
    have : 0 ≤ min s 1 := le_min h0 zero_le_one
    nlinarith
  have hqz : |q - (1 - min s 1 ^ 2)| ≤ (1 - min s 1 ^ 2) * 0 + 1 / 2 ^ 51 := by
    rw [mul_zero, zero_add]
    have g1 := abs_le.mp ht
    have g2 := abs_le.mp hd
    have g3 : |u - (1 - s ^ 2)| ≤ 1 / 2 ^ 51 := by
      rw [abs_le]
      norm_num at *
      constructor <;> linarith
    have g4 := abs_le.mp g3
    rcases le_total s 1 with hs | hs
    · rw [min_eq_left hs]
      have : 0 ≤ 1 - s ^ 2 := by nlinarith
      rw [hq]
      split_ifs with hu0
      · rw [abs_le]; constructor <;> linarith
      · exact g3
    · rw [min_eq_right hs]
      have : 1 - s ^ 2 ≤ 0 := by nlinarith
      rw [hq]
      split_ifs with hu0
      · norm_num
      · rw [one_pow, sub_self, sub_zero, abs_of_nonneg (not_lt.mp hu0)]
        linarith [g4.2]
  have h5 := sqrt_error hq0 hz0 (κ := 0) (τ := 1 / 2 ^ 51) le_rfl zero_le_one (by norm_num) hqz
  rw [zero_mul, zero_add] at h5
  have h6 : Real.sqrt (1 / 2 ^ 51) ≤ 3 / 2 ^ 27 := by
    rw [Real.sqrt_le_left (by norm_num)]
    norm_num
  have h7 := rnd_abs_le R (x := Real.sqrt q) (b := 1) (by
    rw [abs_of_nonneg (Real.sqrt_nonneg _)]; exact Real.sqrt_le_one.mpr hq1)
  have h8 := abs_sub_le (lossRootR R s) (Real.sqrt q) (Real.sqrt (1 - min s 1 ^ 2))
  have h9 : |lossRootR R s - Real.sqrt q| ≤ 1 / 2 ^ 53 * 1 + 1 / 2 ^ 60 * (1 / 2 ^ 53) := h7
  have h10 := h5.trans h6
  clear h5 h6 h7 hqz hd ht
  norm_num at *
  linarith

theorem expandedMatrixF_eq (d : Svd m) :
    expandedMatrixF R C d = matMulR C (matMulR C (blockArray d.V 0 0 1) (blockArray (Matrix.diagonal fun i => (d.s i : ℂ))
        (Matrix.diagonal fun i => (lossRootR R (d.s i) : ℂ)) (Matrix.diagonal fun i => (lossRootR R (d.s i) : ℂ))
        (Matrix.diagonal fun i => (d.s i : ℂ)))) (blockArray d.U 0 0 1) := rfl

/-! ### The whole array -/

/-- Operations of the products, for factors known up to `e` and singular values up to `b` operations. -/
def productOps (e b m : ℕ) : ℕ := (m + m) * (3 * (e + b + 1 + (m + m)) + e + 1 + (m + m))

theorem dilation_blocks {B D X Y : Matrix (Fin m) (Fin m) ℂ} (h : Dᴴ * D = 1 - Bᴴ * B) :
    IsDilation (rowsOf B) (rowsOf (blockArray B X D Y)) m m := by
  have hg : (fromBlocks B X D Y)ᴴ * fromBlocks B X D Y
      = fromBlocks 1 (Bᴴ * X + Dᴴ * Y) (Xᴴ * B + Yᴴ * D) (Xᴴ * X + Yᴴ * Y) := by
    rw [fromBlocks_conjTranspose, fromBlocks_multiply, h, add_sub_cancel]
  constructor
  · intro i hi j hj
    rw [mget_rowsOf _ _ _ (by omega) (by omega), mget_rowsOf _ _ _ hi hj]
    exact blockArray_apply B X D Y (Sum.inl ⟨i, hi⟩) (Sum.inl ⟨j, hj⟩)
  · intro a ha b hb
    have := congrFun (congrFun hg (Sum.inl ⟨a, ha⟩)) (Sum.inl ⟨b, hb⟩)
    rw [fromBlocks_apply₁₁, Matrix.one_apply, Matrix.mul_apply] at this
    simp only [Fin.mk.injEq] at this
    rw [Finset.sum_range, ← finSumFinEquiv.sum_comp]
    have e : ∀ (x : Fin m ⊕ Fin m) (c : ℕ) (hc : c < m), mget (rowsOf (blockArray B X D Y)) ((finSumFinEquiv x : Fin (m + m)) : ℕ) c
        = fromBlocks B X D Y x (Sum.inl ⟨c, hc⟩) := by
      intro x c hc
      rw [mget_rowsOf _ _ _ (finSumFinEquiv x).2 (by omega)]
      exact blockArray_apply B X D Y x (Sum.inl ⟨c, hc⟩)
    simp only [e _ a ha, e _ b hb]
    simp only [Matrix.conjTranspose_apply] at this
    rw [← this]
    rfl

theorem qf_add_le (a b : ℕ) : (qf ^ a - 1) + (qf ^ b - 1) ≤ qf ^ (a + b) - 1 := by
  have h1 := one_le_qf_pow a
  have h2 := one_le_qf_pow b
  rw [pow_add]
  nlinarith

theorem le_qf_pow {x : ℝ} {k : ℕ} (h : x ≤ k / 2 ^ 48) : x ≤ qf ^ k - 1 := by
  refine h.trans ?_
  have := qf_pow_scale 1 k
  rw [mul_one, pow_one] at this
  refine le_trans (le_of_eq ?_) this
  unfold qf
  ring

/-- Distance from an embedding of the exact network, as a number of operations: the part due to the roots. -/
def rootOps (e m : ℕ) : ℕ := 2 ^ 23 + 2 ^ 24 * (Nat.sqrt (8 * m * e) + 1)

theorem root_ops {m e : ℕ} {ω : ℝ} (h : ω ≤ 2 * m * e / 2 ^ 48) :
    1 / 2 ^ 25 + Real.sqrt (4 * ω) ≤ (rootOps e m : ℕ) / 2 ^ 48 := by
  have h1 : Real.sqrt (4 * ω) ≤ (2 ^ 24 * (Nat.sqrt (8 * m * e) + 1) : ℕ) / 2 ^ 48 := by
    rw [Real.sqrt_le_left (by positivity)]
    have h2 : 8 * m * e < (Nat.sqrt (8 * m * e) + 1) ^ 2 := by rw [sq]; exact Nat.lt_succ_sqrt _
    have h3 : (8 * m * e : ℝ) ≤ ((Nat.sqrt (8 * m * e) + 1 : ℕ) : ℝ) ^ 2 := by exact_mod_cast h2.le
    push_cast at h3 ⊢
    norm_num at *
    linarith
  have h4 : ((rootOps e m : ℕ) : ℝ) = 2 ^ 23 + (2 ^ 24 * (Nat.sqrt (8 * m * e) + 1) : ℕ) := by unfold rootOps; push_cast; ring
  rw [h4, add_div]
  refine add_le_add (by norm_num) h1

theorem expandedF_near {B' B : Matrix (Fin m) (Fin m) ℂ} {dB d : Svd m} {e₀ e : ℕ} (hB : IsSvd B dB) (hd : ∀ i, dB.s i ≤ 1)
    (hB' : ∀ i j, ‖B' i j - B i j‖ ≤ qf ^ e₀ - 1) (h : SvdBackward B' d e) (hm : m + m ≤ 2 ^ 20) (hme : 2 * m * (e₀ + e) ≤ 2 ^ 46) :
    ∃ X D Y : Matrix (Fin m) (Fin m) ℂ, Dᴴ * D = 1 - Bᴴ * B ∧ (∀ i j, ‖blockArray B X D Y i j‖ ≤ 1) ∧
      (∀ i j, ‖expandedMatrixF R C d i j - blockArray B X D Y i j‖
        ≤ qf ^ (productOps e (2 * m * (e₀ + e)) m + rootOps (e₀ + e) m) - 1) ∧
      ∀ i j : Fin m, ‖expandedMatrixF R C d (Fin.castAdd m i) (Fin.castAdd m j) - B i j‖
        ≤ qf ^ (productOps e (2 * m * (e₀ + e)) m + 4 * m * (e₀ + e)) - 1 := by
  rcases Nat.eq_zero_or_pos m with rfl | hm0
  · exact ⟨0, 0, 0, by ext i; exact i.elim0, fun i => i.elim0, fun i => i.elim0, fun i => i.elim0⟩
  obtain ⟨hs, V, hV, U, hU, hVc, hUc, hprod⟩ := h
  set ε : ℝ := qf ^ (e₀ + e) - 1 with hε
  have hε0 : 0 ≤ ε := sub_nonneg.mpr (one_le_qf_pow _)
  have hle : e₀ + e ≤ 2 ^ 47 := by
    have : 1 * (e₀ + e) ≤ 2 * m * (e₀ + e) := Nat.mul_le_mul_right _ (by omega)
    omega
  have hε1 : ε ≤ 2 * (e₀ + e : ℕ) / 2 ^ 48 := qf_pow_le hle
  have hent : ∀ i j, ‖(V * Matrix.diagonal (fun i => (d.s i : ℂ)) * U - B) i j‖ ≤ ε := by
    intro i j
    have h1 := norm_sub_le_norm_sub_add_norm_sub ((V * Matrix.diagonal (fun i => (d.s i : ℂ)) * U) i j) (B' i j) (B i j)
    have h2 : ‖(V * Matrix.diagonal (fun i => (d.s i : ℂ)) * U) i j - B' i j‖ ≤ qf ^ e - 1 := hprod i j
    have h3 := hB' i j
    have h4 := qf_add_le e₀ e
    rw [Matrix.sub_apply]
    linarith
  set ω : ℝ := m * ε with hω
  have hω0 : 0 ≤ ω := by positivity
  have hωle : ω ≤ 2 * m * (e₀ + e : ℕ) / 2 ^ 48 := by
    rw [hω]
    calc (m : ℝ) * ε ≤ m * (2 * (e₀ + e : ℕ) / 2 ^ 48) := mul_le_mul_of_nonneg_left hε1 (Nat.cast_nonneg _)
      _ = _ := by ring
  have hω4 : ω ≤ 1 / 4 := by
    have : ((2 * m * (e₀ + e) : ℕ) : ℝ) ≤ 2 ^ 46 := by exact_mod_cast hme
    push_cast at this hωle
    refine hωle.trans ?_
    rw [div_le_iff₀ (by norm_num)]
    norm_num at *
    linarith
  have hop : ∀ x, nrm ((V * Matrix.diagonal (fun i => (d.s i : ℂ)) * U - B) *ᵥ x) ≤ ω * nrm x := nrm_mulVec_entries hε0 hent
  have hs1 := singular_le hB hd hV hU hs hop
  obtain ⟨D, hDn, hDD, hDc⟩ := lossy_part_near hB hd hV hU hs hω0 hop
  have hTL := clamped_near hB hd hV hU hs hω0 hop
  set s' : Fin m → ℝ := fun i => min (d.s i) 1 with hs'
  have h0 : ∀ i, 0 ≤ s' i := fun i => le_min (hs i) zero_le_one
  have h1 : ∀ i, s' i ≤ 1 := fun i => min_le_right _ _
  set x : Fin m → ℝ := fun i => lossRootR R (d.s i) with hx
  have hprods := expanded_products C (e := e) (b := 2 * m * (e₀ + e)) (V' := d.V) (V := V) (U' := d.U) (U := U) (s' := d.s)
    (s := s') (x := x) hm hV hU hVc hUc h0 h1 (fun i => by
      push_cast at hωle ⊢
      refine le_trans ?_ hωle
      have := hs1 i
      rcases min_cases (d.s i) 1 with ⟨h, -⟩ | ⟨h, h'⟩
      · simp only [hs', h, sub_self, abs_zero]; exact hω0
      · simp only [hs', h]; rw [abs_of_nonneg (by linarith)]; linarith) (fun i => lossRootR_nonneg R _) (fun i => lossRootR_le R _)
  rw [← expandedMatrixF_eq] at hprods
  set P := V * Matrix.diagonal (fun i => (s' i : ℂ)) * U with hP
  have hcl : ∀ i j, ‖expandedMatrixF R C d i j - blockArray P (V * Matrix.diagonal fun i => (x i : ℂ))
        (Matrix.diagonal (fun i => (x i : ℂ)) * U) (Matrix.diagonal fun i => (s' i : ℂ)) i j‖
        ≤ qf ^ productOps e (2 * m * (e₀ + e)) m - 1 := by
    intro i j
    have := (hprods i j).2
    rwa [mul_one] at this
  have hu : ∀ B ∈ unitaryGroup (Fin m) ℂ, ∀ i j, ‖B i j‖ ≤ 1 := fun B hB i j => entry_norm_bound_of_unitary hB i j
  have hTLe : ∀ i j, ‖(P - B) i j‖ ≤ 2 * ω := fun i j => entry_of_nrm hTL i j
  have hBL : ∀ i j, ‖(Matrix.diagonal (fun i => (x i : ℂ)) * U - D) i j‖ ≤ 1 / 2 ^ 25 + Real.sqrt (4 * ω) := by
    intro i j
    have g1 := entry_of_nrm hDc i j
    have g2 : ‖(Matrix.diagonal (fun i => (x i : ℂ)) * U) i j
        - (Matrix.diagonal (fun i => (lossRoot s' i : ℂ)) * U) i j‖ ≤ 1 / 2 ^ 25 := by
      rw [Matrix.diagonal_mul, Matrix.diagonal_mul, ← sub_mul, norm_mul, ← Complex.ofReal_sub, Complex.norm_real]
      have g3 : ‖x i - lossRoot s' i‖ ≤ 1 / 2 ^ 25 := lossRootR_error R (hs i) (by linarith [hs1 i])
      calc ‖x i - lossRoot s' i‖ * ‖U i j‖ ≤ 1 / 2 ^ 25 * 1 := mul_le_mul g3 (hu U hU i j) (norm_nonneg _) (by norm_num)
        _ = _ := mul_one _
    rw [Matrix.sub_apply] at g1 ⊢
    have g4 := norm_sub_le_norm_sub_add_norm_sub ((Matrix.diagonal (fun i => (x i : ℂ)) * U) i j)
      ((Matrix.diagonal (fun i => (lossRoot s' i : ℂ)) * U) i j) (D i j)
    linarith
  have hroot := root_ops (m := m) hωle
  have hrn : (0 : ℝ) ≤ qf ^ rootOps (e₀ + e) m - 1 := sub_nonneg.mpr (one_le_qf_pow _)
  have h2ω : 2 * ω ≤ Real.sqrt (4 * ω) := by
    apply Real.le_sqrt_of_sq_le
    nlinarith
  refine ⟨V * Matrix.diagonal fun i => (x i : ℂ), D, Matrix.diagonal fun i => (s' i : ℂ), hDD, ?_, fun i j => ?_, fun i j => ?_⟩
  · refine blockArray_norm (contraction_entry hB hd) (fun i j => ?_) (fun i j => ?_) (fun i j => ?_)
    · rw [Matrix.mul_diagonal, norm_mul, Complex.norm_real, Real.norm_of_nonneg (lossRootR_nonneg R _)]
      exact mul_le_one₀ (hu V hV i j) (lossRootR_nonneg R _) (lossRootR_le R _)
    · refine entry_of_nrm (c := 1) (fun y => ?_) i j
      rw [one_mul]
      refine (sq_le_sq₀ (nrm_nonneg _) (nrm_nonneg _)).mp ?_
      rw [hDn]
      linarith [sq_nonneg (nrm (B *ᵥ y))]
    · rw [Matrix.diagonal_apply]
      split_ifs
      · rw [Complex.norm_real, Real.norm_of_nonneg (h0 i)]; exact h1 i
      · simp
  · refine le_trans ?_ (qf_add_le _ _)
    refine (norm_sub_le_norm_sub_add_norm_sub _ (blockArray P (V * Matrix.diagonal fun i => (x i : ℂ))
        (Matrix.diagonal (fun i => (x i : ℂ)) * U) (Matrix.diagonal fun i => (s' i : ℂ)) i j) _).trans ?_
    refine add_le_add (hcl i j) ?_
    obtain ⟨i, rfl⟩ := finSumFinEquiv.surjective i
    obtain ⟨j, rfl⟩ := finSumFinEquiv.surjective j
    rw [blockArray_apply, blockArray_apply]
    rcases i with i | i <;> rcases j with j | j
    · rw [fromBlocks_apply₁₁, fromBlocks_apply₁₁, ← Matrix.sub_apply]
      refine (hTLe i j).trans (le_qf_pow (le_trans ?_ hroot))
      have : (0 : ℝ) ≤ 1 / 2 ^ 25 := by norm_num
      linarith
    · rw [fromBlocks_apply₁₂, fromBlocks_apply₁₂, sub_self, norm_zero]; exact hrn
    · rw [fromBlocks_apply₂₁, fromBlocks_apply₂₁, ← Matrix.sub_apply]
      exact (hBL i j).trans (le_qf_pow hroot)
    · rw [fromBlocks_apply₂₂, fromBlocks_apply₂₂, sub_self, norm_zero]; exact hrn
  · refine le_trans ?_ (qf_add_le _ _)
    have g1 := hcl (finSumFinEquiv (Sum.inl i)) (finSumFinEquiv (Sum.inl j))
    rw [blockArray_apply, fromBlocks_apply₁₁] at g1
    refine (norm_sub_le_norm_sub_add_norm_sub _ (P i j) _).trans (add_le_add g1 ?_)
    rw [← Matrix.sub_apply]
    refine (hTLe i j).trans (le_qf_pow ?_)
    push_cast at hωle ⊢
    calc 2 * ω ≤ 2 * (2 * m * (e₀ + e) / 2 ^ 48) := by linarith
      _ = _ := by ring

end Verif
