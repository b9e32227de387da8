import Verif.Proofs.Networks
import Verif.Proofs.SvdExists
import Mathlib.Data.List.GetD

/-! C34, C36, C41, C56: the functions built on the singular value decomposition. The theorems hold
for every decomposition `d` with numpy's contract `IsSvd`; one exists for every matrix
(`svd_exists`). -/
namespace Verif

open Matrix

variable {m : ℕ}

/-- C34, the part that holds: the top-left block is the given matrix, and — singular values at most
1 — the first `m` columns of the expanded matrix are orthonormal. Missing for the full claim:
unitarity, see `C34_unitary_iff`. -/
theorem C34_embeds_partial (M : Matrix (Fin m) (Fin m) ℂ) (d : Svd m) (h : IsSvd M d) :
    (∀ i j : Fin m, expandedMatrix d (Fin.castAdd m i) (Fin.castAdd m j) = M i j) ∧
    ((∀ i, d.s i ≤ 1) → ∀ i j : Fin m,
      ∑ r, star (expandedMatrix d r (Fin.castAdd m i)) * expandedMatrix d r (Fin.castAdd m j)
        = if i = j then 1 else 0) := by
  constructor
  · intro i j
    rw [expandedMatrix, Matrix.reindex_apply, Matrix.submatrix_apply, finSumFinEquiv_symm_apply_castAdd,
      finSumFinEquiv_symm_apply_castAdd, expanded_eq, fromBlocks_apply₁₁, ← h.product]
  · intro h1 i j
    have hg := congrFun (congrFun (expanded_gram h h1) (Sum.inl i)) (Sum.inl j)
    rw [fromBlocks_apply₁₁, Matrix.one_apply, Matrix.mul_apply] at hg
    rw [← hg]
    refine Fintype.sum_equiv finSumFinEquiv.symm _ _ fun r => ?_
    simp only [expandedMatrix, Matrix.reindex_apply, Matrix.submatrix_apply,
      finSumFinEquiv_symm_apply_castAdd, Matrix.conjTranspose_apply]

/-- C34: what the code returns is unitary exactly when every singular value is 0 or 1, because the
sign of one off-diagonal block is missing. -/
theorem C34_unitary_iff (M : Matrix (Fin m) (Fin m) ℂ) (d : Svd m) (h : IsSvd M d)
    (h1 : ∀ i, d.s i ≤ 1) :
    expandedMatrix d ∈ Matrix.unitaryGroup (Fin (m + m)) ℂ ↔ ∀ i, d.s i = 0 ∨ d.s i = 1 := by
  have hre : expandedMatrix d ∈ Matrix.unitaryGroup (Fin (m + m)) ℂ ↔
      (expandedBlocks d)ᴴ * expandedBlocks d = 1 := by
    rw [Matrix.mem_unitaryGroup_iff', expandedMatrix, Matrix.star_eq_conjTranspose,
      Matrix.conjTranspose_reindex, Matrix.reindex_apply, Matrix.reindex_apply,
      Matrix.submatrix_mul_equiv]
    constructor
    · intro hh
      have := congrArg (fun A => A.submatrix finSumFinEquiv finSumFinEquiv) hh
      simpa using this
    · intro hh; rw [hh]; simp
  rw [hre, expanded_gram h h1, cross_diag, ← fromBlocks_one, fromBlocks_inj]
  have hval : ∀ i, (2 * d.s i * Real.sqrt (if 1 - d.s i ^ 2 < 0 then 0 else 1 - d.s i ^ 2) = 0) ↔
      (d.s i = 0 ∨ d.s i = 1) := by
    intro i
    have h0 := h.nonneg i
    have h2 : 0 ≤ 1 - d.s i ^ 2 := by have := h1 i; nlinarith
    rw [if_neg (not_lt.mpr h2), mul_eq_zero, Real.sqrt_eq_zero h2]
    constructor
    · rintro (h3 | h3)
      · left; linarith
      · right; nlinarith
    · rintro (h3 | h3)
      · left; rw [h3]; ring
      · right; rw [h3]; ring
  constructor
  · rintro ⟨-, h2, -, -⟩ i
    have h3 := congrArg (fun A => d.U * A) h2
    simp only [← Matrix.mul_assoc, h.conjU', Matrix.one_mul, Matrix.mul_zero] at h3
    have h4 := congrFun (congrFun h3 i) i
    rw [diagonal_apply_eq, Matrix.zero_apply] at h4
    exact (hval i).mp (by exact_mod_cast h4)
  · intro hs
    have hz : (diagonal fun i => ((2 * d.s i * Real.sqrt (if 1 - d.s i ^ 2 < 0 then 0 else 1 - d.s i ^ 2) : ℝ) : ℂ))
        = (0 : Matrix (Fin m) (Fin m) ℂ) := by
      rw [← diagonal_zero]
      congr 1; funext i
      rw [(hval i).mpr (hs i)]; simp
    rw [hz]; simp

/-- A decomposition of the 1 × 1 matrix (1/2). -/
noncomputable def halfSvd : Svd 1 := ⟨1, fun _ => 1 / 2, 1⟩

theorem halfSvd_isSvd : IsSvd (Matrix.of fun _ _ => (1 / 2 : ℂ)) halfSvd := by
  refine ⟨one_mem _, one_mem _, fun i => by simp [halfSvd], fun i j _ => le_rfl, ?_⟩
  ext i j
  simp [halfSvd, Matrix.diagonal, Subsingleton.elim i j]

/-- C34 as stated does not hold: for a single mode with amplitude transmission 1/2 the expanded
matrix is not unitary. -/
theorem C34_fails : ¬ ∀ (m : ℕ) (M : Matrix (Fin m) (Fin m) ℂ) (d : Svd m), IsSvd M d →
    (∀ i, d.s i ≤ 1) → expandedMatrix d ∈ Matrix.unitaryGroup (Fin (m + m)) ℂ := by
  intro hall
  have h1 : ∀ i, halfSvd.s i ≤ 1 := fun i => by simp only [halfSvd]; norm_num
  have h2 := (C34_unitary_iff _ halfSvd halfSvd_isSvd h1).mp (hall 1 _ _ halfSvd_isSvd h1) 0
  simp only [halfSvd] at h2
  norm_num at h2

/-- C36: the lossy network returns `M x` for every vector of the right length, as the lossless one
does. -/
theorem C36_lossy (M : Matrix (Fin m) (Fin m) ℂ) (d : Svd m) (h : IsSvd M d) (x : Fin m → ℂ)
    (fuel : ℕ) (hf : m < fuel) :
    lossySimulate fuel d (List.ofFn x) = .ok (List.ofFn (M *ᵥ x)) ∧
    losslessSimulate M (List.ofFn x) = .ok (List.ofFn (M *ᵥ x)) := by
  have hget : ∀ j : Fin m, (List.ofFn x).getD j 0 = x j := by
    intro j
    rw [getD_of_lt _ _ (by simp), List.getElem_ofFn]
  constructor
  · unfold lossySimulate matVec
    simp only
    rw [if_pos (by simp), if_pos (by simp), ok_bind, trimTo_ok _ _ _ (by simp) (by simp; omega)]
    congr 1
    refine List.ext_getElem (by simp) fun i hi hi' => ?_
    have him : i < m := by simpa using hi'
    rw [List.getElem_take, List.getElem_ofFn, List.getElem_ofFn, Fin.sum_univ_add]
    have hfst : ∀ j : Fin m, (List.ofFn x ++ List.replicate m 0).getD (Fin.castAdd m j) 0 = x j := by
      intro j
      rw [Fin.val_castAdd, List.getD_append _ _ _ _ (by simp), hget]
    have hsnd : ∀ j : Fin m, (List.ofFn x ++ List.replicate m 0).getD (Fin.natAdd m j) 0 = 0 := by
      intro j
      rw [Fin.val_natAdd, List.getD_append_right _ _ _ _ (by simp)]
      simp
    simp only [hfst, hsnd, mul_zero, Finset.sum_const_zero, add_zero]
    rw [Matrix.mulVec, dotProduct]
    refine Finset.sum_congr rfl fun j _ => ?_
    have := (C34_embeds_partial M d h).1 ⟨i, him⟩ j
    rw [← this]; rfl
  · unfold losslessSimulate matVec
    rw [if_pos (by simp)]
    congr 2
    funext i
    rw [Matrix.mulVec, dotProduct]
    exact Finset.sum_congr rfl fun j _ => by rw [hget]

/-- C36: inputs of a wrong length are rejected by both. -/
theorem C36_length (M : Matrix (Fin m) (Fin m) ℂ) (d : Svd m) (x : List ℂ) (fuel : ℕ)
    (h : x.length ≠ m) :
    lossySimulate fuel d x = .error .valueError ∧ losslessSimulate M x = .error .valueError := by
  constructor
  · rw [lossySimulate, if_neg h]
  · rw [losslessSimulate, matVec, if_neg h]

example : lossySimulate 5 halfSvd [6] = .ok [3] := by
  have := (C36_lossy _ halfSvd halfSvd_isSvd (fun _ => 6) 5 (by norm_num)).1
  simp only [List.ofFn_succ, List.ofFn_zero, Matrix.mulVec, dotProduct, Matrix.of_apply] at this
  rw [this]; norm_num

/-- C41: with a non-zero singular value, the losses are split as claimed: `M = √(1-l)·A`, `1-l` is
the largest squared singular value of `M`, and `A` has a decomposition with largest singular
value 1. -/
theorem C41_split (M : Matrix (Fin m) (Fin m) ℂ) (d : Svd m) (h : IsSvd M d) (h0 : ∃ i, d.s i ≠ 0) :
    ∃ l A, extractLosses d = .ok (l, some A) ∧ M = ((Real.sqrt (1 - l) : ℝ) : ℂ) • A ∧
      IsGreatest (Set.range fun i => d.s i ^ 2) (1 - l) ∧
      ∃ d', IsSvd A d' ∧ IsGreatest (Set.range d'.s) 1 := by
  obtain ⟨i0, hi0⟩ := h0
  obtain ⟨k, rfl⟩ : ∃ k, m = k + 1 := ⟨m - 1, by have := i0.2; omega⟩
  obtain ⟨l, hl, hmem, hmin⟩ : ∃ l, pyMinR (List.ofFn fun i => 1 - d.s i ^ 2) = .ok l ∧
      (∃ i, l = 1 - d.s i ^ 2) ∧ ∀ i, l ≤ 1 - d.s i ^ 2 := by
    have hm := foldl_min (List.ofFn fun i : Fin k => 1 - d.s i.succ ^ 2) (1 - d.s 0 ^ 2)
    refine ⟨(List.ofFn fun i : Fin k => 1 - d.s i.succ ^ 2).foldl (fun a b => if b < a then b else a)
      (1 - d.s 0 ^ 2), by rw [List.ofFn_succ]; rfl, ?_, ?_⟩
    · rcases hm.1 with h1 | h1
      · exact ⟨0, h1⟩
      · obtain ⟨i, hi⟩ := (List.mem_ofFn).mp h1
        exact ⟨i.succ, hi.symm⟩
    · intro i
      refine Fin.cases hm.2.1 (fun i => ?_) i
      exact hm.2.2 _ ((List.mem_ofFn).mpr ⟨i, rfl⟩)
  have hgr : IsGreatest (Set.range fun i => d.s i ^ 2) (1 - l) := by
    obtain ⟨i, hi⟩ := hmem
    refine ⟨⟨i, by simp only; linarith⟩, ?_⟩
    rintro _ ⟨j, rfl⟩
    have := hmin j
    simp only; linarith
  have hpos : 0 < 1 - l := by
    have h1 : d.s i0 ^ 2 ≤ 1 - l := hgr.2 ⟨i0, rfl⟩
    have : 0 < d.s i0 ^ 2 := by positivity
    linarith
  have hsq : ∀ i, Real.sqrt (d.s i ^ 2 / (1 - l)) = d.s i / Real.sqrt (1 - l) := by
    intro i
    rw [Real.sqrt_div (sq_nonneg _), Real.sqrt_sq (h.nonneg i)]
  have hne : Real.sqrt (1 - l) ≠ 0 := (Real.sqrt_pos.mpr hpos).ne'
  refine ⟨l, d.V * Matrix.diagonal (fun i => ((Real.sqrt (d.s i ^ 2 / (1 - l)) : ℝ) : ℂ)) * d.U,
    ?_, ?_, hgr, ⟨d.V, fun i => Real.sqrt (d.s i ^ 2 / (1 - l)), d.U⟩,
    ⟨h.unitaryV, h.unitaryU, fun i => Real.sqrt_nonneg _, ?_, rfl⟩, ?_⟩
  · unfold extractLosses
    simp only
    rw [hl, ok_bind, if_neg hpos.ne']
    rfl
  · rw [← Matrix.smul_mul, ← Matrix.mul_smul]
    conv_lhs => rw [h.product]
    congr 2
    rw [← Matrix.diagonal_smul]
    congr 1; funext i
    rw [Pi.smul_apply, smul_eq_mul, ← Complex.ofReal_mul, hsq, mul_div_cancel₀ _ hne]
  · intro i j hij
    refine Real.sqrt_le_sqrt (div_le_div_of_nonneg_right ?_ hpos.le)
    exact pow_le_pow_left₀ (h.nonneg j) (h.descending i j hij) 2
  · obtain ⟨i, hi⟩ := hgr.1
    refine ⟨⟨i, ?_⟩, ?_⟩
    · simp only at hi ⊢
      rw [hi, div_self hpos.ne', Real.sqrt_one]
    · rintro _ ⟨j, rfl⟩
      simp only
      rw [Real.sqrt_le_one, div_le_one hpos]
      exact hgr.2 ⟨j, rfl⟩

/-- C41 excludes the zero matrix for a reason: there the remaining network is an array of NaNs. -/
theorem C41_zero (d : Svd m) (h0 : ∀ i, d.s i = 0) (hm : 0 < m) :
    extractLosses d = .ok (1, none) := by
  obtain ⟨k, rfl⟩ : ∃ k, m = k + 1 := ⟨m - 1, by omega⟩
  have hone : ∀ n : ℕ, (List.replicate n (1 : ℝ)).foldl (fun a b => if b < a then b else a) 1 = 1 := by
    intro n
    induction n with
    | zero => rfl
    | succ n ih => rw [List.replicate_succ, List.foldl_cons, if_neg (lt_irrefl _), ih]
  have hl : pyMinR (List.ofFn fun i => 1 - d.s i ^ 2) = .ok 1 := by
    simp only [h0]
    rw [List.ofFn_succ, pyMinR]
    norm_num
    exact hone k
  unfold extractLosses
  simp only
  rw [hl, ok_bind, if_pos (by ring)]
  rfl

example : ∃ A, extractLosses halfSvd = .ok (3 / 4, some A) := by
  obtain ⟨l, A, h1, -, h3, -⟩ := C41_split _ halfSvd halfSvd_isSvd ⟨0, by simp [halfSvd]⟩
  obtain ⟨i, hi⟩ := h3.1
  simp only [halfSvd] at hi
  have : l = 3 / 4 := by linarith
  exact ⟨A, by rw [h1, this]⟩

/-- C56: the transmissivities are `m` values in ascending order; their sum is the squared Frobenius
norm, their product `|det M|²`. -/
theorem C56_transmissivities (M : Matrix (Fin m) (Fin m) ℂ) (d : Svd m) (h : IsSvd M d) :
    (transmissivities d).length = m ∧ (transmissivities d).Pairwise (· ≤ ·) ∧
    (∀ t ∈ transmissivities d, 0 ≤ t) ∧
    (transmissivities d).sum = ∑ i, ∑ j, Complex.normSq (M i j) ∧
    (transmissivities d).prod = Complex.normSq M.det := by
  have hsumrev : (transmissivities d).sum = ∑ i, d.s i ^ 2 := by
    unfold transmissivities
    rw [List.map_reverse, List.sum_reverse, List.map_ofFn, List.sum_ofFn]
    rfl
  have hprodrev : (transmissivities d).prod = ∏ i, d.s i ^ 2 := by
    unfold transmissivities
    rw [List.map_reverse, List.prod_reverse, List.map_ofFn, List.prod_ofFn]
    rfl
  refine ⟨by simp [transmissivities], ?_, ?_, ?_, ?_⟩
  · unfold transmissivities
    rw [List.map_reverse, List.pairwise_reverse, List.map_ofFn, List.pairwise_ofFn]
    intro i j hij
    exact pow_le_pow_left₀ (h.nonneg j) (h.descending i j hij.le) 2
  · intro t ht
    unfold transmissivities at ht
    obtain ⟨x, -, rfl⟩ := List.mem_map.mp ht
    exact sq_nonneg x
  · rw [hsumrev]
    have htr : (Mᴴ * M).trace = ∑ i, ((d.s i ^ 2 : ℝ) : ℂ) := by
      have : Mᴴ * M = d.Uᴴ * (sdiag d * sdiag d) * d.U := by
        rw [h.product, Matrix.conjTranspose_mul, Matrix.conjTranspose_mul, sdiag_conj]
        have hV : ∀ X, d.Vᴴ * (d.V * X) = X := fun X => by
          rw [← Matrix.mul_assoc, h.conjV, Matrix.one_mul]
        simp only [Matrix.mul_assoc, hV]
      rw [this, Matrix.trace_mul_comm, ← Matrix.mul_assoc, h.conjU', Matrix.one_mul, sdiag,
        Matrix.diagonal_mul_diagonal, Matrix.trace_diagonal]
      refine Finset.sum_congr rfl fun i _ => ?_
      push_cast; ring
    have htr2 : (Mᴴ * M).trace = ((∑ i, ∑ j, Complex.normSq (M i j) : ℝ) : ℂ) := by
      rw [Matrix.trace, Finset.sum_comm]
      push_cast
      refine Finset.sum_congr rfl fun j _ => ?_
      rw [Matrix.diag_apply, Matrix.mul_apply]
      refine Finset.sum_congr rfl fun i _ => ?_
      rw [Matrix.conjTranspose_apply, Complex.star_def, mul_comm, Complex.mul_conj]
    rw [htr, ← Complex.ofReal_sum] at htr2
    exact_mod_cast htr2
  · have hdet : ∀ A ∈ Matrix.unitaryGroup (Fin m) ℂ, Complex.normSq A.det = 1 := by
      intro A hA
      have h1 := congrArg Matrix.det (Matrix.mem_unitaryGroup_iff.mp hA)
      rw [Matrix.det_mul, Matrix.det_one, Matrix.star_eq_conjTranspose, Matrix.det_conjTranspose,
        Complex.star_def, Complex.mul_conj] at h1
      exact_mod_cast h1
    rw [hprodrev]
    conv_rhs => rw [h.product]
    rw [Matrix.det_mul, Matrix.det_mul, Matrix.det_diagonal, Complex.normSq_mul, Complex.normSq_mul,
      hdet _ h.unitaryV, hdet _ h.unitaryU, one_mul, mul_one, map_prod]
    refine Finset.prod_congr rfl fun i _ => ?_
    rw [Complex.normSq_ofReal]; ring

/-- The singular values of a unitary matrix. -/
theorem svd_unitary_sq {M : Matrix (Fin m) (Fin m) ℂ} {d : Svd m} (h : IsSvd M d)
    (hM : M ∈ Matrix.unitaryGroup (Fin m) ℂ) (i : Fin m) : d.s i ^ 2 = 1 := by
  have h1 : d.Uᴴ * (sdiag d * sdiag d) * d.U = 1 := by
    have h2 := Matrix.mem_unitaryGroup_iff'.mp hM
    rw [Matrix.star_eq_conjTranspose, h.product, Matrix.conjTranspose_mul, Matrix.conjTranspose_mul,
      sdiag_conj] at h2
    have hV : ∀ X, d.Vᴴ * (d.V * X) = X := fun X => by
      rw [← Matrix.mul_assoc, h.conjV, Matrix.one_mul]
    simp only [Matrix.mul_assoc, hV] at h2 ⊢
    exact h2
  have h3 : sdiag d * sdiag d = 1 := by
    have := congrArg (fun A => d.U * A * d.Uᴴ) h1
    simp only [← Matrix.mul_assoc, h.conjU', Matrix.one_mul, Matrix.mul_one] at this
    rwa [Matrix.mul_assoc, h.conjU', Matrix.mul_one] at this
  have h4 := congrFun (congrFun h3 i) i
  rw [sdiag, Matrix.diagonal_mul_diagonal, Matrix.diagonal_apply_eq, Matrix.one_apply_eq] at h4
  have h5 : d.s i * d.s i = 1 := by exact_mod_cast h4
  rw [sq]; exact h5

/-- C56: a unitary matrix has transmissivities 1. -/
theorem C56_unitary (M : Matrix (Fin m) (Fin m) ℂ) (d : Svd m) (h : IsSvd M d)
    (hM : M ∈ Matrix.unitaryGroup (Fin m) ℂ) : transmissivities d = List.replicate m 1 := by
  have hs : ∀ i, d.s i ^ 2 = 1 := svd_unitary_sq h hM
  unfold transmissivities
  rw [List.map_reverse, List.map_ofFn, show ((fun x => x ^ 2) ∘ d.s) = fun _ => (1 : ℝ) from funext hs,
    List.ofFn_const, List.reverse_replicate]

example : transmissivities halfSvd = [1 / 4] := by
  simp [transmissivities, halfSvd]; norm_num

end Verif
