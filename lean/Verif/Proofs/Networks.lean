import Verif.Model.Networks
import Verif.Proofs.PyLemmas
import Mathlib.LinearAlgebra.Matrix.Determinant.Basic
import Mathlib.Data.Matrix.ColumnRowPartitioned
import Mathlib.LinearAlgebra.Matrix.Trace

/-! Lemmas about the SVD-based functions. -/
namespace Verif

open Matrix

variable {m : ℕ}

theorem IsSvd.conjV {M : Matrix (Fin m) (Fin m) ℂ} {d : Svd m} (h : IsSvd M d) : d.Vᴴ * d.V = 1 :=
  Matrix.mem_unitaryGroup_iff'.mp h.unitaryV

theorem IsSvd.conjU {M : Matrix (Fin m) (Fin m) ℂ} {d : Svd m} (h : IsSvd M d) : d.Uᴴ * d.U = 1 :=
  Matrix.mem_unitaryGroup_iff'.mp h.unitaryU

theorem IsSvd.conjU' {M : Matrix (Fin m) (Fin m) ℂ} {d : Svd m} (h : IsSvd M d) : d.U * d.Uᴴ = 1 :=
  Matrix.mem_unitaryGroup_iff.mp h.unitaryU

/-- The diagonal matrix of the singular values. -/
noncomputable abbrev sdiag (d : Svd m) : Matrix (Fin m) (Fin m) ℂ := diagonal fun i => (d.s i : ℂ)

noncomputable abbrev ldiag (d : Svd m) : Matrix (Fin m) (Fin m) ℂ := lossExpansion fun i => d.s i ^ 2

theorem expanded_eq (d : Svd m) :
    expandedBlocks d = fromBlocks (d.V * sdiag d * d.U) (d.V * ldiag d) (ldiag d * d.U) (sdiag d) := by
  unfold expandedBlocks
  simp only [fromBlocks_multiply]
  simp

theorem sdiag_conj (d : Svd m) : (sdiag d)ᴴ = sdiag d := by
  rw [sdiag, diagonal_conjTranspose]
  congr 1; funext i; simp

theorem ldiag_conj (d : Svd m) : (ldiag d)ᴴ = ldiag d := by
  unfold ldiag lossExpansion
  simp only
  rw [diagonal_conjTranspose]
  congr 1; funext i; simp

theorem squares_one {M : Matrix (Fin m) (Fin m) ℂ} {d : Svd m} (h : IsSvd M d) (h1 : ∀ i, d.s i ≤ 1) :
    sdiag d * sdiag d + ldiag d * ldiag d = 1 := by
  unfold ldiag lossExpansion
  simp only
  rw [sdiag, diagonal_mul_diagonal, diagonal_mul_diagonal, diagonal_add, ← diagonal_one]
  congr 1
  funext i
  have h2 : 0 ≤ 1 - d.s i ^ 2 := by
    have := h.nonneg i; have := h1 i; nlinarith
  rw [if_neg (not_lt.mpr h2), ← Complex.ofReal_mul, ← Complex.ofReal_mul, ← Complex.ofReal_add,
    Real.mul_self_sqrt h2, ← Complex.ofReal_one]
  congr 1; ring

theorem expanded_gram {M : Matrix (Fin m) (Fin m) ℂ} {d : Svd m} (h : IsSvd M d) (h1 : ∀ i, d.s i ≤ 1) :
    (expandedBlocks d)ᴴ * expandedBlocks d
      = fromBlocks 1 (d.Uᴴ * (sdiag d * ldiag d + ldiag d * sdiag d))
          ((sdiag d * ldiag d + ldiag d * sdiag d) * d.U) 1 := by
  have hsq := squares_one h h1
  have hV : ∀ X, d.Vᴴ * (d.V * X) = X := fun X => by rw [← Matrix.mul_assoc, h.conjV, Matrix.one_mul]
  rw [expanded_eq, fromBlocks_conjTranspose, fromBlocks_multiply]
  simp only [conjTranspose_mul, sdiag_conj, ldiag_conj, Matrix.mul_assoc, hV]
  congr 1
  · rw [← Matrix.mul_add, ← Matrix.mul_assoc (sdiag d), ← Matrix.mul_assoc (ldiag d), ← Matrix.add_mul,
      hsq, Matrix.one_mul, h.conjU]
  · rw [← Matrix.mul_add]
  · rw [← Matrix.mul_assoc, ← Matrix.mul_assoc, ← Matrix.add_mul, add_comm]
  · rw [add_comm, hsq]

theorem cross_diag (d : Svd m) : sdiag d * ldiag d + ldiag d * sdiag d
    = diagonal fun i => ((2 * d.s i * Real.sqrt (if 1 - d.s i ^ 2 < 0 then 0 else 1 - d.s i ^ 2) : ℝ) : ℂ) := by
  unfold ldiag lossExpansion
  simp only
  rw [sdiag, diagonal_mul_diagonal, diagonal_mul_diagonal, diagonal_add]
  congr 1; funext i; push_cast; ring

theorem trimTo_ok {α : Type} (n : ℕ) : ∀ (fuel : ℕ) (l : List α), n ≤ l.length → l.length - n < fuel →
    trimTo fuel n l = .ok (l.take n) := by
  intro fuel
  induction fuel with
  | zero => intro l _ h; omega
  | succ fuel ih =>
    intro l hl hf
    by_cases h : l.length > n
    · have : trimTo (fuel + 1) n l = trimTo fuel n l.dropLast := by
        unfold trimTo
        rw [pyWhile_step (s' := l.dropLast)]
        · simp [h]
        · rfl
      rw [this, ih _ (by simp; omega) (by simp; omega), List.dropLast_eq_take, List.take_take]
      congr 2; omega
    · unfold trimTo
      rw [pyWhile_stop (by simp [h]) (by omega), List.take_of_length_le (by omega)]

theorem foldl_min (xs : List ℝ) (x : ℝ) :
    let r := xs.foldl (fun a b => if b < a then b else a) x
    (r = x ∨ r ∈ xs) ∧ r ≤ x ∧ ∀ y ∈ xs, r ≤ y := by
  induction xs generalizing x with
  | nil => simp
  | cons y xs ih =>
    simp only [List.foldl_cons]
    obtain ⟨h1, h2, h3⟩ := ih (if y < x then y else x)
    have hle : (if y < x then y else x) ≤ x ∧ (if y < x then y else x) ≤ y := by
      split_ifs with h
      · exact ⟨h.le, le_rfl⟩
      · exact ⟨le_rfl, not_lt.mp h⟩
    refine ⟨?_, h2.trans hle.1, ?_⟩
    · rcases h1 with h1 | h1
      · rw [h1]; split_ifs
        · right; simp
        · left; rfl
      · right; simp [h1]
    · intro z hz
      rcases List.mem_cons.mp hz with rfl | hz
      · exact h2.trans hle.2
      · exact h3 z hz

end Verif
