import Verif.Props.RoundedPermanents
import Verif.Props.Submatrix
import Verif.Proofs.RoundedSubmatrix

/-!
C93: the submatrix permanent calculators in floating-point arithmetic.
-/
namespace Verif

variable (R : Rounding) (A : ComplexArith)

/-- The number of operations of the Ryser submatrix calculator whose errors can add up: `n` particles in the output,
`L` states below the input; the entries of the matrix are known up to `e` operations. -/
def ryserSubCount (e n L : ℕ) : ℕ := 3 * L + 4 + n * (L * (e + 2) + 2)

/-- The same number for the Chin–Huh submatrix calculator; `m` is the number of modes. -/
def chSubCount (e n m L : ℕ) : ℕ := 3 * L + 4 + n * (m * (e + 2) + e + L * (2 * e + 3) + 3)

/-- `l` consists of the permanents with one particle removed from `S`, up to `err`; it is exactly zero where there is no
particle. -/
def SubPermsUpTo (U : List (List ℂ)) (S T : List ℕ) (err : ℝ) (l : List ℂ) : Prop :=
  l.length = S.length ∧ ∀ i (hi : i < l.length), (S.getD i 0 = 0 → l[i] = 0) ∧
    (S.getD i 0 ≠ 0 → ‖l[i] - scatteringPermanent U (removeParticle S i) T‖ ≤ err)

theorem subPermsUpTo_of_close {U : List (List ℂ)} {S T : List ℕ} {k : ℕ} {Y : ℝ} {l : List ℂ}
    (h : ListClose S.length k (fun j => if S.getD j 0 = 0 then 0 else Y) l fun j => (subResult U S T).getD j 0) :
    SubPermsUpTo U S T ((qf ^ k - 1) * Y) l := by
  refine ⟨h.1, fun i hi => ?_⟩
  have h1 := (h.2 i (by have := h.1; omega)).2
  simp only at h1
  rw [subResult_getD i (by have := h.1; omega), getD_of_lt _ _ hi] at h1
  refine ⟨fun h0 => ?_, fun h0 => ?_⟩
  · simp only [if_pos h0, mul_zero, sub_zero] at h1
    exact norm_le_zero_iff.mp h1
  · simp only [if_neg h0] at h1
    rwa [removeParticle_eq]

theorem SubPermsUpTo.mono {U : List (List ℂ)} {S T : List ℕ} {e e' : ℝ} {l : List ℂ} (h : SubPermsUpTo U S T e l)
    (he : e ≤ e') : SubPermsUpTo U S T e' l :=
  ⟨h.1, fun i hi => ⟨(h.2 i hi).1, fun h0 => ((h.2 i hi).2 h0).trans he⟩⟩

theorem xmax_pos {n : ℕ} (h : 0 < n) : xmax n = n := max_eq_right (by exact_mod_cast h)

section

variable {e n : ℕ} {U' U : List (List ℂ)} {S T : List ℕ} (hrows : ∀ r ∈ U', r.length = n) (hT : T.length ≤ U'.length)
  (hSn : S.length ≤ n) (hU1 : ∀ i j, ‖mget U i j‖ ≤ 1) (hU : StoredAs e U' U) (hS : S ≠ []) (hs : S.sum = T.sum + 1)
  (hn : S.sum ≤ 1000) (fuel : ℕ) (hf : boxSize S ≤ fuel)
include hrows hT hSn hU1 hU hS hs hn hf

/-- C93: the Ryser submatrix calculator returns, for a stored matrix, the permanents of the exact matrix with one
particle removed, up to the stated error. -/
theorem C93_ryser : ∃ l, ryserSubPermanentsR R A fuel ⟨U', S, T⟩ = .ok l ∧
    SubPermsUpTo U S T (((1 + 1 / 2 ^ 48) ^ ryserSubCount e T.sum (boxSize S) - 1) * (2 ^ T.sum * (S.sum : ℝ) ^ T.sum)) l := by
  obtain ⟨l, hl, hc⟩ := ryserSubR_near R A ⟨hrows, hT, hSn, hS⟩ (storedAs_close hU hU1) hs hn fuel hf
  refine ⟨l, hl, ?_⟩
  have := subPermsUpTo_of_close hc
  rw [xmax_pos (by omega)] at this
  refine this.mono (mul_le_mul_of_nonneg_right (sub_le_sub_right (qf_pow_mono ?_) 1) (by positivity))
  unfold ryserSubOps subOps ryserSubCount boxSize
  rw [Nat.zero_add]
  omega

/-- C93: the same for the Chin–Huh submatrix calculator. -/
theorem C93_chinHuh : ∃ l, chSubPermanentsR R A fuel ⟨U', S, T⟩ = .ok l ∧
    SubPermsUpTo U S T (((1 + 1 / 2 ^ 48) ^ chSubCount e T.sum S.length (boxSize S) - 1) * (S.sum : ℝ) ^ T.sum) l := by
  obtain ⟨l, hl, hc⟩ := chSubR_near R A ⟨hrows, hT, hSn, hS⟩ (storedAs_close hU hU1) hs hn fuel hf
  refine ⟨l, hl, ?_⟩
  have := subPermsUpTo_of_close hc
  rw [xmax_pos (by omega)] at this
  refine this.mono (mul_le_mul_of_nonneg_right (sub_le_sub_right (qf_pow_mono ?_) 1) (by positivity))
  unfold chSubOps subOps chSubCount boxSize
  have : ∀ L, T.sum * (S.length * (e + 2) + e + 1 + L * (2 * e + 3) + 2)
      = T.sum * (S.length * (e + 2) + e + L * (2 * e + 3) + 3) := fun L => by congr 1; omega
  rw [this]
  omega

/-- C93 (as a number): with fewer than `2 ^ 47` operations both errors are at most the number of operations over
`2 ^ 47` times the size of the numbers added. -/
theorem C93_number (hK : ryserSubCount e T.sum (boxSize S) ≤ 2 ^ 47) (hK' : chSubCount e T.sum S.length (boxSize S) ≤ 2 ^ 47) :
    (∃ l, ryserSubPermanentsR R A fuel ⟨U', S, T⟩ = .ok l ∧
      SubPermsUpTo U S T (ryserSubCount e T.sum (boxSize S) / 2 ^ 47 * (2 ^ T.sum * (S.sum : ℝ) ^ T.sum)) l) ∧
    ∃ l, chSubPermanentsR R A fuel ⟨U', S, T⟩ = .ok l ∧
      SubPermsUpTo U S T (chSubCount e T.sum S.length (boxSize S) / 2 ^ 47 * (S.sum : ℝ) ^ T.sum) l := by
  obtain ⟨l, hl, hc⟩ := C93_ryser R A hrows hT hSn hU1 hU hS hs hn fuel hf
  obtain ⟨l', hl', hc'⟩ := C93_chinHuh R A hrows hT hSn hU1 hU hS hs hn fuel hf
  refine ⟨⟨l, hl, hc.mono (mul_le_mul_of_nonneg_right ((qf_pow_le hK).trans (le_of_eq ?_)) (by positivity))⟩,
    l', hl', hc'.mono (mul_le_mul_of_nonneg_right ((qf_pow_le hK').trans (le_of_eq ?_)) (by positivity))⟩ <;> ring

end

example : (∃ l, ryserSubPermanentsR R (textbookArith R) 6
      ⟨([[3 / 5, 4 / 5], [4 / 5, -3 / 5]] : List (List ℂ)).map fun r => r.map R.rndC, [2, 1], [1, 1]⟩ = .ok l ∧
    SubPermsUpTo [[3 / 5, 4 / 5], [4 / 5, -3 / 5]] [2, 1] [1, 1] (1 / 2 ^ 35) l) ∧
    ∃ l, chSubPermanentsR R (textbookArith R) 6
      ⟨([[3 / 5, 4 / 5], [4 / 5, -3 / 5]] : List (List ℂ)).map fun r => r.map R.rndC, [2, 1], [1, 1]⟩ = .ok l ∧
    SubPermsUpTo [[3 / 5, 4 / 5], [4 / 5, -3 / 5]] [2, 1] [1, 1] (1 / 2 ^ 35) l := by
  have hrows : ∀ r ∈ ([[3 / 5, 4 / 5], [4 / 5, -3 / 5]] : List (List ℂ)).map (fun r => r.map R.rndC), r.length = 2 := by
    simp
  obtain ⟨⟨l, hl, hc⟩, l', hl', hc'⟩ := C93_number R (textbookArith R) hrows (S := [2, 1]) (T := [1, 1]) (by simp) (by simp)
    rotation_entries (storedAs_round R rotation_entries) (by simp) rfl (by simp) 6 (by decide) (by decide) (by decide)
  refine ⟨⟨l, hl, hc.mono ?_⟩, l', hl', hc'.mono ?_⟩
  · norm_num [ryserSubCount, boxSize]
  · norm_num [chSubCount, boxSize]

end Verif
