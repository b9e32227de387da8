import Verif.Props.RoundedLaw
import Verif.Proofs.RoundedSquares

/-!
C88 and C89: the permanent calculators in floating-point arithmetic, and the samplers that use them. `R : Rounding`
is any way to round to nearest, `A : ComplexArith` any complex arithmetic with the usual errors.
-/
namespace Verif

open Finset
open scoped ENNReal

variable (R : Rounding) (A : ComplexArith)

/-! ### C88: permanents -/

/-- The number of operations whose errors can add up: `n` particles, `m` modes, `L` states below the input; the
entries of the matrix are known up to `e` operations. -/
def permOps (calculatorType : ℤ) (e n m L : ℕ) : ℕ :=
  if calculatorType = 1 then n * (n + e + 1)
  else if calculatorType = 2 then n * (n * (e + 2) + 2 ^ (n - 1) * (2 * e + 3) + 1) + 1 + 2 ^ (n - 1)
  else if calculatorType = 4 then 3 * L + 1 + n * (L * (e + 2) + 2)
  else 3 * L + 1 + n * (m * (e + 2) + L * (2 * e + 3) + 2)

/-- The size of the numbers that are added. -/
noncomputable def permSize (calculatorType : ℤ) (n : ℕ) : ℝ :=
  if calculatorType = 1 then n.factorial
  else if calculatorType = 4 then 2 ^ n * (n : ℝ) ^ n
  else (n : ℝ) ^ n

/-- `U'` is the matrix as it is stored: its entries differ from those of `U` by at most `e` operations. -/
def StoredAs (e : ℕ) (U' U : List (List ℂ)) : Prop :=
  ∀ i j, ‖mget U' i j - mget U i j‖ ≤ (1 + 1 / 2 ^ 48) ^ e - 1

theorem storedAs_close {e : ℕ} {U' U : List (List ℂ)} (h : StoredAs e U' U) (h1 : ∀ i j, ‖mget U i j‖ ≤ 1) :
    MatClose e U' U := fun i j => ⟨h1 i j, by rw [mul_one]; exact h i j⟩

theorem factoryR_close (gray : ℕ → List ℕ) (hgray : ∀ n, IsGrayCode n (gray n)) (t : ℤ) {e : ℕ} {U' U : List (List ℂ)}
    {S T : List ℕ} (h : Fits U' S T) (hU : MatClose e U' U) (hs : S.sum = T.sum) (hn : S.sum ≤ 1000) (fuel : ℕ)
    (hf : boxSize S ≤ fuel) :
    ∃ y, factoryPermanentR R A gray t fuel ⟨U', S, T⟩ = .ok y ∧
      Close (permOps t e S.sum S.length (boxSize S)) (permSize t S.sum) y (scatteringPermanent U S T) := by
  have hS := h.le
  have hT : T.length ≤ U'.length := by have := h.len; omega
  unfold factoryPermanentR permOps permSize
  by_cases h1 : t = 1
  · obtain ⟨y, hy, hc⟩ := classicR_near A h.square hS hT hU hs
    simp only [if_pos h1]
    rw [← hs] at hc
    exact ⟨y, hy, hc.mono (clops_le _ _)⟩
  by_cases h2 : t = 2
  · obtain ⟨y, hy, hc⟩ := glynnR_near A gray hgray h.square hS hT hU hs
    have h4 : t ≠ 4 := by omega
    simp only [if_neg h1, if_pos h2, if_neg h4]
    rw [← hs, xmax_pow] at hc
    exact ⟨y, hy, hc.mono (by unfold glops; omega)⟩
  by_cases h4 : t = 4
  · obtain ⟨y, hy, hc⟩ := ryserR_near R A h hU hs hn fuel hf
    have h3 : t ≠ 3 := by omega
    simp only [if_neg h1, if_neg h2, if_neg h3, if_pos h4]
    rw [← hs, xmax_pow] at hc
    exact ⟨y, hy, hc.mono (by unfold gops boxSize; rw [Nat.zero_add]; omega)⟩
  · obtain ⟨y, hy, hc⟩ := chinHuhR_near R A h hU hs hn fuel hf
    simp only [if_neg h1, if_neg h2, if_neg h4, ite_self]
    rw [← hs, xmax_pow] at hc
    exact ⟨y, hy, hc.mono (by unfold gops boxSize; omega)⟩

section

variable (gray : ℕ → List ℕ) (hgray : ∀ n, IsGrayCode n (gray n)) (t : ℤ)
include hgray

/-- C88: every calculator of the factory returns, for a stored matrix, the permanent of the exact matrix up to
the stated error. -/
theorem C88_permanent {e : ℕ} {U' U : List (List ℂ)} (hsq : ∀ r ∈ U', r.length = U'.length)
    (hU1 : ∀ i j, ‖mget U i j‖ ≤ 1) (hU : StoredAs e U' U) {S T : List ℕ} (hS : S ≠ []) (hST : S.length = T.length)
    (hle : S.length ≤ U'.length) (hs : S.sum = T.sum) (hn : S.sum ≤ 1000) (fuel : ℕ) (hf : boxSize S ≤ fuel) :
    ∃ y, factoryPermanentR R A gray t fuel ⟨U', S, T⟩ = .ok y ∧
      ‖y - scatteringPermanent U S T‖
        ≤ ((1 + 1 / 2 ^ 48) ^ permOps t e S.sum S.length (boxSize S) - 1) * permSize t S.sum := by
  obtain ⟨y, hy, hc⟩ := factoryR_close R A gray hgray t ⟨hsq, hST, hle, hS⟩ (storedAs_close hU hU1) hs hn fuel hf
  exact ⟨y, hy, hc.2⟩

/-- C88 (as a number): with fewer than `2 ^ 47` operations the error is at most `permOps / 2 ^ 47` times the size of
the numbers added. -/
theorem C88_number {e : ℕ} {U' U : List (List ℂ)} (hsq : ∀ r ∈ U', r.length = U'.length)
    (hU1 : ∀ i j, ‖mget U i j‖ ≤ 1) (hU : StoredAs e U' U) {S T : List ℕ} (hS : S ≠ []) (hST : S.length = T.length)
    (hle : S.length ≤ U'.length) (hs : S.sum = T.sum) (hn : S.sum ≤ 1000)
    (hK : permOps t e S.sum S.length (boxSize S) ≤ 2 ^ 47) (fuel : ℕ) (hf : boxSize S ≤ fuel) :
    ∃ y, factoryPermanentR R A gray t fuel ⟨U', S, T⟩ = .ok y ∧
      ‖y - scatteringPermanent U S T‖ ≤ permOps t e S.sum S.length (boxSize S) / 2 ^ 47 * permSize t S.sum := by
  obtain ⟨y, hy, hc⟩ := factoryR_close R A gray hgray t ⟨hsq, hST, hle, hS⟩ (storedAs_close hU hU1) hs hn fuel hf
  refine ⟨y, hy, hc.2.trans (mul_le_mul_of_nonneg_right ((qf_pow_le hK).trans (le_of_eq ?_)) hc.bound_nonneg)⟩
  ring

/-- C88 (squares): `abs(compute_permanent()) ** 2` is nonnegative and equals the squared modulus of the permanent up to
the stated error. -/
theorem C88_square {e : ℕ} {U' U : List (List ℂ)} (hsq : ∀ r ∈ U', r.length = U'.length)
    (hU1 : ∀ i j, ‖mget U i j‖ ≤ 1) (hU : StoredAs e U' U) {S T : List ℕ} (hS : S ≠ []) (hST : S.length = T.length)
    (hle : S.length ≤ U'.length) (hs : S.sum = T.sum) (hn : S.sum ≤ 1000) (fuel : ℕ) (hf : boxSize S ≤ fuel) :
    ∃ x, squaredPermanentR R A gray t fuel ⟨U', S, T⟩ = .ok x ∧ 0 ≤ x ∧
      |x - Complex.normSq (scatteringPermanent U S T)|
        ≤ ((1 + 1 / 2 ^ 48) ^ (2 * permOps t e S.sum S.length (boxSize S) + 3) - 1) * permSize t S.sum ^ 2 := by
  obtain ⟨y, hy, hc⟩ := factoryR_close R A gray hgray t ⟨hsq, hST, hle, hS⟩ (storedAs_close hU hU1) hs hn fuel hf
  have hB : 1 ≤ permSize t S.sum := by
    unfold permSize
    have h1 : (1 : ℝ) ≤ (S.sum : ℝ) ^ S.sum := by rw [← xmax_pow]; exact one_le_pow₀ (one_le_xmax _)
    split
    · exact_mod_cast Nat.factorial_pos _
    · split
      · exact one_le_mul_of_one_le_of_one_le (one_le_pow₀ one_le_two) h1
      · exact h1
  exact ⟨_, by rw [squaredPermanentR, hy, ok_bind]; rfl, R.nonneg (sq_nonneg _), (squared_near R A hc hB).2⟩

end

theorem mget_map_round (U : List (List ℂ)) (i j : ℕ) :
    mget (U.map fun r => r.map R.rndC) i j = R.rndC (mget U i j) := by
  have h0 : R.rndC 0 = 0 := by simp [Rounding.rndC, Complex.ext_iff]
  simp only [mget, List.getD_eq_getElem?_getD, List.getElem?_map]
  generalize U[i]? = o
  cases o with
  | none => simp [h0]
  | some r =>
    simp only [Option.map_some, Option.getD_some, List.getElem?_map]
    generalize r[j]? = o
    cases o with
    | none => simp [h0]
    | some x => simp

theorem rndC_one {x : ℂ} (h : ‖x‖ ≤ 1) : ‖R.rndC x - x‖ ≤ (1 + 1 / 2 ^ 48) ^ 1 - 1 := by
  refine (R.rndC_error x).trans ?_
  have h3 : (2 : ℝ) ^ (-1074 : ℤ) ≤ 1 / 2 ^ 60 := by
    refine (zpow_le_zpow_right₀ (n := -60) (by norm_num) (by norm_num)).trans (le_of_eq ?_)
    rw [zpow_neg, one_div]
    norm_cast
  generalize (2 : ℝ) ^ (-1074 : ℤ) = z at h3 ⊢
  norm_num at h3 ⊢
  linarith

/-- Rounding the real and imaginary parts of the entries stores a matrix with `e = 1`. -/
theorem storedAs_round {U : List (List ℂ)} (h1 : ∀ i j, ‖mget U i j‖ ≤ 1) :
    StoredAs 1 (U.map fun r => r.map R.rndC) U := by
  intro i j
  rw [mget_map_round]
  exact rndC_one R (h1 i j)

theorem rotation_entries : ∀ i j, ‖mget ([[3 / 5, 4 / 5], [4 / 5, -3 / 5]] : List (List ℂ)) i j‖ ≤ 1 := by
  intro i j
  by_cases h : i < 2 ∧ j < 2
  · obtain ⟨hi, hj⟩ := h
    interval_cases i <;> interval_cases j <;> norm_num [mget]
  · rw [mget_out (by simp) (by simpa using h)]
    simp

theorem permOps_two (t : ℤ) : permOps t 1 ([1, 1] : List ℕ).sum ([1, 1] : List ℕ).length (boxSize [1, 1]) ≤ 69 := by
  have h : boxSize [1, 1] = 4 := by decide
  rw [h, show ([1, 1] : List ℕ).sum = 2 from rfl, show ([1, 1] : List ℕ).length = 2 from rfl]
  unfold permOps
  split_ifs <;> norm_num

theorem permSize_two (t : ℤ) : 0 ≤ permSize t ([1, 1] : List ℕ).sum ∧ permSize t ([1, 1] : List ℕ).sum ≤ 16 := by
  rw [show ([1, 1] : List ℕ).sum = 2 from rfl]
  unfold permSize
  split_ifs <;> norm_num [Nat.factorial]

/-- A concrete case: the permanent `7 / 25` of a rotation, from entries rounded to floats, for every type of
calculator, in the textbook arithmetic. -/
example (t : ℤ) : ∃ y, factoryPermanentR R (textbookArith R) reflectedGray t 4
      ⟨([[3 / 5, 4 / 5], [4 / 5, -3 / 5]] : List (List ℂ)).map fun r => r.map R.rndC, [1, 1], [1, 1]⟩ = .ok y ∧
    ‖y - scatteringPermanent [[3 / 5, 4 / 5], [4 / 5, -3 / 5]] [1, 1] [1, 1]‖ ≤ 1 / 2 ^ 36 := by
  have hK := permOps_two t
  obtain ⟨hB0, hB⟩ := permSize_two t
  have hsq : ∀ r ∈ ([[3 / 5, 4 / 5], [4 / 5, -3 / 5]] : List (List ℂ)).map (fun r => r.map R.rndC),
      r.length = (([[3 / 5, 4 / 5], [4 / 5, -3 / 5]] : List (List ℂ)).map fun r => r.map R.rndC).length := by
    simp
  obtain ⟨y, hy, hc⟩ := C88_number R (textbookArith R) reflectedGray reflectedGray_isGrayCode t hsq rotation_entries
    (storedAs_round R rotation_entries) (S := [1, 1]) (T := [1, 1]) (by simp) rfl (by simp) rfl (by simp)
    (hK.trans (by norm_num)) 4 (by decide)
  refine ⟨y, hy, hc.trans ?_⟩
  have hK' : ((permOps t 1 ([1, 1] : List ℕ).sum ([1, 1] : List ℕ).length (boxSize [1, 1]) : ℕ) : ℝ) ≤ 69 := by
    exact_mod_cast hK
  generalize ((permOps t 1 ([1, 1] : List ℕ).sum ([1, 1] : List ℕ).length (boxSize [1, 1]) : ℕ) : ℝ) = K at hK' ⊢
  generalize permSize t ([1, 1] : List ℕ).sum = B at hB0 hB ⊢
  calc K / 2 ^ 47 * B ≤ 69 / 2 ^ 47 * 16 := by gcongr
    _ ≤ 1 / 2 ^ 36 := by norm_num

/-! ### C89: samples -/

theorem permOps_mono (t : ℤ) (e m : ℕ) {n n' L L' : ℕ} (hn : n ≤ n') (hL : L ≤ L') :
    permOps t e n m L ≤ permOps t e n' m L' := by
  have h2 : 2 ^ (n - 1) ≤ 2 ^ (n' - 1) := Nat.pow_le_pow_right (by norm_num) (by omega)
  unfold permOps
  split_ifs
  · gcongr
  · gcongr
  · gcongr
  · gcongr

theorem permSize_nonneg (t : ℤ) (n : ℕ) : 0 ≤ permSize t n := by
  unfold permSize
  split_ifs <;> positivity

theorem permSize_mono (t : ℤ) {n n' : ℕ} (hn : n ≤ n') : permSize t n ≤ permSize t n' := by
  have h : (n : ℝ) ^ n ≤ (n' : ℝ) ^ n' := by rw [← xmax_pow, ← xmax_pow]; exact xmax_pow_mono hn
  unfold permSize
  split_ifs
  · exact_mod_cast Nat.factorial_le hn
  · have : (2 : ℝ) ^ n ≤ 2 ^ n' := pow_le_pow_right₀ one_le_two hn
    gcongr
  · exact h

theorem StateLE.sum_le' {l S : List ℕ} (h : StateLE l S) : l.sum ≤ S.sum := by
  induction h with
  | nil => simp
  | cons h _ ih => simp only [List.sum_cons]; omega

/-- The error of the squared permanents a sampler uses. -/
noncomputable def squareErr (t : ℤ) (e : ℕ) (S : List ℕ) : ℝ :=
  ((1 + 1 / 2 ^ 48) ^ (2 * permOps t e S.sum S.length (boxSize S) + 3) - 1) * permSize t S.sum ^ 2

theorem squareErr_nonneg (t : ℤ) (e : ℕ) (S : List ℕ) : 0 ≤ squareErr t e S :=
  mul_nonneg (sub_nonneg.mpr (one_le_qf_pow (2 * permOps t e S.sum S.length (boxSize S) + 3))) (sq_nonneg _)

theorem Interferometer.entries {U : List (List ℂ)} {S : List ℕ} (h : Interferometer U S) (i j : ℕ) :
    ‖mget U i j‖ ≤ 1 := by
  by_cases hij : i < U.length ∧ j < U.length
  · exact orthonormal_entry h.ortho (by rw [h.len]; exact hij.1) (by rw [h.len]; exact hij.2)
  · rw [mget_out h.square hij, norm_zero]
    exact zero_le_one

section

variable (gray : ℕ → List ℕ) (hgray : ∀ n, IsGrayCode n (gray n)) (t : ℤ)
include hgray

theorem sqNear_calculators {e : ℕ} {U' U : List (List ℂ)} {S : List ℕ} (h : Interferometer U S)
    (hsq : ∀ r ∈ U', r.length = U'.length) (hlen : U'.length = U.length) (hU : StoredAs e U' U) (hn : S.sum ≤ 1000)
    (fuel : ℕ) (hf : boxSize S ≤ fuel) :
    SqNear (fun c => squaredPermanentR R A gray t fuel { c with matrix := U' }) U S 1 (squareErr t e S) := by
  intro l T hl hT hs
  have hlS : l.length = S.length := hl.length_eq
  have hne : l ≠ [] := fun hcon => h.ne (List.eq_nil_of_length_eq_zero (by rw [← hlS, hcon]; rfl))
  have hsum := StateLE.sum_le' hl
  have hbox : boxSize l ≤ boxSize S := prod_succ_mono hl
  obtain ⟨x, hx, hx0, hc⟩ := C88_square R A gray hgray t hsq h.entries hU hne (hlS.trans hT.symm)
    (by rw [hlS, h.len, hlen]) hs (hsum.trans hn) fuel (hbox.trans hf)
  refine ⟨x, hx, hx0, ?_⟩
  have hle : |x - Complex.normSq (scatteringPermanent U l T)| ≤ squareErr t e S := by
    refine hc.trans ?_
    rw [hlS]
    have h1 : (1 + 1 / 2 ^ 48 : ℝ) ^ (2 * permOps t e l.sum S.length (boxSize l) + 3)
        ≤ (1 + 1 / 2 ^ 48) ^ (2 * permOps t e S.sum S.length (boxSize S) + 3) :=
      qf_pow_mono (by have := permOps_mono t e S.length hsum hbox; omega)
    have h2 := permSize_mono t hsum
    have h3 := permSize_nonneg t l.sum
    have h4 : (1 : ℝ) ≤ (1 + 1 / 2 ^ 48 : ℝ) ^ (2 * permOps t e l.sum S.length (boxSize l) + 3) := one_le_qf_pow _
    unfold squareErr
    exact mul_le_mul (by linarith) (pow_le_pow_left₀ h3 h2 2) (sq_nonneg _) (by linarith)
  have := abs_le.mp hle
  exact ⟨by linarith, by linarith⟩

/-- C89: the samplers of version A and of the mode-assignment version with the matrix, the permanents and the
draws all in floating-point arithmetic: for every set of lists of samples, the probability that `simulate` returns a
list in the set differs from that of the exact sampler with the exact matrix by at most the bound per sample. -/
theorem C89_law {e : ℕ} {U' U : List (List ℂ)} {S : List ℕ} (h : Interferometer U S)
    (hsq : ∀ r ∈ U', r.length = U'.length) (hlen : U'.length = U.length) (hU : StoredAs e U' U) (v : GccVariant)
    (hv : v = gccA ∨ v = gccAssignment) (hn : S.sum ≤ 170) (hK : 6 * S.length + 6 + 2 * boxSize S ≤ 2 ^ 50) (fuel : ℕ)
    (hf : boxSize S ≤ fuel) (t₂ : ℤ) (o o₂ : GccObj) (N : ℤ) (P : List (List ℕ) → Prop) :
    |((gccSimulateR R v (squaredPermanentR R A gray t fuel) U' fuel o S N).prob
          (fun r => ∃ l o', r = .ok (l, o') ∧ P l)).toReal
      - ((gccSimulate v (factoryPermanent gray t₂ fuel) U fuel o₂ S N).prob
          (fun r => ∃ l o', r = .ok (l, o') ∧ P l)).toReal|
      ≤ N.toNat * lawBound S 1 (squareErr t e S) := by
  rw [gccSimulateR_matrix R v _ U' U]
  exact C87_law R gray hgray t₂ h v hv (sqNear_calculators R A gray hgray t h hsq hlen hU (hn.trans (by norm_num)) fuel hf)
    le_rfl (by norm_num) (squareErr_nonneg t e S) hn hK fuel hf o o₂ N P

/-- C89: the probability that such a sampler raises is at most the bound per sample. -/
theorem C89_raises {e : ℕ} {U' U : List (List ℂ)} {S : List ℕ} (h : Interferometer U S)
    (hsq : ∀ r ∈ U', r.length = U'.length) (hlen : U'.length = U.length) (hU : StoredAs e U' U) (v : GccVariant)
    (hv : v = gccA ∨ v = gccAssignment) (hn : S.sum ≤ 170) (hK : 6 * S.length + 6 + 2 * boxSize S ≤ 2 ^ 50) (fuel : ℕ)
    (hf : boxSize S ≤ fuel) (o : GccObj) (N : ℤ) :
    ((gccSimulateR R v (squaredPermanentR R A gray t fuel) U' fuel o S N).prob (fun r => ∃ e, r = .error e)).toReal
      ≤ N.toNat * lawBound S 1 (squareErr t e S) := by
  rw [gccSimulateR_matrix R v _ U' U]
  exact C87_raises R h v hv (sqNear_calculators R A gray hgray t h hsq hlen hU (hn.trans (by norm_num)) fuel hf)
    le_rfl (by norm_num) (squareErr_nonneg t e S) hn hK fuel hf o N

/-- C89 (one sample): the probability of an output differs from the boson-sampling probability of the exact matrix
by at most the bound. -/
theorem C89_sample {e : ℕ} {U' U : List (List ℂ)} {S : List ℕ} (h : Interferometer U S)
    (hsq : ∀ r ∈ U', r.length = U'.length) (hlen : U'.length = U.length) (hU : StoredAs e U' U) (v : GccVariant)
    (hv : v = gccA ∨ v = gccAssignment) (hn : S.sum ≤ 170) (hK : 6 * S.length + 6 + 2 * boxSize S ≤ 2 ^ 50) (fuel : ℕ)
    (hf : boxSize S ≤ fuel) (o : GccObj) (T : List ℕ) (hT : T.length = S.length) (hTs : T.sum = S.sum) :
    |((gccSimulateR R v (squaredPermanentR R A gray t fuel) U' fuel o S 1).prob
        (fun r => ∃ o', r = .ok ([T], o'))).toReal - bosonProb U S T| ≤ lawBound S 1 (squareErr t e S) := by
  rw [gccSimulateR_matrix R v _ U' U]
  exact C87_sample R h v hv (sqNear_calculators R A gray hgray t h hsq hlen hU (hn.trans (by norm_num)) fuel hf)
    le_rfl (by norm_num) (squareErr_nonneg t e S) hn hK fuel hf o T hT hTs

end

theorem squareErr_two (t : ℤ) : squareErr t 1 [1, 1] ≤ 2 * 141 / 2 ^ 48 * 16 ^ 2 := by
  have hK := permOps_two t
  obtain ⟨hB0, hB⟩ := permSize_two t
  unfold squareErr
  have h1 : (1 + 1 / 2 ^ 48 : ℝ) ^ (2 * permOps t 1 ([1, 1] : List ℕ).sum ([1, 1] : List ℕ).length (boxSize [1, 1]) + 3) - 1
      ≤ 2 * 141 / 2 ^ 48 := by
    have h3 : qf ^ (2 * permOps t 1 ([1, 1] : List ℕ).sum ([1, 1] : List ℕ).length (boxSize [1, 1]) + 3) ≤ qf ^ 141 :=
      qf_pow_mono (by omega)
    have h2 := qf_pow_le (k := 141) (by norm_num)
    push_cast at h2
    have : qf = 1 + 1 / 2 ^ 48 := rfl
    rw [← this]
    linarith
  gcongr

/-- A concrete case: two particles through a rotation whose entries are rounded to floats come out one in each mode
with probability `49 / 625`, up to `2 ^ -25`, for every type of calculator. -/
example (t : ℤ) (o : GccObj) :
    |((gccSimulateR R gccA (squaredPermanentR R (textbookArith R) reflectedGray t 4)
      (([[3 / 5, 4 / 5], [4 / 5, -3 / 5]] : List (List ℂ)).map fun r => r.map R.rndC) 4 o [1, 1] 1).prob
        (fun r => ∃ o', r = .ok ([[1, 1]], o'))).toReal - 49 / 625| ≤ 1 / 2 ^ 25 := by
  have hsq : ∀ r ∈ ([[3 / 5, 4 / 5], [4 / 5, -3 / 5]] : List (List ℂ)).map (fun r => r.map R.rndC),
      r.length = (([[3 / 5, 4 / 5], [4 / 5, -3 / 5]] : List (List ℂ)).map fun r => r.map R.rndC).length := by
    simp
  have h := C89_sample R (textbookArith R) reflectedGray reflectedGray_isGrayCode t
    (rotation_interferometer [1, 1] rfl) hsq (by simp) (storedAs_round R rotation_entries) gccA (.inl rfl) (by decide)
    (by decide) 4 (by decide) o [1, 1] rfl rfl
  rw [rotation_prob] at h
  refine h.trans ?_
  have ha := squareErr_two t
  generalize squareErr t 1 [1, 1] = a at ha ⊢
  unfold lawBound boxSize
  simp [sum_range_succ]
  norm_num at ha ⊢
  linarith

end Verif
