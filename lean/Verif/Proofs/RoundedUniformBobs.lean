import Verif.Model.RoundedUniformBobs
import Verif.Proofs.UniformBobsRuns
import Verif.Proofs.RoundedUniform
import Verif.Props.RoundedCliffordsB
import Mathlib.Analysis.CStarAlgebra.Matrix

/-! Helper lemmas: the matrices of the sampler with uniform losses applied to the input, in floating-point arithmetic. -/
namespace Verif

open Finset Prog Matrix
open scoped ENNReal

variable (R : Rounding) (C : ComplexArith) (Φ : PhaseArith) {m : ℕ}

/-! ### Scaling -/

theorem qf_pow_scale (k c : ℕ) : (qf ^ k - 1) * c ≤ qf ^ (c * k) - 1 := by
  induction c with
  | zero => simp
  | succ c ih =>
    have h1 := one_le_qf_pow k
    have h2 := one_le_qf_pow (c * k)
    rw [Nat.succ_mul, pow_add]
    push_cast
    nlinarith [mul_nonneg (sub_nonneg.mpr h1) (sub_nonneg.mpr h2)]

theorem Close.scale {E : Type} [NormedField E] {k c : ℕ} {X : ℝ} {y x : E} (h : Close k X y x) (hX : X ≤ c) (hx : ‖x‖ ≤ 1) :
    Close (c * k) 1 y x := by
  refine ⟨hx, ?_⟩
  rw [mul_one]
  exact (h.mono' hX).2.trans (qf_pow_scale k c)

theorem close_of_norm {y x : ℂ} {k : ℕ} (hx : ‖x‖ ≤ 1) (h : ‖y - x‖ ≤ k / 2 ^ 48) : Close k 1 y x := by
  refine ⟨hx, ?_⟩
  rw [mul_one]
  refine h.trans ?_
  have := qf_pow_scale 1 k
  rw [mul_one, pow_one] at this
  refine le_trans (le_of_eq ?_) this
  unfold qf
  ring

theorem exp_norm (x : ℝ) : ‖Complex.exp (2 * Real.pi * x * Complex.I)‖ = 1 := by
  have := Complex.norm_exp_ofReal_mul_I (2 * Real.pi * x)
  push_cast at this
  exact this

/-! ### The Fourier transform -/

theorem inv_sqrt_close {n : ℕ} (hn : 1 ≤ n) :
    Close 1 (1 / Real.sqrt n) (1 / R.rnd (Real.sqrt n)) (1 / Real.sqrt n) := by
  have hn' : (1 : ℝ) ≤ n := by exact_mod_cast hn
  set q := Real.sqrt n with hq
  have hq1 : 1 ≤ q := by rw [hq]; exact Real.one_le_sqrt.mpr hn'
  have hq0 : 0 < q := by linarith
  have h1 : |R.rnd q - q| ≤ q / 2 ^ 53 :=
    R.error ((zpow_le_one_of_nonpos₀ (by norm_num) (by norm_num)).trans hq1)
  set s := R.rnd q with hs
  have hs2 : q / 2 ≤ s := by
    have := (abs_le.mp h1).1
    have : q / 2 ^ 53 ≤ q / 2 := by gcongr; norm_num
    linarith
  have hs0 : 0 < s := by linarith
  have h2 : 1 / s ≤ 2 * (1 / q) := by
    rw [mul_one_div, div_le_div_iff₀ hs0 hq0]
    linarith
  refine ⟨by rw [Real.norm_eq_abs, abs_of_pos (by positivity)], ?_⟩
  have e : 1 / s - 1 / q = -(s - q) * (1 / s) * (1 / q) := by field_simp; ring
  rw [Real.norm_eq_abs, e, abs_mul, abs_mul, abs_neg, abs_of_pos (by positivity : 0 < 1 / s),
    abs_of_pos (by positivity : 0 < 1 / q)]
  refine mul_le_mul_of_nonneg_right ?_ (by positivity)
  calc |s - q| * (1 / s) ≤ q / 2 ^ 53 * (2 * (1 / q)) := mul_le_mul h1 h2 (by positivity) (by positivity)
    _ = 2 / 2 ^ 53 := by field_simp
    _ ≤ qf ^ 1 - 1 := by unfold qf; norm_num

/-- Powers of the root of unity. -/
theorem root_pow_close {n t : ℕ} (h : 2 ≤ n ∨ t = 0) :
    Close (2 * t) 1 (C.pow (Φ.phase (1 / n)) t) (Complex.exp (2 * Real.pi * (1 / n : ℝ) * Complex.I) ^ t) := by
  rcases Nat.eq_zero_or_pos t with rfl | ht
  · have := C.pow_err (Φ.phase (1 / n)) 0
    simp only [pow_zero, sub_self, zero_mul] at this ⊢
    rw [sub_eq_zero.mp (norm_le_zero_iff.mp this)]
    exact .exact (by simp)
  · have hn : 2 ≤ n := h.resolve_right ht.ne'
    have hn' : (2 : ℝ) ≤ n := by exact_mod_cast hn
    have h1 := Φ.phase_err (1 / n) (by positivity) (by rw [div_lt_one (by linarith)]; linarith)
    have h2 : Close 1 1 (Φ.phase (1 / n)) (Complex.exp (2 * Real.pi * (1 / n : ℝ) * Complex.I)) :=
      close_of_norm (exp_norm _).le (by rw [Nat.cast_one]; exact h1)
    have := C.pow_close h2 le_rfl t
    rw [one_pow] at this
    exact this.mono (by omega)

/-- Operations behind an entry of the computed Fourier transform of `k` modes. -/
def qftOps (k : ℕ) : ℕ := 2 * (k - 1) ^ 2 + 2

theorem computeQftR_close {k : ℕ} (hk : k ≤ 2 ^ 20) (i j : Fin k) :
    Close (qftOps k) 1 (computeQftR R C Φ k i j)
      (Complex.exp (2 * Real.pi * Complex.I * ((i : ℕ) * (j : ℕ)) / k) / (Real.sqrt k : ℂ)) := by
  have hk1 : 1 ≤ k := by have := i.2; omega
  have hk' : (1 : ℝ) ≤ k := by exact_mod_cast hk1
  set t := (j : ℕ) * (i : ℕ) with ht
  have htk : t ≤ (k - 1) ^ 2 := by
    rw [ht, sq]; exact Nat.mul_le_mul (by have := j.2; omega) (by have := i.2; omega)
  have hq1 : 1 ≤ Real.sqrt k := Real.one_le_sqrt.mpr hk'
  have hq2 : Real.sqrt k ≤ 2 ^ 20 := by
    refine (Real.sqrt_le_left (by norm_num)).mpr ?_
    have : (k : ℝ) ≤ 2 ^ 20 := by exact_mod_cast hk
    refine this.trans ?_
    norm_num
  have h1 := root_pow_close C Φ (n := k) (t := t) (by
    by_cases h : 2 ≤ k
    · exact .inl h
    · right
      have : (i : ℕ) = 0 := by have := i.2; omega
      rw [ht, this, mul_zero])
  have h2 := h1.mul_exact (inv_sqrt_close R hk1).ofReal
  have hs0 : R.rnd (Real.sqrt k) ≠ 0 := by
    intro h
    have := (inv_sqrt_close R hk1).2
    rw [h, div_zero, zero_sub, norm_neg, Real.norm_eq_abs, abs_of_pos (by positivity)] at this
    have h3 : qf ^ 1 - 1 ≤ 1 / 2 := by unfold qf; norm_num
    have h4 : 0 < 1 / Real.sqrt k := by positivity
    nlinarith
  have hX : (2 : ℝ) ^ (-1000 : ℤ) ≤ 1 * (1 / Real.sqrt k) := by
    rw [one_mul]
    calc (2 : ℝ) ^ (-1000 : ℤ) ≤ 2 ^ (-20 : ℤ) := zpow_le_zpow_right₀ (by norm_num) (by norm_num)
      _ = 1 / 2 ^ 20 := by norm_num
      _ ≤ 1 / Real.sqrt k := one_div_le_one_div_of_le (by linarith) hq2
  have e1 : ∀ (z : ℂ) (s : ℝ), z * ((1 / s : ℝ) : ℂ) = z / s := fun z s => by push_cast; ring
  rw [e1, e1] at h2
  have h3 := h2.op hX h2.norm_le (C.div_err _ _ hs0)
  have e2 : Complex.exp (2 * Real.pi * (1 / k : ℝ) * Complex.I) ^ t
      = Complex.exp (2 * Real.pi * Complex.I * ((i : ℕ) * (j : ℕ)) / k) := by
    rw [← Complex.exp_nat_mul, ht]
    congr 1
    push_cast
    ring
  rw [e2] at h3
  refine ((h3.mono ?_).mono' ?_)
  · unfold qftOps; omega
  · rw [one_mul]; exact (div_le_one (by linarith)).mpr hq1

theorem dft_norm {k : ℕ} (h : k ≤ m) (i j : Fin m) : ‖dftMatrix k m i j‖ ≤ 1 :=
  entry_norm_bound_of_unitary (generateQft_eq k m h).2 i j

theorem generateQftR_close {k : ℕ} (h : k ≤ m) (hk : k ≤ 2 ^ 20) :
    ∃ Q, generateQftR R C Φ k m = .ok Q ∧ ∀ i j, Close (qftOps k) 1 (Q i j) (dftMatrix k m i j) := by
  refine ⟨setCorner 1 (computeQftR R C Φ k), by unfold generateQftR; rw [if_pos (.inl h)], fun i j => ?_⟩
  rw [setCorner, Matrix.of_apply]
  by_cases hij : (i : ℕ) < k ∧ (j : ℕ) < k
  · rw [dif_pos hij]
    have := computeQftR_close R C Φ hk ⟨i, hij.1⟩ ⟨j, hij.2⟩
    rwa [show dftMatrix k m i j = Complex.exp (2 * Real.pi * Complex.I * ((i : ℕ) * (j : ℕ)) / k) / (Real.sqrt k : ℂ) by
      rw [dftMatrix, Matrix.of_apply, if_pos hij]]
  · rw [dif_neg hij]
    have e : dftMatrix k m i j = (1 : Matrix (Fin m) (Fin m) ℂ) i j := by
      rw [dftMatrix, Matrix.of_apply, if_neg hij, Matrix.one_apply]
    have hn := dft_norm h i j
    rw [e] at hn ⊢
    exact (Close.exact hn).mono (Nat.zero_le _)

/-! ### Products -/

theorem matMulR_close {A' A B' B : Matrix (Fin m) (Fin m) ℂ} {k : ℕ} (w : Fin m → Fin m → Fin m → ℝ)
    (hw : ∀ i k j, (2 : ℝ) ^ (-1000 : ℤ) ≤ w i k j)
    (h : ∀ i l j, Close k (w i l j) (C.mul (A' i l) (B' l j)) (A i l * B l j)) (i j : Fin m) :
    Close (k + m) (∑ l, w i l j) (matMulR C A' B' i j) ((A * B) i j) := by
  have h1 := C.foldl_add_close (List.finRange m) (fun l => C.mul (A' i l) (B' l j)) (fun l => A i l * B l j) (fun l => w i l j)
    (k := k) (fun l _ => hw i l j) (fun l _ => h i l j) (X := 0) (a' := 0) (a := 0) (d := 0)
    ((Close.exact (by simp)).mono (Nat.zero_le _))
  rw [zero_add, zero_add, add_zero, List.length_finRange, ← List.ofFn_eq_map, ← List.ofFn_eq_map, List.sum_ofFn, List.sum_ofFn] at h1
  rw [matMulR, Matrix.of_apply, Matrix.mul_apply]
  exact h1

/-- Operations behind an entry of the matrix of a sample. -/
def uBobsOps (e k m : ℕ) : ℕ := m * (2 * (e + 3 + m) + qftOps k + 1 + m)

theorem diag_net_close {e b c : ℕ} {A' A P' Q' Q : Matrix (Fin m) (Fin m) ℂ} {p : Fin m → ℂ} (hm : m ≤ 2 ^ 20)
    (hA : ∀ i j, Close e 1 (A' i j) (A i j)) (hU : ∀ i j, ‖(A * Matrix.diagonal p) i j‖ ≤ 1)
    (hV : ∀ i j, ‖(A * Matrix.diagonal p * Q) i j‖ ≤ 1)
    (hP : ∀ i, Close b 1 (P' i i) (p i)) (hP0 : ∀ i j, i ≠ j → P' i j = 0)
    (hQ : ∀ i j, Close (c) 1 (Q' i j) (Q i j)) (i j : Fin m) :
    Close (m * (2 * (e + b + 1 + m) + c + 1 + m)) 1 (matMulR C (matMulR C A' P') Q' i j) ((A * Matrix.diagonal p * Q) i j) := by
  have hz : (0 : ℝ) < 2 ^ (-1000 : ℤ) := by positivity
  have h1 : ∀ i j, Close (2 * (e + b + 1 + m)) 1 (matMulR C A' P' i j) ((A * Matrix.diagonal p) i j) := by
    intro i j
    have := matMulR_close C (A' := A') (A := A) (B' := P') (B := Matrix.diagonal p) (k := e + b + 1)
      (fun _ l j => if l = j then 1 else 2 ^ (-1000 : ℤ)) (fun i l j => by
        split_ifs
        · exact small_of_one le_rfl
        · exact le_rfl) (fun i l j => by
        split_ifs with hl
        · subst hl
          rw [Matrix.diagonal_apply_eq]
          have := C.mul_close (hA i l) (hP l) (by rw [one_mul]; exact small_of_one le_rfl)
          rwa [one_mul] at this
        · have h2 : Close 0 ((2 : ℝ) ^ (-1000 : ℤ)) (P' l j) (Matrix.diagonal p l j) := by
            rw [hP0 l j hl, Matrix.diagonal_apply_ne _ hl]
            exact .exact (by rw [norm_zero]; exact hz.le)
          have := C.mul_close (hA i l) h2 (by rw [one_mul])
          rw [one_mul] at this
          exact this.mono (by omega)) i j
    refine this.scale (c := 2) ?_ (hU i j)
    calc ∑ l, (if l = j then (1 : ℝ) else 2 ^ (-1000 : ℤ)) ≤ ∑ l : Fin m, ((if l = j then (1 : ℝ) else 0) + 2 ^ (-1000 : ℤ)) := by
          refine sum_le_sum fun l _ => ?_
          split_ifs <;> linarith
      _ = 1 + m * 2 ^ (-1000 : ℤ) := by
          rw [sum_add_distrib, sum_ite_eq' univ j, if_pos (mem_univ _), sum_const, card_univ, Fintype.card_fin, nsmul_eq_mul]
      _ ≤ 1 + 2 ^ 20 * 2 ^ (-20 : ℤ) := by
          have hm' : (m : ℝ) ≤ 2 ^ 20 := by exact_mod_cast hm
          have h2 : (2 : ℝ) ^ (-1000 : ℤ) ≤ 2 ^ (-20 : ℤ) := zpow_le_zpow_right₀ (by norm_num) (by norm_num)
          gcongr
      _ ≤ (2 : ℕ) := by norm_num
  have h2 := matMulR_close C (A' := matMulR C A' P') (A := A * Matrix.diagonal p) (B' := Q') (B := Q)
    (k := 2 * (e + b + 1 + m) + c + 1) (fun _ _ _ => 1) (fun _ _ _ => small_of_one le_rfl) (fun i l j => by
      have := C.mul_close (h1 i l) (hQ l j) (by rw [one_mul]; exact small_of_one le_rfl)
      rwa [one_mul] at this) i j
  exact h2.scale (c := m) (by simp) (hV i j)

theorem net_close {e k : ℕ} {A' A P' Q' : Matrix (Fin m) (Fin m) ℂ} {us : Fin k → ℝ} (hm : m ≤ 2 ^ 20)
    (hA : ∀ i j, Close e 1 (A' i j) (A i j)) (hU : ∀ i j, ‖(A * phaseMatrix k m us) i j‖ ≤ 1)
    (hV : ∀ i j, ‖(A * phaseMatrix k m us * dftMatrix k m) i j‖ ≤ 1)
    (hP : ∀ i, Close 2 1 (P' i i) (phaseMatrix k m us i i)) (hP0 : ∀ i j, i ≠ j → P' i j = 0)
    (hQ : ∀ i j, Close (qftOps k) 1 (Q' i j) (dftMatrix k m i j)) (i j : Fin m) :
    Close (uBobsOps e k m) 1 (matMulR C (matMulR C A' P') Q' i j) ((A * phaseMatrix k m us * dftMatrix k m) i j) :=
  diag_net_close C hm hA hU hV (fun i => by have := hP i; rwa [phaseMatrix, Matrix.diagonal_apply_eq] at this) hP0 hQ i j

theorem uBobsNet_close {e k : ℕ} {A' A P' Q' : Matrix (Fin m) (Fin m) ℂ} {us : Fin k → ℝ} (hk : k ≤ m) (hm : m ≤ 2 ^ 20)
    (hA : ∀ i j, Close e 1 (A' i j) (A i j)) (hU : A ∈ unitaryGroup (Fin m) ℂ)
    (hP : ∀ i, Close 2 1 (P' i i) (phaseMatrix k m us i i)) (hP0 : ∀ i j, i ≠ j → P' i j = 0)
    (hQ : ∀ i j, Close (qftOps k) 1 (Q' i j) (dftMatrix k m i j)) (i j : Fin m) :
    Close (uBobsOps e k m) 1 (matMulR C (matMulR C A' P') Q' i j) ((A * phaseMatrix k m us * dftMatrix k m) i j) := by
  have hPu := (generatePhases_eq k m hk us).2
  have hQu := (generateQft_eq k m hk).2
  exact net_close C hm hA (entry_norm_bound_of_unitary (mul_mem hU hPu))
    (entry_norm_bound_of_unitary (mul_mem (mul_mem hU hPu) hQu)) hP hP0 hQ i j

end Verif
