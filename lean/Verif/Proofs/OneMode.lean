import Verif.Proofs.Symmetry
import Verif.Proofs.PhaseShift

/-! Phases of the columns of a lossy network do not change its law. -/
namespace Verif

open Finset

/-- The first `m` columns of `W` multiplied by the phases `f`. -/
noncomputable def phasedColumns (W : List (List ℂ)) (m b : ℕ) (f : ℕ → ℂ) : List (List ℂ) :=
  (List.range (m + b)).map fun r => (List.range m).map fun x => mget W r x * f x

theorem mget_phasedColumns (W : List (List ℂ)) (m b : ℕ) (f : ℕ → ℂ) {r x : ℕ} (hr : r < m + b) (hx : x < m) :
    mget (phasedColumns W m b f) r x = mget W r x * f x := by
  simp [mget, phasedColumns, hr, hx]

theorem phasedColumns_isDilation {B B' W : List (List ℂ)} {m b : ℕ} (h : IsDilation B W m b) (f : ℕ → ℂ)
    (hf : ∀ x, ‖f x‖ = 1) (hB : ∀ r < m, ∀ x < m, mget B' r x = mget B r x * f x) :
    IsDilation B' (phasedColumns W m b f) m b := by
  refine ⟨fun i hi j hj => ?_, fun x hx y hy => ?_⟩
  · rw [mget_phasedColumns _ _ _ _ (by omega) hj, hB i hi j hj, h.embeds i hi j hj]
  · have e := h.isometric x hx y hy
    have : ∀ r ∈ range (m + b), (starRingEnd ℂ) (mget (phasedColumns W m b f) r x) * mget (phasedColumns W m b f) r y
        = (starRingEnd ℂ) (f x) * f y * ((starRingEnd ℂ) (mget W r x) * mget W r y) := by
      intro r hr
      rw [mget_phasedColumns _ _ _ _ (mem_range.mp hr) hx, mget_phasedColumns _ _ _ _ (mem_range.mp hr) hy, map_mul]
      ring
    rw [sum_congr rfl this, ← mul_sum, e]
    by_cases hxy : x = y
    · subst hxy
      rw [if_pos rfl, mul_one, ← Complex.normSq_eq_conj_mul_self, Complex.normSq_eq_norm_sq, hf]
      norm_num
    · rw [if_neg hxy, mul_zero]

theorem lossyProb_phased (W : List (List ℂ)) (m b : ℕ) (f : ℕ → ℂ) (hf : ∀ x, ‖f x‖ = 1) (S T : List ℕ)
    (hS : S.length = m) (hT : T.length = m) :
    lossyProb (phasedColumns W m b f) b S T = lossyProb W b S T := by
  unfold lossyProb
  refine sum_congr rfl fun E hE => ?_
  have hE := (mem_filter.mp hE).2
  have hs : S.sum = (T ++ List.ofFn E).sum := by rw [List.sum_append, List.sum_ofFn]; omega
  unfold bosonProb
  congr 1
  rw [normSq_scattering _ _ _ hs, normSq_scattering _ _ _ hs,
    amp_relabelled (colOf W) (colOf (phasedColumns W m b f)) id id (fun _ => 1) f _ _
      (by rw [particlesFrom_length, particlesFrom_length, hs])]
  · have hn : ∀ l : List ℕ, Complex.normSq (l.map f).prod = 1 := by
      intro l
      induction l with
      | nil => simp
      | cons x l ih => rw [List.map_cons, List.prod_cons, map_mul, ih, mul_one, Complex.normSq_eq_norm_sq, hf, one_pow]
    simp [hn]
  · intro i hi j hj
    have hi' : i < m + b := particles_lt (by simp [hT]) hi
    have hj' := particles_lt hS hj
    simp only [colOf, id, one_mul]
    exact mget_phasedColumns W m b f hi' hj'

/-- With one approximated mode the Fourier transform and the phase only multiply a column by a phase. -/
theorem smearing_one {m : ℕ} (A : Matrix (Fin m) (Fin m) ℂ) (us : Fin 1 → ℝ) (r x : ℕ) (hr : r < m) (hx : x < m) :
    mget (rowsOf (A * phaseMatrix 1 m us * dftMatrix 1 m)) r x
      = mget (rowsOf A) r x * (if x < 1 then Complex.exp (2 * Real.pi * us 0 * Complex.I) else 1) := by
  have hd : dftMatrix 1 m = 1 := by
    ext i j
    simp only [dftMatrix, Matrix.of_apply, Matrix.one_apply]
    by_cases h : (i : ℕ) < 1 ∧ (j : ℕ) < 1
    · rw [if_pos h, if_pos (Fin.ext (by omega)), show (i : ℕ) = 0 by omega, show (j : ℕ) = 0 by omega]
      simp
    · rw [if_neg h]
  rw [mget_rowsOf _ _ _ hr hx, mget_rowsOf _ _ _ hr hx, hd, Matrix.mul_one, phaseMatrix, Matrix.mul_diagonal]
  congr 1
  by_cases h : x < 1
  · rw [dif_pos h, if_pos h]
    have : (⟨x, h⟩ : Fin 1) = 0 := Subsingleton.elim _ _
    rw [this]
  · rw [dif_neg h, if_neg h]

end Verif
