import Verif.Proofs.UniformBobsLevels
import Verif.Props.UniformBobs

/-! C77: hierarchy levels of the uniform-loss sampler with approximated modes. `h` is the level, `m` the
number of modes of the matrix, `k` the number of modes of the input state of the permanent calculator. -/
namespace Verif

variable {m k : ℕ}

/-- C77: the constructor returns exactly for the levels from 0 to `k`; every other level raises
`ValueError` (`k = 0`, `h = -1` is the one exception, see the model of `generateQft`). -/
theorem C77_constructor (k : ℕ) (U : Matrix (Fin m) (Fin m) ℂ) (cpu : ℕ) (eta : ℝ) (h t : ℤ) :
    (((0 ≤ h ∧ h ≤ k) ∨ (k = 0 ∧ h = -1)) → ∃ o, uAnyInit k U cpu eta h t = .ok o ∧ o.h = h) ∧
    (¬ ((0 ≤ h ∧ h ≤ k) ∨ (k = 0 ∧ h = -1)) → uAnyInit k U cpu eta h t = .error .valueError) := by
  constructor
  · intro hh
    unfold uAnyInit generateQftInt
    rw [if_neg (by omega)]
    unfold generateQft
    rw [if_pos (by omega)]
    exact ⟨_, rfl, rfl⟩
  · intro hh
    unfold uAnyInit generateQftInt
    by_cases hk : (k : ℤ) - h < 0
    · rw [if_pos hk]; rfl
    · rw [if_neg hk]
      unfold generateQft
      rw [if_neg (by omega)]
      rfl

/-- Concrete cases: 3 modes, levels -1 ("not specified"), 0, 3 and 4. -/
example : uAnyInit 3 (1 : Matrix (Fin 3) (Fin 3) ℂ) 4 (1 / 2) (-1) 2 = .error .valueError :=
  (C77_constructor 3 1 4 (1 / 2) (-1) 2).2 (by omega)

example : ∃ o, uAnyInit 3 (1 : Matrix (Fin 3) (Fin 3) ℂ) 4 (1 / 2) 0 2 = .ok o ∧ o.h = 0 :=
  (C77_constructor 3 1 4 (1 / 2) 0 2).1 (by omega)

example : ∃ o, uAnyInit 3 (1 : Matrix (Fin 3) (Fin 3) ℂ) 4 (1 / 2) 3 2 = .ok o ∧ o.h = 3 :=
  (C77_constructor 3 1 4 (1 / 2) 3 2).1 (by omega)

example : uAnyInit 3 (1 : Matrix (Fin 3) (Fin 3) ℂ) 4 (1 / 2) 4 2 = .error .valueError :=
  (C77_constructor 3 1 4 (1 / 2) 4 2).2 (by omega)

/-- C77 does not hold: with a level outside `0, …, m - 1` no call for a sample ever returns, for any
matrix, transmissivity and input: either the object cannot be built or sampling raises. -/
theorem C77_fails (hash : List ℕ → ℤ) (sub : CalcCfg ℂ → Py (List ℂ)) (fuel : ℕ) (U : Matrix (Fin m) (Fin m) ℂ)
    (hm : 0 < m) (cpu : ℕ) (hc : 0 < cpu) (eta : ℝ) (h0 : 0 ≤ eta) (h1 : eta ≤ 1) (h t : ℤ) (hh : h < 0 ∨ m ≤ h)
    (S : List ℕ) (hS : S.length = m) (hhash : HashOk hash S) (N : ℤ) (hN : 1 ≤ N) :
    uAnyInit m U cpu eta h t = .error .valueError ∨
      ∃ o, uAnyInit m U cpu eta h t = .ok o ∧
        ∀ r, (uAnySimulate hash sub fuel o S N).Runs r → r = .error .typeError ∨ r = .error .valueError := by
  by_cases hr : h < 0 ∨ (m : ℤ) < h
  · exact .inl ((C77_constructor m U cpu eta h t).2 (by omega))
  · obtain rfl : h = m := by omega
    obtain ⟨o, ho, hoh⟩ := (C77_constructor m U cpu eta m t).1 (by omega)
    refine .inr ⟨o, ho, fun r hrun => ?_⟩
    rw [uAnySimulate_eq _ _ _ _ (by omega) (by omega)] at hrun
    have hi := (uAnyInit_eq U cpu eta m t (by omega) le_rfl o ho).2
    rw [Int.toNat_natCast] at hi
    have hS' : S.take m = S := by rw [← hS, List.take_length]
    by_cases hg : eta = 0 ∨ eta = 1 ∨ ∀ a ∈ S, a ≤ 1
    · exact .inl (C45_raises hash sub fuel U hm cpu hc eta h0 h1 m (.inr rfl) t _ hi S hS (by rwa [hS'])
        (by rwa [hS']) N hN r hrun)
    · push Not at hg
      obtain ⟨g0, g1, a, ha, ha'⟩ := hg
      exact .inr ((C44_fails hash sub fuel U cpu hc eta (lt_of_le_of_ne h0 (Ne.symm g0)) (lt_of_le_of_ne h1 g1) m t _ hi
        S hS ⟨a, by rwa [hS'], ha'⟩ (by rwa [hS']) N hN).2 r hrun)

/-- C77, the part that holds: for every level from 1 to `m - 1` the object is built and, with a unitary
matrix and at most one particle in each exactly treated mode, every call returns the requested number
of samples. Missing for the full claim: the levels outside the range (`C77_fails`). -/
theorem C77_levels_partial (hash : List ℕ → ℤ) (fuel : ℕ) (U : Matrix (Fin m) (Fin m) ℂ)
    (hU : U ∈ Matrix.unitaryGroup (Fin m) ℂ) (cpu : ℕ) (hc : 0 < cpu) (eta : ℝ) (h0 : 0 ≤ eta) (h1 : eta ≤ 1) (h t : ℤ)
    (hh : 1 ≤ h) (hm : h < m) (S : List ℕ) (hS : S.length = m) (hcf : ∀ a ∈ S.take h.toNat, a ≤ 1)
    (hhash : HashOk hash (S.take h.toNat)) (hf : (S.sum + 1) ^ m ≤ fuel) (N : ℤ) :
    ∃ o, uAnyInit m U cpu eta h t = .ok o ∧
      ∀ r, (uAnySimulate hash (ryserSubPermanents fuel) fuel o S N).Runs r →
        ∃ l, r = .ok l ∧ l.length = N.toNat ∧ ∀ T ∈ l, T.length = m ∧ T.sum ≤ S.sum := by
  obtain ⟨o, ho, hoh⟩ := (C77_constructor m U cpu eta h t).1 (by omega)
  refine ⟨o, ho, fun r hr => ?_⟩
  rw [uAnySimulate_eq _ _ _ _ (by omega) (by omega)] at hr
  exact C43_total hash fuel U hU cpu hc eta h0 h1 h.toNat (by omega) (by omega) t _
    (uAnyInit_eq U cpu eta h t (by omega) (by omega) o ho).2 S hS hcf hhash hf N r hr

/-- A concrete case. -/
example : ∃ o, uAnyInit 3 (1 : Matrix (Fin 3) (Fin 3) ℂ) 4 (1 / 2) 1 2 = .ok o ∧
    ∀ r, (uAnySimulate (fun l => (Encodable.encode l : ℤ)) (ryserSubPermanents 125) 125 o [1, 3, 0] 7).Runs r →
      ∃ l, r = .ok l ∧ l.length = 7 ∧ ∀ T ∈ l, T.length = 3 ∧ T.sum ≤ 4 :=
  C77_levels_partial _ 125 1 (one_mem _) 4 (by decide) (1 / 2) (by norm_num) (by norm_num) 1 2 le_rfl (by decide)
    [1, 3, 0] rfl (by simp) (hashOk_encode _) (by norm_num) 7

/-- C77: the Fourier matrix takes its size from the input state of the permanent calculator. If that
has not as many modes as the matrix, for instance because it was never set (`k = 0`), no call for a
sample ever returns. -/
theorem C77_calculator_state (hash : List ℕ → ℤ) (sub : CalcCfg ℂ → Py (List ℂ)) (fuel : ℕ) (k : ℕ) (hk : m ≠ k)
    (U : Matrix (Fin m) (Fin m) ℂ) (cpu : ℕ) (hc : 0 < cpu) (eta : ℝ) (h t : ℤ) (S : List ℕ) (N : ℤ) (hN : 1 ≤ N)
    (o : UAnyObj m k) (ho : uAnyInit k U cpu eta h t = .ok o) (r : Py (List (List ℕ)))
    (hr : (uAnySimulate hash sub fuel o S N).Runs r) : ∃ e, r = .error e := by
  rcases uAnySimulate_raises hash sub fuel o hk
    ((uAnyInit_fields ho).2 ▸ uBobsThreadsNumber_pos cpu hc t) S N hN r hr with ⟨_, _, h5⟩ | ⟨e, rfl, _⟩
  · exact h5.elim
  · exact ⟨e, rfl⟩

/-- A concrete case: a 2 × 2 matrix and a calculator without input state. -/
example : ∃ o, uAnyInit 0 (1 : Matrix (Fin 2) (Fin 2) ℂ) 4 1 0 2 = .ok o ∧
    ∀ r, (uAnySimulate (fun l => (Encodable.encode l : ℤ)) (ryserSubPermanents 9) 9 o [1, 1] 1).Runs r →
      ∃ e, r = .error e := by
  obtain ⟨o, ho, -⟩ := (C77_constructor 0 (1 : Matrix (Fin 2) (Fin 2) ℂ) 4 1 0 2).1 (by omega)
  exact ⟨o, ho, fun r hr => C77_calculator_state _ _ 9 0 (by decide) 1 4 (by decide) 1 0 2 [1, 1] 1 le_rfl o ho r hr⟩

end Verif
