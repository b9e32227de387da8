import Verif.Proofs.Distributions
import Verif.Proofs.Mismatch
import Verif.Spec.MismatchDist

/-! Helper lemmas: the exact calculators on outcomes with another particle number. -/
namespace Verif

open Finset

theorem fixedLossOutcome_any (amp : List ℕ → ℂ) (perm : CalcCfg ℂ → Py ℂ) (hash : List Nat → Int)
    (c : ExpConfig ℂ ℝ) (T : List ℕ)
    (hperm : ∀ l, StateLE l c.initialState → l.sum = c.left →
      perm ⟨c.matrix, l, T⟩ = .ok (amp l))
    (hn : c.initialNumber = c.initialState.sum) (hm : c.modes = T.length)
    (hk : c.left ≤ c.initialState.sum)
    (hinj : ∀ a b : List Nat, StateLE a c.initialState → a.sum = c.left → StateLE b c.initialState →
      b.sum = c.left → hash a = hash b → a = b) :
    fixedLossOutcome Complex.normSq perm hash c T
      = .ok (mismatchedProb amp c.initialState c.left T) := by
  obtain ⟨L, hL, hnd, hne, hmem⟩ := lossy_spec hash c.initialState c.left hk hinj
  unfold fixedLossOutcome probabilityForIndistinguishable
  rw [hL, ok_bind]
  rw [foldlM_ok (fun (st : ℝ × Option (List Nat)) lossyInput => (do
      let mult ← lossyInputMultiplicity c.initialState lossyInput
      let x ← perm ⟨c.matrix, lossyInput, T⟩
      let sub ← lossyInput.foldlM (fun (sub : ℝ) (o : Nat) => floatDiv sub (o.factorial : ℝ))
        (Complex.normSq x)
      pure (st.1 + sub * (mult : ℝ), some lossyInput) : Py _))
    (fun st l => (st.1 + Complex.normSq (amp l) / factProd l *
      ((List.zipWith Nat.choose c.initialState l).prod : ℝ), some l)) L _ (by
      intro st l hl
      obtain ⟨h1, h2⟩ := (hmem l).mp hl
      rw [lossyInputMultiplicity_ok h1, ok_bind, hperm l h1 h2, ok_bind, foldlM_floatDiv, ok_bind]
      rfl)]
  rw [ok_bind, foldl_last (fun l => Complex.normSq (amp l) / factProd l *
      ((List.zipWith Nat.choose c.initialState l).prod : ℝ)), List.getLast?_eq_some_getLast hne]
  have hlast := ((hmem _).mp (List.getLast_mem hne)).2
  have hch : ((c.initialNumber.choose c.left : ℕ) : ℝ) ≠ 0 := by
    rw [hn]; exact_mod_cast (Nat.choose_pos hk).ne'
  simp only [Option.some_or, hlast]
  rw [floatDiv_ok (fact_ne _), ok_bind, floatDiv_ok hch, ok_bind, hm, foldlM_floatDiv_range]
  congr 1
  unfold mismatchedProb
  rw [sum_stateOf c.initialState c.left L.toFinset (fun l => by rw [List.mem_toFinset, hmem])
    (fun l => Complex.normSq (amp l) / (factProd l * factProd T)), List.sum_toFinset _ hnd, hn]
  have hk0 := fact_ne c.left
  have hsum : (L.map fun l => ((List.zipWith Nat.choose c.initialState l).prod : ℝ) *
      (Complex.normSq (amp l) / (factProd l * factProd T))).sum = (L.map fun l =>
        Complex.normSq (amp l) / factProd l *
      ((List.zipWith Nat.choose c.initialState l).prod : ℝ)).sum * (factProd T : ℝ)⁻¹ := by
    rw [← List.sum_map_mul_right]
    congr 1
    refine List.map_congr_left fun l _ => ?_
    rw [← div_div]
    ring
  rw [hsum, zero_add]
  field_simp

end Verif
