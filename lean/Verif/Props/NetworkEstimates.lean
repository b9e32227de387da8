import Verif.Props.NetworkErrors
import Verif.Props.Statistics
import Verif.Proofs.ProgLoop

/-!
C126: distributions estimated from samples of a nearby interferometer.
-/
namespace Verif

open Finset Matrix
open scoped ENNReal

/-- An estimate that misses one distribution by much misses every nearby one. -/
theorem misses_near {p q : List ℝ} {tv e ε : ℝ} (h : countTvd p q = .ok tv) (htv : tv ≤ e) (r : Py (List ℚ))
    (hr : Misses p (ε + e) r) : Misses q ε r := by
  rintro ⟨freq, d, rfl, hd, hlt⟩
  have hpq : p.length = q.length := by
    by_contra hne
    rw [C49_assertion p q hne] at h
    exact absurd h (by simp)
  have hf : (freq.map fun x : ℚ => (x : ℝ)).length = q.length := by
    by_contra hne
    rw [C49_assertion _ q hne] at hd
    exact absurd hd (by simp)
  obtain ⟨d1, -, d2, d3, e1, -, e2, e3, -, -, -, htri, -⟩ := C49_metric (freq.map fun x : ℚ => (x : ℝ)) q p hf hpq.symm
  obtain ⟨d4, d5, -, -, e4, e5, -, -, hsymm, -⟩ := C49_metric p q p hpq hpq.symm
  rw [e1] at hd
  rw [e4] at h
  rw [e5] at e2
  obtain rfl := Except.ok.inj hd
  obtain rfl := Except.ok.inj h
  obtain rfl := Except.ok.inj e2
  exact hr ⟨freq, d3, rfl, e3, by linarith⟩

theorem prob_near {p q : List ℝ} {tv e ε : ℝ} (h : countTvd p q = .ok tv) (htv : tv ≤ e) (P : Prog (List ℚ)) {δ : ℝ≥0∞}
    (hδ : P.prob (Misses q ε) ≤ δ) : P.prob (Misses p (ε + e)) ≤ δ := by
  refine le_trans (Prog.wp_mono P _ _ fun r _ => ?_) hδ
  by_cases h1 : Misses p (ε + e) r
  · rw [if_pos h1, if_pos (misses_near h htv r h1)]
  · rw [if_neg h1]; exact zero_le

theorem countTvd_length {p q : List ℝ} {tv : ℝ} (h : countTvd p q = .ok tv) : p.length = q.length := by
  by_contra hne
  rw [C49_assertion p q hne] at h
  exact absurd h (by simp)

section

variable (gray : Nat → List Nat) (hgray : ∀ n, IsGrayCode n (gray n)) (t : Int) (hash : List ℕ → Int)
  {m : ℕ} {A B : Matrix (Fin m) (Fin m) ℂ} (hA : A ∈ unitaryGroup (Fin m) ℂ) (hB : B ∈ unitaryGroup (Fin m) ℂ)
include hgray hA hB

/-- C126: let `exact` be the exact distribution of `n` particles behind the interferometer `A`. The distribution estimated from
`N` samples drawn with the matrix `B` is within the error bound of the code plus `n` times the distance of the matrices,
except with probability at most `δ`. -/
theorem C126_error_bound {S : List ℕ} (hS : S.length = m) (hm : 0 < m) :
    ∃ exact F, ∀ fuel ≥ F,
      fixedLossDistribution Complex.normSq (factoryPermanent gray t fuel) hash fuel (expConfig (rowsOf A) S S.sum (1 : ℝ))
        = .ok exact ∧
      ∀ (N : ℕ) (δ : ℝ) (k : ℤ) (o : GccObj), 0 < N → 0 < δ → δ ≤ 1 →
        (approximateDistribution (gccStrategy gccA (factoryPermanent gray t fuel) (rowsOf B) fuel o) fuel
            ⟨S, S.length, S.sum, none, k⟩ N).prob
              (Misses exact (tvErrorBound exact.length N δ + S.sum * matrixDistance A B)) ≤ ENNReal.ofReal δ ∧
        (approximateDistribution (gccStrategy gccAssignment (factoryPermanent gray t fuel) (rowsOf B) fuel o) fuel
            ⟨S, S.length, S.sum, none, k⟩ N).prob
              (Misses exact (tvErrorBound exact.length N δ + S.sum * matrixDistance A B)) ≤ ENNReal.ofReal δ ∧
        (approximateDistribution (gccbStrategy (ryserSubPermanents fuel) (rowsOf B) fuel) fuel
            ⟨S, S.length, S.sum, none, k⟩ N).prob
              (Misses exact (tvErrorBound exact.length N δ + S.sum * matrixDistance A B)) ≤ ENNReal.ofReal δ := by
  obtain ⟨p, q, tv, F, h, htv, hle⟩ := C124_calculator hA hB gray hgray t hash S hS hm S.sum le_rfl 1
    (fun a b ha hsa hb hsb _ => (stateLE_full ha hsa).trans (stateLE_full hb hsb).symm)
  obtain ⟨q', F', h'⟩ := C63_error_bound gray hgray t hash (rowsOf_interferometer hB hm S hS)
  obtain rfl : q = q' := by
    have h1 := (h (max F F') (le_max_left _ _)).2
    rw [(h' (max F F') (le_max_right _ _)).1] at h1
    exact (Except.ok.inj h1).symm
  refine ⟨p, max F F', fun fuel hf => ⟨(h fuel (le_of_max_le_left hf)).1, fun N δ k o hN h0 h1 => ?_⟩⟩
  obtain ⟨r1, r2, r3⟩ := (h' fuel (le_of_max_le_right hf)).2 N δ k o hN h0 h1
  rw [countTvd_length htv]
  exact ⟨prob_near htv hle _ r1, prob_near htv hle _ r2, prob_near htv hle _ r3⟩

/-- C126: for the distance `d` it is enough to draw the number of samples the code computes for the distance that remains after
the error of the matrix. -/
theorem C126_enough_samples {S : List ℕ} (hS : S.length = m) (hm : 0 < m) :
    ∃ exact F, ∀ fuel ≥ F,
      fixedLossDistribution Complex.normSq (factoryPermanent gray t fuel) hash fuel (expConfig (rowsOf A) S S.sum (1 : ℝ))
        = .ok exact ∧
      ∀ (N : ℕ) (δ d : ℝ) (k : ℤ) (o : GccObj), 0 < δ → δ ≤ 1 → S.sum * matrixDistance A B < d →
        minimalSamples exact.length δ (d - S.sum * matrixDistance A B) ≤ N →
        (approximateDistribution (gccStrategy gccA (factoryPermanent gray t fuel) (rowsOf B) fuel o) fuel
            ⟨S, S.length, S.sum, none, k⟩ N).prob (Misses exact d) ≤ ENNReal.ofReal δ ∧
        (approximateDistribution (gccStrategy gccAssignment (factoryPermanent gray t fuel) (rowsOf B) fuel o) fuel
            ⟨S, S.length, S.sum, none, k⟩ N).prob (Misses exact d) ≤ ENNReal.ofReal δ ∧
        (approximateDistribution (gccbStrategy (ryserSubPermanents fuel) (rowsOf B) fuel) fuel
            ⟨S, S.length, S.sum, none, k⟩ N).prob (Misses exact d) ≤ ENNReal.ofReal δ := by
  obtain ⟨p, q, tv, F, h, htv, hle⟩ := C124_calculator hA hB gray hgray t hash S hS hm S.sum le_rfl 1
    (fun a b ha hsa hb hsb _ => (stateLE_full ha hsa).trans (stateLE_full hb hsb).symm)
  obtain ⟨q', F', h'⟩ := C63_enough_samples gray hgray t hash (rowsOf_interferometer hB hm S hS)
  obtain rfl : q = q' := by
    have h1 := (h (max F F') (le_max_left _ _)).2
    rw [(h' (max F F') (le_max_right _ _)).1] at h1
    exact (Except.ok.inj h1).symm
  refine ⟨p, max F F', fun fuel hf => ⟨(h fuel (le_of_max_le_left hf)).1, fun N δ d k o h0 h1 hd hN => ?_⟩⟩
  rw [countTvd_length htv] at hN
  obtain ⟨r1, r2, r3⟩ := (h' fuel (le_of_max_le_right hf)).2 N δ _ k o h0 h1 (sub_pos.mpr hd) hN
  have e : d = d - S.sum * matrixDistance A B + S.sum * matrixDistance A B := by ring
  rw [e]
  exact ⟨prob_near htv hle _ r1, prob_near htv hle _ r2, prob_near htv hle _ r3⟩

/-- C126 with uniform losses: the error of the matrix counts only for the particles that survive on average. -/
theorem C126_uniform {S : List ℕ} (hS : S.length = m) (hm : 0 < m) (eta : ℝ) (h0 : 0 ≤ eta) (h1 : eta ≤ 1)
    (hinj : ∀ a b : List ℕ, StateLE a S → StateLE b S → a.sum = b.sum → hash a = hash b → a = b) :
    ∃ outs exact F, ∀ fuel ≥ F,
      uniformOutcomes fuel (expConfig (rowsOf A) S S.sum eta) = .ok outs ∧
      uniformDistribution Complex.normSq (factoryPermanent gray t fuel) hash fuel
        (uniformCalc (expConfig (rowsOf A) S S.sum eta)) = .ok exact ∧
      ∀ (N : ℕ) (δ : ℝ) (left k : ℤ) (o : GccuObj), 0 < N → 0 < δ → δ ≤ 1 → o.eta = eta →
        (approximateDistribution (gccuStrategy (factoryPermanent gray t fuel) (rowsOf B) fuel o) fuel
            ⟨S, S.length, left, some outs, k⟩ N).prob
              (Misses exact (tvErrorBound exact.length N δ + eta * S.sum * matrixDistance A B)) ≤ ENNReal.ofReal δ ∧
        (approximateDistribution (gccbLossyStrategy (ryserSubPermanents fuel) (rowsOf B) fuel eta) fuel
            ⟨S, S.length, left, some outs, k⟩ N).prob
              (Misses exact (tvErrorBound exact.length N δ + eta * S.sum * matrixDistance A B)) ≤ ENNReal.ofReal δ := by
  obtain ⟨p, q, tv, F, h, htv, hle⟩ := C124_uniform_calculator hA hB gray hgray t hash S hS hm S.sum h0 h1 hinj
  obtain ⟨outs, q', F', h'⟩ := C64_error_bound gray hgray t hash (rowsOf_interferometer hB hm S hS) eta h0 h1 hinj
  obtain rfl : q = q' := by
    have h1 := (h (max F F') (le_max_left _ _)).2
    rw [(h' (max F F') (le_max_right _ _)).2.1] at h1
    exact (Except.ok.inj h1).symm
  refine ⟨outs, p, max F F', fun fuel hf => ⟨?_, (h fuel (le_of_max_le_left hf)).1, fun N δ left k o hN hδ0 hδ1 ho => ?_⟩⟩
  · rw [← (h' fuel (le_of_max_le_right hf)).1]
    simp [uniformOutcomes, expConfig, rowsOf]
  · obtain ⟨r1, r2⟩ := (h' fuel (le_of_max_le_right hf)).2.2 N δ left k o hN hδ0 hδ1 ho
    rw [countTvd_length htv]
    exact ⟨prob_near htv hle _ r1, prob_near htv hle _ r2⟩

end

/-- The hypotheses of C126 are met by two rotations at the distance `2 / 5`. -/
example : twoModeRotation (3 / 5) (4 / 5) ∈ unitaryGroup (Fin 2) ℂ ∧ twoModeRotation (4 / 5) (3 / 5) ∈ unitaryGroup (Fin 2) ℂ ∧
    twoModeRotation (3 / 5) (4 / 5) ≠ twoModeRotation (4 / 5) (3 / 5) := by
  refine ⟨twoModeRotation_unitary (by norm_num), twoModeRotation_unitary (by norm_num), fun h => ?_⟩
  have := congrArg Complex.re (congrFun (congrFun h 0) 0)
  norm_num [twoModeRotation] at this

end Verif
