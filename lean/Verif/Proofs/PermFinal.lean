import Verif.Proofs.GuanCalc
import Verif.Proofs.Submatrix
import Verif.Proofs.Glynn
import Verif.Proofs.Classic
import Verif.Proofs.NoState
import Verif.Proofs.ReflectedGray
import Verif.Spec.GuanTrace

/-! Helper lemmas: final assembly for the permanent calculators. -/
namespace Verif

open Finset

variable {K : Type _} [Field K] {U : List (List K)} {S T : List ℕ}

theorem npNonzero_prod' (T : List Nat) (v : ℕ → K) :
    ((npNonzero T).map fun j => v j ^ T.getD j 0).prod = ∏ j ∈ range T.length, v j ^ T.getD j 0 := by
  rw [npNonzero_prod, rowProd, prod_particlesFrom]
  simp only [Nat.zero_add]

theorem gterm_ryser :
    gterm ⟨U, S, T⟩ (ryserW ⟨U, S, T⟩) ((-1) ^ S.sum) = ryserAddend U S T := by
  funext r
  unfold gterm ryserAddend
  simp only [npNonzero_prod', ryserW, boxProd, boxSum, signF, binF]

theorem gterm_chinHuh :
    gterm ⟨U, S, T⟩ (chinHuhW ⟨U, S, T⟩) (1 / 2 ^ S.sum) = chinHuhAddend U S T := by
  funext r
  unfold gterm chinHuhAddend
  simp only [npNonzero_prod', chinHuhW, boxProd, boxSum, signF, binF]
  congr 1
  refine prod_congr rfl fun j _ => ?_
  congr 1
  rw [← sum_add_distrib]
  refine sum_congr rfl fun ν hν => ?_
  have hν' := mem_range.mp hν
  rw [getD_of_lt _ _ hν', getD_of_lt _ _ (by simpa using hν')]
  simp
  ring

theorem ryser_zero (h : T.sum < S.sum) (L : List (List Int)) (hL : L.Perm (ibox S)) :
    (L.map (gterm ⟨U, S, T⟩ (ryserW ⟨U, S, T⟩) ((-1) ^ S.sum))).sum = 0 := by
  rw [(hL.map _).sum_eq]
  have := box_pdiff S 0 (colOf U) (rowProd (particles T)) (fun _ => (0 : K))
  rw [(pdiff_rowProd _).1 _ _ (by
    rw [List.length_map, particlesFrom_length, particles_length]; exact h), mul_zero] at this
  rw [← mul_zero ((-1 : K) ^ S.sum), ← this, ← List.sum_map_mul_left]
  congr 1
  refine List.map_congr_left fun r _ => ?_
  simp only [gterm, npNonzero_prod, zero_add]
  rw [mul_assoc, mul_assoc, mul_assoc]
  rfl

theorem chinHuh_zero (h : T.sum < S.sum) (L : List (List Int)) (hL : L.Perm (ibox S)) :
    (L.map (gterm ⟨U, S, T⟩ (chinHuhW ⟨U, S, T⟩) (1 / 2 ^ S.sum))).sum = 0 := by
  rw [(hL.map _).sum_eq]
  have := box_pdiff S 0 (fun ν j => (-2) * mget U j ν) (rowProd (particles T))
    (fun j => boxSum S.length (fun ν => mget U j ν) (S.map fun (x : Nat) => (x : Int)))
  rw [(pdiff_rowProd _).1 _ _ (by
    rw [List.length_map, particlesFrom_length, particles_length]; exact h), mul_zero] at this
  rw [← mul_zero (1 / (2 : K) ^ S.sum), ← this, ← List.sum_map_mul_left]
  congr 1
  refine List.map_congr_left fun r _ => ?_
  simp only [gterm, npNonzero_prod, zero_add]
  rw [mul_assoc, mul_assoc, mul_assoc]
  rfl

theorem visits_init (S : List ℕ) :
    ∃ L, Visits (S.map fun (x : ℕ) => (x : Int)) (List.replicate S.length 0)
      (List.replicate S.length 1) L ∧ L.Perm (ibox S) ∧ L.length = (S.map (· + 1)).prod := by
  obtain ⟨L, hL, hp⟩ := visits_fresh S _ _ (fresh_init S)
  exact ⟨L, hL, hp, by rw [hp.length_eq, ibox_length]⟩

theorem ryser_compute [CharZero K] (h : Fits U S T) (s : GuanScratch K) {L : List (List Int)}
    (hL : Visits (S.map fun (x : ℕ) => (x : Int)) (List.replicate S.length 0)
      (List.replicate S.length 1) L) (fuel : ℕ) (hf : L.length ≤ fuel) :
    ∃ s', computePermanent ryserMethod fuel ⟨U, S, T⟩ s
      = .ok ((L.map (ryserAddend U S T)).sum, s') := by
  obtain ⟨s', hs⟩ := compute_ok ryserMethod _ _ h (ryser_sums h) s (ryser_init h s) L hL fuel hf
  exact ⟨s', by rw [hs, gterm_ryser]⟩

theorem chinHuh_compute [CharZero K] (h : Fits U S T) (s : GuanScratch K) {L : List (List Int)}
    (hL : Visits (S.map fun (x : ℕ) => (x : Int)) (List.replicate S.length 0)
      (List.replicate S.length 1) L) (fuel : ℕ) (hf : L.length ≤ fuel) :
    ∃ s', computePermanent chinHuhMethod fuel ⟨U, S, T⟩ s
      = .ok ((L.map (chinHuhAddend U S T)).sum, s') := by
  obtain ⟨s', hs⟩ := compute_ok chinHuhMethod _ _ h (chinHuh_sums h) s (chinHuh_init h s) L hL fuel hf
  exact ⟨s', by rw [hs, gterm_chinHuh]⟩

theorem ryserPermanent_ok [CharZero K] (h : Fits U S T) (hs : S.sum = T.sum) (fuel : ℕ)
    (hf : (S.map (· + 1)).prod ≤ fuel) :
    ryserPermanent fuel ⟨U, S, T⟩ = .ok (scatteringPermanent U S T) := by
  obtain ⟨L, hL, hp, hl⟩ := visits_init S
  obtain ⟨s', e⟩ := ryser_compute h (freshScratch _) hL fuel (by omega)
  rw [ryserPermanent, e, ok_bind, ← ryser_sum (U := U) (S := S) (T := T) L hp hs, gterm_ryser]
  rfl

theorem chinHuhPermanent_ok [CharZero K] (h : Fits U S T) (hs : S.sum = T.sum) (fuel : ℕ)
    (hf : (S.map (· + 1)).prod ≤ fuel) :
    chinHuhPermanent fuel ⟨U, S, T⟩ = .ok (scatteringPermanent U S T) := by
  obtain ⟨L, hL, hp, hl⟩ := visits_init S
  obtain ⟨s', e⟩ := chinHuh_compute h (freshScratch _) hL fuel (by omega)
  rw [chinHuhPermanent, e, ok_bind, ← chinHuh_sum (U := U) (S := S) (T := T) L hp hs, gterm_chinHuh]
  rfl

theorem glynnPermanent_ok [CharZero K] (gray : ℕ → List ℕ) (hgray : ∀ n, IsGrayCode n (gray n)) (c : ℕ)
    (hc : ∀ r ∈ U, r.length = c) (hS : S.length ≤ c) (hT : T.length ≤ U.length)
    (hs : S.sum = T.sum) :
    glynnPermanent gray ⟨U, S, T⟩ = .ok (scatteringPermanent U S T) := by
  by_cases h0 : T.sum = 0
  · rw [scatteringPermanent_vacuum _ _ _ h0]
    simp [glynnPermanent, effectiveScatteringMatrix, h0, pure_eq_ok, ok_bind]
  · obtain ⟨m, hm⟩ : ∃ m, T.sum = m + 1 := ⟨T.sum - 1, by omega⟩
    have hsc := effectiveScatteringMatrix_ok U S T c hc hS hT (by omega) h0
    have hl : (scatter U S T).length = m + 1 := by simp [scatter, particles_length, hm]
    have hr : ∀ r ∈ scatter U S T, r.length = m + 1 := by
      intro r hr
      obtain ⟨i, -, rfl⟩ := List.mem_map.mp hr
      simp [particles_length, hs, hm]
    rw [glynn_ok gray U S T _ m (m + 1) hsc hl hr le_rfl (hgray m), ← hm, lperm_scatter_rows U S T hs]

theorem classicPermanent_ok (c : ℕ) (hc : ∀ r ∈ U, r.length = c) (hS : S.length ≤ c)
    (hT : T.length ≤ U.length) (hs : S.sum = T.sum) :
    classicPermanent ⟨U, S, T⟩ = .ok (scatteringPermanent U S T) := by
  by_cases h0 : T.sum = 0
  · rw [scatteringPermanent_vacuum _ _ _ h0]
    have : S.sum = 0 := by omega
    simp [classicPermanent, h0, this, pure_eq_ok]
  · rw [classic_ok U S T c hc hS hT (by omega) h0 (by omega), hs, lperm_scatter_rows U S T hs]

theorem codeTrace_visits {ls r u : List Int} {L : List (List Int)} (h : Visits ls r u L)
    (hr : r ≠ []) (hl : ls.length = r.length) (hu : u.length = r.length) (i : Nat) (la : Int)
    (fuel : Nat) (hf : L.length ≤ fuel) :
    codeTrace fuel ⟨r, u, ls, i, la⟩ = .ok L := by
  induction h generalizing fuel i la with
  | stop hg =>
    obtain ⟨fuel, rfl⟩ : ∃ k, fuel = k + 1 := ⟨fuel - 1, by simp at hf; omega⟩
    rw [codeTrace, updateGuanCode_eq _ hl hu hr]
    simp only [hg, ok_bind, if_true]
    rfl
  | @step r u p L hg hV ih =>
    obtain ⟨fuel, rfl⟩ : ∃ k, fuel = k + 1 := ⟨fuel - 1, by simp at hf; omega⟩
    rw [codeTrace, updateGuanCode_eq _ hl hu hr]
    simp only [hg, ok_bind]
    have h1 := gstep_length hg
    rw [if_neg (by omega), ih (by
      intro e; rw [e] at h1; simp at h1; exact hr (List.length_eq_zero_iff.mp h1.1.symm)) (by omega)
      (by omega) _ _ fuel (by simpa using hf), ok_bind]
    rfl

theorem chain_visits {ls r u : List Int} {L : List (List Int)} (h : Visits ls r u L)
    (hu : ∀ x ∈ u, x = 1 ∨ x = -1) (hul : u.length = r.length) : L.IsChain UnitStep := by
  induction h with
  | stop hg => simp
  | @step r u p L hg hV ih =>
    have h1 := gstep_length hg
    have := ih (gstep_dirs hg hu) (by omega)
    obtain ⟨L', rfl⟩ := hV.head
    rw [List.isChain_cons_cons]
    refine ⟨⟨p.2.2, h1.2.2, u.getD p.2.2 0, ?_, (gstep_set hg).1⟩, this⟩
    rw [getD_of_lt _ _ (by omega)]
    exact hu _ (List.getElem_mem _)

end Verif
