import Verif.Proofs.CliffordsLoss
import Verif.Props.Networks

/-! Helper lemmas: sampling in the expanded network. -/
namespace Verif

open Finset
open scoped ENNReal

section

variable {𝒯 : Finset (List ℕ)} {p : List ℕ → ℝ≥0∞}

theorem expIid_congr (n : ℕ) (g g' : List (List ℕ) → ℝ≥0∞)
    (h : ∀ l : List (List ℕ), l.length = n → (∀ T ∈ l, T ∈ 𝒯) → g l = g' l) :
    expIid 𝒯 p n g = expIid 𝒯 p n g' := by
  induction n generalizing g g' with
  | zero => exact h [] rfl (by simp)
  | succ n ih =>
    rw [expIid, expIid]
    refine sum_congr rfl fun T hT => ?_
    congr 1
    exact ih _ _ fun l h1 h2 => h (T :: l) (by simp [h1]) (by simp [hT]; exact h2)

theorem expIid_at (hp : ∑ T ∈ 𝒯, p T = 1) (n i : ℕ) (hi : i < n) (F : List ℕ → ℝ≥0∞) :
    expIid 𝒯 p n (fun l => F (l.getD i [])) = ∑ T ∈ 𝒯, p T * F T := by
  induction n generalizing i with
  | zero => omega
  | succ n ih =>
    rw [expIid]
    cases i with
    | zero => simp only [List.getD_cons_zero, expIid_const hp]
    | succ i =>
      simp only [List.getD_cons_succ]
      rw [ih i (by omega), ← sum_mul, hp, one_mul]

end

theorem mget_rowsOf {a b : ℕ} (A : Matrix (Fin a) (Fin b) ℂ) (i j : ℕ) (hi : i < a) (hj : j < b) :
    mget (rowsOf A) i j = A ⟨i, hi⟩ ⟨j, hj⟩ := by
  unfold mget rowsOf
  simp [hi, hj]

theorem expanded_used {m : ℕ} (M : Matrix (Fin m) (Fin m) ℂ) (d : Svd m) (h : IsSvd M d) (h1 : ∀ i, d.s i ≤ 1)
    (S : List ℕ) (hS : S.length = m) :
    UsedOrtho (colOf (rowsOf (expandedMatrix d))) (m + m) (S ++ S.map fun _ => 0) := by
  refine ⟨m, orthoCols_of _ ?_, ?_⟩
  · intro a ha b hb
    have hC := (C34_embeds_partial M d h).2 h1 ⟨a, ha⟩ ⟨b, hb⟩
    rw [← Fin.sum_univ_eq_sum_range (fun r => (starRingEnd ℂ) (mget (rowsOf (expandedMatrix d)) r a) *
      mget (rowsOf (expandedMatrix d)) r b) (m + m)]
    have : ∀ r : Fin (m + m), (starRingEnd ℂ) (mget (rowsOf (expandedMatrix d)) r a) *
        mget (rowsOf (expandedMatrix d)) r b
        = star (expandedMatrix d r (Fin.castAdd m ⟨a, ha⟩)) * expandedMatrix d r (Fin.castAdd m ⟨b, hb⟩) := by
      intro r
      rw [mget_rowsOf _ _ _ r.isLt (by omega), mget_rowsOf _ _ _ r.isLt (by omega)]
      rfl
    rw [sum_congr rfl fun r _ => this r, hC]
    simp
  · intro x hx
    by_contra hlt
    have hc : 0 < (particles (S ++ S.map fun _ => 0)).count x := List.count_pos_iff.mpr hx
    rw [count_particles, List.getD_eq_getElem?_getD, List.getElem?_append_right (by omega), List.getElem?_map] at hc
    cases hq : S[x - S.length]? <;> rw [hq] at hc <;> simp at hc

theorem sum_take {m n : ℕ} (T : List ℕ) (hT : T.length = m) (hs : T.sum ≤ n) (p : List ℕ → ℝ≥0∞)
    (F : List ℕ → ℝ≥0∞) (hF : ∀ T', F T' = if T'.take m = T then 1 else 0) :
    ∑ T' ∈ statesFin (m + m) n, p T' * F T' = ∑ E ∈ statesFin m (n - T.sum), p (T ++ E) := by
  classical
  have e : ∀ T' ∈ statesFin (m + m) n, p T' * F T' = if T'.take m = T then p T' else 0 := by
    intro T' _
    rw [hF]
    split_ifs <;> simp
  rw [sum_congr rfl e, ← sum_filter]
  refine sum_nbij' (fun T' => T'.drop m) (fun E => T ++ E) ?_ ?_ ?_ ?_ ?_
  · intro T' h
    obtain ⟨h1, h2⟩ := mem_filter.mp h
    rw [mem_statesFin] at h1
    rw [mem_statesFin, List.length_drop, h1.1]
    have := congrArg List.sum (List.take_append_drop m T')
    rw [List.sum_append, h2] at this
    omega
  · intro E h
    rw [mem_statesFin] at h
    rw [mem_filter, mem_statesFin, List.length_append, List.sum_append, List.take_left' hT]
    exact ⟨⟨by omega, by omega⟩, rfl⟩
  · intro T' h
    obtain ⟨-, h2⟩ := mem_filter.mp h
    rw [← h2, List.take_append_drop]
  · intro E h
    rw [List.drop_left' hT]
  · intro T' h
    obtain ⟨-, h2⟩ := mem_filter.mp h
    rw [← h2, List.take_append_drop]

theorem expanded_sum (S : List ℕ) : (S ++ S.map fun _ => 0).sum = S.sum := by simp

theorem expanded_len (S : List ℕ) : (S ++ S.map fun _ => 0).length = S.length + S.length := by simp

theorem expanded_prod (S : List ℕ) : ((S ++ S.map fun _ => 0).map (· + 1)).prod = (S.map (· + 1)).prod := by
  rw [List.map_append, List.prod_append, List.map_map]
  have : (S.map ((· + 1) ∘ fun _ => 0)).prod = 1 := by
    refine List.prod_eq_one fun x hx => ?_
    obtain ⟨y, -, rfl⟩ := List.mem_map.mp hx
    rfl
  rw [this, mul_one]

theorem mapM_trim (fuel m : ℕ) (hf : m < fuel) (l : List (List ℕ)) (h : ∀ T ∈ l, T.length = m + m) :
    (l.mapM fun out => trimTo fuel m out : Py (List (List ℕ))) = .ok (l.map fun T => T.take m) :=
  mapM_ok _ _ _ fun T hT => trimTo_ok m fuel T (by rw [h T hT]; omega) (by rw [h T hT]; omega)

end Verif
