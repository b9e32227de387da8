import Verif.Proofs.Glynn

/-! Helper lemmas: the classic calculator. -/
namespace Verif

variable {K : Type _} [Field K]

theorem picks_nodup {α : Type _} [DecidableEq α] (l : List α) (h : l.Nodup) :
    picks l = l.map fun x => (x, l.erase x) := by
  induction l with
  | nil => rfl
  | cons a l ih =>
    have hn := List.nodup_cons.mp h
    rw [picks, ih hn.2, List.map_cons, List.erase_cons_head, List.map_map]
    congr 1
    refine List.map_congr_left fun x hx => ?_
    have : a ≠ x := by rintro rfl; exact hn.1 hx
    simp only [Function.comp]
    rw [List.erase_cons_tail (by simpa using this)]

/-- Rows that are not selected yet. -/
def avail (rows : ℕ) (selected : List ℕ) : List ℕ := (List.range rows).filter (fun i => decide (i ∉ selected))

theorem avail_erase (rows : ℕ) (selected : List ℕ) (x : ℕ) :
    (avail rows selected).erase x = avail rows (selected ++ [x]) := by
  unfold avail
  rw [List.Nodup.erase_eq_filter (List.Nodup.filter _ List.nodup_range), List.filter_filter]
  congr 1
  funext i
  by_cases h1 : i = x <;> by_cases h2 : i ∈ selected <;> simp [h1, h2]

theorem foldlM_sum_filter (l : List ℕ) (selected : List ℕ) (f : ℕ → Py K) (g : ℕ → K)
    (h : ∀ i ∈ l, i ∉ selected → f i = .ok (g i)) (a : K) :
    l.foldlM (fun (result : K) row => if row ∈ selected then pure result else do
      let x ← f row
      pure (result + x)) a
      = .ok (a + ((l.filter (fun i => decide (i ∉ selected))).map g).sum) := by
  induction l generalizing a with
  | nil => simp
  | cons i l ih =>
    rw [List.foldlM_cons]
    by_cases hi : i ∈ selected
    · simp only [if_pos hi, pure_eq_ok, ok_bind]
      have := ih (fun j hj => h j (by simp [hj])) a
      simp only [pure_eq_ok] at this
      rw [this]
      simp [hi]
    · simp only [if_neg hi]
      rw [h i (by simp) hi]
      simp only [ok_bind, pure_eq_ok]
      have := ih (fun j hj => h j (by simp [hj])) (a + g i)
      simp only [pure_eq_ok] at this
      rw [this]
      simp [hi, add_assoc]

theorem classicRec_ok (a : List (List K)) (rows cols : ℕ) (hn : a.length = rows)
    (hc : ∀ r ∈ a, r.length = cols) (todo : ℕ) (selected : List ℕ) (prod : K) (htc : todo ≤ cols)
    (hav : (avail rows selected).length ≤ todo) :
    classicRec a rows cols todo selected prod
      = .ok (prod * lperm (List.range' (cols - todo) todo)
          ((avail rows selected).map fun i j => mget a i j)) := by
  induction todo generalizing selected prod with
  | zero =>
    have : avail rows selected = [] := List.eq_nil_of_length_eq_zero (by omega)
    simp [classicRec, this, lperm]
  | succ todo ih =>
    rw [classicRec]
    have := foldlM_sum_filter (K := K) (List.range rows) selected (fun row => (do
      let u ← matGet a row (cols - (todo + 1))
      classicRec a rows cols todo (selected ++ [row]) (prod * u) : Py K))
      (fun row => prod * (mget a row (cols - (todo + 1)) * lperm (List.range' (cols - todo) todo)
        ((avail rows (selected ++ [row])).map fun i j => mget a i j))) (fun i hi hsel => by
          have hi' := List.mem_range.mp hi
          rw [matGet_ok a hc (by omega) (by omega), ok_bind, ih _ _ (by omega), mul_assoc]
          rw [← avail_erase, List.length_erase_of_mem]
          · omega
          · simp [avail, hi', hsel]) 0
    simp only [bind_assoc] at this
    rw [this, zero_add]
    congr 1
    rw [List.range'_succ, lperm, picks_map,
      picks_nodup (avail rows selected) (List.Nodup.filter _ List.nodup_range),
      List.map_map, List.map_map, ← List.sum_map_mul_left]
    congr 1
    refine List.map_congr_left fun x _ => ?_
    simp only [Function.comp]
    rw [← avail_erase, show cols - (todo + 1) + 1 = cols - todo by omega]

theorem classic_ok (U : List (List K)) (S T : List ℕ) (c : ℕ) (hc : ∀ r ∈ U, r.length = c)
    (hS : S.length ≤ c) (hT : T.length ≤ U.length) (hS0 : S.sum ≠ 0) (hT0 : T.sum ≠ 0)
    (h : T.sum ≤ S.sum) :
    classicPermanent ⟨U, S, T⟩ = .ok (lperm (List.range S.sum)
      ((List.range T.sum).map fun i j => mget (scatter U S T) i j)) := by
  unfold classicPermanent
  simp only
  rw [if_neg hS0, effectiveScatteringMatrix_ok U S T c hc hS hT hS0 hT0, ok_bind]
  have hl : (scatter U S T).length = T.sum := by simp [scatter, particles_length]
  have hr : ∀ r ∈ scatter U S T, r.length = S.sum := by
    intro r hr
    obtain ⟨i, -, rfl⟩ := List.mem_map.mp hr
    simp [particles_length]
  cases hsc : scatter U S T with
  | nil => rw [hsc] at hl; simp at hl; omega
  | cons r rs =>
    have hrl : r.length = S.sum := hr r (by rw [hsc]; simp)
    simp only
    have hav : avail T.sum [] = List.range T.sum := by simp [avail]
    rw [← hsc, hrl, hl, classicRec_ok (scatter U S T) T.sum S.sum hl hr S.sum [] 1 (le_refl _)
      (by rw [hav]; simpa using h), hav, one_mul, Nat.sub_self, ← List.range_eq_range']

end Verif
