import Mathlib.Algebra.Group.ForwardDiff
import Mathlib.Algebra.BigOperators.Ring.List
import Mathlib.LinearAlgebra.Matrix.Permanent
import Mathlib.Tactic.Ring
import Mathlib.Tactic.LinearCombination
import Mathlib.Logic.Equiv.Fin.Basic
import Mathlib.GroupTheory.Perm.Fin
import Mathlib.Algebra.BigOperators.Fin

/-! Polarisation: iterated finite differences of a product of coordinates are permanents. -/
namespace Verif

variable {ι α : Type*} {K : Type*} [CommRing K]

/-- All ways to pick one element of a list, with the remaining elements in order. -/
def picks : List α → List (α × List α)
  | [] => []
  | a :: l => (a, l) :: (picks l).map fun p => (p.1, a :: p.2)

theorem picks_eq (l : List α) : picks l = (List.range l.length).attach.map
    (fun i => (l[i.1]'(by simpa using i.2), l.eraseIdx i.1)) := by
  induction l with
  | nil => rfl
  | cons a l ih =>
    rw [picks, ih]
    apply List.ext_getElem
    · simp
    · intro i h1 h2
      rcases i with _ | i <;> simp

theorem picks_length (l : List α) : (picks l).length = l.length := by
  induction l <;> simp_all [picks]

theorem picks_perm {l : List α} {p : α × List α} (h : p ∈ picks l) : (p.1 :: p.2).Perm l := by
  induction l generalizing p with
  | nil => simp [picks] at h
  | cons a l ih =>
    simp only [picks, List.mem_cons, List.mem_map] at h
    rcases h with rfl | ⟨q, hq, rfl⟩
    · exact List.Perm.refl _
    · exact (List.Perm.swap _ _ _).trans ((ih hq).cons a)

theorem picks_snd_length {l : List α} {p : α × List α} (h : p ∈ picks l) :
    p.2.length + 1 = l.length := by
  have := (picks_perm h).length_eq
  simpa using this

theorem picks_map {β : Type*} (f : α → β) (l : List α) :
    picks (l.map f) = (picks l).map fun p => (f p.1, p.2.map f) := by
  induction l with
  | nil => rfl
  | cons a l ih => simp [picks, ih, Function.comp_def]

/-- Permanent by Laplace expansion along the list of rows; columns are functions of the row. -/
def lperm : List ι → List (ι → K) → K
  | [], [] => 1
  | [], _ :: _ => 0
  | r :: rs, cs => ((picks cs).map fun p => p.1 r * lperm rs p.2).sum

/-- Iterated forward difference in the directions of a list. -/
def pdiff : List (ι → K) → ((ι → K) → K) → (ι → K) → K
  | [], F, w => F w
  | c :: cs, F, w => pdiff cs F (w + c) - pdiff cs F w

theorem pdiff_append (as bs : List (ι → K)) (F : (ι → K) → K) (w : ι → K) :
    pdiff (as ++ bs) F w = pdiff as (pdiff bs F) w := by
  induction as generalizing w with
  | nil => rfl
  | cons a as ih => simp [pdiff, ih]

theorem pdiff_sub (cs : List (ι → K)) (F G : (ι → K) → K) (w : ι → K) :
    pdiff cs (fun v => F v - G v) w = pdiff cs F w - pdiff cs G w := by
  induction cs generalizing w with
  | nil => rfl
  | cons c cs ih => simp only [pdiff, ih]; ring

theorem pdiff_shift (cs : List (ι → K)) (F : (ι → K) → K) (w c : ι → K) :
    pdiff cs (fun v => F (v + c)) w = pdiff cs F (w + c) := by
  induction cs generalizing w with
  | nil => rfl
  | cons d cs ih => simp only [pdiff, ih, add_right_comm]

theorem pdiff_perm {as bs : List (ι → K)} (h : as.Perm bs) (F : (ι → K) → K) :
    pdiff as F = pdiff bs F := by
  induction h with
  | nil => rfl
  | cons c _ ih => funext w; simp [pdiff, ih]
  | swap a b l => funext w; simp only [pdiff, add_right_comm]; ring
  | trans _ _ ih1 ih2 => exact ih1.trans ih2

theorem pdiff_replicate (s : ℕ) (c : ι → K) (F : (ι → K) → K) (w : ι → K) :
    pdiff (List.replicate s c) F w
      = ∑ k ∈ Finset.range (s + 1), (-1) ^ (s - k) * (s.choose k : K) * F (w + k • c) := by
  have h : pdiff (List.replicate s c) F = (fwdDiff c)^[s] F := by
    induction s with
    | zero => rfl
    | succ s ih =>
      funext w
      rw [List.replicate_succ, Function.iterate_succ_apply', ← ih]
      simp [pdiff, fwdDiff]
  rw [h, fwdDiff_iter_eq_sum_shift]
  refine Finset.sum_congr rfl fun k _ => ?_
  simp [zsmul_eq_mul]

private theorem sum_map_add' {β : Type*} (l : List β) (f g : β → K) :
    (l.map fun x => f x + g x).sum = (l.map f).sum + (l.map g).sum := by
  induction l with
  | nil => simp
  | cons a l ih => simp only [List.map_cons, List.sum_cons, ih]; ring

private theorem sum_map_sub' {β : Type*} (l : List β) (f g : β → K) :
    (l.map fun x => f x - g x).sum = (l.map f).sum - (l.map g).sum := by
  induction l with
  | nil => simp
  | cons a l ih => simp only [List.map_cons, List.sum_cons, ih]; ring

theorem pdiff_leibniz (cs : List (ι → K)) (r : ι) (G : (ι → K) → K) (w : ι → K) :
    pdiff cs (fun v => v r * G v) w
      = w r * pdiff cs G w + ((picks cs).map fun p => p.1 r * pdiff p.2 G (w + p.1)).sum := by
  induction cs generalizing w with
  | nil => simp [pdiff, picks]
  | cons a cs ih =>
    simp only [pdiff, picks, List.map_cons, List.map_map, List.sum_cons, ih, Function.comp_def]
    have : ((picks cs).map fun p => p.1 r * (pdiff p.2 G (w + p.1 + a) - pdiff p.2 G (w + p.1))).sum
        = ((picks cs).map fun p => p.1 r * pdiff p.2 G (w + a + p.1)).sum
          - ((picks cs).map fun p => p.1 r * pdiff p.2 G (w + p.1)).sum := by
      rw [← sum_map_sub']
      congr 1
      refine List.map_congr_left fun p _ => ?_
      rw [add_right_comm]; ring
    rw [this]
    simp only [Pi.add_apply]
    ring

/-- The product of the coordinates of `w` listed in `rows`. -/
def rowProd (rows : List ι) (w : ι → K) : K := (rows.map w).prod

theorem pdiff_rowProd (rows : List ι) :
    (∀ (cs : List (ι → K)) (w : ι → K), rows.length < cs.length → pdiff cs (rowProd rows) w = 0) ∧
    (∀ (cs : List (ι → K)) (w : ι → K), cs.length = rows.length →
      pdiff cs (rowProd rows) w = lperm rows cs) := by
  induction rows with
  | nil =>
    have hc : (rowProd ([] : List ι) : (ι → K) → K) = fun _ => 1 := by funext w; simp [rowProd]
    refine ⟨fun cs w h => ?_, fun cs w h => ?_⟩
    · rw [hc]
      cases cs with
      | nil => simp at h
      | cons c cs =>
        have : ∀ (cs : List (ι → K)) w w', pdiff cs (fun _ => (1 : K)) w = pdiff cs (fun _ => 1) w' := by
          intro cs
          induction cs with
          | nil => intros; rfl
          | cons c cs ih => intro w w'; simp only [pdiff]; rw [ih (w + c) (w' + c), ih w w']
        simp only [pdiff]
        rw [this cs (w + c) w]; ring
    · have : cs = [] := List.length_eq_zero_iff.mp h
      subst this; simp [pdiff, rowProd, lperm]
  | cons r rs ih =>
    have hr : (rowProd (r :: rs) : (ι → K) → K) = fun v => v r * rowProd rs v := by
      funext w; simp [rowProd]
    refine ⟨fun cs w h => ?_, fun cs w h => ?_⟩
    · rw [hr, pdiff_leibniz, ih.1 cs w (by simp at h; omega)]
      have : ∀ p ∈ picks cs, p.1 r * pdiff p.2 (rowProd rs) (w + p.1) = 0 := by
        intro p hp
        rw [ih.1 _ _ (by have := picks_snd_length hp; simp at h; omega), mul_zero]
      rw [List.map_congr_left this]; simp
    · rw [hr, pdiff_leibniz, ih.1 cs w (by simp at h; omega)]
      simp only [mul_zero, zero_add, lperm]
      congr 1
      refine List.map_congr_left fun p hp => ?_
      rw [ih.2 _ _ (by have := picks_snd_length hp; simp at h; omega)]

theorem lperm_eq_pdiff {rows : List ι} {cs : List (ι → K)} (h : cs.length = rows.length) (w : ι → K) :
    lperm rows cs = pdiff cs (rowProd rows) w := ((pdiff_rowProd rows).2 cs w h).symm

theorem lperm_of_length_lt {rows : List ι} {cs : List (ι → K)} (h : cs.length < rows.length) :
    lperm rows cs = 0 := by
  induction rows generalizing cs with
  | nil => simp at h
  | cons r rs ih =>
    rw [lperm]
    have : ∀ p ∈ picks cs, p.1 r * lperm rs p.2 = 0 := by
      intro p hp
      rw [ih (by have := picks_snd_length hp; simp at h; omega), mul_zero]
    rw [List.map_congr_left this]; simp

theorem lperm_of_lt_length {rows : List ι} {cs : List (ι → K)} (h : rows.length < cs.length) :
    lperm rows cs = 0 := by
  induction rows generalizing cs with
  | nil => cases cs with
    | nil => simp at h
    | cons c cs => rfl
  | cons r rs ih =>
    rw [lperm]
    have : ∀ p ∈ picks cs, p.1 r * lperm rs p.2 = 0 := by
      intro p hp
      rw [ih (by have := picks_snd_length hp; simp at h; omega), mul_zero]
    rw [List.map_congr_left this]; simp

theorem lperm_perm_cols {rows : List ι} {as bs : List (ι → K)} (h : as.Perm bs) :
    lperm rows as = lperm rows bs := by
  rcases lt_trichotomy as.length rows.length with hl | hl | hl
  · rw [lperm_of_length_lt hl, lperm_of_length_lt (by rw [← h.length_eq]; exact hl)]
  · rw [lperm_eq_pdiff hl 0, lperm_eq_pdiff (by rw [← h.length_eq]; exact hl) 0, pdiff_perm h]
  · rw [lperm_of_lt_length hl, lperm_of_lt_length (by rw [← h.length_eq]; exact hl)]

theorem lperm_perm_rows {rows rows' : List ι} {cs : List (ι → K)} (h : rows.Perm rows') :
    lperm rows cs = lperm rows' cs := by
  have hF : (rowProd rows : (ι → K) → K) = rowProd rows' := by
    funext w; exact (h.map w).prod_eq
  rcases lt_trichotomy cs.length rows.length with hl | hl | hl
  · rw [lperm_of_length_lt hl, lperm_of_length_lt (by rw [← h.length_eq]; exact hl)]
  · rw [lperm_eq_pdiff hl 0, lperm_eq_pdiff (by rw [← h.length_eq]; exact hl) 0, hF]
  · rw [lperm_of_lt_length hl, lperm_of_lt_length (by rw [← h.length_eq]; exact hl)]

end Verif
