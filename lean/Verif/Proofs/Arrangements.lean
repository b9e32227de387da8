import Mathlib.Data.Fintype.List
import Mathlib.Data.Nat.Factorial.Basic
import Mathlib.Algebra.BigOperators.Ring.Finset
import Mathlib.Algebra.Order.BigOperators.Group.Finset
import Mathlib.Data.Finset.Card
import Mathlib.Algebra.BigOperators.Group.Finset.Sigma
import Mathlib.Tactic.Ring

/-! Counting the arrangements of a multiset. -/
namespace Verif
open Finset

variable {α : Type*} [DecidableEq α]

/-- The lists whose elements form the multiset `s`. -/
def arrangements (s : Multiset α) : Finset (List α) := s.lists.toFinset

theorem mem_arrangements {s : Multiset α} {l : List α} : l ∈ arrangements s ↔ (l : Multiset α) = s := by
  rw [arrangements, Multiset.mem_toFinset, Multiset.mem_lists_iff]
  exact eq_comm

/-- Product of the factorials of the multiplicities. -/
def multFact (s : Multiset α) : ℕ := ∏ a ∈ s.toFinset, (s.count a).factorial

theorem multFact_eq_of_subset {s : Multiset α} {t : Finset α} (h : s.toFinset ⊆ t) :
    multFact s = ∏ a ∈ t, (s.count a).factorial := by
  refine Finset.prod_subset h fun x _ hx => ?_
  rw [Multiset.count_eq_zero_of_notMem (by simpa using hx)]; rfl

theorem multFact_erase {s : Multiset α} {a : α} (h : a ∈ s) :
    multFact s = s.count a * multFact (s.erase a) := by
  have hsub : (s.erase a).toFinset ⊆ s.toFinset := by
    intro x hx
    rw [Multiset.mem_toFinset] at hx ⊢
    exact Multiset.mem_of_mem_erase hx
  rw [multFact_eq_of_subset hsub, multFact]
  have ha : a ∈ s.toFinset := by simpa using h
  rw [← Finset.mul_prod_erase _ _ ha, ← Finset.mul_prod_erase _ _ ha, ← mul_assoc]
  congr 1
  · rw [Multiset.count_erase_self]
    have : 0 < s.count a := Multiset.count_pos.mpr h
    obtain ⟨k, hk⟩ := Nat.exists_eq_succ_of_ne_zero this.ne'
    rw [hk]; rfl
  · refine Finset.prod_congr rfl fun x hx => ?_
    rw [Multiset.count_erase_of_ne (Finset.ne_of_mem_erase hx)]

theorem arrangements_eq (s : Multiset α) (hs : s ≠ 0) :
    arrangements s = s.toFinset.biUnion fun a => (arrangements (s.erase a)).image (List.cons a) := by
  ext l
  simp only [mem_arrangements, Finset.mem_biUnion, Multiset.mem_toFinset, Finset.mem_image]
  constructor
  · rintro rfl
    cases l with
    | nil => simp at hs
    | cons a l => exact ⟨a, by simp, l, by simp, rfl⟩
  · rintro ⟨a, ha, l', hl', rfl⟩
    rw [← Multiset.cons_coe, hl', Multiset.cons_erase ha]

theorem card_arrangements_mul (s : Multiset α) :
    (arrangements s).card * multFact s = s.card.factorial := by
  induction hn : s.card generalizing s with
  | zero =>
    rw [Multiset.card_eq_zero] at hn
    subst hn
    have : arrangements (0 : Multiset α) = {[]} := by
      ext l; simp [mem_arrangements]
    rw [this]; simp [multFact]
  | succ n ih =>
    have hs : s ≠ 0 := by rintro rfl; simp at hn
    rw [arrangements_eq s hs, Finset.card_biUnion]
    · rw [Finset.sum_mul]
      have : ∀ a ∈ s.toFinset, ((arrangements (s.erase a)).image (List.cons a)).card * multFact s
          = s.count a * n.factorial := by
        intro a ha
        rw [Multiset.mem_toFinset] at ha
        rw [Finset.card_image_of_injective _ (List.cons_injective), multFact_erase ha,
          ← ih (s.erase a) (by rw [Multiset.card_erase_of_mem ha, hn]; rfl)]
        ring
      rw [Finset.sum_congr rfl this, ← Finset.sum_mul, Multiset.toFinset_sum_count_eq, hn]
      rfl
    · intro a _ b _ hab
      rw [Function.onFun, Finset.disjoint_left]
      intro l hl hl'
      obtain ⟨x, -, rfl⟩ := Finset.mem_image.mp hl
      obtain ⟨y, -, h⟩ := Finset.mem_image.mp hl'
      exact hab (List.cons.inj h).1.symm

end Verif
