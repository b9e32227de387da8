import Verif.Model.Permanents
import Verif.Proofs.PyLemmas
import Verif.Proofs.Scattering
import Mathlib.Data.List.Nodup
import Mathlib.Data.List.Range
import Mathlib.Algebra.BigOperators.Group.List.Basic

/-! Helper lemmas: the dictionaries and reads of the permanent calculators. -/
namespace Verif

variable {V : Type _}

theorem dictGet_map (l : List Nat) (W : Nat → V) {j : Nat} (hj : j ∈ l) :
    dictGet (l.map fun j => (j, W j)) j = .ok (W j) := by
  unfold dictGet
  have : (l.map fun j => (j, W j)).find? (fun p => p.1 == j) = some (j, W j) := by
    induction l with
    | nil => simp at hj
    | cons a l ih =>
      rw [List.map_cons, List.find?_cons]
      by_cases h : a = j
      · subst h; simp
      · have : ((a, W a).1 == j) = false := by simpa using h
        rw [this]
        exact ih (by simpa [Ne.symm h] using hj)
  rw [this]

theorem dictSet_new (d : List (Nat × V)) (k : Nat) (v : V) (h : ∀ p ∈ d, p.1 ≠ k) :
    dictSet d k v = d ++ [(k, v)] := by
  unfold dictSet
  rw [if_neg]
  intro hany
  obtain ⟨p, hp, hk⟩ := List.any_eq_true.mp hany
  exact h p hp (by simpa using hk)

theorem foldl_dictSet (l : List Nat) (W : Nat → V) (d : List (Nat × V)) (hl : l.Nodup)
    (hd : ∀ p ∈ d, p.1 ∉ l) :
    l.foldl (fun d j => dictSet d j (W j)) d = d ++ l.map fun j => (j, W j) := by
  induction l generalizing d with
  | nil => simp
  | cons a l ih =>
    have hn := List.nodup_cons.mp hl
    rw [List.foldl_cons, dictSet_new _ _ _ (fun p hp => by
      have := hd p hp; simp at this; exact this.1), ih _ hn.2]
    · simp
    · intro p hp
      rcases List.mem_append.mp hp with hp | hp
      · have := hd p hp; simp at this; exact this.2
      · simp at hp; subst hp; exact hn.1

theorem npNonzero_nodup (T : List Nat) : (npNonzero T).Nodup :=
  List.Nodup.filter _ List.nodup_range

theorem mem_npNonzero (T : List Nat) (j : Nat) : j ∈ npNonzero T ↔ j < T.length ∧ T.getD j 0 ≠ 0 := by
  simp [npNonzero]

theorem matGet_ok {K : Type _} [Zero K] (U : List (List K)) {c i j : Nat} (hc : ∀ r ∈ U, r.length = c)
    (hi : i < U.length) (hj : j < c) : matGet U i j = .ok (mget U i j) := by
  have h : j < U[i].length := by rw [hc _ (List.getElem_mem hi)]; exact hj
  unfold matGet
  rw [pyGetN_ok hi, ok_bind, pyGetN_ok h, mget_of_lt U hi h]

theorem foldl_mul_eq {K : Type _} [CommMonoid K] (l : List K) (a : K) :
    l.foldl (· * ·) a = a * l.prod := by
  induction l generalizing a with
  | nil => simp
  | cons x l ih => simp [ih, mul_assoc]

end Verif
