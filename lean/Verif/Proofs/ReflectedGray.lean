import Verif.Spec.Gray
import Mathlib.Data.List.Nodup
import Mathlib.Data.List.Basic

/-! Helper lemmas: the reflected binary Gray code is a Gray code. -/
namespace Verif

def flipEnd : List Nat → List Bool → List Bool
  | [], p => p
  | i :: is, p => flipEnd is (p.set i (!p.getD i false))

theorem flipEnd_length (is : List Nat) (p : List Bool) : (flipEnd is p).length = p.length := by
  induction is generalizing p with
  | nil => rfl
  | cons i is ih => rw [flipEnd, ih]; simp

theorem flipVisits_append (a b : List Nat) (i : Nat) (p : List Bool) :
    flipVisits (a ++ i :: b) p = flipVisits a p ++
      flipVisits b ((flipEnd a p).set i (!(flipEnd a p).getD i false)) := by
  induction a generalizing p with
  | nil => simp [flipVisits, flipEnd]
  | cons j a ih => simp only [List.cons_append, flipVisits, flipEnd, ih]

theorem flip_snoc (p : List Bool) (x : Bool) (i : Nat) (h : i < p.length) :
    (p ++ [x]).set i (!(p ++ [x]).getD i false) = p.set i (!p.getD i false) ++ [x] := by
  rw [List.set_append_left _ _ h]
  congr 2
  rw [List.getD_eq_getElem?_getD, List.getD_eq_getElem?_getD, List.getElem?_append_left h]

theorem flipVisits_snoc (is : List Nat) (p : List Bool) (x : Bool) (h : ∀ i ∈ is, i < p.length) :
    flipVisits is (p ++ [x]) = (flipVisits is p).map (· ++ [x]) ∧
      flipEnd is (p ++ [x]) = flipEnd is p ++ [x] := by
  induction is generalizing p with
  | nil => simp [flipVisits, flipEnd]
  | cons i is ih =>
    have hi := h i (by simp)
    have := ih (p.set i (!p.getD i false)) (fun j hj => by
      rw [List.length_set]; exact h j (by simp [hj]))
    rw [flipVisits, flipEnd, flip_snoc p x i hi, this.1, this.2]
    simp [flipVisits, flipEnd]

theorem reflectedGray_lt (n : Nat) : ∀ i ∈ reflectedGray n, i < n := by
  induction n with
  | zero => simp [reflectedGray]
  | succ n ih =>
    intro i hi
    rw [reflectedGray, List.mem_append, List.mem_cons] at hi
    rcases hi with hi | rfl | hi
    · have := ih i hi; omega
    · omega
    · have := ih i hi; omega

theorem reflectedGray_visits (n : Nat) (p : List Bool) (hp : p.length = n) :
    (flipVisits (reflectedGray n) p).Nodup ∧
      ∀ q : List Bool, q.length = n → q ∈ flipVisits (reflectedGray n) p := by
  induction n generalizing p with
  | zero =>
    obtain rfl := List.length_eq_zero_iff.mp hp
    refine ⟨by simp [reflectedGray, flipVisits], fun q hq => ?_⟩
    obtain rfl := List.length_eq_zero_iff.mp hq
    simp [reflectedGray, flipVisits]
  | succ n ih =>
    obtain ⟨r, x, rfl⟩ : ∃ r x, p = r ++ [x] := by
      rcases List.eq_nil_or_concat p with rfl | ⟨r, x, rfl⟩
      · simp at hp
      · exact ⟨r, x, by simp⟩
    have hr : r.length = n := by simpa using hp
    have hlt := reflectedGray_lt n
    have h1 := flipVisits_snoc (reflectedGray n) r x (by rw [hr]; exact hlt)
    obtain ⟨e, he⟩ : ∃ e, e = flipEnd (reflectedGray n) r := ⟨_, rfl⟩
    have hel : e.length = n := by rw [he, flipEnd_length, hr]
    have hset : (e ++ [x]).set n (!(e ++ [x]).getD n false) = e ++ [!x] := by
      rw [List.set_append_right _ _ (by omega), List.getD_eq_getElem?_getD,
        List.getElem?_append_right (by omega), hel]
      simp
    have h2 := flipVisits_snoc (reflectedGray n) e (!x) (by rw [hel]; exact hlt)
    rw [reflectedGray, flipVisits_append, h1.1, h1.2, ← he, hset, h2.1]
    have inj : ∀ y : Bool, Function.Injective (fun q : List Bool => q ++ [y]) := by
      intro y a b hab
      simpa using hab
    constructor
    · refine List.Nodup.append ((ih r hr).1.map (inj x)) ((ih e hel).1.map (inj (!x))) ?_
      intro q hq hq'
      obtain ⟨a, -, rfl⟩ := List.mem_map.mp hq
      obtain ⟨b, -, hb⟩ := List.mem_map.mp hq'
      have := (List.append_inj' hb rfl).2
      cases x <;> simp at this
    · intro q hq
      obtain ⟨q, y, rfl⟩ : ∃ r x, q = r ++ [x] := by
        rcases List.eq_nil_or_concat q with rfl | ⟨r, x, rfl⟩
        · simp at hq
        · exact ⟨r, x, by simp⟩
      have hq' : q.length = n := by simpa using hq
      rw [List.mem_append]
      by_cases hxy : y = x
      · left; subst hxy
        exact List.mem_map_of_mem ((ih r hr).2 q hq')
      · right
        have : y = !x := by cases x <;> cases y <;> simp_all
        subst this
        exact List.mem_map_of_mem ((ih e hel).2 q hq')

theorem reflectedGray_isGrayCode (n : Nat) : IsGrayCode n (reflectedGray n) where
  range := reflectedGray_lt n
  once := (reflectedGray_visits n _ (by simp)).1
  all := (reflectedGray_visits n _ (by simp)).2

end Verif
