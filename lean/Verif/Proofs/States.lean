import Verif.Model.Utilities
import Verif.Spec.States
import Verif.Proofs.PyLemmas
import Mathlib.Data.List.Count
import Mathlib.Data.List.Sort
import Mathlib.Algebra.BigOperators.Group.List.Basic
import Mathlib.Data.List.FinRange
import Mathlib.Algebra.Order.BigOperators.Group.List

/-! Helper lemmas: occupations and assignments. -/
namespace Verif

theorem particlesFrom_eq (k : Nat) (occ : List Nat) :
    particlesFrom k occ = (occ.zipIdx k).flatMap fun p => List.replicate p.1 p.2 := by
  induction occ generalizing k with
  | nil => rfl
  | cons c l ih => simp [particlesFrom, ih, List.zipIdx_cons]

theorem modeOccupationToModeAssignment_eq (occ : List Nat) :
    modeOccupationToModeAssignment occ = .ok (particles occ) := by
  unfold modeOccupationToModeAssignment
  rw [foldlM_range_get occ (fun acc i c => pure ((List.range c).foldl (fun a _ => a ++ [i]) acc))]
  rw [foldlM_ok _ (fun acc p => acc ++ List.replicate p.1 p.2)]
  · rw [flatMap_foldl, List.nil_append, particles, particlesFrom_eq]
  · rintro b ⟨c, i⟩ _
    simp

theorem particlesFrom_length (k : Nat) (occ : List Nat) :
    (particlesFrom k occ).length = occ.sum := by
  induction occ generalizing k with
  | nil => rfl
  | cons c l ih => simp [particlesFrom, ih]

theorem mem_particlesFrom {k : Nat} {occ : List Nat} {x : Nat} :
    x ∈ particlesFrom k occ ↔ ∃ i, ∃ h : i < occ.length, x = k + i ∧ occ[i] ≠ 0 := by
  induction occ generalizing k with
  | nil => simp [particlesFrom]
  | cons c l ih =>
    simp only [particlesFrom, List.mem_append, List.mem_replicate, ih]
    constructor
    · rintro (⟨h1, h2⟩ | ⟨i, hi, h1, h2⟩)
      · exact ⟨0, by simp, by simpa using h2, by simpa using h1⟩
      · exact ⟨i + 1, by simpa using hi, by omega, by simpa using h2⟩
    · rintro ⟨i, hi, h1, h2⟩
      rcases i with _ | i
      · left; exact ⟨by simpa using h2, by simpa using h1⟩
      · right; exact ⟨i, by simpa using hi, by omega, by simpa using h2⟩

theorem particlesFrom_range {k : Nat} {occ : List Nat} {x : Nat} (h : x ∈ particlesFrom k occ) :
    k ≤ x ∧ x < k + occ.length := by
  obtain ⟨i, hi, rfl, -⟩ := mem_particlesFrom.mp h
  omega

theorem particlesFrom_sorted (k : Nat) (occ : List Nat) :
    (particlesFrom k occ).Pairwise (· ≤ ·) := by
  induction occ generalizing k with
  | nil => simp [particlesFrom]
  | cons c l ih =>
    rw [particlesFrom, List.pairwise_append]
    refine ⟨?_, ih _, ?_⟩
    · rw [List.pairwise_replicate]; right; exact le_refl k
    · intro a ha b hb
      have := particlesFrom_range hb
      rw [List.mem_replicate] at ha
      omega

theorem count_particlesFrom (k : Nat) (occ : List Nat) (j : Nat) :
    (particlesFrom k occ).count (k + j) = occ.getD j 0 := by
  induction occ generalizing k j with
  | nil => simp [particlesFrom]
  | cons c l ih =>
    rw [particlesFrom, List.count_append, List.count_replicate]
    rcases j with _ | j
    · have : (particlesFrom (k + 1) l).count (k + 0) = 0 := by
        rw [List.count_eq_zero]
        intro h
        have := particlesFrom_range h
        omega
      rw [this]; simp
    · have := ih (k + 1) j
      rw [show k + (j + 1) = k + 1 + j by omega, this]
      simp; omega

theorem count_particles (occ : List Nat) (j : Nat) : (particles occ).count j = occ.getD j 0 := by
  simpa using count_particlesFrom 0 occ j

theorem incAt_ok (f : Nat → Nat) (m : Nat) (i : Nat) (hi : i < m) :
    incAt ((List.range m).map f) (i : Int)
      = .ok ((List.range m).map fun j => f j + if j = i then 1 else 0) := by
  unfold incAt
  rw [pyGet_nonneg, pyGetN_ok (by simpa using hi), ok_bind, pySet_nonneg,
    pySetN_ok (by simpa using hi)]
  congr 1
  apply List.ext_getElem
  · simp
  · intro k h1 h2
    simp only [List.length_set, List.length_map, List.length_range] at h1
    by_cases hk : k = i
    · subst hk; simp
    · rw [List.getElem_set_ne (fun h => hk h.symm)]; simp [hk]

theorem incAt_foldlM (m : Nat) (asg : List Nat) (f : Nat → Nat) (h : ∀ x ∈ asg, x < m) :
    (asg.map fun (x : Nat) => (x : Int)).foldlM incAt ((List.range m).map f)
      = .ok ((List.range m).map fun j => f j + asg.count j) := by
  induction asg generalizing f with
  | nil => simp
  | cons a l ih =>
    rw [List.map_cons, List.foldlM_cons, incAt_ok _ _ _ (h a (by simp)), ok_bind,
      ih _ (fun x hx => h x (by simp [hx]))]
    congr 1
    refine List.map_congr_left fun j _ => ?_
    rw [List.count_cons]
    by_cases hj : j = a
    · subst hj; simp; omega
    · simp [hj, Ne.symm hj]

theorem replicate_zero_eq (m : Nat) : List.replicate m 0 = (List.range m).map fun _ => 0 := by
  simp

/-- The occupation of an assignment with all modes in range. -/
theorem asgToOcc_ok (asg : List Nat) (m : Nat) (hm : 0 < m) (h : ∀ x ∈ asg, x < m) :
    modeAssignmentToModeOccupation (asg.map fun (x : Nat) => (x : Int)) (m : Int)
      = .ok ((List.range m).map fun j => asg.count j) := by
  unfold modeAssignmentToModeOccupation
  have : ¬ ((m : Int) = 0) := by omega
  simp only [this, if_false, pure_eq_ok, ok_bind, Int.toNat_natCast]
  rw [replicate_zero_eq, incAt_foldlM _ _ _ h]
  simp

theorem occ_eq_counts (occ : List Nat) :
    ((List.range occ.length).map fun j => (particles occ).count j) = occ := by
  apply List.ext_getElem
  · simp
  · intro i h1 h2
    simp [count_particles, h2]

theorem count_sum_range (m : Nat) (asg : List Nat) (h : ∀ x ∈ asg, x < m) :
    ((List.range m).map fun j => asg.count j).sum = asg.length := by
  induction asg with
  | nil => simp
  | cons a l ih =>
    have ha := h a (by simp)
    have : ((List.range m).map fun j => (a :: l).count j)
        = (List.range m).map fun j => l.count j + if j = a then 1 else 0 := by
      refine List.map_congr_left fun j _ => ?_
      rw [List.count_cons]
      by_cases hj : j = a
      · subst hj; simp
      · simp [hj, Ne.symm hj]
    rw [this, List.sum_map_add, ih (fun x hx => h x (by simp [hx]))]
    have h1 : ∀ m, ((List.range m).map fun j => if j = a then 1 else 0).sum
        = if a < m then 1 else 0 := by
      intro m
      induction m with
      | zero => simp
      | succ m ihm =>
        rw [List.range_succ, List.map_append, List.sum_append, ihm]
        simp only [List.map_cons, List.map_nil, List.sum_cons, List.sum_nil]
        by_cases h1 : a < m
        · simp [h1, Nat.lt_succ_of_lt h1, ne_of_gt h1]
        · by_cases h2 : m = a
          · subst h2; simp
          · have : ¬ a < m + 1 := by omega
            simp [h1, h2, this]
    rw [h1]; simp [ha]

theorem incAt_ok_length {occ occ' : List Nat} {x : Int} (h : incAt occ x = .ok occ') :
    occ'.length = occ.length := by
  unfold incAt at h
  cases hg : pyGet occ x with
  | error e => rw [hg] at h; simp at h
  | ok v =>
    rw [hg, ok_bind] at h
    unfold pySet at h
    cases hi : pyIdx occ.length x with
    | none => rw [hi] at h; simp at h
    | some k =>
      rw [hi] at h
      simp only [Except.ok.injEq] at h
      rw [← h]; simp

theorem incAt_err {occ : List Nat} {x : Int} (h : (occ.length : Int) ≤ x ∨ x < -(occ.length : Int)) :
    incAt occ x = .error .indexError := by
  have : pyIdx occ.length x = none := by
    unfold pyIdx
    split_ifs <;> first | rfl | omega
  simp [incAt, pyGet, this]

theorem incAt_err_or_ok (occ : List Nat) (x : Int) :
    incAt occ x = .error .indexError ∨ ∃ occ', incAt occ x = .ok occ' := by
  unfold incAt pyGet pySet
  cases hi : pyIdx occ.length x with
  | none => left; rfl
  | some k =>
    simp only
    cases occ[k]? with
    | none => left; rfl
    | some a => right; exact ⟨_, rfl⟩

theorem incAt_foldlM_err (asg : List Int) (occ : List Nat)
    (h : ∃ x ∈ asg, (occ.length : Int) ≤ x ∨ x < -(occ.length : Int)) :
    asg.foldlM incAt occ = .error .indexError := by
  induction asg generalizing occ with
  | nil => simp at h
  | cons a l ih =>
    rw [List.foldlM_cons]
    rcases incAt_err_or_ok occ a with he | ⟨occ', he⟩
    · rw [he]; rfl
    · rw [he, ok_bind]
      apply ih
      obtain ⟨x, hx, hr⟩ := h
      rcases List.mem_cons.mp hx with rfl | hx
      · rw [incAt_err hr] at he; simp at he
      · exact ⟨x, hx, by rw [incAt_ok_length he]; exact hr⟩

theorem pyMax_spec (a : Int) (l : List Int) :
    ∃ M, pyMax (a :: l) = .ok M ∧ M ∈ a :: l ∧ ∀ x ∈ a :: l, x ≤ M := by
  refine ⟨l.foldl max a, rfl, ?_, ?_⟩
  · induction l generalizing a with
    | nil => simp
    | cons b l ih =>
      simp only [List.foldl_cons]
      rcases List.mem_cons.mp (ih (max a b)) with h | h
      · rw [h]; rcases max_choice a b with h' | h' <;> rw [h'] <;> simp
      · simp [h]
  · induction l generalizing a with
    | nil => simp
    | cons b l ih =>
      intro x hx
      simp only [List.foldl_cons]
      have h0 := ih (max a b) (max a b) (by simp)
      simp only [List.mem_cons] at hx
      rcases hx with rfl | rfl | hx
      · exact le_trans (le_max_left _ _) h0
      · exact le_trans (le_max_right _ _) h0
      · exact ih (max a b) x (by simp [hx])

theorem exists_nat_list (a : List Int) (h : ∀ x ∈ a, 0 ≤ x) :
    ∃ b : List Nat, a = b.map fun (x : Nat) => (x : Int) := by
  refine ⟨a.map Int.toNat, ?_⟩
  rw [List.map_map]
  conv_lhs => rw [← List.map_id a]
  refine List.map_congr_left fun x hx => ?_
  simp [h x hx]

end Verif
