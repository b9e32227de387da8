import Verif.Proofs.States

/-! C01, C02: conversions between mode occupations and mode assignments. -/
namespace Verif

/-- C01: occupation → assignment → occupation is the identity, without raising. -/
theorem C01_roundtrip (s : List Nat) (hs : s ≠ []) :
    ∃ a, modeOccupationToModeAssignment s = .ok a ∧
      modeAssignmentToModeOccupation (a.map fun (x : Nat) => (x : Int)) s.length = .ok s := by
  refine ⟨particles s, modeOccupationToModeAssignment_eq s, ?_⟩
  rw [asgToOcc_ok _ _ (List.length_pos_iff.mpr hs), occ_eq_counts]
  intro x hx
  simpa using (particlesFrom_range hx).2

example : modeOccupationToModeAssignment [2, 0, 1] = .ok [0, 0, 2] := by decide
example : modeAssignmentToModeOccupation [0, 0, 2] 3 = .ok [2, 0, 1] := by decide

/-- C02: for an assignment with all modes in `[0, m)` the occupation has `m` entries, entry `i`
counts the particles in mode `i`, the total is `len(a)`, and converting back sorts. -/
theorem C02_counts_and_sorts (a : List Int) (m : Nat) (hm : 1 ≤ m) (ha : ∀ x ∈ a, 0 ≤ x ∧ x < m) :
    ∃ occ, modeAssignmentToModeOccupation a m = .ok occ ∧ occ.length = m ∧
      (∀ i (h : i < occ.length), occ[i] = a.count (i : Int)) ∧ occ.sum = a.length ∧
      ∃ b, modeOccupationToModeAssignment occ = .ok b ∧
        (b.map fun (x : Nat) => (x : Int)).Perm a ∧ b.Pairwise (· ≤ ·) := by
  obtain ⟨b, rfl⟩ := exists_nat_list a (fun x hx => (ha x hx).1)
  have hb : ∀ x ∈ b, x < m := by
    intro x hx
    have := (ha x (List.mem_map.mpr ⟨x, hx, rfl⟩)).2
    omega
  have hcount : ∀ i : Nat, (b.map fun (x : Nat) => (x : Int)).count (i : Int) = b.count i :=
    fun i => List.count_map_of_injective b _ (fun x y h => by simpa using h) i
  refine ⟨_, asgToOcc_ok b m hm hb, by simp, ?_, ?_, ?_⟩
  · intro i h
    rw [hcount]; simp
  · rw [count_sum_range m b hb]; simp
  · refine ⟨_, modeOccupationToModeAssignment_eq _, ?_, particlesFrom_sorted _ _⟩
    refine List.Perm.map _ ?_
    rw [List.perm_iff_count]
    intro j
    rw [count_particles]
    by_cases hj : j < m
    · simp [hj]
    · have : b.count j = 0 := List.count_eq_zero.mpr (fun h => hj (hb j h))
      simp [hj, this]

example : ∀ x ∈ [(2 : Int), 0, 2, 1], 0 ≤ x ∧ x < (4 : Nat) := by decide
example : modeAssignmentToModeOccupation [2, 0, 2, 1] 4 = .ok [1, 1, 2, 0] := by decide

/-- C02: a mode `≥ m` or `< -m` raises `IndexError`. -/
theorem C02_out_of_range (a : List Int) (m : Nat) (hm : 1 ≤ m)
    (ha : ∃ x ∈ a, (m : Int) ≤ x ∨ x < -(m : Int)) :
    modeAssignmentToModeOccupation a m = .error .indexError := by
  unfold modeAssignmentToModeOccupation
  have : ¬ ((m : Int) = 0) := by omega
  simp only [this, if_false, pure_eq_ok, ok_bind, Int.toNat_natCast]
  exact incAt_foldlM_err a _ (by simpa using ha)

example : ∃ x ∈ [(0 : Int), 3], ((3 : Nat) : Int) ≤ x ∨ x < -((3 : Nat) : Int) := by decide

/-- C02: with the default `m` the length is `max(a) + 1`, and the entries count particles. -/
theorem C02_default (a : List Int) (M : Int) (hM : M ∈ a) (hmax : ∀ x ∈ a, x ≤ M)
    (ha : ∀ x ∈ a, 0 ≤ x) :
    ∃ occ, modeAssignmentToModeOccupation a = .ok occ ∧ (occ.length : Int) = M + 1 ∧
      ∀ i (h : i < occ.length), occ[i] = a.count (i : Int) := by
  have hM0 := ha M hM
  cases a with
  | nil => simp at hM
  | cons x l =>
    obtain ⟨M', hM', hmem, hle⟩ := pyMax_spec x l
    have heq : M' = M := le_antisymm (hmax _ hmem) (hle _ hM)
    subst heq
    obtain ⟨occ, h1, h2, h3, -⟩ := C02_counts_and_sorts (x :: l) (M'.toNat + 1) (by omega)
      (fun y hy => ⟨ha y hy, by have := hmax y hy; omega⟩)
    refine ⟨occ, ?_, by omega, h3⟩
    rw [← h1]
    unfold modeAssignmentToModeOccupation
    have h0 : ¬ (((M'.toNat + 1 : Nat) : Int) = 0) := by omega
    simp only [if_true, hM', ok_bind, pure_eq_ok, h0, if_false]
    congr 2
    omega

example : modeAssignmentToModeOccupation [2, 0, 2] = .ok [1, 0, 2] := by decide

/-- C02: an empty assignment with the default mode number raises `ValueError`. -/
theorem C02_default_empty : modeAssignmentToModeOccupation [] = .error .valueError := rfl

end Verif
