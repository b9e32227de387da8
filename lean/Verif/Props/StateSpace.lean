import Verif.Proofs.Generate

/-! C03, C04, C05: generated state spaces and their dimension. -/
namespace Verif

/-- C03: for `n ≥ 0`, `m ≥ 1` the generator terminates and lists every `m`-tuple with sum `n`
exactly once, in strictly descending lexicographic order. -/
theorem C03_exact (n m : Int) (hn : 0 ≤ n) (hm : 1 ≤ m) :
    ∃ states F, (∀ fuel ≥ F, generatePossibleStates fuel n m = .ok states) ∧
      (∀ s : List Nat, s ∈ states ↔ (s.length : Int) = m ∧ (s.sum : Int) = n) ∧
      states.Nodup ∧ states.Pairwise (fun a b => b < a) := by
  obtain ⟨k, rfl⟩ := Int.eq_ofNat_of_zero_le hn
  obtain ⟨m', rfl⟩ : ∃ m' : Nat, m = ((m' + 1 : Nat) : Int) := ⟨(m - 1).toNat, by omega⟩
  refine ⟨allStates m' k false, genFuel m' k, ?_, ?_, allStates_nodup _ _ _, stDesc_sorted m' k⟩
  · intro fuel hf
    exact generatePossibleStates_ok fuel k m' false hf
  · intro s
    rw [mem_allStates]
    simp only [Bool.false_eq_true, if_false]
    omega

/-- C03: outside that range the list is empty. -/
theorem C03_degenerate (fuel : Nat) (n m : Int) (losses : Bool) (h : n < 0 ∨ m < 1) :
    generatePossibleStates fuel n m losses = .ok [] := by
  simp [generatePossibleStates, h]

example : generatePossibleStates 20 2 3 = .ok [[2, 0, 0], [1, 1, 0], [1, 0, 1], [0, 2, 0],
    [0, 1, 1], [0, 0, 2]] :=
  (generatePossibleStates_ok 20 2 2 false (by decide)).trans (by decide)

/-- C04: with losses the generator lists every `m`-tuple with sum at most `n` exactly once,
by ascending particle number and descending lexicographically within one particle number. -/
theorem C04_exact (n m : Int) (hn : 0 ≤ n) (hm : 1 ≤ m) :
    ∃ states F, (∀ fuel ≥ F, generatePossibleStates fuel n m true = .ok states) ∧
      (∀ s : List Nat, s ∈ states ↔ (s.length : Int) = m ∧ (s.sum : Int) ≤ n) ∧
      states.Nodup ∧
      states.Pairwise (fun a b => a.sum < b.sum ∨ (a.sum = b.sum ∧ b < a)) := by
  obtain ⟨k, rfl⟩ := Int.eq_ofNat_of_zero_le hn
  obtain ⟨m', rfl⟩ : ∃ m' : Nat, m = ((m' + 1 : Nat) : Int) := ⟨(m - 1).toNat, by omega⟩
  refine ⟨allStates m' k true, genFuel m' k, ?_, ?_, allStates_nodup _ _ _, allStates_sorted _ _ _⟩
  · intro fuel hf
    exact generatePossibleStates_ok fuel k m' true hf
  · intro s
    rw [mem_allStates]
    simp only [if_true]
    omega

example : generatePossibleStates 20 1 2 true = .ok [[0, 0], [1, 0], [0, 1]] :=
  (generatePossibleStates_ok 20 1 1 true (by decide)).trans (by decide)

/-- C05: the dimension formula counts the generated states, with and without losses. -/
theorem C05_dimension (n m : Nat) (losses : Bool) (hm : 1 ≤ m) :
    ∃ states F, (∀ fuel ≥ F, generatePossibleStates fuel n m losses = .ok states) ∧
      bosonicSpaceDimension n m losses = states.length := by
  obtain ⟨m', rfl⟩ : ∃ m' : Nat, m = m' + 1 := ⟨m - 1, by omega⟩
  refine ⟨allStates m' n losses, genFuel m' n,
    fun fuel hf => generatePossibleStates_ok fuel n m' losses hf, ?_⟩
  have hfold : ∀ (l : List Nat) (d : Nat),
      l.foldl (fun d i => d + (i + (m' + 1) - 1).choose i) d
        = d + (l.map fun i => (i + m').choose i).sum := by
    intro l
    induction l with
    | nil => simp
    | cons a l ih =>
      intro d
      rw [List.foldl_cons, ih, List.map_cons, List.sum_cons]
      have : a + (m' + 1) - 1 = a + m' := by omega
      rw [this]; ring
  cases losses
  · simp [bosonicSpaceDimension, allStates, stDesc_length]
  · simp only [bosonicSpaceDimension, allStates, if_true, Bool.not_true, Bool.false_eq_true, if_false,
      List.length_flatMap, stDesc_length, hfold]
    rw [List.range_succ, List.map_append, List.sum_append]
    have : n + (m' + 1) - 1 = n + m' := by omega
    rw [this]
    simp; ring

example : bosonicSpaceDimension 2 3 true = 10 := by decide

end Verif
