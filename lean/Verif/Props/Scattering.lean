import Verif.Proofs.Scattering

/-! C11: the effective scattering matrix. -/
namespace Verif

/-- C11: the effective scattering matrix has `sum(T)` rows and `sum(S)` columns, and its
`(a, b)` entry is the matrix entry at (mode of output particle `a`, mode of input particle `b`). -/
theorem C11_entries {K : Type _} [Zero K] (U : List (List K)) (S T : List Nat) (c : Nat)
    (hc : ∀ r ∈ U, r.length = c) (hS : S.length ≤ c) (hT : T.length ≤ U.length)
    (hS0 : S.sum ≠ 0) (hT0 : T.sum ≠ 0) :
    ∃ E, effectiveScatteringMatrix U S T = .ok E ∧ E.length = T.sum ∧
      (∀ r ∈ E, r.length = S.sum) ∧
      ∀ a (ha : a < (particles T).length) b (hb : b < (particles S).length),
        mget E a b = mget U (particles T)[a] (particles S)[b] := by
  refine ⟨scatter U S T, effectiveScatteringMatrix_ok U S T c hc hS hT hS0 hT0, ?_, ?_, ?_⟩
  · rw [scatter, List.length_map, particlesFrom_length]
  · intro r hr
    obtain ⟨i, -, rfl⟩ := List.mem_map.mp hr
    rw [List.length_map, particlesFrom_length]
  · intro a ha b hb
    rw [mget_of_lt _ (by simpa [scatter] using ha) (by simpa [scatter] using hb)]
    simp [scatter]

/-- The particle list used in `C11_entries` is the one listing every particle of the state in
mode order: sorted, with mode `i` occurring as often as it is occupied. -/
theorem C11_particles (S : List Nat) (p : List Nat) :
    p = particles S ↔ p.Pairwise (· ≤ ·) ∧ ∀ i, p.count i = S.getD i 0 := by
  constructor
  · rintro rfl
    exact ⟨particlesFrom_sorted 0 S, count_particles S⟩
  · rintro ⟨h1, h2⟩
    refine List.Perm.eq_of_pairwise (le := (· ≤ ·)) (fun a b _ _ => le_antisymm) h1
      (particlesFrom_sorted 0 S) ?_
    rw [List.perm_iff_count]
    intro i; rw [h2, count_particles]

/-- C11: if either state is the vacuum the empty list is returned. -/
theorem C11_vacuum {K : Type _} (U : List (List K)) (S T : List Nat) (h : S.sum = 0 ∨ T.sum = 0) :
    effectiveScatteringMatrix U S T = .ok [] := by
  simp [effectiveScatteringMatrix, h]

example : effectiveScatteringMatrix [[1, 2, 3], [4, 5, 6], [7, 8, 9]] [0, 1, 1] [2, 0, 1]
    = .ok [[2, 3], [2, 3], [(8 : Int), 9]] := by decide

end Verif
