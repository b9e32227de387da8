import Verif.Proofs.PermFinal

/-! C20–C21: the submatrix permanent calculators. -/
namespace Verif

variable {K : Type} [Field K]

/-- Specification: the state `S` with one particle removed from mode `i`. -/
def removeParticle (S : List Nat) (i : Nat) : List Nat :=
  S.mapIdx fun k s => if k = i then s - 1 else s

theorem removeParticle_eq (S : List Nat) (i : Nat) : removeParticle S i = decAt S i := by
  unfold removeParticle decAt
  apply List.ext_getElem
  · simp
  · intro k h1 h2
    have hk : k < S.length := by simpa using h1
    rw [List.getElem_mapIdx, List.getElem_set]
    by_cases h : i = k
    · subst h; rw [if_pos rfl, if_pos rfl, getD_of_lt _ _ hk]
    · rw [if_neg (fun e => h e.symm), if_neg h]

/-- C20: for `sum(S) = sum(T) + 1` the Ryser submatrix calculator returns one value per mode, the
`i`-th being the permanent for the input with one particle removed from mode `i`, and 0 when the
mode is empty; whatever private state `s` the calculator object is in. -/
theorem C20_ryser [CharZero K] (U : List (List K)) (S T : List Nat) (n : Nat)
    (hU : ∀ r ∈ U, r.length = n) (hT : T.length ≤ U.length) (hSn : S.length ≤ n) (hS : S ≠ [])
    (hn : S.sum = T.sum + 1) (s : SubScratch K) (fuel : Nat) (hf : (S.map (· + 1)).prod ≤ fuel) :
    ∃ l s', computePermanents ryserSubMethod fuel ⟨U, S, T⟩ s = .ok (l, s') ∧
      l.length = S.length ∧
      ∀ i (hi : i < l.length), l[i] = if S.getD i 0 = 0 then 0
        else scatteringPermanent U (removeParticle S i) T := by
  obtain ⟨s', h⟩ := ryserSub_ok ⟨hU, hT, hSn, hS⟩ hn s fuel hf
  refine ⟨_, s', h, by simp [subResult], fun i hi => ?_⟩
  simp only [subResult, List.getElem_map, List.getElem_range, removeParticle_eq]

/-- C21: the same claim for the Chin–Huh submatrix calculator. -/
theorem C21_chinHuh [CharZero K] (U : List (List K)) (S T : List Nat) (n : Nat)
    (hU : ∀ r ∈ U, r.length = n) (hT : T.length ≤ U.length) (hSn : S.length ≤ n) (hS : S ≠ [])
    (hn : S.sum = T.sum + 1) (s : SubScratch K) (fuel : Nat) (hf : (S.map (· + 1)).prod ≤ fuel) :
    ∃ l s', computePermanents chSubMethod fuel ⟨U, S, T⟩ s = .ok (l, s') ∧
      l.length = S.length ∧
      ∀ i (hi : i < l.length), l[i] = if S.getD i 0 = 0 then 0
        else scatteringPermanent U (removeParticle S i) T := by
  obtain ⟨s', h⟩ := chSub_ok ⟨hU, hT, hSn, hS⟩ hn s fuel hf
  refine ⟨_, s', h, by simp [subResult], fun i hi => ?_⟩
  simp only [subResult, List.getElem_map, List.getElem_range, removeParticle_eq]

/-- C21: both submatrix calculators return the same list. -/
theorem C21_agree [CharZero K] (U : List (List K)) (S T : List Nat) (n : Nat)
    (hU : ∀ r ∈ U, r.length = n) (hT : T.length ≤ U.length) (hSn : S.length ≤ n) (hS : S ≠ [])
    (hn : S.sum = T.sum + 1) (fuel : Nat) (hf : (S.map (· + 1)).prod ≤ fuel) :
    ryserSubPermanents fuel ⟨U, S, T⟩ = chSubPermanents fuel ⟨U, S, T⟩ := by
  obtain ⟨s', h⟩ := ryserSub_ok ⟨hU, hT, hSn, hS⟩ hn (freshSubScratch _) fuel hf
  obtain ⟨s'', h'⟩ := chSub_ok ⟨hU, hT, hSn, hS⟩ hn (freshSubScratch _) fuel hf
  rw [ryserSubPermanents, chSubPermanents, h, h']
  rfl

example : ryserSubPermanents 12 ⟨[[1, 2, 3], [4, 5, 6], [7, 8, (9 : ℚ)]], [2, 0, 1], [1, 0, 1]⟩
    = .ok [1 * 9 + 3 * 7, 0, 2 * 7] := by decide +kernel
example : chSubPermanents 12 ⟨[[1, 2, 3], [4, 5, 6], [7, 8, (9 : ℚ)]], [2, 0, 1], [1, 0, 1]⟩
    = .ok [1 * 9 + 3 * 7, 0, 2 * 7] := by decide +kernel
example : chSubPermanents 2 ⟨[[1, 2], [3, (4 : ℚ)]], [0, 1], [0, 0]⟩ = .ok [0, 1] := by decide +kernel

end Verif
