import Verif.Proofs.States

/-! Helper lemmas: effective scattering matrix. -/
namespace Verif

variable {K : Type _} [Zero K]

theorem mget_of_lt (a : List (List K)) {i j : Nat} (hi : i < a.length) (hj : j < a[i].length) :
    mget a i j = a[i][j] := by
  simp [mget, hi, hj]

theorem npTranspose_ok (a : List (List K)) (c : Nat) (hne : a ≠ []) (hc : ∀ r ∈ a, r.length = c) :
    npTranspose a = .ok ((List.range c).map fun j => (List.range a.length).map fun i => mget a i j) := by
  cases a with
  | nil => exact absurd rfl hne
  | cons r rs =>
    have hr : r.length = c := hc r (by simp)
    unfold npTranspose
    have hall : rs.all (fun x => x.length == r.length) = true := by
      rw [List.all_eq_true]
      intro x hx
      simp [hr, hc x (by simp [hx])]
    simp only [hall, if_true]
    rw [hr]
    rw [mapM_ok _ (fun j => (List.range (r :: rs).length).map fun i => mget (r :: rs) i j)]
    intro j hj
    have hj' := List.mem_range.mp hj
    rw [mapM_ok _ (fun row => row.getD j 0)]
    · congr 1
      apply List.ext_getElem
      · simp
      · intro i h1 h2
        have hi : i < (r :: rs).length := by simpa using h1
        have : ((r :: rs)[i]).length = c := hc _ (List.getElem_mem hi)
        simp only [List.getElem_map, List.getElem_range]
        rw [mget_of_lt _ hi (by omega), getD_of_lt _ _ (by omega)]
    · intro row hrow
      have : row.length = c := hc row hrow
      rw [pyGetN_ok (by omega), getD_of_lt _ _ (by omega)]

omit [Zero K] in
theorem repeatRows_ok (rows : List (List K)) (state : List Nat) (h : state.length ≤ rows.length) :
    repeatRows rows state = .ok ((particles state).map fun i => rows.getD i []) := by
  unfold repeatRows
  have e : ∀ (acc : List (List K)), ∀ i ∈ List.range state.length,
      (do
        let row ← pyGetN rows i
        let c ← pyGetN state i
        pure (acc ++ List.replicate c row) : Py _)
      = (do
        let c ← pyGetN state i
        pure (acc ++ List.replicate c (rows.getD i [])) : Py _) := by
    intro acc i hi
    have := List.mem_range.mp hi
    rw [pyGetN_ok (l := rows) (by omega), ok_bind, getD_of_lt rows [] (by omega)]
  rw [foldlM_congr' _ _ _ _ e]
  rw [foldlM_range_get state (fun acc i c => pure (acc ++ List.replicate c (rows.getD i [])))]
  rw [foldlM_ok (fun (acc : List (List K)) (p : Nat × Nat) =>
      pure (acc ++ List.replicate p.1 (rows.getD p.2 [])))
    (fun acc p => acc ++ List.replicate p.1 (rows.getD p.2 [])) _ _ (fun _ _ _ => rfl)]
  rw [flatMap_foldl, List.nil_append, particles, particlesFrom_eq, List.map_flatMap]
  simp [List.map_replicate]

/-- The scattering matrix as nested lists over the particles. -/
def scatter (U : List (List K)) (S T : List Nat) : List (List K) :=
  (particles T).map fun i => (particles S).map fun j => mget U i j

theorem effectiveScatteringMatrix_ok (U : List (List K)) (S T : List Nat) (c : Nat)
    (hc : ∀ r ∈ U, r.length = c) (hS : S.length ≤ c) (hT : T.length ≤ U.length)
    (hS0 : S.sum ≠ 0) (hT0 : T.sum ≠ 0) :
    effectiveScatteringMatrix U S T = .ok (scatter U S T) := by
  have hU : U ≠ [] := by
    rintro rfl
    simp at hT; subst hT; simp at hT0
  unfold effectiveScatteringMatrix
  rw [if_neg (by tauto), npTranspose_ok U c hU hc, ok_bind, repeatRows_ok _ _ (by simpa using hS),
    ok_bind]
  have hmem : ∀ j ∈ particles S, j < c := by
    intro j hj
    have := (particlesFrom_range hj).2
    omega
  have h1 : ((particles S).map fun i =>
      ((List.range c).map fun j => (List.range U.length).map fun i => mget U i j).getD i [])
      = (particles S).map fun j => (List.range U.length).map fun i => mget U i j := by
    refine List.map_congr_left fun j hj => ?_
    rw [getD_of_lt _ _ (by simpa using hmem j hj)]
    simp
  rw [h1]
  have hlen : (particles S).length = S.sum := particlesFrom_length 0 S
  rw [npTranspose_ok _ U.length]
  · rw [ok_bind, repeatRows_ok _ _ (by simpa using hT)]
    congr 1
    unfold scatter
    refine List.map_congr_left fun i hi => ?_
    have hi' := (particlesFrom_range hi).2
    have hi'' : i < U.length := by omega
    rw [getD_of_lt _ _ (by simpa using hi'')]
    apply List.ext_getElem
    · simp
    · intro b hb1 hb2
      simp only [List.getElem_map, List.getElem_range]
      rw [mget_of_lt _ (by simpa using hb1) (by simpa using hi'')]
      simp
  · intro h
    have := congrArg List.length h
    rw [List.length_map, hlen] at this
    exact hS0 this
  · intro r hr
    obtain ⟨j, -, rfl⟩ := List.mem_map.mp hr
    simp

end Verif
