import Verif.Spec.CliffordsR
import Verif.Props.Conversions
import Verif.Proofs.UniformBobsRuns

/-! Helper lemmas: the R wrapper. -/
namespace Verif

open scoped ENNReal

theorem flatMap_getD_blocks {α β : Type} (b : ℕ) (g : α → List β) (hg : ∀ x, (g x).length = b) (L : List α) (d : β)
    (j i : ℕ) (hi : i < b) (hj : j < L.length) : (L.flatMap g).getD (j * b + i) d = (g L[j]).getD i d := by
  induction L generalizing j with
  | nil => simp at hj
  | cons x L ih =>
    rw [List.flatMap_cons]
    cases j with
    | zero =>
      rw [Nat.zero_mul, Nat.zero_add, List.getD_append _ _ _ _ (by rw [hg]; exact hi)]
      rfl
    | succ j =>
      have e : (j + 1) * b + i = b + (j * b + i) := by ring
      rw [e, List.getD_append_right _ _ _ _ (by rw [hg]; omega), hg, Nat.add_sub_cancel_left]
      exact ih j (by simpa using hj)

theorem toRMatrix_entry (U : List (List ℂ)) (n i j : ℕ) (hi : i < U.length) (hj : j < n) :
    (toRMatrix (U.map fun row => row.take n) n).entry i j = mget U i j := by
  unfold RMatrix.entry toRMatrix
  simp only
  rw [flatMap_getD_blocks (U.map fun row => row.take n).length _ (by simp) _ _ j i (by simpa using hi) (by simpa using hj)]
  unfold mget
  rw [getD_of_lt _ _ (by simpa using hi), getD_of_lt _ _ hi]
  simp only [List.getElem_map, List.getElem_range]
  simp only [List.getD_eq_getElem?_getD, List.getElem?_take, if_pos hj]

theorem arraySplit_ok {α : Type} (l : List α) (n N : ℕ) (hN : 1 ≤ N) (hl : l.length = N * n) :
    arraySplit l N = .ok ((List.range N).map fun t => (l.drop (t * n)).take n) := by
  unfold arraySplit
  rw [if_neg (by omega)]
  simp only [Int.toNat_natCast, hl, Nat.mul_mod_right, Nat.mul_div_cancel_left n (show 0 < N by omega), pure, Except.pure]
  simp

/-- Decoding of a result of the R sampler. -/
theorem rDecode_ok (m n N : ℕ) (hm : 1 ≤ m) (hN : 1 ≤ N) (result : List ℤ) (h : IsROutput m n N result) :
    ∃ samples, ((do
        let pieces ← (arraySplit (result.map fun x => x - 1) N : Py _)
        pieces.mapM (fun (piece : List ℤ) => modeAssignmentToModeOccupation piece m)) : Py _) = .ok samples ∧
      samples.length = N ∧ ∀ t (ht : t < samples.length), ROccupation m n t result samples[t] ∧ samples[t].sum = n := by
  rw [arraySplit_ok _ n N hN (by simpa using h.1), ok_bind]
  have key : ∀ t < N, ∃ occ, modeAssignmentToModeOccupation (((result.map fun x => x - 1).drop (t * n)).take n) m = .ok occ ∧
      ROccupation m n t result occ ∧ occ.sum = n := by
    intro t ht
    have hmem : ∀ x ∈ ((result.map fun x => x - 1).drop (t * n)).take n, 0 ≤ x ∧ x < (m : ℤ) := by
      intro x hx
      obtain ⟨y, hy, rfl⟩ := List.mem_map.mp (List.mem_of_mem_drop (List.mem_of_mem_take hx))
      have := h.2 y hy
      omega
    obtain ⟨occ, h1, h2, h3, h4, -⟩ := C02_counts_and_sorts _ m hm hmem
    refine ⟨occ, h1, ⟨h2, ?_⟩, ?_⟩
    · intro q hq
      rw [getD_of_lt _ _ (h2 ▸ hq), h3 q (h2 ▸ hq), ← List.map_drop, ← List.map_take]
      have e := List.count_map_of_injective ((result.drop (t * n)).take n) (fun x : ℤ => x - 1)
        (fun x y hxy => by simpa using hxy) ((q : ℤ) + 1)
      rw [← e]
      simp
    · rw [h4]
      simp only [List.length_take, List.length_drop, List.length_map, h.1]
      have : (t + 1) * n ≤ N * n := Nat.mul_le_mul_right n ht
      rw [← Nat.sub_mul]
      have h5 : 1 * n ≤ (N - t) * n := Nat.mul_le_mul_right n (by omega)
      omega
  choose! f hf using key
  refine ⟨(List.range N).map f, ?_, by simp, ?_⟩
  · rw [mapM_ok _ (fun piece => (modeAssignmentToModeOccupation piece m).toOption.getD [])]
    · congr 1
      rw [List.map_map]
      refine List.map_congr_left fun t ht => ?_
      simp only [Function.comp, (hf t (List.mem_range.mp ht)).1]
      rfl
    · intro piece hp
      obtain ⟨t, ht, rfl⟩ := List.mem_map.mp hp
      rw [(hf t (List.mem_range.mp ht)).1]
      rfl
  · intro t ht
    have ht' : t < N := by simpa using ht
    simp only [List.getElem_map, List.getElem_range]
    exact ⟨(hf t ht').2.1, (hf t ht').2.2⟩

theorem firstColumns_ok (U : List (List ℂ)) (m n : ℕ) (hU : U.length = m) (hm : 1 ≤ m) (hrows : ∀ row ∈ U, row.length = m)
    (hn : n ≤ m) : firstColumns U n = .ok (U.map fun row => row.take n) := by
  unfold firstColumns
  obtain ⟨row, hrow⟩ : ∃ row, U[0]? = some row := ⟨_, List.getElem?_eq_getElem (by omega)⟩
  have : row.length = m := hrows row (List.mem_of_getElem? hrow)
  simp [pyGetN, hrow, bind, Except.bind, pure, Except.pure, this, hn]

theorem firstColumns_error (U : List (List ℂ)) (m n : ℕ) (hU : U.length = m) (hm : 1 ≤ m) (hrows : ∀ row ∈ U, row.length = m)
    (hn : m < n) : firstColumns U n = .error .indexError := by
  unfold firstColumns
  obtain ⟨row, hrow⟩ : ∃ row, U[0]? = some row := ⟨_, List.getElem?_eq_getElem (by omega)⟩
  have : row.length = m := hrows row (List.mem_of_getElem? hrow)
  simp [pyGetN, hrow, bind, Except.bind, this, hn]

theorem particles_first (m n : ℕ) : particles (List.replicate n 1 ++ List.replicate m 0) = List.range n := by
  change particlesFrom 0 _ = _
  rw [particlesFrom_append, particlesFrom_ones, List.range_eq_range']
  have : ∀ k, particlesFrom k (List.replicate m 0) = [] := by
    induction m with
    | zero => intro k; rfl
    | succ m ih =>
      intro k
      rw [List.replicate_succ, particlesFrom, ih]
      rfl
  rw [this, List.append_nil]

theorem rProb_eq (U : List (List ℂ)) (S : List ℕ) (m : ℕ) (hU : U.length = m) (T : List ℕ)
    (hT : T.length = m) (hTn : T.sum = S.sum) :
    rProb (toRMatrix (U.map fun row => row.take S.sum) S.sum) T
      = bosonProb U (List.replicate S.sum 1 ++ List.replicate (m - S.sum) 0) T := by
  unfold rProb bosonProb scatteringPermanent
  rw [particles_first]
  have hf : factProd (List.replicate S.sum 1 ++ List.replicate (m - S.sum) 0) = 1 := by
    simp [factProd]
  rw [hf]
  have : (Matrix.of fun (a b : Fin T.sum) =>
      (toRMatrix (U.map fun row => row.take S.sum) S.sum).entry ((particles T).getD a 0) b)
      = Matrix.of fun (a b : Fin T.sum) => mget U ((particles T).getD a 0) ((List.range S.sum).getD b 0) := by
    ext a b
    have hb : (b : ℕ) < S.sum := by have := b.2; omega
    have ha : (a : ℕ) < (particles T).length := by rw [particles_length]; exact a.2
    simp only [Matrix.of_apply]
    rw [getD_of_lt (List.range S.sum) _ (by simpa using hb), List.getElem_range]
    refine toRMatrix_entry U S.sum _ b ?_ hb
    rw [getD_of_lt _ _ ha, hU, ← hT]
    have := particlesFrom_range (List.getElem_mem ha)
    omega
  rw [this]
  simp

theorem rOccupation_unique {m n t : ℕ} {result : List ℤ} {T T' : List ℕ} (h : ROccupation m n t result T)
    (h' : ROccupation m n t result T') : T = T' := by
  refine List.ext_getElem (h.1.trans h'.1.symm) fun q h1 h2 => ?_
  have hq : q < m := h.1 ▸ h1
  have := h.2 q hq
  rw [← h'.2 q hq, getD_of_lt _ _ h1, getD_of_lt _ _ h2] at this
  exact this

end Verif
