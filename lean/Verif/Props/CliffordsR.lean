import Verif.Proofs.CliffordsR

/-!
C55: the wrapper of the R sampler. Helper lemmas are in `Proofs/CliffordsR.lean`.
-/
namespace Verif

open scoped ENNReal

/-- C55, the matrix: R sees the first `n` columns of the interferometer matrix, entry by entry. -/
theorem C55_matrix (U : List (List ℂ)) (m n : ℕ) (hU : U.length = m) (hm : 1 ≤ m) (hrows : ∀ row ∈ U, row.length = m)
    (hn : n ≤ m) : ∃ A, firstColumns U n = .ok A ∧ (toRMatrix A n).nrow = m ∧ (toRMatrix A n).ncol = n ∧
      ∀ i < m, ∀ j < n, (toRMatrix A n).entry i j = mget U i j := by
  refine ⟨_, firstColumns_ok U m n hU hm hrows hn, by simpa [toRMatrix] using hU, rfl, fun i hi j hj => ?_⟩
  exact toRMatrix_entry U n i j (hU ▸ hi) hj

/-- C55, decoding: if the R sampler returns what it documents, `simulate` returns `N` states of `m`
modes with `n` particles, and sample `t` has in mode `q` as many particles as the `t`-th group of `n`
entries of the result has entries `q + 1`. -/
theorem C55_decode (sampler : RSampler) (U : List (List ℂ)) (S : List ℕ) (m N : ℕ) (hS : S.length = m) (hU : U.length = m)
    (hm : 1 ≤ m) (hrows : ∀ row ∈ U, row.length = m) (hn : S.sum ≤ m) (hN : 1 ≤ N)
    (hR : ∀ A : RMatrix, A.nrow = m → A.ncol = S.sum → ∀ r, (sampler A N).Runs r →
      ∃ result, r = .ok result ∧ IsROutput m S.sum N result)
    (r : Py (List (List ℕ))) (h : (rSimulate sampler U S N).Runs r) :
    ∃ A result samples, firstColumns U S.sum = .ok A ∧ (sampler (toRMatrix A S.sum) N).Runs (.ok result) ∧
      r = .ok samples ∧ samples.length = N ∧
      ∀ t (ht : t < samples.length), ROccupation m S.sum t result samples[t] ∧ samples[t].sum = S.sum := by
  have hA := firstColumns_ok U m S.sum hU hm hrows hn
  unfold rSimulate at h
  rw [hA] at h
  simp only [Prog.lift_def, Prog.bind_eq, Prog.done_ok_bind] at h
  rw [Prog.runs_bind] at h
  rcases h with ⟨result, h1, h2⟩ | ⟨e, h1, h2⟩
  · obtain ⟨result', h3, h4⟩ := hR _ (by simpa [toRMatrix] using hU) rfl _ h1
    injection h3 with h3
    subst h3
    obtain ⟨samples, h5, h6, h7⟩ := rDecode_ok m S.sum N hm hN result h4
    refine ⟨_, result, samples, hA, h1, ?_, h6, h7⟩
    rw [hS] at h2
    cases h8 : arraySplit (result.map fun x => x - 1) (N : ℤ) with
    | error e => rw [h8] at h5; simp [bind, Except.bind] at h5
    | ok pieces =>
      rw [h8, ok_bind] at h5
      rw [h8, Prog.done_ok_bind, h5] at h2
      exact h2
  · obtain ⟨result', h3, -⟩ := hR _ (by simpa [toRMatrix] using hU) rfl _ h1
    cases h3

/-- Two samples with two particles in three modes: modes 1 and 3, and twice mode 2. -/
example : (rSimulate (fun _ _ => pure [1, 3, 2, 2]) [[1, 0, 0], [0, 1, 0], [0, 0, 1]] [1, 1, 0] 2).Runs
    (.ok [[1, 0, 1], [0, 2, 0]]) ∧ IsROutput 3 2 2 [1, 3, 2, 2] := by
  refine ⟨rfl, rfl, ?_⟩
  intro x hx
  simp only [List.mem_cons, List.not_mem_nil, or_false] at hx
  omega

/-- C55: with more particles than modes `simulate` raises `IndexError`. -/
theorem C55_too_many (sampler : RSampler) (U : List (List ℂ)) (S : List ℕ) (m : ℕ) (N : ℤ) (hU : U.length = m)
    (hm : 1 ≤ m) (hrows : ∀ row ∈ U, row.length = m) (hn : m < S.sum) :
    rSimulate sampler U S N = .done (.error .indexError) := by
  unfold rSimulate
  rw [firstColumns_error U m S.sum hU hm hrows hn]
  rfl

/-- C55: for `samples_number ≤ 0`, `simulate` never returns a list. -/
theorem C55_no_samples (sampler : RSampler) (U : List (List ℂ)) (S : List ℕ) (N : ℤ) (hN : N ≤ 0) (l : List (List ℕ)) :
    ¬ (rSimulate sampler U S N).Runs (.ok l) := by
  unfold rSimulate
  intro h
  simp only [Prog.lift_def, Prog.bind_eq] at h
  rw [Prog.runs_bind] at h
  rcases h with ⟨A, -, h⟩ | ⟨e, -, h⟩
  · rw [Prog.runs_bind] at h
    rcases h with ⟨result, -, h⟩ | ⟨e, -, h⟩
    · rw [arraySplit, if_pos hN] at h
      cases h
    · cases h
  · cases h

/-- C55, the columns: the columns passed to R are the columns of the input particles, with
multiplicity, exactly if the particles occupy the first modes, one each. -/
theorem C55_columns_iff (S : List ℕ) :
    (List.range S.sum).Perm (particles S) ↔ S = List.replicate S.sum 1 ++ List.replicate (S.length - S.sum) 0 := by
  constructor
  · intro h
    refine List.ext_getElem ?_ ?_
    · have : S.sum ≤ S.length := by
        by_contra hlt
        have h1 : S.length ∈ List.range S.sum := List.mem_range.mpr (by omega)
        have h2 := particlesFrom_range (h.subset h1)
        omega
      simp
      omega
    · intro i h1 h2
      have h3 := h.count_eq i
      rw [count_particles, getD_of_lt _ _ h1] at h3
      rw [← h3]
      by_cases hi : i < S.sum
      · rw [List.getElem_append_left (by simpa using hi), List.getElem_replicate, List.count_eq_one_of_mem List.nodup_range]
        exact List.mem_range.mpr hi
      · rw [List.getElem_append_right (by simpa using hi), List.getElem_replicate, List.count_eq_zero]
        simpa using hi
  · intro h
    have := particles_first (S.length - S.sum) S.sum
    rw [← h] at this
    rw [this]

/-- C55, the law, as far as it holds: if the R sampler is exact, then every sample of `simulate` has
the distribution for the input with one particle in each of the first `n` modes. Missing: for other
inputs with `n` particles the distribution is this one too instead of that of the given input, see
`C55_fails`. -/
theorem C55_law_partial (sampler : RSampler) (U : List (List ℂ)) (S : List ℕ) (m N : ℕ) (hS : S.length = m) (hU : U.length = m)
    (hm : 1 ≤ m) (hrows : ∀ row ∈ U, row.length = m) (hn : S.sum ≤ m) (hN : 1 ≤ N)
    (hR : ∀ A, firstColumns U S.sum = .ok A → RExactFor sampler (toRMatrix A S.sum) N)
    (t : ℕ) (ht : t < N) (T : List ℕ) (hT : T.length = m) (hTn : T.sum = S.sum) :
    (rSimulate sampler U S N).prob (fun r => ∃ samples, r = .ok samples ∧ samples[t]? = some T)
      = ENNReal.ofReal (bosonProb U (List.replicate S.sum 1 ++ List.replicate (m - S.sum) 0) T) := by
  have hA := firstColumns_ok U m S.sum hU hm hrows hn
  have hex := hR _ hA
  have hrow : (toRMatrix (U.map fun row => row.take S.sum) S.sum).nrow = m := by simpa [toRMatrix] using hU
  have hlaw := hex.law t ht T (hT.trans hrow.symm) hTn
  have e1 := rProb_eq U S m hU T hT hTn
  rw [← e1, ← hlaw]
  unfold Prog.prob rSimulate
  rw [hA]
  simp only [Prog.lift_def, Prog.bind_eq, Prog.done_ok_bind]
  rw [Prog.wp_bind]
  refine Prog.wp_congr _ _ _ fun r hr => ?_
  obtain ⟨result, rfl, hres⟩ := hex.output r hr
  rw [hrow] at hres
  obtain ⟨samples, h5, h6, h7⟩ := rDecode_ok m S.sum N hm hN result hres
  rw [← hS] at h5
  cases h8 : arraySplit (result.map fun x => x - 1) (N : ℤ) with
  | error e => rw [h8] at h5; simp [bind, Except.bind] at h5
  | ok pieces =>
    rw [h8, ok_bind] at h5
    simp only [Prog.post, h8, Prog.done_ok_bind, h5, Prog.wp]
    have ht' : t < samples.length := by omega
    congr 1
    refine propext ⟨?_, ?_⟩
    · rintro ⟨l, h9, h10⟩
      injection h9 with h9
      subst h9
      rw [List.getElem?_eq_getElem ht', Option.some.injEq] at h10
      refine ⟨result, rfl, ?_⟩
      rw [hrow, ← h10]
      exact (h7 t ht').1
    · rintro ⟨result', h9, h10⟩
      injection h9 with h9
      subst h9
      rw [hrow] at h10
      have h10 : ROccupation m S.sum t result T := h10
      refine ⟨samples, rfl, ?_⟩
      rw [List.getElem?_eq_getElem ht', Option.some.injEq]
      have h11 := (h7 t ht').1
      refine List.ext_getElem (h11.1.trans h10.1.symm) fun q h12 h13 => ?_
      have hq : q < m := h11.1 ▸ h12
      have := h11.2 q hq
      rw [← h10.2 q hq, getD_of_lt _ _ h12, getD_of_lt _ _ h13] at this
      exact this

private theorem prob_done_pos {α : Type} {r : Py α} {P : Py α → Prop} (h : P r) : (Prog.done r).prob P = 1 :=
  if_pos h

private theorem prob_done_neg {α : Type} {r : Py α} {P : Py α → Prop} (h : ¬ P r) : (Prog.done r).prob P = 0 :=
  if_neg h

/-- An R sampler that always puts every particle into the first mode. -/
def firstModeSampler : RSampler := fun A N => pure (List.replicate (N.toNat * A.ncol) 1)

/-- C55 fails: for the identity and the input `(0, 1)` the column of the first mode is passed to R; with
an R sampler that works, the sample is `(1, 0)` with probability 1, although this outcome is
impossible. -/
theorem C55_fails :
    ¬ (List.range [0, 1].sum).Perm (particles [0, 1]) ∧
    (∀ A, firstColumns [[1, 0], [0, 1]] [0, 1].sum = .ok A → RExactFor firstModeSampler (toRMatrix A [0, 1].sum) 1) ∧
    (rSimulate firstModeSampler [[1, 0], [0, 1]] [0, 1] 1).prob (fun r => r = .ok [[1, 0]]) = 1 ∧
    bosonProb [[1, 0], [0, 1]] [0, 1] [1, 0] = 0 := by
  have hA : firstColumns [[1, 0], [0, 1]] [0, 1].sum = .ok [[1], [0]] := rfl
  refine ⟨by decide, ?_, ?_, ?_⟩
  · intro A h
    rw [hA] at h
    injection h with h
    subst h
    refine ⟨?_, ?_⟩
    · intro r hr
      change r = _ at hr
      exact ⟨[1], hr, by simp [toRMatrix], by simp [toRMatrix]⟩
    · intro t ht T hT hTn
      obtain ⟨a, b, rfl⟩ : ∃ a b, T = [a, b] := by
        match T, hT with
        | [a, b], _ => exact ⟨a, b, rfl⟩
      have hab : a + b = 1 := by simpa [toRMatrix] using hTn
      have ht0 : t = 0 := by omega
      subst ht0
      have hcases : a = 1 ∧ b = 0 ∨ a = 0 ∧ b = 1 := by omega
      rcases hcases with ⟨rfl, rfl⟩ | ⟨rfl, rfl⟩
      · refine Eq.trans (prob_done_pos (r := .ok [1]) ⟨[1], rfl, ?_⟩) ?_
        rotate_left
        · have : rProb (toRMatrix [[1], [0]] [0, 1].sum) [1, 0] = 1 := by
            unfold rProb
            have h1 : particles [1, 0] = [0] := by decide
            rw [h1]
            change Complex.normSq (Matrix.permanent (Matrix.of fun (a b : Fin 1) => _)) / _ = _
            simp [Matrix.permanent, factProd, RMatrix.entry, toRMatrix]
          exact (congrArg ENNReal.ofReal this).symm ▸ ENNReal.ofReal_one.symm
        · refine ⟨rfl, ?_⟩
          intro q hq
          have : q = 0 ∨ q = 1 := by
            have hq : q < 2 := hq
            omega
          rcases this with rfl | rfl <;> rfl
      · refine Eq.trans (prob_done_neg (r := .ok [1]) ?_) ?_
        rotate_left
        · have : rProb (toRMatrix [[1], [0]] [0, 1].sum) [0, 1] = 0 := by
            unfold rProb
            have h1 : particles [0, 1] = [1] := by decide
            rw [h1]
            change Complex.normSq (Matrix.permanent (Matrix.of fun (a b : Fin 1) => _)) / _ = _
            simp [Matrix.permanent, factProd, RMatrix.entry, toRMatrix]
          exact (congrArg ENNReal.ofReal this).symm ▸ ENNReal.ofReal_zero.symm
        · rintro ⟨result, h1, -, h⟩
          injection h1 with h1
          subst h1
          have := h 0 (by simp [toRMatrix])
          simp [toRMatrix] at this
  · exact prob_done_pos (r := .ok [[1, 0]]) rfl
  · unfold bosonProb scatteringPermanent
    have h1 : particles [1, 0] = [0] := by decide
    have h2 : particles [0, 1] = [1] := by decide
    rw [h1, h2]
    have : (Matrix.permanent (Matrix.of fun (a b : Fin [1, 0].sum) =>
        mget [[(1 : ℂ), 0], [0, 1]] ([0].getD a 0) ([1].getD b 0))) = 0 := by
      change Matrix.permanent (Matrix.of fun (a b : Fin 1) => _) = _
      simp [Matrix.permanent, mget]
    rw [this]
    simp

end Verif
