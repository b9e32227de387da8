import Verif.Proofs.UniformBobsRuns

/-! C43, C44, C45, C46, C60: the sampler for uniform losses with approximated modes. `h` is the
hierarchy level, that is the number of exactly treated modes, `hash` Python's hash of tuples. -/
namespace Verif

open Finset
open scoped ENNReal

variable {m : ℕ}

/-- Hashes that meet the hypothesis used below. -/
theorem hashOk_encode (s : List ℕ) : HashOk (fun l => (Encodable.encode l : ℤ)) s := by
  intro a b _ _ h
  simp only [Nat.cast_inj] at h
  exact Encodable.encode_injective h

/-! ### C43 -/

/-- C43: the numbers of samples of the threads sum to `N` and differ by at most one. -/
theorem C43_split (N threads : ℕ) (ht : 0 < threads) :
    ∃ ns, distributeUniformly N threads = .ok ns ∧ ns.length = threads ∧ ns.sum = N ∧
      ∀ a ∈ ns, ∀ b ∈ ns, a ≤ b + 1 := by
  have hr := Nat.mod_lt N ht
  refine ⟨_, distributeUniformly_ok N threads ht, ?_, distribute_sum N threads ht, ?_⟩
  · simp; omega
  · intro a ha b hb
    rw [List.mem_append, List.mem_replicate, List.mem_replicate] at ha hb
    omega

/-- A concrete case. -/
example : distributeUniformly 7 3 = .ok [3, 2, 2] := by decide

/-- C43: in a completed call each thread returns a list; there is one for each thread of the object, their
lengths sum to `N` and differ by at most one. What `simulate` returns are these lists one after the other. -/
theorem C43_threads (hash : List ℕ → ℤ) (sub : CalcCfg ℂ → Py (List ℂ)) (fuel : ℕ) (U : Matrix (Fin m) (Fin m) ℂ)
    (cpu : ℕ) (hc : 0 < cpu) (eta : ℝ) (h : ℕ) (t : ℤ) (o : UBobsObj m) (ho : uBobsInit U cpu eta h t = .ok o)
    (S : List ℕ) (N : ℤ) (hN : 1 ≤ N) :
    (∀ ls, (uBobsThreads hash sub fuel o S N).Runs (.ok ls) →
      ls.length = o.threads ∧ (ls.map List.length).sum = N ∧ ∀ a ∈ ls, ∀ b ∈ ls, a.length ≤ b.length + 1) ∧
    ∀ l, (uBobsSimulate hash sub fuel o S N).Runs (.ok l) ↔
      ∃ ls, (uBobsThreads hash sub fuel o S N).Runs (.ok ls) ∧ l = ls.flatten := by
  have ht : 0 < o.threads := by rw [uBobsInit_ok ho]; exact uBobsThreadsNumber_pos cpu hc t
  constructor
  · intro ls hr
    obtain ⟨ns, hns, h1, h2, h3⟩ := C43_split N.toNat o.threads ht
    unfold uBobsThreads at hr
    obtain ⟨a1, -, hr⟩ | ⟨e, -, hr⟩ := (Prog.runs_bind _ _ _).mp hr
    · obtain ⟨a2, -, hr⟩ | ⟨e, -, hr⟩ := (Prog.runs_bind _ _ _).mp hr
      · obtain ⟨⟨a3, a4⟩, -, hr⟩ | ⟨e, -, hr⟩ := (Prog.runs_bind _ _ _).mp hr
        · rw [hns] at hr
          simp only [Prog.lift_def, Prog.bind_eq, Prog.done_ok_bind] at hr
          have hl := uBobsMap_lengths _ _ _ hr
          refine ⟨by rw [← h1, ← hl, List.length_map], by rw [hl, h2]; omega, fun a ha b hb => h3 _ ?_ _ ?_⟩
          · rw [← hl]; exact List.mem_map_of_mem ha
          · rw [← hl]; exact List.mem_map_of_mem hb
        · cases hr
      · cases hr
    · cases hr
  · intro l
    rw [uBobsSimulate, if_neg (by omega)]
    constructor
    · intro hr
      obtain ⟨ls, h1, h2⟩ | ⟨e, -, h2⟩ := (Prog.runs_bind _ _ _).mp hr
      · injection (show (Except.ok l : Py _) = .ok _ from h2) with h2
        exact ⟨ls, h1, h2⟩
      · cases h2
    · rintro ⟨ls, h1, rfl⟩
      exact (Prog.runs_bind _ _ _).mpr (.inl ⟨ls, h1, rfl⟩)

/-- A concrete case: with three threads a completed call for seven samples gives at least two from each. -/
example (o : UBobsObj 2) (ho : uBobsInit 1 4 (1 / 2) 1 3 = .ok o) (ls : List (List (List ℕ)))
    (hr : (uBobsThreads (fun l => (Encodable.encode l : ℤ)) (ryserSubPermanents 9) 9 o [1, 0] 7).Runs (.ok ls)) :
    ls.length = o.threads ∧ (ls.map List.length).sum = (7 : ℤ) ∧ ∀ a ∈ ls, ∀ b ∈ ls, a.length ≤ b.length + 1 := by
  have := (C43_threads _ _ 9 1 4 (by decide) (1 / 2) 1 3 o ho [1, 0] 7 (by norm_num)).1 ls hr
  exact this

/-- C43: every completed call returns exactly `N` samples. -/
theorem C43_count (hash : List ℕ → ℤ) (sub : CalcCfg ℂ → Py (List ℂ)) (fuel : ℕ) (U : Matrix (Fin m) (Fin m) ℂ) (cpu : ℕ)
    (hc : 0 < cpu) (eta : ℝ) (h : ℕ) (t : ℤ) (o : UBobsObj m) (ho : uBobsInit U cpu eta h t = .ok o) (S : List ℕ)
    (N : ℤ) (l : List (List ℕ)) (hr : (uBobsSimulate hash sub fuel o S N).Runs (.ok l)) :
    l.length = N.toNat := by
  have ht : 0 < o.threads := by rw [uBobsInit_ok ho]; exact uBobsThreadsNumber_pos cpu hc t
  rw [uBobsSimulate_def] at hr
  by_cases hN : N < 1
  · rw [if_pos hN] at hr
    injection (show (Except.ok l : Py _) = .ok [] from hr) with hr
    subst hr
    simp; omega
  · rw [if_neg hN] at hr
    obtain ⟨a1, -, hr⟩ | ⟨e, -, hr⟩ := (Prog.runs_bind _ _ _).mp hr
    · obtain ⟨a2, -, hr⟩ | ⟨e, -, hr⟩ := (Prog.runs_bind _ _ _).mp hr
      · obtain ⟨⟨a3, a4⟩, -, hr⟩ | ⟨e, -, hr⟩ := (Prog.runs_bind _ _ _).mp hr
        · rw [distributeUniformly_ok _ _ ht] at hr
          simp only [Prog.lift_def, Prog.bind_eq, Prog.done_ok_bind] at hr
          rw [uBobsPool_eq, distribute_sum _ _ ht] at hr
          have hall : (uBobsSample sub fuel o a1 a2 a3 a4).All (fun _ => True) fun _ => True := by
            intro r _
            cases r with
            | ok a => exact .inl ⟨a, rfl, trivial⟩
            | error e => exact .inr ⟨e, rfl, trivial⟩
          rcases Prog.repeatN_all hall N.toNat _ hr with ⟨l', h1, h2, -⟩ | ⟨e, h1, -⟩
          · injection h1 with h1
            exact h1 ▸ h2
          · cases h1
        · cases hr
      · cases hr
    · cases hr

/-- C43: a call for fewer than one sample returns the empty list. -/
theorem C43_empty (hash : List ℕ → ℤ) (sub : CalcCfg ℂ → Py (List ℂ)) (fuel : ℕ) (o : UBobsObj m) (S : List ℕ) (N : ℤ)
    (hN : N < 1) (r : Py (List (List ℕ))) (hr : (uBobsSimulate hash sub fuel o S N).Runs r) : r = .ok [] := by
  rw [uBobsSimulate, if_pos hN] at hr
  exact hr

/-- C43: with `1 ≤ h < m`, a unitary matrix and at most one particle in each exactly treated mode no
call raises; the samples have `m` modes and at most as many particles as the input. -/
theorem C43_total (hash : List ℕ → ℤ) (fuel : ℕ) (U : Matrix (Fin m) (Fin m) ℂ) (hU : U ∈ Matrix.unitaryGroup (Fin m) ℂ)
    (cpu : ℕ) (hc : 0 < cpu) (eta : ℝ) (h0 : 0 ≤ eta) (h1 : eta ≤ 1) (h : ℕ) (hh : 1 ≤ h) (hm : h < m) (t : ℤ)
    (o : UBobsObj m) (ho : uBobsInit U cpu eta h t = .ok o) (S : List ℕ) (hS : S.length = m)
    (hcf : ∀ a ∈ S.take h, a ≤ 1) (hhash : HashOk hash (S.take h)) (hf : (S.sum + 1) ^ m ≤ fuel) (N : ℤ)
    (r : Py (List (List ℕ))) (hr : (uBobsSimulate hash (ryserSubPermanents fuel) fuel o S N).Runs r) :
    ∃ l, r = .ok l ∧ l.length = N.toNat ∧ ∀ T ∈ l, T.length = m ∧ T.sum ≤ S.sum := by
  by_cases hN : N < 1
  · exact ⟨[], C43_empty _ _ _ _ _ _ hN r hr, by simp; omega, by simp⟩
  · obtain rfl := uBobsInit_ok ho
    obtain ⟨L, h2, h3, -⟩ := uBobsSimulate_eq hash (ryserSubPermanents fuel) fuel (uBobsNew U cpu eta h t) S hS hhash
      (uBobsThreadsNumber_pos cpu hc t) N (by omega)
    rw [h3 hm] at hr
    rcases Prog.repeatN_all (uBobsSample_all (o := uBobsNew U cpu eta h t) hh hm rfl hU h0 h1 (.inr (.inr hcf)) hS L h2 fuel hf) N.toNat r hr
      with ⟨l, rfl, h4⟩ | ⟨_, _, h4⟩
    · exact ⟨l, rfl, h4⟩
    · exact h4.elim

/-- A concrete case: three modes, the first of them treated exactly. -/
example (r : Py (List (List ℕ))) (o : UBobsObj 3) (ho : uBobsInit 1 4 (1 / 2) 1 2 = .ok o)
    (hr : (uBobsSimulate (fun l => (Encodable.encode l : ℤ)) (ryserSubPermanents 125) 125 o [1, 3, 0] 7).Runs r) :
    ∃ l, r = .ok l ∧ l.length = 7 ∧ ∀ T ∈ l, T.length = 3 ∧ T.sum ≤ 4 :=
  C43_total _ 125 1 (one_mem _) 4 (by decide) (1 / 2) (by norm_num) (by norm_num) 1 le_rfl (by decide) 2 o ho [1, 3, 0] rfl
    (by simp) (hashOk_encode _) (by norm_num) 7 r hr

/-! ### C44 -/

/-- C44: the mixture consists of the states below the exactly treated part, each of them once. -/
theorem C44_parts (hash : List ℕ → ℤ) (part : List ℕ) (hh : HashOk hash part) :
    ∃ parts, uBobsParts hash part = .ok parts ∧ parts.Nodup ∧
      ∀ L, L ∈ parts ↔ L.length = part.length ∧ ∀ i < part.length, L.getD i 0 ≤ part.getD i 0 := by
  obtain ⟨parts, h1, h2, h3⟩ := uBobsParts_ok hash part hh
  refine ⟨parts, h1, h2.nodup_iff.mpr (lowerStates_nodup part), fun L => ?_⟩
  rw [h2.mem_iff, mem_lowerStates, StateLE, List.forall₂_iff_get]
  constructor
  · rintro ⟨h4, h5⟩
    refine ⟨h4, fun i hi => ?_⟩
    rw [getD_of_lt _ _ hi, getD_of_lt _ _ (h4 ▸ hi)]
    exact h5 i (h4 ▸ hi) hi
  · rintro ⟨h4, h5⟩
    refine ⟨h4, fun i h6 h7 => ?_⟩
    have := h5 i h7
    rwa [getD_of_lt _ _ h7, getD_of_lt _ _ h6] at this

/-- C44: the weights sum to 1 exactly when `η` is 0 or 1 or the part has at most one particle per
mode. -/
theorem C44_iff (hash : List ℕ → ℤ) (part : List ℕ) (hh : HashOk hash part) (eta : ℝ) (h0 : 0 ≤ eta) (h1 : eta ≤ 1) :
    ∃ parts ws, uBobsParts hash part = .ok parts ∧ uBobsPartsWeights eta parts = .ok ws ∧
      (ws.sum = 1 ↔ eta = 0 ∨ eta = 1 ∨ ∀ a ∈ part, a ≤ 1) := by
  obtain ⟨parts, h2, h3, h4⟩ := uBobsParts_ok hash part hh
  refine ⟨parts, _, h2, uBobsPartsWeights_ok eta part parts h3 h4, ?_⟩
  rw [partsWeights_sum eta part parts h3]
  exact prodTotal_iff h0 h1 part

/-- C44, the part that holds: if `η` is 0 or 1 or the part has at most one particle per mode the
weight of each state is the probability that independent losses leave it, and the weights sum to 1.
Missing for the full claim: the other parts (`C44_fails`). -/
theorem C44_law_partial (hash : List ℕ → ℤ) (part : List ℕ) (hh : HashOk hash part) (eta : ℝ)
    (hp : eta = 0 ∨ eta = 1 ∨ ∀ a ∈ part, a ≤ 1) :
    ∃ parts ws, uBobsParts hash part = .ok parts ∧ uBobsPartsWeights eta parts = .ok ws ∧ ws.length = parts.length ∧
      ws.sum = 1 ∧ ∀ i < parts.length,
        ws.getD i 0 = (List.zipWith (fun n l => binomialWeight n l eta) part (parts.getD i [])).prod := by
  obtain ⟨parts, h2, h3, h4⟩ := uBobsParts_ok hash part hh
  refine ⟨parts, _, h2, uBobsPartsWeights_ok eta part parts h3 h4, by simp, ?_, fun i hi => ?_⟩
  · rw [partsWeights_sum eta part parts h3]
    exact prodTotal_good hp
  · rw [getD_of_lt _ _ (by simpa using hi), getD_of_lt _ _ hi, List.getElem_map]
    exact part_weight hp ((mem_lowerStates _ _).mp (h3.mem_iff.mp (List.getElem_mem hi)))

/-- C44 does not hold: with two or more particles in one of the exactly treated modes and `0 < η < 1`
the weights sum to less than 1, and every call for at least one sample raises `ValueError`. -/
theorem C44_fails (hash : List ℕ → ℤ) (sub : CalcCfg ℂ → Py (List ℂ)) (fuel : ℕ) (U : Matrix (Fin m) (Fin m) ℂ) (cpu : ℕ)
    (hc : 0 < cpu) (eta : ℝ) (h0 : 0 < eta) (h1 : eta < 1) (h : ℕ) (t : ℤ) (o : UBobsObj m)
    (ho : uBobsInit U cpu eta h t = .ok o) (S : List ℕ) (hS : S.length = m) (hb : ∃ a ∈ S.take h, 2 ≤ a)
    (hhash : HashOk hash (S.take h)) (N : ℤ) (hN : 1 ≤ N) :
    (∃ parts ws, uBobsParts hash (S.take h) = .ok parts ∧ uBobsPartsWeights eta parts = .ok ws ∧ ws.sum < 1) ∧
      ∀ r, (uBobsSimulate hash sub fuel o S N).Runs r → r = .error .valueError := by
  constructor
  · obtain ⟨parts, h2, h3, h4⟩ := uBobsParts_ok hash (S.take h) hhash
    refine ⟨parts, _, h2, uBobsPartsWeights_ok eta _ parts h3 h4, ?_⟩
    rw [partsWeights_sum eta _ parts h3]
    exact prodTotal_lt h0 h1 _ hb
  · intro r hr
    obtain rfl := uBobsInit_ok ho
    obtain ⟨L, h2, h3, h4⟩ := uBobsSimulate_eq hash sub fuel (uBobsNew U cpu eta h t) S hS hhash (uBobsThreadsNumber_pos cpu hc t) N hN
    have hw : ¬ Prog.IsProbVector (L.map (partWeight eta (S.take h))) := by
      rw [partWeight_prob h0.le h1.le _ L h2]
      rintro (h5 | h5 | h5)
      · exact absurd h5 h0.ne'
      · exact absurd h5 h1.ne
      · obtain ⟨a, ha, ha'⟩ := hb
        exact absurd (h5 a ha) (by omega)
    have key : ∀ p : Prog (List ℕ), p.All (fun _ => False) (· = .valueError) →
        (p.repeatN N.toNat).Runs r → r = .error .valueError := by
      intro p hp hr
      rcases repeatN_raise hp N.toNat (by omega) r hr with ⟨l, rfl, h5⟩ | ⟨_, rfl, rfl⟩
      · exact h5.elim
      · rfl
    by_cases hm : h < m
    · rw [h3 hm] at hr
      refine key _ ?_ hr
      rw [gccbWeights_eq]
      exact uBobsSample_valueError fuel _ L _ _ _ _ sub hw
    · rw [h4 hm] at hr
      exact key _ (uBobsSample_valueError fuel _ L _ [()] (fun _ => []) (fun _ => 1) sub hw) hr

/-- A concrete case: two particles in the first mode. -/
example (r : Py (List (List ℕ))) (o : UBobsObj 2) (ho : uBobsInit 1 4 (1 / 2) 1 2 = .ok o)
    (hr : (uBobsSimulate (fun l => (Encodable.encode l : ℤ)) (ryserSubPermanents 9) 9 o [2, 0] 1).Runs r) :
    r = .error .valueError :=
  (C44_fails _ _ 9 1 4 (by decide) (1 / 2) (by norm_num) (by norm_num) 1 2 o ho [2, 0] rfl ⟨2, by simp, le_rfl⟩
    (hashOk_encode _) 1 le_rfl).2 r hr

/-! ### C45 -/

/-- C45: when all the modes or no modes are treated exactly every call for at least one sample raises
`TypeError`, if the weights of the lossy inputs are right (see C44): the input state becomes an array
of floating-point numbers. -/
theorem C45_raises (hash : List ℕ → ℤ) (sub : CalcCfg ℂ → Py (List ℂ)) (fuel : ℕ) (U : Matrix (Fin m) (Fin m) ℂ)
    (hm : 0 < m) (cpu : ℕ) (hc : 0 < cpu) (eta : ℝ) (h0 : 0 ≤ eta) (h1 : eta ≤ 1) (h : ℕ) (hh : h = 0 ∨ h = m) (t : ℤ)
    (o : UBobsObj m) (ho : uBobsInit U cpu eta h t = .ok o) (S : List ℕ)
    (hS : S.length = m) (hp : eta = 0 ∨ eta = 1 ∨ ∀ a ∈ S.take h, a ≤ 1) (hhash : HashOk hash (S.take h)) (N : ℤ)
    (hN : 1 ≤ N) (r : Py (List (List ℕ))) (hr : (uBobsSimulate hash sub fuel o S N).Runs r) : r = .error .typeError := by
  obtain rfl := uBobsInit_ok ho
  obtain ⟨L, h2, h3, h4⟩ := uBobsSimulate_eq hash sub fuel (uBobsNew U cpu eta h t) S hS hhash
    (uBobsThreadsNumber_pos cpu hc t) N hN
  have key : ∀ p : Prog (List ℕ), p.All (fun _ => False) (· = .typeError) →
      (p.repeatN N.toNat).Runs r → r = .error .typeError := by
    intro p hp hr
    rcases repeatN_raise hp N.toNat (by omega) r hr with ⟨l, rfl, h5⟩ | ⟨_, rfl, rfl⟩
    · exact h5.elim
    · rfl
  have hw := (partWeight_prob h0 h1 _ L h2).mpr hp
  rcases hh with rfl | rfl
  · rw [h3 hm, gccbWeights_eq] at hr
    refine key _ (uBobsSample_typeError fuel _ rfl L _ _ _ _ sub hw ?_ fun a _ p hp => ?_) hr
    · rw [← gccbWeights_eq]
      exact ⟨gccbWeights_nonneg _ h0 h1, gccbWeights_sum _ _⟩
    · have := lower_length (h2.mem_iff.mp hp)
      simp only [List.take_zero, List.length_nil, List.length_eq_zero_iff] at this
      exact ⟨.inl this, by simp⟩
  · rw [h4 (by simp)] at hr
    refine key _ (uBobsSample_typeError fuel _ rfl L _ [()] (fun _ => []) (fun _ => 1) sub hw ?_ fun a _ p hp => ?_) hr
    · constructor <;> simp
    · refine ⟨.inr rfl, ?_⟩
      have := lower_length (h2.mem_iff.mp hp)
      rw [List.length_take, hS, Nat.min_self] at this
      rw [List.append_nil]
      rintro rfl
      simp at this
      omega

/-- C45 does not hold: at full hierarchy level and with transmissivity 1 every call for at least one
sample raises `TypeError`, for every matrix and every input. -/
theorem C45_fails (hash : List ℕ → ℤ) (sub : CalcCfg ℂ → Py (List ℂ)) (fuel : ℕ) (U : Matrix (Fin m) (Fin m) ℂ)
    (hm : 0 < m) (cpu : ℕ) (hc : 0 < cpu) (t : ℤ) (o : UBobsObj m) (ho : uBobsInit U cpu 1 m t = .ok o) (S : List ℕ)
    (hS : S.length = m) (hhash : HashOk hash S) (N : ℤ) (hN : 1 ≤ N) (r : Py (List (List ℕ)))
    (hr : (uBobsSimulate hash sub fuel o S N).Runs r) : r = .error .typeError :=
  C45_raises hash sub fuel U hm cpu hc 1 zero_le_one le_rfl m (.inr rfl) t o ho S hS (.inr (.inl rfl))
    (by rw [← hS, List.take_length]; exact hhash) N hN r hr

/-- A concrete case. -/
example (r : Py (List (List ℕ))) (o : UBobsObj 2) (ho : uBobsInit 1 4 1 2 2 = .ok o)
    (hr : (uBobsSimulate (fun l => (Encodable.encode l : ℤ)) (ryserSubPermanents 9) 9 o [1, 1] 1).Runs r) :
    r = .error .typeError :=
  C45_fails _ _ 9 1 (by decide) 4 (by decide) 2 o ho [1, 1] rfl (hashOk_encode _) 1 le_rfl r hr

/-! ### C46 -/

theorem smear_apply (k : ℕ) (us : Fin k → ℝ) (i j : Fin m) :
    (phaseMatrix k m us * dftMatrix k m) i j
      = (if h : (i : ℕ) < k then Complex.exp (2 * Real.pi * us ⟨i, h⟩ * Complex.I) else 1) * dftMatrix k m i j := by
  rw [phaseMatrix, Matrix.diagonal_mul]

theorem smear_fixes (k : ℕ) (us : Fin k → ℝ) (i j : Fin m) (h : k ≤ i ∨ k ≤ j) :
    (phaseMatrix k m us * dftMatrix k m) i j = if i = j then 1 else 0 := by
  rw [smear_apply, dftMatrix, Matrix.of_apply, if_neg (by omega)]
  by_cases hij : i = j
  · subst hij
    rw [dif_neg (by omega), if_pos rfl, mul_one]
  · rw [if_neg hij, mul_zero]

/-- C46, the part that holds: the matrix used for a sample is the given one with its columns permuted,
followed by phases and a Fourier transform of `m - h` modes that leave `h` modes alone, for `h = 0`
and `h = m` the right ones. Missing for the full claim: the modes left alone are the last ones, not
the exactly treated first ones (`C46_fails`). -/
theorem C46_matrix_partial (U : Matrix (Fin m) (Fin m) ℂ) (cpu : ℕ) (eta : ℝ) (h : ℕ) (t : ℤ)
    (o : UBobsObj m) (ho : uBobsInit U cpu eta h t = .ok o) (r : Py (Matrix (Fin m) (Fin m) ℂ))
    (hr : (uBobsMatrix o).Runs r) :
    ∃ (σ : Equiv.Perm (Fin m)) (us : Fin (m - h) → ℝ),
      r = .ok (U.submatrix id σ * (phaseMatrix (m - h) m us * dftMatrix (m - h) m)) ∧
      FixesLast h (phaseMatrix (m - h) m us * dftMatrix (m - h) m) ∧
      (h = 0 ∨ h = m → FixesFirst h (phaseMatrix (m - h) m us * dftMatrix (m - h) m)) := by
  obtain rfl := uBobsInit_ok ho
  rcases uBobsMatrix_all (o := uBobsNew U cpu eta h t) rfl r hr with ⟨B, rfl, us, σ, rfl⟩ | ⟨_, _, h⟩
  · have hl : FixesLast h (phaseMatrix (m - h) m us * dftMatrix (m - h) m) := fun i j hij => smear_fixes _ us i j hij
    refine ⟨σ, us, by rw [uBobsNet, Matrix.mul_assoc], hl, ?_⟩
    rintro (rfl | rfl) i j hij
    · omega
    · exact hl i j (by omega)
  · exact h.elim

/-- C46 does not hold: if at least one mode is treated exactly and at least two are approximated, no
matrix used for a sample is a column permutation of the given one followed by a transformation that
leaves the exactly treated modes alone. -/
theorem C46_fails (U : Matrix (Fin m) (Fin m) ℂ) (hU : U ∈ Matrix.unitaryGroup (Fin m) ℂ) (cpu : ℕ) (eta : ℝ) (h : ℕ)
    (h1 : 1 ≤ h) (h2 : h + 2 ≤ m) (t : ℤ) (o : UBobsObj m) (ho : uBobsInit U cpu eta h t = .ok o)
    (B : Matrix (Fin m) (Fin m) ℂ) (hr : (uBobsMatrix o).Runs (.ok B)) :
    ¬ ∃ (σ : Equiv.Perm (Fin m)) (V : Matrix (Fin m) (Fin m) ℂ), B = U.submatrix id σ * V ∧ FixesFirst h V := by
  rintro ⟨σ', V', hB, hV'⟩
  obtain ⟨σ, us, h3, -, -⟩ := C46_matrix_partial U cpu eta h t o ho _ hr
  injection h3 with h3
  set V := phaseMatrix (m - h) m us * dftMatrix (m - h) m with hV
  let z : Fin m := ⟨0, by omega⟩
  have hu := Matrix.mem_unitaryGroup_iff'.mp hU
  have hs := Matrix.mem_unitaryGroup_iff'.mp (submatrix_unitary hU σ)
  -- column 0 of `V` is a unit vector
  have hcol : V z z = if z = σ.symm (σ' z) then 1 else 0 := by
    have h4 : star (U.submatrix id σ) * B = V := by rw [h3, ← Matrix.mul_assoc, hs, Matrix.one_mul]
    have h5 : ∀ i, B i z = U i (σ' z) := by
      intro i
      rw [hB, Matrix.mul_apply, sum_eq_single z]
      · rw [hV' z z (.inl (by simp [z]; omega)), if_pos rfl, mul_one]; rfl
      · intro b _ hb
        rw [hV' b z (.inr (by simp [z]; omega)), if_neg hb, mul_zero]
      · simp
    rw [← h4, Matrix.mul_apply]
    have h6 := congrFun (congrFun hu (σ z)) (σ' z)
    rw [Matrix.mul_apply, Matrix.one_apply] at h6
    simp only [h5]
    refine Eq.trans h6 ?_
    simp only [Equiv.eq_symm_apply]
  have hn : ‖V z z‖ = 1 / Real.sqrt ((m - h : ℕ) : ℝ) := by
    rw [hV, smear_apply, dftMatrix, Matrix.of_apply, if_pos (by simp [z]; omega), dif_pos (by simp [z]; omega)]
    simp only [z]
    rw [norm_mul, show 2 * (Real.pi : ℂ) * (us ⟨0, by omega⟩ : ℂ) * Complex.I
      = ((2 * Real.pi * us ⟨0, by omega⟩ : ℝ) : ℂ) * Complex.I by push_cast; ring, Complex.norm_exp_ofReal_mul_I]
    simp [abs_of_nonneg (Real.sqrt_nonneg _)]
  have h2' : (1 : ℝ) < Real.sqrt ((m - h : ℕ) : ℝ) := by
    rw [Real.lt_sqrt zero_le_one]
    have : (2 : ℝ) ≤ ((m - h : ℕ) : ℝ) := by exact_mod_cast (by omega : 2 ≤ m - h)
    linarith
  rw [hcol] at hn
  split_ifs at hn
  · rw [norm_one, eq_div_iff (by linarith)] at hn
    linarith
  · rw [norm_zero] at hn
    have : 0 < 1 / Real.sqrt ((m - h : ℕ) : ℝ) := by positivity
    linarith

/-- C46: if at least half of the modes are treated exactly, the particles of the approximated modes,
put together into mode `h`, are not smeared at all: they enter a column of the given matrix. -/
theorem C46_unsmeared (U : Matrix (Fin m) (Fin m) ℂ) (cpu : ℕ) (eta : ℝ) (h : ℕ)
    (h1 : m ≤ h + h) (h2 : h < m) (t : ℤ) (o : UBobsObj m) (ho : uBobsInit U cpu eta h t = .ok o)
    (B : Matrix (Fin m) (Fin m) ℂ) (hr : (uBobsMatrix o).Runs (.ok B)) :
    ∃ k, ∀ i, B i ⟨h, h2⟩ = U i k := by
  obtain ⟨σ, us, h3, h4, -⟩ := C46_matrix_partial U cpu eta h t o ho _ hr
  injection h3 with h3
  refine ⟨σ ⟨h, h2⟩, fun i => ?_⟩
  rw [h3, Matrix.mul_apply, sum_eq_single ⟨h, h2⟩]
  · rw [h4 _ _ (.inl (by simp; omega)), if_pos rfl, mul_one]; rfl
  · intro b _ hb
    rw [h4 _ _ (.inr (by simp; omega)), if_neg hb, mul_zero]
  · simp

/-- A concrete case: four modes, the first of them treated exactly; a matrix is drawn. -/
example (o : UBobsObj 4) (ho : uBobsInit 1 4 (1 / 2) 1 2 = .ok o) :
    ∃ B, (uBobsMatrix o).Runs (.ok B) ∧
      ¬ ∃ (σ : Equiv.Perm (Fin 4)) (V : Matrix (Fin 4) (Fin 4) ℂ), B = (1 : Matrix (Fin 4) (Fin 4) ℂ).submatrix id σ * V ∧
        FixesFirst 1 V := by
  obtain ⟨r, hr⟩ := (uBobsMatrix o).exists_run
  obtain ⟨σ, us, rfl, -⟩ := C46_matrix_partial 1 4 (1 / 2) 1 2 o ho r hr
  exact ⟨_, hr, C46_fails 1 (one_mem _) 4 (1 / 2) 1 le_rfl (by decide) 2 o ho _ hr⟩

/-! ### C60 -/

/-- C60: with `1 ≤ h < m`, a unitary matrix and at most one particle in each exactly treated mode (or
`η` 0 or 1) a sample equals `T` with the following probability. Of the `n` particles of the
approximated modes a binomial number `l` survives and is put into mode `h`, the particles of the
exactly treated modes survive independently; this state enters the given interferometer with its
columns permuted uniformly after random phases and a Fourier transform of the first `m - h` modes. -/
theorem C60_sample (hash : List ℕ → ℤ) (fuel : ℕ) (U : Matrix (Fin m) (Fin m) ℂ) (hU : U ∈ Matrix.unitaryGroup (Fin m) ℂ)
    (cpu : ℕ) (hc : 0 < cpu) (eta : ℝ) (h0 : 0 ≤ eta) (h1 : eta ≤ 1) (h : ℕ) (hh : 1 ≤ h) (hm : h < m) (t : ℤ)
    (o : UBobsObj m) (ho : uBobsInit U cpu eta h t = .ok o) (S : List ℕ) (hS : S.length = m)
    (hp : eta = 0 ∨ eta = 1 ∨ ∀ a ∈ S.take h, a ≤ 1) (hhash : HashOk hash (S.take h)) (hf : (S.sum + 1) ^ m ≤ fuel)
    (N : ℤ) (i : ℕ) (hi : i < N.toNat) (T : List ℕ) (hT : T.length = m) :
    (uBobsSimulate hash (ryserSubPermanents fuel) fuel o S N).prob (fun r => ∃ l, r = .ok l ∧ l[i]? = some T)
      = ∑ l ∈ range ((S.drop h).sum + 1), ENNReal.ofReal (binomialWeight (S.drop h).sum l eta) *
          expLoss eta (S.take h) fun p => expUniform (m - h) fun us =>
            (∑ σ : Equiv.Perm (Fin m), ENNReal.ofReal (lossyProb
              (rowsOf (U.submatrix id σ * phaseMatrix (m - h) m us * dftMatrix (m - h) m)) 0
              (p ++ l :: List.replicate (m - h - 1) 0) T)) / m.factorial := by
  obtain rfl := uBobsInit_ok ho
  obtain ⟨L, h2, h3, -⟩ := uBobsSimulate_eq hash (ryserSubPermanents fuel) fuel (uBobsNew U cpu eta h t) S hS hhash
    (uBobsThreadsNumber_pos cpu hc t) N (by omega)
  rw [h3 hm, Prog.repeatN_marginal (uBobsSample_all (o := uBobsNew U cpu eta h t) hh hm rfl hU h0 h1 hp hS L h2 fuel hf) _ _ hi]
  exact uBobsSample_prob (o := uBobsNew U cpu eta h t) hh hm rfl hU h0 h1 hp hS L h2 fuel hf T hT

/-- One particle entering the first of two modes. -/
theorem lossyProb_one (B : Matrix (Fin 2) (Fin 2) ℂ) :
    lossyProb (rowsOf B) 0 [1, 0] [0, 1] = Complex.normSq (B 1 0) := by
  have : scatteringPermanent (rowsOf B) [1, 0] [0, 1] = B 1 0 := by
    have hp : particles [0, 1] = [1] := by decide
    have hq : particles [1, 0] = [0] := by decide
    unfold scatteringPermanent
    rw [hp, hq]
    change Matrix.permanent (Matrix.of fun (a b : Fin 1) => _) = _
    simp [Matrix.permanent, mget, rowsOf]
  rw [lossyProb_zero, if_pos (by simp), bosonProb, this]
  simp [factProd]

/-- C60: a concrete case. The interferometer does nothing and no particle is lost or approximated: the
only one is in the exactly treated first of two modes. Yet half of the samples show it in the second
mode. -/
theorem C60_permuted (o : UBobsObj 2) (ho : uBobsInit 1 4 1 1 2 = .ok o) :
    (uBobsSimulate (fun l => (Encodable.encode l : ℤ)) (ryserSubPermanents 4) 4 o [1, 0] 5).prob
      (fun r => ∃ l, r = .ok l ∧ l[3]? = some [0, 1]) = ENNReal.ofReal (1 / 2) := by
  rw [C60_sample _ 4 1 (one_mem _) 4 (by decide) 1 zero_le_one le_rfl 1 le_rfl (by decide) 2 o ho [1, 0] rfl
    (.inr (.inl rfl)) (hashOk_encode _) (by decide) 5 3 (by decide) [0, 1] rfl]
  have key : ∀ us : Fin (2 - 1) → ℝ, (∑ σ : Equiv.Perm (Fin 2), ENNReal.ofReal (lossyProb
      (rowsOf ((1 : Matrix (Fin 2) (Fin 2) ℂ).submatrix id σ * phaseMatrix (2 - 1) 2 us * dftMatrix (2 - 1) 2)) 0
        [1, 0] [0, 1])) / (Nat.factorial 2 : ℕ) = ENNReal.ofReal (1 / 2) := by
    intro us
    have hu : (Finset.univ : Finset (Equiv.Perm (Fin 2))) = {1, Equiv.swap 0 1} := by decide
    have he : ∀ σ : Equiv.Perm (Fin 2), Complex.normSq
        (((1 : Matrix (Fin 2) (Fin 2) ℂ).submatrix id σ * phaseMatrix (2 - 1) 2 us * dftMatrix (2 - 1) 2) 1 0)
          = if σ 0 = 1 then 1 else 0 := by
      intro σ
      rw [Matrix.mul_assoc, Matrix.mul_apply, Fin.sum_univ_two, smear_apply, smear_fixes _ _ 1 0 (.inl (by simp))]
      simp only [dftMatrix, Matrix.of_apply, Matrix.submatrix_apply, Matrix.one_apply, id]
      have hn : Complex.normSq (Complex.exp (2 * Real.pi * us ⟨0, by simp⟩ * Complex.I)) = 1 := by
        rw [Complex.normSq_eq_norm_sq, show 2 * (Real.pi : ℂ) * (us ⟨0, by simp⟩ : ℂ) * Complex.I
          = ((2 * Real.pi * us ⟨0, by simp⟩ : ℝ) : ℂ) * Complex.I by push_cast; ring, Complex.norm_exp_ofReal_mul_I, one_pow]
      by_cases hσ : σ 0 = 1
      · simp [hσ] at hn ⊢
        exact hn
      · simp [hσ, Ne.symm hσ]
    rw [hu, sum_pair (by decide), lossyProb_one, lossyProb_one, he, he]
    norm_num
    rw [ENNReal.ofReal_div_of_pos] <;> simp
  simp only [List.drop_succ_cons, List.drop_zero, List.sum_cons, List.sum_nil, List.take_succ_cons, List.take_zero,
    expLoss_one, zero_add, sum_range_one, add_zero]
  have hl : [1] ++ 0 :: List.replicate (2 - 1 - 1) 0 = [1, 0] := rfl
  rw [hl, expUniform_congr _ _ _ key]
  simp [binomialWeight, expUniform]

/-- C45, the part that holds: the highest hierarchy level at which calls do not raise is `m - 1`; there
and with transmissivity 1 the samples follow the exact law of the given interferometer averaged over
the permutations of its columns. Missing for the full claim: level `m` (`C45_fails`), and the law of
the given interferometer itself in place of the average (`C60_permuted`). -/
theorem C45_law_partial (hash : List ℕ → ℤ) (fuel : ℕ) (U : Matrix (Fin m) (Fin m) ℂ)
    (hU : U ∈ Matrix.unitaryGroup (Fin m) ℂ) (cpu : ℕ) (hc : 0 < cpu) (h : ℕ) (hh : 1 ≤ h) (hm : h + 1 = m) (t : ℤ)
    (o : UBobsObj m) (ho : uBobsInit U cpu 1 h t = .ok o) (S : List ℕ) (hS : S.length = m)
    (hhash : HashOk hash (S.take h)) (hf : (S.sum + 1) ^ m ≤ fuel) (N : ℤ) (i : ℕ) (hi : i < N.toNat) (T : List ℕ)
    (hT : T.length = m) :
    (uBobsSimulate hash (ryserSubPermanents fuel) fuel o S N).prob (fun r => ∃ l, r = .ok l ∧ l[i]? = some T)
      = (∑ σ : Equiv.Perm (Fin m), ENNReal.ofReal
          (if T.sum = S.sum then bosonProb (rowsOf (U.submatrix id σ)) S T else 0)) / m.factorial := by
  rw [C60_sample hash fuel U hU cpu hc 1 zero_le_one le_rfl h hh (by omega) t o ho S hS (.inr (.inl rfl)) hhash hf N i hi T hT,
    sum_eq_single (S.drop h).sum]
  · have hd : S.drop h = [(S.drop h).sum] := by
      obtain ⟨x, hx⟩ := List.length_eq_one_iff.mp (show (S.drop h).length = 1 by rw [List.length_drop]; omega)
      rw [hx]; simp
    have hk : m - h = 1 := by omega
    have hl : S.take h ++ (S.drop h).sum :: List.replicate (m - h - 1) 0 = S := by
      rw [hk]
      change S.take h ++ [(S.drop h).sum] = S
      rw [← hd, List.take_append_drop]
    simp only [expLoss_one, hl]
    rw [expUniform_congr _ _ (fun _ => (∑ σ : Equiv.Perm (Fin m), ENNReal.ofReal
          (if T.sum = S.sum then bosonProb (rowsOf (U.submatrix id σ)) S T else 0)) / m.factorial)]
    · simp [binomialWeight, expUniform_const]
    · intro us
      congr 1
      refine sum_congr rfl fun σ _ => ?_
      rw [lossyProb_zero]
      congr 2
      refine bosonProb_phase (fun j => if hj : j < m - h then Complex.exp (2 * Real.pi * us ⟨j, hj⟩ * Complex.I) else 1)
        (fun j => ?_) (fun a b => ?_) S T
      · split_ifs
        · exact normSq_phase _
        · exact Complex.normSq_one
      · by_cases hab : a < m ∧ b < m
        · rw [mget_rowsOf _ _ _ hab.1 hab.2, mget_rowsOf _ _ _ hab.1 hab.2, dftMatrix_one hk, Matrix.mul_one, phaseMatrix,
            Matrix.mul_diagonal]
        · rw [mget_rowsOf_out _ _ _ hab, mget_rowsOf_out _ _ _ hab, zero_mul]
  · intro l hl hne
    have : binomialWeight (S.drop h).sum l 1 = 0 := by
      have := mem_range.mp hl
      rw [binomialWeight, sub_self, zero_pow (by omega), mul_zero]
    rw [this]; simp
  · simp

end Verif
