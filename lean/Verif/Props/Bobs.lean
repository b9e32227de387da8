import Verif.Proofs.BobsRuns
import Verif.Spec.Bobs

/-! C39, C40, C42, C58, C59: the sampler for non-uniform losses. `d` is the decomposition of the
given matrix `M` used by the constructor, `svd` the one used for the matrices of the samples. -/
namespace Verif

open Finset
open scoped ENNReal

variable {m : ℕ}

/-! ### C42 -/

/-- C42: the lossy input has as many modes and in each of them at most as many particles as the
argument; no run raises. -/
theorem C42_shape (losses : ℝ) (mx : ℕ) (s : List ℕ) (hs : ∀ x ∈ s, x ≤ mx) (r : Py (List ℕ))
    (hr : (bobsLossyInput losses (bobsWeights losses mx) s).Runs r) :
    ∃ L, r = .ok L ∧ L.length = s.length ∧ ∀ i < s.length, L.getD i 0 ≤ s.getD i 0 := by
  rcases bobsLossyInput_all mx s hs r hr with ⟨L, rfl, h⟩ | ⟨_, _, h⟩
  · refine ⟨L, rfl, h.length_eq, fun i hi => ?_⟩
    have hi' : i < L.length := by rw [h.length_eq]; exact hi
    rw [getD_of_lt _ _ hi, getD_of_lt _ _ hi']
    exact h.get hi' hi
  · exact h.elim

/-- C42: it equals `L` with the probability `∏ binom(s_i, L_i) η^L_i (1-η)^(s_i - L_i)` of independent
losses of the particles, `η` being the transmissivity left by the extracted losses (losses below the
tolerance of `isclose` count as none). -/
theorem C42_law (losses : ℝ) (h0 : 0 ≤ losses) (h1 : losses ≤ 1) (mx : ℕ) (s : List ℕ) (hs : ∀ x ∈ s, x ≤ mx)
    (L : List ℕ) (hL : L.length = s.length) (eta : ℝ)
    (heta : eta = if losses ≤ 1e-8 then 1 else 1 - losses) :
    (bobsLossyInput losses (bobsWeights losses mx) s).prob (fun r => r = .ok L)
      = ENNReal.ofReal (∏ i ∈ range s.length, binomialWeight (s.getD i 0) (L.getD i 0) eta) := by
  have ha : eta = 1 - appliedLosses losses := by
    rw [heta, appliedLosses, abs_of_nonneg h0]
    split_ifs <;> ring
  have hz : (List.zipWith (fun n l => binomialWeight n l eta) s L).prod
      = ∏ i ∈ range s.length, binomialWeight (s.getD i 0) (L.getD i 0) eta := by
    clear ha heta hs
    induction s generalizing L with
    | nil => simp
    | cons a s ih =>
      cases L with
      | nil => simp at hL
      | cons l L =>
        rw [List.zipWith_cons_cons, List.prod_cons, ih L (by simpa using hL), List.length_cons, prod_range_succ']
        simp [mul_comm]
  have ha0 : 0 ≤ appliedLosses losses ∧ appliedLosses losses ≤ 1 := by
    unfold appliedLosses
    split_ifs
    · exact ⟨le_rfl, zero_le_one⟩
    · exact ⟨h0, h1⟩
  rw [← hz, ← expLoss_indicator eta (by rw [ha]; linarith) (by rw [ha]; linarith) s L hL, Prog.prob,
    bobsLossyInput_wp h0 h1 mx s hs, ha]
  simp only [Except.ok.injEq]

/-- C42, inside `simulate`: for an object with at most as many approximated modes as there are modes, the preparation
for an input `S` leaves weights with which both claims hold for the states from which samples are drawn: all particles
counted so far in one of the approximated modes, or no approximated modes. -/
theorem C42_in_use (o : BobsObj m) (hk : o.k ≤ m) (h0 : 0 ≤ o.losses) (h1 : o.losses ≤ 1) (S : List ℕ) (hS : S.length = m)
    (hm : 0 < m) (j : ℕ) (s : List ℕ)
    (hs : s = (List.range m).map fun i => if i < o.k then (if i = j then o.number + (S.take o.k).sum else 0) else S.getD i 0)
    (eta : ℝ) (heta : eta = if o.losses ≤ 1e-8 then 1 else 1 - o.losses) :
    ∃ o', bobsPrepare o S = .ok o' ∧
      (∀ r, (bobsLossyInput o'.losses o'.weights s).Runs r →
        ∃ L, r = .ok L ∧ L.length = m ∧ ∀ i < m, L.getD i 0 ≤ s.getD i 0) ∧
      ∀ L : List ℕ, L.length = m → (bobsLossyInput o'.losses o'.weights s).prob (fun r => r = .ok L)
        = ENNReal.ofReal (∏ i ∈ range m, binomialWeight (s.getD i 0) (L.getD i 0) eta) := by
  obtain ⟨mx, h2, h3, -, h5⟩ := bobsPrepare_ok o S (by intro h; rw [h] at hS; simp at hS; omega) (by omega)
  have hsl : s.length = m := by rw [hs]; simp
  have hle : ∀ x ∈ s, x ≤ mx := by
    intro x hx
    rw [hs, List.mem_map] at hx
    obtain ⟨i, hi, rfl⟩ := hx
    have hi' : i < S.length := by rw [hS]; exact List.mem_range.mp hi
    split_ifs
    · exact h3
    · exact Nat.zero_le _
    · rw [getD_of_lt _ _ hi']; exact h2 _ (List.getElem_mem hi')
  refine ⟨_, h5, fun r hr => ?_, fun L hL => ?_⟩
  · obtain ⟨L, e1, e2, e3⟩ := C42_shape o.losses mx s hle r hr
    exact ⟨L, e1, e2.trans hsl, fun i hi => e3 i (by omega)⟩
  · have := C42_law o.losses h0 h1 mx s hle L (by omega) eta heta
    rw [hsl] at this
    exact this

/-- A concrete case: three particles in the second of two modes, half of them lost. -/
example : (bobsLossyInput (1 / 2) (bobsWeights (1 / 2) 3) [0, 3]).prob (fun r => r = .ok [0, 2])
    = ENNReal.ofReal (3 / 8) := by
  rw [C42_law (1 / 2) (by norm_num) (by norm_num) 3 [0, 3] (by simp) [0, 2] rfl (1 / 2) (by norm_num)]
  congr 1
  simp only [List.length_cons, List.length_nil, zero_add, Nat.reduceAdd, prod_range_succ, prod_range_zero, binomialWeight]
  norm_num [Nat.choose]

/-! ### Histories of calls -/

/-- `BobsHistory svd sub fuel d cpu k t calls o`: the object built by the constructor, after the
completed calls `simulate(S, N)` listed in `calls`, is `o`. -/
inductive BobsHistory (svd : Matrix (Fin m) (Fin m) ℂ → Svd m) (sub : CalcCfg ℂ → Py (List ℂ)) (fuel : ℕ)
    (d : Svd m) (cpu : ℕ) (k t : ℤ) : List (List ℕ × ℤ) → BobsObj m → Prop
  | new {o} (h : bobsInit d cpu k t = .ok o) : BobsHistory svd sub fuel d cpu k t [] o
  | call {calls o S N l o'} (h : BobsHistory svd sub fuel d cpu k t calls o)
      (hr : (bobsSimulate svd sub fuel o S N).Runs (.ok (l, o'))) :
      BobsHistory svd sub fuel d cpu k t (calls ++ [(S, N)]) o'

/-- The particles the inputs of the calls for at least one sample held in the first `k` modes. -/
def pastParticles (k : ℕ) (calls : List (List ℕ × ℤ)) : ℕ :=
  (calls.map fun c => if c.2 < 1 then 0 else (c.1.take k).sum).sum

/-- The greatest squared singular value of the given matrix, what remains after taking it out, and
the values the constructor makes of its arguments. -/
structure BobsSetup (M : Matrix (Fin m) (Fin m) ℂ) (d : Svd m) (cpu : ℕ) (k t : ℤ) (A : Matrix (Fin m) (Fin m) ℂ)
    (l eta : ℝ) (K th : ℕ) : Prop where
  isSvd : IsSvd M d
  le_one : ∀ i, d.s i ≤ 1
  nonzero : M ≠ 0
  cpu_pos : 0 < cpu
  greatest : IsGreatest (Set.range fun i => d.s i ^ 2) (1 - l)
  split : M = ((Real.sqrt (1 - l) : ℝ) : ℂ) • A
  left : eta = if l ≤ 1e-8 then 1 else 1 - l
  modes : (K : ℤ) = max 0 (min k m)
  threads : (th : ℤ) = if 1 ≤ t ∧ t ≤ cpu then t else cpu

section
variable {M A : Matrix (Fin m) (Fin m) ℂ} {d : Svd m} {cpu : ℕ} {k t : ℤ} {l eta : ℝ} {K th : ℕ}

theorem BobsSetup.ne (h : BobsSetup M d cpu k t A l eta K th) : ∃ i, d.s i ≠ 0 := by
  by_contra h0
  push Not at h0
  apply h.nonzero
  rw [h.isSvd.product]
  ext i j
  simp [h0, Matrix.mul_apply, Matrix.diagonal]

theorem BobsSetup.modes_eq (h : BobsSetup M d cpu k t A l eta K th) : bobsModes m k = K := by
  have := h.modes
  unfold bobsModes
  simp only
  split_ifs <;> omega

theorem BobsSetup.threads_eq (h : BobsSetup M d cpu k t A l eta K th) : bobsThreadsNumber cpu t = th := by
  have := h.threads
  unfold bobsThreadsNumber
  split_ifs at this ⊢ <;> omega

theorem BobsSetup.inv (h : BobsSetup M d cpu k t A l eta K th) :
    ∃ o, bobsInit d cpu k t = .ok o ∧ BobsInv o M A ∧ o.k = K ∧ o.number = 0 ∧ o.threads = th ∧ o.losses = l := by
  obtain ⟨o, A', h1, h2, h3, h4, h5, h6⟩ := bobsInit_inv h.isSvd h.ne h.le_one cpu h.cpu_pos k t
  have hl : o.losses = l := by have := h6.unique h.greatest; linarith
  have hA : A' = A := by
    have e : ((Real.sqrt (1 - l) : ℝ) : ℂ) • A' = ((Real.sqrt (1 - l) : ℝ) : ℂ) • A := by
      rw [← h.split, ← hl]; exact h2.product.symm
    obtain ⟨i, hi⟩ := h.ne
    have hpos : 0 < 1 - l := lt_of_lt_of_le (by positivity) (h.greatest.2 ⟨i, rfl⟩)
    have hs : ((Real.sqrt (1 - l) : ℝ) : ℂ) ≠ 0 := by
      rw [Complex.ofReal_ne_zero]; exact (Real.sqrt_pos.mpr hpos).ne'
    exact smul_right_injective _ hs e
  subst hA
  exact ⟨o, h1, h2, h3.trans h.modes_eq, h4, h5.trans h.threads_eq, hl⟩

theorem BobsSetup.eta_eq (h : BobsSetup M d cpu k t A l eta K th) (h0 : 0 ≤ l) : eta = 1 - appliedLosses l := by
  rw [h.left, appliedLosses, abs_of_nonneg h0]
  split_ifs <;> ring

theorem bobsPrepare_inv (o o' : BobsObj m) (S : List ℕ) (h : bobsPrepare o S = .ok o') : S ≠ [] ∧ o.k ≤ S.length := by
  have key : ∀ (is : List ℕ) (o1 o2 : BobsObj m),
      (is.foldlM (fun (o : BobsObj m) i => do
        let x ← pyGetN S i
        let st ← pySetN o.state i 0
        pure { o with number := o.number + x, state := st }) o1 : Py (BobsObj m)) = .ok o2 →
      ∀ i ∈ is, i < S.length := by
    intro is
    induction is with
    | nil => simp
    | cons j is ih =>
      intro o1 o2 h i hi
      rw [List.foldlM_cons] at h
      by_cases hj : j < S.length
      · rcases List.mem_cons.mp hi with rfl | hi
        · exact hj
        · by_cases hj' : j < o1.state.length
          · rw [pyGetN_ok hj, ok_bind, pySetN_ok hj', ok_bind] at h
            exact ih _ _ h i hi
          · rw [pyGetN_ok hj, ok_bind, pySetN, if_neg hj'] at h
            cases h
      · rw [pyGetN_err (by omega)] at h
        cases h
  unfold bobsPrepare at h
  simp only at h
  cases hf : ((List.range o.k).foldlM (fun (o : BobsObj m) i => do
        let x ← pyGetN S i
        let st ← pySetN o.state i 0
        pure { o with number := o.number + x, state := st }) { o with state := S } : Py (BobsObj m)) with
  | error e => rw [hf] at h; cases h
  | ok o2 =>
    constructor
    · rintro rfl
      rw [hf, ok_bind] at h
      cases h
    · by_contra hk
      exact absurd (key _ _ _ hf S.length (List.mem_range.mpr (by omega))) (lt_irrefl _)

variable {svd : Matrix (Fin m) (Fin m) ℂ → Svd m} {sub : CalcCfg ℂ → Py (List ℂ)} {fuel : ℕ}

/-- The object after the calls `calls`. -/
theorem BobsHistory.inv (h : BobsSetup M d cpu k t A l eta K th) {calls : List (List ℕ × ℤ)} {o : BobsObj m}
    (hh : BobsHistory svd sub fuel d cpu k t calls o) :
    BobsInv o M A ∧ o.k = K ∧ o.number = pastParticles K calls ∧ o.threads = th ∧ o.losses = l := by
  induction hh with
  | new h1 =>
    obtain ⟨o, h2, h3, h4, h5, h6, h7⟩ := h.inv
    rw [h1] at h2
    injection h2 with h2
    subst h2
    exact ⟨h3, h4, h5, h6, h7⟩
  | @call calls o S N l' o' _ hr ih =>
    obtain ⟨h3, h4, h5, h6, h7⟩ := ih
    unfold bobsSimulate at hr
    by_cases hN : N < 1
    · rw [if_pos hN] at hr
      have : (l', o') = (([] : List (List ℕ)), o) := by
        injection (show (Except.ok (l', o') : Py _) = .ok ([], o) from hr)
      injection this with _ this
      subst this
      refine ⟨h3, h4, ?_, h6, h7⟩
      simp [pastParticles, hN, h5]
    · rw [if_neg hN] at hr
      cases hp : bobsPrepare o S with
      | error e =>
        rw [hp] at hr
        cases hr
      | ok o1 =>
        rw [hp] at hr
        have ho : o' = o1 := by
          simp only [Prog.lift_def, Prog.bind_eq, Prog.done_ok_bind, Prog.pure_eq] at hr
          rcases (Prog.runs_bind _ _ _).mp hr with ⟨a, -, h8⟩ | ⟨e, -, h8⟩
          · have : (l', o') = (a, o1) := by
              injection (show (Except.ok (l', o') : Py _) = .ok (a, o1) from h8)
            injection this
          · cases h8
        subst ho
        obtain ⟨hne, hk⟩ := bobsPrepare_inv o o' S hp
        obtain ⟨mx, -, -, -, h8⟩ := bobsPrepare_ok o S hne hk
        rw [hp] at h8
        injection h8 with h8
        subst h8
        refine ⟨⟨h3.pos, h3.kle, h3.threads, h3.initial, h3.contraction, h3.loss0, h3.loss1, h3.product⟩, h4, ?_, h6, h7⟩
        simp [pastParticles, hN, h5, h4]

theorem bunchedStates_eq (o : BobsObj m) (S : List ℕ) (h : o.state = List.replicate o.k 0 ++ S.drop o.k) :
    bobsStates o = bunchedStates o.k o.number S := by
  unfold bobsStates bunchedStates
  split_ifs with h0
  · rw [h, h0]; simp
  · refine List.map_congr_left fun j hj => ?_
    rw [List.mem_range] at hj
    rw [h, List.set_append_left _ _ (by simpa using hj)]
    congr 1
    refine List.ext_getElem (by simp; omega) fun i h1 h2 => ?_
    rw [List.getElem_set]
    by_cases hij : j = i
    · subst hij; simp
    · rw [if_neg hij, List.getElem_replicate]
      rcases Nat.lt_or_ge i j with h3 | h3
      · rw [List.getElem_append_left (by simpa using h3), List.getElem_replicate]
      · rw [List.getElem_append_right (by simpa using h3)]
        simp only [List.length_replicate]
        obtain ⟨c, hc⟩ : ∃ c, i - j = c + 1 := ⟨i - j - 1, by omega⟩
        simp [hc]

/-! ### C39 -/

/-- C39, the part that holds: after any completed calls, a call for `N ≥ 1` samples raises nothing and
returns `th·(N / th + 1)` samples of `m` modes, `th` being the number of threads. Missing for the full
claim: this number is never `N` (`C39_fails`). -/
theorem C39_count_partial (h : BobsSetup M d cpu k t A l eta K th) (hsvd : ∀ B, IsSvd B (svd B))
    {calls : List (List ℕ × ℤ)} {o : BobsObj m}
    (hh : BobsHistory svd (ryserSubPermanents fuel) fuel d cpu k t calls o) (S : List ℕ) (hS : S.length = m) (N : ℤ)
    (hN : 1 ≤ N) (hf : (pastParticles K calls + S.sum + 1) ^ m ≤ fuel) (hf' : m < fuel)
    (r : Py (List (List ℕ) × BobsObj m))
    (hr : (bobsSimulate svd (ryserSubPermanents fuel) fuel o S N).Runs r) :
    ∃ samples o', r = .ok (samples, o') ∧ samples.length = th * (N.toNat / th + 1) ∧ ∀ T ∈ samples, T.length = m := by
  obtain ⟨h3, h4, h5, h6, h7⟩ := hh.inv h
  rcases bobsSimulate_all h3 svd hsvd S hS N hN fuel (by rw [h5]; exact hf) hf' r hr with ⟨⟨x, o'⟩, rfl, h8, h9, h10⟩ | ⟨_, _, h8⟩
  · exact ⟨x, o', rfl, by rw [← h6]; exact h9, fun T hT => (h10 T hT).1⟩
  · exact h8.elim

/-- C39 does not hold: for every `N ≥ 1` every call returns more than `N` samples, up to one more per
thread. -/
theorem C39_fails (h : BobsSetup M d cpu k t A l eta K th) (hsvd : ∀ B, IsSvd B (svd B))
    {calls : List (List ℕ × ℤ)} {o : BobsObj m}
    (hh : BobsHistory svd (ryserSubPermanents fuel) fuel d cpu k t calls o) (S : List ℕ) (hS : S.length = m) (N : ℤ)
    (hN : 1 ≤ N) (hf : (pastParticles K calls + S.sum + 1) ^ m ≤ fuel) (hf' : m < fuel)
    (r : Py (List (List ℕ) × BobsObj m))
    (hr : (bobsSimulate svd (ryserSubPermanents fuel) fuel o S N).Runs r) :
    ∃ samples o', r = .ok (samples, o') ∧ N < samples.length ∧ samples.length ≤ N + th := by
  obtain ⟨x, o', h1, h2, -⟩ := C39_count_partial h hsvd hh S hS N hN hf hf' r hr
  refine ⟨x, o', h1, ?_⟩
  obtain ⟨n, rfl⟩ : ∃ n : ℕ, N = n := ⟨N.toNat, by omega⟩
  rw [Int.toNat_natCast] at h2
  have hth : 0 < th := by
    have := (hh.inv h).1.threads
    rw [(hh.inv h).2.2.2.1] at this
    exact this
  have h3 := Nat.div_add_mod n th
  have h4 := Nat.mod_lt n hth
  rw [Nat.mul_add, Nat.mul_one] at h2
  omega

/-- C39: a call for fewer than one sample returns the empty list and leaves the object as it is. -/
theorem C39_empty (svd : Matrix (Fin m) (Fin m) ℂ → Svd m) (sub : CalcCfg ℂ → Py (List ℂ)) (fuel : ℕ) (o : BobsObj m)
    (S : List ℕ) (N : ℤ) (hN : N < 1) (r : Py (List (List ℕ) × BobsObj m))
    (hr : (bobsSimulate svd sub fuel o S N).Runs r) : r = .ok ([], o) := by
  rw [bobsSimulate, if_pos hN] at hr
  exact hr

/-! ### C58, C40: the law of the samples -/

/-- C40, the part that holds: after any completed calls each sample of a call `simulate(S, N)` follows
the law of the approximation, with `pastParticles + ` the number of particles of `S` in the
approximated modes in place of the latter alone. So the calls are independent of the past exactly
as long as no earlier input held particles in the approximated modes. -/
theorem C40_law_partial (h : BobsSetup M d cpu k t A l eta K th) (hsvd : ∀ B, IsSvd B (svd B))
    {calls : List (List ℕ × ℤ)} {o : BobsObj m}
    (hh : BobsHistory svd (ryserSubPermanents fuel) fuel d cpu k t calls o) (S : List ℕ) (hS : S.length = m) (N : ℤ)
    (hN : 1 ≤ N) (hf : (pastParticles K calls + S.sum + 1) ^ m ≤ fuel) (hf' : m < fuel)
    (W : (Fin K → ℝ) → List (List ℂ)) (b : ℕ)
    (hW : ∀ us, IsDilation (rowsOf (A * phaseMatrix K m us * dftMatrix K m)) (W us) m b)
    (i : ℕ) (hi : i < N.toNat) (T : List ℕ) (hT : T.length = m) :
    (bobsSimulate svd (ryserSubPermanents fuel) fuel o S N).prob
        (fun r => ∃ samples o', r = .ok (samples, o') ∧ samples[i]? = some T)
      = approxLaw K (pastParticles K calls + (S.take K).sum) eta W b S T := by
  obtain ⟨h3, h4, h5, h6, h7⟩ := hh.inv h
  subst h4
  obtain ⟨o', e1, e2, e3, e4, e5, e6, e7, mx, e8, e9⟩ := h3.prepare S hS
  have hfm : (mx + 1) ^ m ≤ fuel := (Nat.pow_le_pow_left (by omega) m).trans hf
  have hi' : i < o'.threads * (N.toNat / o'.threads + 1) := by
    have h8 := Nat.div_add_mod N.toNat o'.threads
    have h9 := Nat.mod_lt N.toNat e7.threads
    rw [Nat.mul_add, Nat.mul_one]; omega
  rw [bobsSimulate_prob svd hsvd S N hN e1 e7.threads e9 fuel hfm hf' i hi' T]
  have e6' : o'.state = List.replicate o'.k 0 ++ S.drop o'.k := by rw [e6, e2]
  have hst : bobsStates o' = bunchedStates o.k (pastParticles o.k calls + (S.take o.k).sum) S := by
    rw [bunchedStates_eq o' S e6', e2, e5, h5]
  have hl : 1 - appliedLosses o'.losses = eta := by
    rw [h.eta_eq (h7 ▸ h3.loss0), e4, h7]
  clear e5 e6 e6' h5
  rcases o' with ⟨ok, ol, oi, ow, ot, os, on⟩
  simp only at e2
  subst e2
  rw [bobsSample_prob e9 svd hsvd fuel hfm hf' W b hW T hT, hst, hl]
  rfl

/-- C58: on a new object (or after calls with no particles in the approximated modes) a sample equals
`T` with the probability given by the approximation of Brod and Oszmaniec: the particles of the `K`
approximated modes are put together into one of these modes, chosen uniformly, each particle survives
with probability `η`, the network with the extracted losses removed acts after random phases and a
Fourier transform of the approximated modes. -/
theorem C58_sample (h : BobsSetup M d cpu k t A l eta K th) (hsvd : ∀ B, IsSvd B (svd B)) {o : BobsObj m}
    {calls : List (List ℕ × ℤ)} (hh : BobsHistory svd (ryserSubPermanents fuel) fuel d cpu k t calls o)
    (hp : ∀ c ∈ calls, ∀ x ∈ c.1.take K, x = 0)
    (S : List ℕ) (hS : S.length = m) (N : ℤ) (hN : 1 ≤ N) (hf : (S.sum + 1) ^ m ≤ fuel) (hf' : m < fuel)
    (W : (Fin K → ℝ) → List (List ℂ)) (b : ℕ)
    (hW : ∀ us, IsDilation (rowsOf (A * phaseMatrix K m us * dftMatrix K m)) (W us) m b)
    (i : ℕ) (hi : i < N.toNat) (T : List ℕ) (hT : T.length = m) :
    (bobsSimulate svd (ryserSubPermanents fuel) fuel o S N).prob
        (fun r => ∃ samples o', r = .ok (samples, o') ∧ samples[i]? = some T)
      = approxLaw K (S.take K).sum eta W b S T := by
  have h0 : pastParticles K calls = 0 := by
    unfold pastParticles
    rw [List.sum_eq_zero_iff]
    intro x hx
    obtain ⟨c, hc, rfl⟩ := List.mem_map.mp hx
    split_ifs
    · rfl
    · exact List.sum_eq_zero_iff.mpr (hp c hc)
  have := C40_law_partial h hsvd hh S hS N hN (by rw [h0, Nat.zero_add]; exact hf) hf' W b hW i hi T hT
  rwa [h0, Nat.zero_add] at this

/-! ### C59: no approximated modes -/

theorem phaseMatrix_zero (us : Fin 0 → ℝ) : phaseMatrix 0 m us = 1 := by
  unfold phaseMatrix
  simp

theorem dftMatrix_zero : dftMatrix 0 m = 1 := by
  ext i j
  simp [dftMatrix, Matrix.one_apply]

/-- C59: without approximated modes the samples follow exactly the law of the lossy network `M`: the
probability that the particles, sent through any interferometer `W` containing `M`, show `T` in the
first `m` modes. The losses taken out of the network and applied to the input instead make no
difference, unless they are below the tolerance of `isclose`. -/
theorem C59_exact (h : BobsSetup M d cpu k t A l eta K th) (hsvd : ∀ B, IsSvd B (svd B)) (hk : k ≤ 0)
    (htol : l = 0 ∨ 1e-8 < l)
    {calls : List (List ℕ × ℤ)} {o : BobsObj m} (hh : BobsHistory svd (ryserSubPermanents fuel) fuel d cpu k t calls o)
    (S : List ℕ) (hS : S.length = m) (N : ℤ) (hN : 1 ≤ N) (hf : (S.sum + 1) ^ m ≤ fuel) (hf' : m < fuel)
    (W : List (List ℂ)) (b : ℕ) (hW : IsDilation (rowsOf M) W m b)
    (i : ℕ) (hi : i < N.toNat) (T : List ℕ) (hT : T.length = m) :
    (bobsSimulate svd (ryserSubPermanents fuel) fuel o S N).prob
        (fun r => ∃ samples o', r = .ok (samples, o') ∧ samples[i]? = some T)
      = ENNReal.ofReal (lossyProb W b S T) := by
  obtain ⟨h3, -, -, -, h7⟩ := hh.inv h
  obtain ⟨d', hd', hd1⟩ := h3.contraction
  have hl0 : 0 ≤ l := h7 ▸ h3.loss0
  have hl1 : l ≤ 1 := h7 ▸ h3.loss1
  obtain rfl : K = 0 := by have := h.modes; omega
  have he : eta = 1 - l := by
    rw [h.left]
    rcases htol with rfl | h1
    · norm_num
    · rw [if_neg (not_le.mpr h1)]
  rw [C58_sample h hsvd hh (by simp) S hS N hN hf hf' (fun _ => rowsOf (expandedMatrix d')) m (fun us => by
    rw [phaseMatrix_zero, dftMatrix_zero, Matrix.mul_one, Matrix.mul_one]
    exact expanded_isDilation hd' hd1) i hi T hT]
  simp only [approxLaw, average, bunchedStates, if_pos, List.map_cons, List.map_nil, List.sum_cons, List.sum_nil, add_zero,
    List.length_cons, List.length_nil, zero_add, Nat.cast_one, div_one, expUniform]
  rw [he]
  exact lossyProb_uniform A (1 - l) (by linarith) (by linarith) (expanded_isDilation hd' hd1) (h.split ▸ hW) S T hS hT

/-- C59: extracted losses below the tolerance of `isclose` are dropped: the samples then follow the
law of the rescaled network `M / √(1-l)`. -/
theorem C59_tolerance (h : BobsSetup M d cpu k t A l eta K th) (hsvd : ∀ B, IsSvd B (svd B)) (hk : k ≤ 0)
    (htol : l ≤ 1e-8)
    {calls : List (List ℕ × ℤ)} {o : BobsObj m} (hh : BobsHistory svd (ryserSubPermanents fuel) fuel d cpu k t calls o)
    (S : List ℕ) (hS : S.length = m) (N : ℤ) (hN : 1 ≤ N) (hf : (S.sum + 1) ^ m ≤ fuel) (hf' : m < fuel)
    (W : List (List ℂ)) (b : ℕ) (hW : IsDilation (rowsOf A) W m b)
    (i : ℕ) (hi : i < N.toNat) (T : List ℕ) (hT : T.length = m) :
    (bobsSimulate svd (ryserSubPermanents fuel) fuel o S N).prob
        (fun r => ∃ samples o', r = .ok (samples, o') ∧ samples[i]? = some T)
      = ENNReal.ofReal (lossyProb W b S T) := by
  obtain rfl : K = 0 := by have := h.modes; omega
  rw [C58_sample h hsvd hh (by simp) S hS N hN hf hf' (fun _ => W) b (fun us => by
    rw [phaseMatrix_zero, dftMatrix_zero, Matrix.mul_one, Matrix.mul_one]
    exact hW) i hi T hT]
  simp only [approxLaw, average, bunchedStates, if_pos, List.map_cons, List.map_nil, List.sum_cons, List.sum_nil, add_zero,
    List.length_cons, List.length_nil, zero_add, Nat.cast_one, div_one, expUniform]
  rw [h.left, if_pos htol, expLoss_one]

end

/-! ### A single lossless mode, approximated -/

/-- The decomposition of the lossless single-mode network. -/
noncomputable def oneSvd : Svd 1 := { V := 1, s := fun _ => 1, U := 1 }

theorem oneSvd_isSvd : IsSvd (1 : Matrix (Fin 1) (Fin 1) ℂ) oneSvd := by
  refine ⟨one_mem _, one_mem _, fun i => by simp [oneSvd], fun i j _ => le_rfl, ?_⟩
  simp [oneSvd]

theorem oneSetup : BobsSetup (1 : Matrix (Fin 1) (Fin 1) ℂ) oneSvd 1 1 1 1 0 1 1 1 := by
  refine ⟨oneSvd_isSvd, fun i => by simp [oneSvd], one_ne_zero, by decide, ?_, by simp, by norm_num, by decide, by decide⟩
  simp [oneSvd, IsGreatest, upperBounds]

/-- A unitary is its own dilation. -/
theorem unitary_isDilation {U : Matrix (Fin m) (Fin m) ℂ} (hU : U ∈ Matrix.unitaryGroup (Fin m) ℂ) :
    IsDilation (rowsOf U) (rowsOf U) m 0 := by
  refine ⟨fun _ _ _ _ => rfl, fun a ha b hb => ?_⟩
  have h := congrFun (congrFun (Matrix.mem_unitaryGroup_iff'.mp hU) ⟨a, ha⟩) ⟨b, hb⟩
  rw [Matrix.mul_apply, Matrix.one_apply] at h
  simp only [Fin.mk.injEq] at h
  rw [← h, Nat.add_zero, sum_range]
  refine sum_congr rfl fun r _ => ?_
  rw [mget_rowsOf _ _ _ r.isLt ha, mget_rowsOf _ _ _ r.isLt hb]
  rfl

theorem lossyProb_single {U : Matrix (Fin 1) (Fin 1) ℂ} (hU : U ∈ Matrix.unitaryGroup (Fin 1) ℂ) (p : ℕ) :
    lossyProb (rowsOf U) 0 [p] [p] = 1 := by
  have h := boson_total (rowsOf U) [p] (m := 1) (n := 1) (unitary_isDilation hU).isometric le_rfl {[p]} (by
    intro T
    rw [mem_singleton]
    constructor
    · rintro rfl; exact ⟨rfl, rfl⟩
    · rintro ⟨h1, h2⟩
      obtain ⟨q, rfl⟩ := List.length_eq_one_iff.mp h1
      simpa using h2)
  rw [sum_singleton] at h
  rw [← h]
  unfold lossyProb
  rw [filter_true_of_mem (by simp)]
  simp

theorem one_law (p : ℕ) :
    approxLaw 1 p 1 (fun us => rowsOf ((1 : Matrix (Fin 1) (Fin 1) ℂ) * phaseMatrix 1 1 us * dftMatrix 1 1)) 0 [1] [p]
      = 1 := by
  have hU : ∀ us, (1 : Matrix (Fin 1) (Fin 1) ℂ) * phaseMatrix 1 1 us * dftMatrix 1 1 ∈ Matrix.unitaryGroup (Fin 1) ℂ :=
    fun us => mul_mem (mul_mem (one_mem _) (generatePhases_eq 1 1 le_rfl us).2) (generateQft_eq 1 1 le_rfl).2
  simp only [approxLaw, average, bunchedStates, if_neg one_ne_zero, List.range_one, List.map_cons, List.map_nil,
    List.sum_cons, List.sum_nil, add_zero, List.length_cons, List.length_nil, zero_add, Nat.cast_one, div_one, expLoss_one,
    List.replicate_zero, List.nil_append, Nat.sub_self, List.drop_succ_cons, List.drop_nil, List.cons_append]
  simp only [lossyProb_single (hU _), ENNReal.ofReal_one, expUniform]
  simp

/-- C40 does not hold: a single lossless mode is approximated, `simulate([1], 1)` is called twice. The
samples of the first call show the one particle of the input, those of the second call show two
particles, with certainty. -/
theorem C40_fails (svd : Matrix (Fin 1) (Fin 1) ℂ → Svd 1) (hsvd : ∀ B, IsSvd B (svd B)) :
    ∃ o o', BobsHistory svd (ryserSubPermanents 3) 3 oneSvd 1 1 1 [] o ∧
      BobsHistory svd (ryserSubPermanents 3) 3 oneSvd 1 1 1 [([1], 1)] o' ∧
      (bobsSimulate svd (ryserSubPermanents 3) 3 o [1] 1).prob
        (fun r => ∃ samples o', r = .ok (samples, o') ∧ samples[0]? = some [1]) = 1 ∧
      (bobsSimulate svd (ryserSubPermanents 3) 3 o' [1] 1).prob
        (fun r => ∃ samples o', r = .ok (samples, o') ∧ samples[0]? = some [2]) = 1 := by
  obtain ⟨o, h1, h2, h3, h4, h5, h6⟩ := oneSetup.inv
  have hh : BobsHistory svd (ryserSubPermanents 3) 3 oneSvd 1 1 1 [] o := .new h1
  have hW : ∀ us, IsDilation (rowsOf ((1 : Matrix (Fin 1) (Fin 1) ℂ) * phaseMatrix 1 1 us * dftMatrix 1 1))
      (rowsOf ((1 : Matrix (Fin 1) (Fin 1) ℂ) * phaseMatrix 1 1 us * dftMatrix 1 1)) 1 0 := fun us =>
    unitary_isDilation (mul_mem (mul_mem (one_mem _) (generatePhases_eq 1 1 le_rfl us).2) (generateQft_eq 1 1 le_rfl).2)
  have e1 : (bobsSimulate svd (ryserSubPermanents 3) 3 o [1] 1).prob
        (fun r => ∃ samples o', r = .ok (samples, o') ∧ samples[0]? = some [1]) = 1 :=
    (C40_law_partial oneSetup hsvd hh [1] rfl 1 le_rfl (by decide) (by decide) _ 0 hW 0 (by decide) [1] rfl).trans
      (one_law 1)
  obtain ⟨x, o', hr⟩ : ∃ x o', (bobsSimulate svd (ryserSubPermanents 3) 3 o [1] 1).Runs (.ok (x, o')) := by
    by_contra hno
    push Not at hno
    rw [Prog.prob, Prog.wp_congr _ _ (fun _ => 0), Prog.wp_const] at e1
    · exact zero_ne_one e1
    · intro r hr
      rw [if_neg]
      rintro ⟨x, o', rfl, -⟩
      exact hno x o' hr
  have hh' : BobsHistory svd (ryserSubPermanents 3) 3 oneSvd 1 1 1 [([1], 1)] o' := .call hh hr
  exact ⟨o, o', hh, hh', e1,
    (C40_law_partial oneSetup hsvd hh' [1] rfl 1 le_rfl (by decide) (by decide) _ 0 hW 0 (by decide) [2] rfl).trans
      (one_law 2)⟩

/-- The decompositions assumed exist. -/
example : ∃ svd : Matrix (Fin 1) (Fin 1) ℂ → Svd 1, ∀ B, IsSvd B (svd B) :=
  ⟨fun B => (svd_exists B).choose, fun B => (svd_exists B).choose_spec⟩

/-- A network with uniform losses: half of the amplitude is transmitted; no mode is approximated. The
probability that the particle comes out is 1/4. -/
theorem halfSetup : BobsSetup (Matrix.of fun _ _ => (1 / 2 : ℂ)) halfSvd 4 0 3 1 (3 / 4) (1 / 4) 0 3 := by
  refine ⟨halfSvd_isSvd, fun i => by simp only [halfSvd]; norm_num, ?_, by decide, ?_, ?_, by norm_num, by decide,
    by decide⟩
  · intro h
    have := congrFun (congrFun h 0) 0
    simp at this
  · refine ⟨⟨0, by simp only [halfSvd]; norm_num⟩, ?_⟩
    rintro _ ⟨i, rfl⟩
    simp only [halfSvd]; norm_num
  · have : Real.sqrt (1 - 3 / 4) = 1 / 2 := by
      rw [show (1 - 3 / 4 : ℝ) = (1 / 2) ^ 2 by norm_num, Real.sqrt_sq (by norm_num)]
    rw [this]
    ext i j
    simp [Subsingleton.elim i j]

theorem half_lossyProb : lossyProb [[1 / 2], [(Real.sqrt 3 : ℝ) / 2]] 1 [1] [1] = 1 / 4 := by
  have hE : (Fintype.piFinset fun _ : Fin 1 => range (List.sum [1] + 1)).filter
      (fun E => ∑ i, E i + List.sum [1] = List.sum [1]) = {fun _ => 0} := by
    ext E
    simp [funext_iff]
    omega
  rw [lossyProb, hE, sum_singleton]
  have : scatteringPermanent ([[1 / 2], [(Real.sqrt 3 : ℝ) / 2]] : List (List ℂ)) [1] ([1] ++ List.ofFn fun _ : Fin 1 => 0)
      = 1 / 2 := by
    have hp : particles ([1] ++ List.ofFn fun _ : Fin 1 => 0) = [0] := by decide
    have hq : particles [1] = [0] := by decide
    unfold scatteringPermanent
    rw [hp, hq]
    change Matrix.permanent (Matrix.of fun (a b : Fin 1) => _) = _
    simp [Matrix.permanent, mget]
  rw [bosonProb, this]
  simp [factProd]
  norm_num

theorem half_dilation : IsDilation (rowsOf (Matrix.of fun _ _ : Fin 1 => (1 / 2 : ℂ))) [[1 / 2], [(Real.sqrt 3 : ℝ) / 2]] 1 1 := by
  constructor
  · intro i hi j hj; obtain rfl : i = 0 := by omega
    obtain rfl : j = 0 := by omega
    simp [mget, rowsOf]
  · intro a ha b hb
    obtain rfl : a = 0 := by omega
    obtain rfl : b = 0 := by omega
    simp [sum_range_succ, mget, Complex.ext_iff]
    ring_nf
    norm_num
    have := Real.mul_self_sqrt (show (0 : ℝ) ≤ 3 by norm_num)
    linarith

example (svd : Matrix (Fin 1) (Fin 1) ℂ → Svd 1) (hsvd : ∀ B, IsSvd B (svd B)) :
    ∃ o, bobsInit halfSvd 4 0 3 = .ok o ∧
      (∀ r, (bobsSimulate svd (ryserSubPermanents 2) 2 o [1] 5).Runs r →
        ∃ samples o', r = .ok (samples, o') ∧ samples.length = 6 ∧ ∀ T ∈ samples, T.length = 1) ∧
      (bobsSimulate svd (ryserSubPermanents 2) 2 o [1] 5).prob
        (fun r => ∃ samples o', r = .ok (samples, o') ∧ samples[4]? = some [1]) = ENNReal.ofReal (1 / 4) := by
  obtain ⟨o, h1, -⟩ := halfSetup.inv
  refine ⟨o, h1, fun r hr => C39_count_partial halfSetup hsvd (.new h1) [1] rfl 5 (by decide) (by decide) (by decide) r hr, ?_⟩
  rw [C59_exact halfSetup hsvd le_rfl (.inr (by norm_num)) (.new h1) [1] rfl 5 (by decide) (by decide) (by decide)
    [[1 / 2], [(Real.sqrt 3 : ℝ) / 2]] 1 ?_ 4 (by decide) [1] rfl]
  · rw [half_lossyProb]
  · exact half_dilation

end Verif
