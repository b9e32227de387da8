import Verif.Proofs.ApproxCalc
import Verif.Proofs.BobsSample
import Verif.Proofs.UniformBobs
import Verif.Proofs.SvdExists

/-!
C67–C69: the distribution calculator for approximations by separable states. Helper lemmas are in
`Proofs/ApproxCalc.lean`.
-/
namespace Verif

open Finset
open scoped ENNReal

variable {m : ℕ}

/-! ### C67: building the calculator -/

/-- C67 fails: whatever the configuration is, and even if the caller gave it an attribute
`approximated_modes_number`, `BSApproximatedLossyDistributionCalculator(configuration, calculator)` raises
`AttributeError` (`IndexError` for an empty matrix). -/
theorem C67_fails (svd : Matrix (Fin m) (Fin m) ℂ → Svd m) (c : ApproxCfg m) :
    approxInit svd {} c = .error (if m = 0 then .indexError else .attributeError) := by
  unfold approxInit approxInitialMatrix
  simp only [attr, ok_bind]
  by_cases h : m = 0
  · rw [if_pos h, if_pos h]; rfl
  · rw [if_neg h, if_neg h]; rfl

/-- C67: setting the two missing attributes of the calculator (say in a subclass) is not enough with a
configuration of the project, which has no number of approximated modes. -/
theorem C67_configuration (svd : Matrix (Fin m) (Fin m) ℂ → Svd m) (hm : 0 < m) (k : ℕ) (t : ℝ) (ht : 0 < t)
    (c : ApproxCfg m) (hS : c.initialState.length = m) (hc : c.approximatedModes = none) :
    approxInit svd { approximatedModes := some k, transmissivity := some t } c = .error .attributeError := by
  unfold approxInit approxInitialMatrix approxInitialState
  have hx : (floatDiv 1 (Real.sqrt t) : Py ℝ) = .ok (1 / Real.sqrt t) := by
    rw [floatDiv, if_neg (Real.sqrt_pos.mpr ht).ne']
  simp only [attr, ok_bind, if_neg hm.ne', hx]
  simp only [bind, Except.bind, pure, Except.pure, zeroExtend_ok _ hS, hc]

/-- C67: and a calculator without the attribute `configuration`, which the constructor does not set,
raises `AttributeError` when the distribution is requested. -/
theorem C67_no_configuration (perm : CalcCfg ℂ → Py ℂ) (hash : List ℕ → ℤ) (fuel : ℕ) (o : ApproxObj m)
    (ho : o.publicConfig = none) (r : Py (List ℝ)) (hr : (approxDistribution perm hash fuel o).Runs r) :
    r = .error .attributeError := by
  unfold approxDistribution at hr
  rw [ho] at hr
  exact hr

theorem approxInitialState_config (o o' : ApproxObj m) (h : o.config = o'.config) :
    approxInitialState o = approxInitialState o' := by
  unfold approxInitialState
  rw [h]

/-- C67: only if the caller or a subclass has set all of `_approximated_modes_number`,
`_modes_transmissivity` and the configuration's `approximated_modes_number` is an object built: with the
expansion of the network whose first `k` columns are divided by the square root of the transmissivity, and
100 matrices to be drawn. -/
theorem C67_init_partial (svd : Matrix (Fin m) (Fin m) ℂ → Svd m) (hm : 0 < m) (k j : ℕ) (t : ℝ) (ht : 0 < t)
    (c : ApproxCfg m) (hS : c.initialState.length = m) (hc : c.approximatedModes = some j) (hj : j ≤ m) :
    ∃ o, approxInit svd { approximatedModes := some k, transmissivity := some t } c = .ok o ∧
      o.config = some c ∧ o.publicConfig = none ∧ o.matricesNumber = some 100 ∧
      o.initialMatrix = some (expandedMatrix (svd (Matrix.of fun a b =>
        if b.1 < k then c.matrix a b / ((Real.sqrt t : ℝ) : ℂ) else c.matrix a b))) ∧
      ∃ st, o.initialState = some st ∧ approxInitialState o = .ok st ∧ st.length = m + m := by
  have hx : (floatDiv 1 (Real.sqrt t) : Py ℝ) = .ok (1 / Real.sqrt t) := by
    rw [floatDiv, if_neg (Real.sqrt_pos.mpr ht).ne']
  have hM : c.matrix * (Matrix.diagonal fun i : Fin m => if i.1 < k then (((1 / Real.sqrt t : ℝ)) : ℂ) else 1)
      = Matrix.of fun a b => if b.1 < k then c.matrix a b / ((Real.sqrt t : ℝ) : ℂ) else c.matrix a b := by
    ext a b
    rw [Matrix.mul_diagonal, Matrix.of_apply]
    split_ifs
    · push_cast; ring
    · rw [mul_one]
  have key : ∀ o : ApproxObj m, o.config = some c → ∃ st, approxInitialState o = .ok st ∧ st.length = m + m := by
    intro o ho
    rcases Nat.eq_zero_or_pos j with rfl | h1
    · exact ⟨_, approxInitialState_zero o c ho hm hc hS, by simp [hS]⟩
    · refine ⟨_, approxInitialState_ok o c j ho hc hS h1 hj, ?_⟩
      simp [hS]
      omega
  obtain ⟨st, h1, h2⟩ := key { config := some c } rfl
  have h3 : ∀ o : ApproxObj m, o.config = some c → approxInitialState o = .ok st := fun o ho =>
    (approxInitialState_config _ _ ho).trans h1
  refine ⟨⟨some c, none, some k, some t, some (expandedMatrix (svd (Matrix.of fun a b =>
        if b.1 < k then c.matrix a b / ((Real.sqrt t : ℝ) : ℂ) else c.matrix a b))), some st, some 100⟩, ?_, rfl, rfl, rfl,
    rfl, st, rfl, h3 _ rfl, h2⟩
  have h4 := h3 (ApproxObj.mk (some c) none (some k) (some t)
    (some (expandedMatrix (svd (Matrix.of fun a b =>
        if b.1 < k then c.matrix a b / ((Real.sqrt t : ℝ) : ℂ) else c.matrix a b)))) none none) rfl
  unfold approxInit approxInitialMatrix
  simp only [attr, ok_bind, if_neg hm.ne', hx, hM]
  simp only [pure_eq_ok, ok_bind]
  rw [h4]
  rfl

/-! ### C68: the probabilities -/

/-- C68: `_get_2m_outcomes_corresponding_to_the_outcome(T)` lists exactly the states of `2m` modes with
all the particles that show `T` in the first `m` modes, each once. -/
theorem C68_outcomes (o : ApproxObj m) (c : ApproxCfg m) (ho : o.config = some c) (hm : 0 < m) (T : List ℕ)
    (hT : T.length = m) (hs : T.sum ≤ c.initialNumber) :
    ∃ outs F, (∀ fuel ≥ F, approxOutcomes fuel o T = .ok outs) ∧ outs.Nodup ∧
      ∀ s : List ℕ, s ∈ outs ↔ s.length = 2 * m ∧ s.sum = c.initialNumber ∧ s.take m = T := by
  refine ⟨_, _, fun fuel hf => approxOutcomes_ok o c ho hm T hs fuel hf, ?_, fun s => ?_⟩
  · exact (allStates_nodup _ _ _).map fun a b h => List.append_cancel_left h
  · rw [List.mem_map]
    constructor
    · rintro ⟨e, he, rfl⟩
      rw [mem_allStates] at he
      simp only [Bool.false_eq_true, if_false] at he
      refine ⟨by rw [List.length_append]; omega, by rw [List.sum_append]; omega, ?_⟩
      rw [← hT, List.take_left]
    · rintro ⟨h1, h2, h3⟩
      refine ⟨s.drop m, ?_, by rw [← h3, List.take_append_drop]⟩
      rw [mem_allStates]
      simp only [Bool.false_eq_true, if_false]
      have : (s.take m).sum + (s.drop m).sum = s.sum := by rw [← List.sum_append, List.take_append_drop]
      rw [h3] at this
      rw [List.length_drop]
      omega

/-- The matrices the calculator draws: Fourier transform and phases act on the output side. -/
def IsEffective (k : ℕ) (A B : Matrix (Fin (m + m)) (Fin (m + m)) ℂ) : Prop :=
  ∃ us : Fin k → ℝ, (∀ i, 0 ≤ us i ∧ us i < 1) ∧ B = dftMatrix k (m + m) * phaseMatrix k (m + m) us * A

theorem approxMatrix_all (o : ApproxObj m) (c : ApproxCfg m) (ho : o.config = some c) (k : ℕ)
    (hc : c.approximatedModes = some k) (hk : k ≤ m) (A : Matrix (Fin (m + m)) (Fin (m + m)) ℂ)
    (hA : o.initialMatrix = some A) : (approxMatrix o).All (IsEffective k A) fun _ => False := by
  unfold approxMatrix
  rw [ho]
  simp only [attr, hc, hA, Prog.lift_def, Prog.bind_eq, Prog.done_ok_bind, (generateQft_eq k (m + m) (by omega)).1]
  refine Prog.all_bind (randVec_all k) fun us hus => ?_
  rw [(generatePhases_eq k (m + m) (by omega) _).1]
  simp only [Prog.done_ok_bind]
  refine Prog.all_done_ok ⟨fun i => us.getD i 0, fun i => ?_, rfl⟩
  simp only
  rw [getD_of_lt us 0 (by rw [hus.1]; exact i.2)]
  exact hus.2 _ (List.getElem_mem _)

/-- C68: on an object with all attributes, whose initial state has as many particles as the configuration
says, every run of `calculate_probabilities_of_outcomes(outcomes)` returns, for each of the matrices drawn
one after the other, the probability of each outcome: the probability that the first `m` of the `2m` modes
show it. They are not averaged over the matrices. -/
theorem C68_probabilities_partial (gray : ℕ → List ℕ) (hgray : ∀ n, IsGrayCode n (gray n)) (t : ℤ) (hash : List ℕ → ℤ)
    (o : ApproxObj m) (c : ApproxCfg m) (ho : o.config = some c) (hm : 0 < m) (k : ℕ)
    (hc : c.approximatedModes = some k) (hk : k ≤ m) (A : Matrix (Fin (m + m)) (Fin (m + m)) ℂ)
    (hA : o.initialMatrix = some A) (st : List ℕ) (hst : o.initialState = some st) (hlen : st.length = m + m)
    (hn : st.sum = c.initialNumber) (n : ℕ) (hnum : o.matricesNumber = some n)
    (hinj : ∀ a b : List ℕ, StateLE a st → a.sum = st.sum → StateLE b st → b.sum = st.sum → hash a = hash b → a = b)
    (outcomes : List (List ℕ)) (hout : ∀ T ∈ outcomes, T.length = m ∧ T.sum ≤ st.sum) :
    ∃ F, ∀ fuel ≥ F, ∀ r, (approxProbabilities (factoryPermanent gray t fuel) hash fuel o outcomes).Runs r →
      ∃ Bs : List (Matrix (Fin (m + m)) (Fin (m + m)) ℂ), Bs.length = n ∧ (∀ B ∈ Bs, IsEffective k A B) ∧
        r = .ok (Bs.flatMap fun B => outcomes.map fun T => lossyProb (rowsOf B) m st T) := by
  refine ⟨genFuel (m - 1) st.sum + (st.map (· + 1)).prod, fun fuel hf r hr => ?_⟩
  have key : ∀ n, (approxLoop (factoryPermanent gray t fuel) hash fuel o outcomes n).All
      (fun ps => ∃ Bs : List (Matrix (Fin (m + m)) (Fin (m + m)) ℂ), Bs.length = n ∧ (∀ B ∈ Bs, IsEffective k A B) ∧
        ps = Bs.flatMap fun B => outcomes.map fun T => lossyProb (rowsOf B) m st T) (fun _ => False) := by
    intro n
    induction n with
    | zero => exact Prog.all_done_ok ⟨[], rfl, by simp, rfl⟩
    | succ n ih =>
      unfold approxLoop
      refine Prog.all_bind (approxMatrix_all o c ho k hc hk A hA) fun B hB => ?_
      rw [mapM_ok (fun T => approxOutcome (factoryPermanent gray t fuel) hash fuel o T B)
        (fun T => lossyProb (rowsOf B) m st T) outcomes (fun T hT =>
          approxOutcome_ok gray hgray t hash o c ho hm st hst hlen hn hinj B T (hout T hT).1 (hout T hT).2 fuel
            (le_trans (genFuel_mono _ (by omega)) (show genFuel (m - 1) st.sum ≤ fuel by omega)) (by omega))]
      simp only [Prog.lift_def, Prog.bind_eq, Prog.done_ok_bind]
      refine Prog.all_bind ih ?_
      rintro _ ⟨Bs, h1, h2, rfl⟩
      refine Prog.all_done_ok ⟨B :: Bs, by simp [h1], ?_, by rw [List.flatMap_cons]⟩
      intro B' hB'
      rcases List.mem_cons.mp hB' with rfl | h
      · exact hB
      · exact h2 B' h
  unfold approxProbabilities at hr
  rw [hnum] at hr
  simp only [attr, Prog.lift_def, Prog.bind_eq, Prog.done_ok_bind] at hr
  rcases key n r hr with ⟨_, rfl, Bs, h1, h2, rfl⟩ | ⟨_, _, h⟩
  · exact ⟨Bs, h1, h2, rfl⟩
  · exact h.elim

theorem approxMatrix_wp (o : ApproxObj m) (c : ApproxCfg m) (ho : o.config = some c) (k : ℕ)
    (hc : c.approximatedModes = some k) (hk : k ≤ m) (A : Matrix (Fin (m + m)) (Fin (m + m)) ℂ)
    (hA : o.initialMatrix = some A) (f : Py (Matrix (Fin (m + m)) (Fin (m + m)) ℂ) → ℝ≥0∞) :
    (approxMatrix o).wp f = expUniform k fun us => f (.ok (dftMatrix k (m + m) * phaseMatrix k (m + m) us * A)) := by
  unfold approxMatrix
  rw [ho]
  simp only [attr, hc, hA, Prog.lift_def, Prog.bind_eq, Prog.done_ok_bind, (generateQft_eq k (m + m) (by omega)).1]
  rw [Prog.wp_bind, randVec_wp]
  refine expUniform_congr _ _ _ fun us => ?_
  rw [Prog.post, (generatePhases_eq k (m + m) (by omega) _).1]
  simp only [Prog.done_ok_bind, Prog.pure_eq, Prog.wp]
  congr 5
  funext i
  simp

open Classical in
/-- C68, the law of the returned numbers: the phases of the matrices are independent and uniform, so the list is in a
set `E` with the probability that independent uniform phases give matrices whose probabilities of the outcomes, one
matrix after the other, are in `E`. Missing: they are not averaged over the matrices. -/
theorem C68_law_partial (gray : ℕ → List ℕ) (hgray : ∀ n, IsGrayCode n (gray n)) (t : ℤ) (hash : List ℕ → ℤ)
    (o : ApproxObj m) (c : ApproxCfg m) (ho : o.config = some c) (hm : 0 < m) (k : ℕ)
    (hc : c.approximatedModes = some k) (hk : k ≤ m) (A : Matrix (Fin (m + m)) (Fin (m + m)) ℂ)
    (hA : o.initialMatrix = some A) (st : List ℕ) (hst : o.initialState = some st) (hlen : st.length = m + m)
    (hn : st.sum = c.initialNumber) (n : ℕ) (hnum : o.matricesNumber = some n)
    (hinj : ∀ a b : List ℕ, StateLE a st → a.sum = st.sum → StateLE b st → b.sum = st.sum → hash a = hash b → a = b)
    (outcomes : List (List ℕ)) (hout : ∀ T ∈ outcomes, T.length = m ∧ T.sum ≤ st.sum) :
    ∃ F, ∀ fuel ≥ F, ∀ E : List ℝ → Prop,
      (approxProbabilities (factoryPermanent gray t fuel) hash fuel o outcomes).prob (fun r => ∃ l, r = .ok l ∧ E l)
        = expUniforms k n fun uss => if E (uss.flatMap fun us => outcomes.map fun T =>
            lossyProb (rowsOf (dftMatrix k (m + m) * phaseMatrix k (m + m) us * A)) m st T) then 1 else 0 := by
  refine ⟨genFuel (m - 1) st.sum + (st.map (· + 1)).prod, fun fuel hf E => ?_⟩
  have key : ∀ n (f : Py (List ℝ) → ℝ≥0∞), (approxLoop (factoryPermanent gray t fuel) hash fuel o outcomes n).wp f
      = expUniforms k n fun uss => f (.ok (uss.flatMap fun us => outcomes.map fun T =>
            lossyProb (rowsOf (dftMatrix k (m + m) * phaseMatrix k (m + m) us * A)) m st T)) := by
    intro n
    induction n with
    | zero => intro f; rfl
    | succ n ih =>
      intro f
      rw [approxLoop, Prog.bind_eq, Prog.wp_bind, approxMatrix_wp o c ho k hc hk A hA, expUniforms]
      refine expUniform_congr _ _ _ fun us => ?_
      rw [Prog.post, mapM_ok (fun T => approxOutcome (factoryPermanent gray t fuel) hash fuel o T
          (dftMatrix k (m + m) * phaseMatrix k (m + m) us * A))
        (fun T => lossyProb (rowsOf (dftMatrix k (m + m) * phaseMatrix k (m + m) us * A)) m st T) outcomes (fun T hT =>
          approxOutcome_ok gray hgray t hash o c ho hm st hst hlen hn hinj _ T (hout T hT).1 (hout T hT).2 fuel
            (le_trans (genFuel_mono _ (by omega)) (show genFuel (m - 1) st.sum ≤ fuel by omega)) (by omega))]
      simp only [Prog.lift_def, Prog.bind_eq, Prog.done_ok_bind]
      rw [Prog.wp_bind, ih]
      rfl
  unfold approxProbabilities
  rw [hnum]
  simp only [attr, Prog.lift_def, Prog.bind_eq, Prog.done_ok_bind]
  rw [Prog.prob, key]
  congr 1
  funext uss
  simp

open Classical in
/-- A case of the law: one particle in the last of two approximated modes, one matrix. -/
example (gray : ℕ → List ℕ) (hgray : ∀ n, IsGrayCode n (gray n)) (t : ℤ) (M : Matrix (Fin 2) (Fin 2) ℂ)
    (A : Matrix (Fin (2 + 2)) (Fin (2 + 2)) ℂ) :
    ∃ F, ∀ fuel ≥ F, ∀ E : List ℝ → Prop,
      (approxProbabilities (factoryPermanent gray t fuel) (fun l => (l.getD 1 0 : ℤ)) fuel
        { config := some ⟨M, [1, 0], 1, 1, some 2⟩, initialMatrix := some A, initialState := some [0, 1, 0, 0],
          matricesNumber := some 1 } [[1, 0], [0, 1]]).prob (fun r => ∃ l, r = .ok l ∧ E l)
        = expUniforms 2 1 fun uss => if E (uss.flatMap fun us => [[1, 0], [0, 1]].map fun T =>
            lossyProb (rowsOf (dftMatrix 2 (2 + 2) * phaseMatrix 2 (2 + 2) us * A)) 2 [0, 1, 0, 0] T) then 1 else 0 := by
  convert C68_law_partial gray hgray t (fun l => (l.getD 1 0 : ℤ))
    { config := some ⟨M, [1, 0], 1, 1, some 2⟩, initialMatrix := some A, initialState := some [0, 1, 0, 0],
      matricesNumber := some 1 } _ rfl (by decide) 2 rfl (by decide) A rfl [0, 1, 0, 0] rfl rfl rfl 1 rfl (by
      intro a b ha _ hb _ h
      rw [← mem_lowerStates] at ha hb
      simp [lowerStates, List.range_succ] at ha hb
      rcases ha with rfl | rfl <;> rcases hb with rfl | rfl <;> simp_all) [[1, 0], [0, 1]] (by decide) using 8

theorem length_flatMap_map {α β γ : Type} (l : List α) (l' : List β) (f : α → β → γ) :
    (l.flatMap fun a => l'.map fun b => f a b).length = l.length * l'.length := by
  induction l with
  | nil => simp
  | cons a l ih => rw [List.flatMap_cons, List.length_append, ih, List.length_map, List.length_cons]; ring

/-! ### C69: the initial state -/

/-- What `_prepare_initial_state` documents: all particles of the first `k` modes in the last of these
modes, and `m` more empty modes. -/
def bunched (k m : ℕ) (S : List ℕ) : List ℕ :=
  List.replicate (k - 1) 0 ++ (S.take k).sum :: S.drop k ++ List.replicate m 0

/-- C69: what `_prepare_initial_state` returns: the particles that were in the last approximated mode
itself are replaced by the others. -/
theorem C69_state_partial (o : ApproxObj m) (c : ApproxCfg m) (k : ℕ) (ho : o.config = some c)
    (hc : c.approximatedModes = some k) (hS : c.initialState.length = m) (h1 : 1 ≤ k) (hk : k ≤ m) :
    approxInitialState o = .ok (List.replicate (k - 1) 0 ++ (c.initialState.take (k - 1)).sum :: c.initialState.drop k
      ++ List.replicate m 0) :=
  approxInitialState_ok o c k ho hc hS h1 hk

/-- C69: the state is the documented one exactly if the last approximated mode was empty; otherwise
particles are missing. -/
theorem C69_iff (o : ApproxObj m) (c : ApproxCfg m) (k : ℕ) (ho : o.config = some c)
    (hc : c.approximatedModes = some k) (hS : c.initialState.length = m) (h1 : 1 ≤ k) (hk : k ≤ m) :
    (approxInitialState o = .ok (bunched k m c.initialState) ↔ c.initialState.getD (k - 1) 0 = 0) ∧
    ∃ st, approxInitialState o = .ok st ∧ st.sum + c.initialState.getD (k - 1) 0 = c.initialState.sum := by
  rw [C69_state_partial o c k ho hc hS h1 hk, bunched]
  have hlt : k - 1 < c.initialState.length := by omega
  have e : (c.initialState.take k).sum = (c.initialState.take (k - 1)).sum + c.initialState.getD (k - 1) 0 := by
    obtain ⟨j, rfl⟩ : ∃ j, k = j + 1 := ⟨k - 1, by omega⟩
    rw [Nat.add_sub_cancel, List.take_succ_eq_append_getElem (by omega), List.sum_append, List.sum_singleton,
      getD_of_lt _ _ (by omega)]
  constructor
  · constructor
    · intro h
      injection h with h
      rw [List.append_assoc, List.append_assoc] at h
      have h' := List.append_cancel_left h
      simp only [List.cons_append, List.cons.injEq] at h'
      omega
    · intro h
      rw [e, h, Nat.add_zero]
  · refine ⟨_, rfl, ?_⟩
    have h2 : (c.initialState.take k).sum + (c.initialState.drop k).sum = c.initialState.sum := by
      rw [← List.sum_append, List.take_append_drop]
    simp only [List.sum_append, List.sum_cons, List.sum_replicate, smul_zero, zero_add, add_zero]
    omega

/-- C69 fails: with one particle in each of two approximated modes, one of them is lost. -/
theorem C69_fails (M : Matrix (Fin 2) (Fin 2) ℂ) :
    approxInitialState { config := some ⟨M, [1, 1], 2, 2, some 2⟩ } = .ok [0, 1, 0, 0] ∧
    bunched 2 2 [1, 1] = [0, 2, 0, 0] :=
  ⟨rfl, rfl⟩

/-! ### C68: the number of probabilities -/

/-- C68: on a built object whose last approximated mode was empty (see C69) the number of probabilities is 100 times
the number of outcomes, so it differs from the number of outcomes unless there is none. -/
theorem C68_count (gray : ℕ → List ℕ) (hgray : ∀ n, IsGrayCode n (gray n)) (t : ℤ) (hash : List ℕ → ℤ)
    (svd : Matrix (Fin m) (Fin m) ℂ → Svd m) (k₀ k : ℕ) (tr : ℝ) (htr : 0 < tr) (c : ApproxCfg m)
    (hS : c.initialState.length = m) (hn : c.initialNumber = c.initialState.sum) (hc : c.approximatedModes = some k)
    (h1 : 1 ≤ k) (hk : k ≤ m) (h0 : c.initialState.getD (k - 1) 0 = 0) (o : ApproxObj m)
    (ho : approxInit svd { approximatedModes := some k₀, transmissivity := some tr } c = .ok o)
    (hinj : ∀ a b : List ℕ, StateLE a (bunched k m c.initialState) → a.sum = c.initialState.sum →
      StateLE b (bunched k m c.initialState) → b.sum = c.initialState.sum → hash a = hash b → a = b)
    (outcomes : List (List ℕ)) (hout : ∀ T ∈ outcomes, T.length = m ∧ T.sum ≤ c.initialState.sum) (hne : outcomes ≠ []) :
    ∃ F, ∀ fuel ≥ F, ∀ r, (approxProbabilities (factoryPermanent gray t fuel) hash fuel o outcomes).Runs r →
      ∃ ps, r = .ok ps ∧ ps.length = 100 * outcomes.length ∧ ps.length ≠ outcomes.length := by
  obtain ⟨o', e1, e2, -, e4, e5, st, e6, e7, e8⟩ := C67_init_partial svd (by omega) k₀ k tr htr c hS hc hk
  rw [ho] at e1
  injection e1 with e1
  subst e1
  obtain ⟨e9, st', e10, e11⟩ := C69_iff o c k e2 hc hS h1 hk
  rw [e7] at e10
  injection e10 with e10
  subst e10
  have hst := e9.mpr h0
  rw [e7] at hst
  injection hst with hst
  have hsum : st.sum = c.initialState.sum := by rw [← e11, h0, add_zero]
  obtain ⟨F, hF⟩ := C68_probabilities_partial gray hgray t hash o c e2 (by omega) k hc hk _ e5 st e6 e8 (hsum.trans hn.symm) 100
    e4 (by rw [hst] at hsum ⊢; rw [hsum]; exact hinj) outcomes (by rw [hsum]; exact hout)
  refine ⟨F, fun fuel hf r hr => ?_⟩
  obtain ⟨Bs, h1, -, rfl⟩ := hF fuel hf r hr
  have hl : (Bs.flatMap fun B => outcomes.map fun T => lossyProb (rowsOf B) m st T).length = 100 * outcomes.length := by
    rw [length_flatMap_map, h1]
  have := List.length_pos_of_ne_nil hne
  exact ⟨_, rfl, hl, by omega⟩

/-- A case of C68: two modes, both approximated, one particle. -/
example (gray : ℕ → List ℕ) (hgray : ∀ n, IsGrayCode n (gray n)) (t : ℤ) :
    ∃ (svd : Matrix (Fin 2) (Fin 2) ℂ → Svd 2) (o : ApproxObj 2),
      approxInit svd { approximatedModes := some 2, transmissivity := some (1 / 4) } ⟨1, [1, 0], 1, 1, some 2⟩ = .ok o ∧
      ∃ F, ∀ fuel ≥ F, ∀ r,
        (approxProbabilities (factoryPermanent gray t fuel) (fun l => (l.getD 1 0 : ℤ)) fuel o [[1, 0], [0, 1]]).Runs r →
        ∃ ps, r = .ok ps ∧ ps.length = 200 := by
  let svd : Matrix (Fin 2) (Fin 2) ℂ → Svd 2 := fun B => (svd_exists B).choose
  obtain ⟨o, h1, -⟩ := C67_init_partial svd (by decide) 2 2 (1 / 4) (by norm_num)
    ⟨1, [1, 0], 1, 1, some 2⟩ rfl rfl (by decide)
  refine ⟨svd, o, h1, ?_⟩
  obtain ⟨F, hF⟩ := C68_count gray hgray t (fun l => (l.getD 1 0 : ℤ)) svd 2 2 (1 / 4) (by norm_num) _ rfl rfl rfl (by decide)
    (by decide) rfl o h1 (by
      intro a b ha _ hb _ h
      rw [← mem_lowerStates] at ha hb
      simp [bunched, lowerStates, List.range_succ] at ha hb
      rcases ha with rfl | rfl <;> rcases hb with rfl | rfl <;> simp_all) [[1, 0], [0, 1]] (by decide) (by decide)
  refine ⟨F, fun fuel hf r hr => ?_⟩
  obtain ⟨ps, h8, h9, -⟩ := hF fuel hf r hr
  exact ⟨ps, h8, h9⟩

end Verif
