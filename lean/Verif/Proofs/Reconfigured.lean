import Verif.Spec.Reconfigured
import Verif.Proofs.PermanentFactory

/-! Helper lemmas: histories of exact calculators. -/
namespace Verif

variable {K R : Type} [Field K] [Field R] [DecidableEq R]

theorem rcRun_append (s : RcState K R) (a b : List (RcOp K R)) :
    rcRun s (a ++ b) = rcRun (rcRun s a) b := by simp [rcRun]

theorem rcRun_cons (s : RcState K R) (op : RcOp K R) (b : List (RcOp K R)) :
    rcRun s (op :: b) = rcRun (rcStep s op) b := rfl

theorem rcRun_snoc (s : RcState K R) (a : List (RcOp K R)) (op : RcOp K R) :
    rcRun s (a ++ [op]) = rcStep (rcRun s a) op := by simp [rcRun]

theorem rcCreated_reverse (ops : List (RcOp K R)) : rcCreated ops.reverse = rcCreated ops := by
  simp [rcCreated]

theorem rc_length (configs : RcRef → ExpConfig K R) (ops : List (RcOp K R)) :
    (rcRun ⟨configs, []⟩ ops).calculators.length = rcCreated ops := by
  induction ops using List.reverseRecOn with
  | nil => rfl
  | append_singleton ops op ih =>
    rw [rcRun_snoc, show rcCreated (ops ++ [op]) = rcCreated ops + rcCreated [op] by simp [rcCreated], ← ih]
    cases op <;> simp [rcStep, rcNew, rcCreated, RcState.put]

theorem rc_contents (configs : RcRef → ExpConfig K R) (ops : List (RcOp K R)) (x : RcRef) :
    (rcRun ⟨configs, []⟩ ops).configs x = rcContents configs ops.reverse x := by
  induction ops using List.reverseRecOn generalizing x with
  | nil => rfl
  | append_singleton ops op ih =>
    rw [rcRun_snoc, List.reverse_append, List.reverse_singleton, List.singleton_append]
    cases op with
    | new u r =>
      simp only [rcStep, rcNew, RcState.put, rcContents, rcCreated_reverse, rc_length, ← ih]
    | write r c => simp only [rcStep, RcState.put, rcContents, ← ih]
    | assign k r => simp only [rcStep, rcContents, ← ih]
    | weightless k f => simp only [rcStep, rcContents, ← ih]

/-- What one call does to calculator `k`. -/
def rcCalcStep (s : RcState K R) (k : Nat) (c : RcCalc R) : RcOp K R → RcCalc R
  | .assign i r => if i = k then { c with configuration := r } else c
  | .weightless i flag => if i = k then rcSetWeightless s c flag else c
  | _ => c

theorem rc_calc_step (s : RcState K R) (k : Nat) (c : RcCalc R) (h : s.calculators[k]? = some c)
    (op : RcOp K R) : (rcStep s op).calculators[k]? = some (rcCalcStep s k c op) := by
  have hk : k < s.calculators.length := by
    by_contra hn
    rw [List.getElem?_eq_none (by omega)] at h
    cases h
  cases op with
  | new u r => simp [rcStep, rcNew, RcState.put, rcCalcStep, List.getElem?_append_left hk, h]
  | write r c => simp [rcStep, RcState.put, rcCalcStep, h]
  | assign i r =>
    simp only [rcStep, rcCalcStep, List.getElem?_modify, h]
    by_cases hi : i = k <;> simp [hi]
  | weightless i f =>
    simp only [rcStep, rcCalcStep, List.getElem?_modify, h]
    by_cases hi : i = k <;> simp [hi]

theorem rcSetWeightless_configuration (s : RcState K R) (c : RcCalc R) (f : Bool) :
    (rcSetWeightless s c f).configuration = c.configuration ∧
      (rcSetWeightless s c f).uniform = c.uniform := by
  obtain ⟨u, x, w, b⟩ := c
  cases u <;> cases f <;> simp [rcSetWeightless]

/-- A calculator keeps its class and has the reference assigned latest. -/
theorem rc_calc (k : Nat) (post : List (RcOp K R)) (s : RcState K R) (c : RcCalc R)
    (h : s.calculators[k]? = some c) :
    ∃ w b, (rcRun s post).calculators[k]?
      = some ⟨c.uniform, latest (rcAssigned k) post c.configuration, w, b⟩ := by
  induction post generalizing s c with
  | nil => exact ⟨c.weights, c.weightless, h⟩
  | cons op post ih =>
    rw [rcRun_cons, latest_cons]
    obtain ⟨w, b, hw⟩ := ih _ _ (rc_calc_step s k c h op)
    refine ⟨w, b, hw.trans ?_⟩
    have h1 : (rcCalcStep s k c op).uniform = c.uniform := by
      cases op <;> simp only [rcCalcStep] <;> split <;> simp [rcSetWeightless_configuration]
    have h2 : (rcCalcStep s k c op).configuration = (rcAssigned k op).getD c.configuration := by
      cases op <;> simp only [rcCalcStep, rcAssigned] <;> (try split) <;>
        simp [rcSetWeightless_configuration]
    rw [h1, h2]

/-- Calls without `set_weightless` leave the weights alone. -/
theorem rc_weights (k : Nat) (post : List (RcOp K R)) (s : RcState K R) (c : RcCalc R)
    (h : s.calculators[k]? = some c) (hp : ∀ op ∈ post, rcFlag k op = none) :
    (rcRun s post).calculators[k]?
      = some ⟨c.uniform, latest (rcAssigned k) post c.configuration, c.weights, c.weightless⟩ := by
  induction post generalizing s c with
  | nil => exact h
  | cons op post ih =>
    rw [rcRun_cons, latest_cons, ih _ _ (rc_calc_step s k c h op) fun o ho => hp o (by simp [ho])]
    have := hp op (by simp)
    cases op with
    | assign i r => by_cases hi : i = k <;> simp [rcCalcStep, rcAssigned, hi]
    | weightless i f =>
      have hi : i ≠ k := by
        rintro rfl
        simp [rcFlag] at this
      simp [rcCalcStep, rcAssigned, hi]
    | new u r => simp [rcCalcStep, rcAssigned]
    | write r x => simp [rcCalcStep, rcAssigned]

/-- A calculator whose own copy is left alone behaves like one that has nothing but `set_weightless`. -/
theorem rc_own (k : Nat) (post : List (RcOp K R)) (s : RcState K R) (w : List R) (b : Bool)
    (h : s.calculators[k]? = some ⟨true, .copy k, w, b⟩)
    (hp : ∀ op ∈ post, ¬ Reconfigures k op) :
    ∃ u : UniformCalc K R, u = (post.filterMap (rcFlag k)).foldl setWeightless ⟨s.configs (.copy k), w, b⟩ ∧
      (rcRun s post).calculators[k]? = some ⟨true, .copy k, u.weights, u.weightless⟩ ∧
      (rcRun s post).configs (.copy k) = s.configs (.copy k) ∧ u.config = s.configs (.copy k) := by
  induction post generalizing s w b with
  | nil => exact ⟨_, rfl, h, rfl, rfl⟩
  | cons op post ih =>
    have hk : k < s.calculators.length := by
      by_contra hn
      rw [List.getElem?_eq_none (by omega)] at h
      cases h
    have hop := hp op (by simp)
    have hc : (rcStep s op).configs (.copy k) = s.configs (.copy k) := by
      cases op with
      | new u r =>
        have : k ≠ s.calculators.length := by omega
        simp [rcStep, rcNew, RcState.put, this]
      | write r c =>
        have : RcRef.copy k ≠ r := fun e => hop e.symm
        simp [rcStep, RcState.put, this]
      | assign i r => rfl
      | weightless i f => rfl
    have hs := rc_calc_step s k _ h op
    rw [rcRun_cons, ← hc]
    cases op with
    | weightless i f =>
      by_cases hi : i = k
      · subst hi
        obtain ⟨u, hu, h1, h2, h3⟩ := ih (rcStep s (.weightless i f))
          (setWeightless (⟨s.configs (.copy i), w, b⟩ : UniformCalc K R) f).weights f
          (hs.trans (by cases f <;> simp [rcCalcStep, rcSetWeightless, setWeightless]))
          fun o ho => hp o (by simp [ho])
        refine ⟨u, ?_, h1, h2, h3⟩
        rw [hu, hc]
        have e : (RcOp.weightless i f :: post).filterMap (rcFlag i) = f :: post.filterMap (rcFlag i) := by
          rw [List.filterMap_cons]; simp [rcFlag]
        rw [e, List.foldl_cons]
        cases f <;> rfl
      · obtain ⟨u, hu, h1, h2, h3⟩ := ih (rcStep s (.weightless i f)) w b
          (hs.trans (by simp [rcCalcStep, hi])) fun o ho => hp o (by simp [ho])
        refine ⟨u, ?_, h1, h2, h3⟩
        rw [hu, List.filterMap_cons]; simp [rcFlag, hi]
    | new x r =>
      obtain ⟨u, hu, h1, h2, h3⟩ := ih (rcStep s (.new x r)) w b (hs.trans (by simp [rcCalcStep]))
        fun o ho => hp o (by simp [ho])
      refine ⟨u, ?_, h1, h2, h3⟩
      rw [hu, List.filterMap_cons]; simp [rcFlag]
    | write r x =>
      obtain ⟨u, hu, h1, h2, h3⟩ := ih (rcStep s (.write r x)) w b (hs.trans (by simp [rcCalcStep]))
        fun o ho => hp o (by simp [ho])
      refine ⟨u, ?_, h1, h2, h3⟩
      rw [hu, List.filterMap_cons]; simp [rcFlag]
    | assign i r =>
      have hi : i ≠ k := hop
      obtain ⟨u, hu, h1, h2, h3⟩ := ih (rcStep s (.assign i r)) w b (hs.trans (by simp [rcCalcStep, hi]))
        fun o ho => hp o (by simp [ho])
      refine ⟨u, ?_, h1, h2, h3⟩
      rw [hu, List.filterMap_cons]; simp [rcFlag]

theorem rc_latest_own (k : Nat) (post : List (RcOp K R)) (hp : ∀ op ∈ post, ¬ Reconfigures k op) :
    latest (rcAssigned k) post (.copy k) = .copy k := by
  induction post with
  | nil => rfl
  | cons op post ih =>
    have hop := hp op (by simp)
    rw [latest_cons]
    have : rcAssigned k op = none := by
      cases op with
      | assign i r =>
        have hi : i ≠ k := hop
        simp [rcAssigned, hi]
      | _ => rfl
    rw [this]
    exact ih fun o ho => hp o (by simp [ho])

theorem rc_own_contents (k : Nat) (post : List (RcOp K R)) (s : RcState K R) (hk : k < s.calculators.length)
    (hp : ∀ op ∈ post, ¬ Reconfigures k op) :
    (rcRun s post).configs (.copy k) = s.configs (.copy k) := by
  induction post generalizing s with
  | nil => rfl
  | cons op post ih =>
    have hop := hp op (by simp)
    rw [rcRun_cons, ih _ _ fun o ho => hp o (by simp [ho])]
    · cases op with
      | new u r =>
        have : k ≠ s.calculators.length := by omega
        simp [rcStep, rcNew, RcState.put, this]
      | write r c =>
        have : RcRef.copy k ≠ r := fun e => hop e.symm
        simp [rcStep, RcState.put, this]
      | assign i r => rfl
      | weightless i f => rfl
    · cases op <;> simp [rcStep, rcNew, RcState.put] <;> omega

variable (nsq : K → R) (perm : CalcCfg K → Py K) (hash : List Nat → Int)

theorem rcWorker_eq (u : UniformCalc K R) (outcomes : List (List Nat)) :
    rcWorker nsq perm hash u outcomes = uniformProbabilities nsq perm hash u outcomes := by
  induction outcomes with
  | nil => rfl
  | cons o l ih =>
    have h1 : (rcWorkerOutcome nsq perm hash u o).1 = u := by
      unfold rcWorkerOutcome
      by_cases h : o.sum = 0 <;> simp [h]
    have h2 : (rcWorkerOutcome nsq perm hash u o).2 = uniformOutcome nsq perm hash u o := by
      unfold rcWorkerOutcome uniformOutcome
      by_cases h : o.sum = 0 <;> simp [h]
    rw [rcWorker, h1, h2, ih]
    simp [uniformProbabilities]

/-- Chunks do not matter. -/
theorem rc_chunks (u : UniformCalc K R) (chunks : List (List (List Nat))) :
    (do
      let ps ← chunks.mapM (rcWorker nsq perm hash u)
      (pure ps.flatten : Py (List R)))
      = uniformProbabilities nsq perm hash u chunks.flatten := by
  induction chunks with
  | nil => rfl
  | cons l chunks ih =>
    simp only [List.mapM_cons, List.flatten_cons, rcWorker_eq, uniformProbabilities, List.mapM_append,
      bind_assoc, pure_bind] at ih ⊢
    congr 1
    funext a
    rw [← ih]
    simp

/-- The first call after `pre`. -/
theorem rc_new (configs : RcRef → ExpConfig K R) (pre : List (RcOp K R)) (uniform : Bool) (r : RcRef) :
    (rcStep (rcRun ⟨configs, []⟩ pre) (.new uniform r)).calculators[rcCreated pre]?
      = some ⟨uniform, .copy (rcCreated pre),
          if uniform then initializeWeights (rcContents configs pre.reverse r) else [], false⟩ ∧
    (rcStep (rcRun ⟨configs, []⟩ pre) (.new uniform r)).configs (.copy (rcCreated pre))
      = rcContents configs pre.reverse r := by
  have hl := rc_length configs pre
  have hc := rc_contents configs pre r
  generalize rcRun ⟨configs, []⟩ pre = s at hl hc
  simp only [rcStep, rcNew, RcState.put]
  rw [List.getElem?_append_right (by simp [hl])]
  simp [hl, hc]

end Verif
