import Verif.Spec.PermanentFactory
import Verif.Proofs.NoState

/-! Helper lemmas: histories of the permanent calculator factory. -/
namespace Verif

variable {K : Type} [Field K] (gray : Nat → List Nat) (fuel : Nat)

theorem latest_cons {α β : Type _} (f : α → Option β) (a : α) (l : List α) (d : β) :
    latest f (a :: l) d = latest f l ((f a).getD d) := rfl

theorem latest_append {α β : Type _} (f : α → Option β) (l₁ l₂ : List α) (d : β) :
    latest f (l₁ ++ l₂) d = latest f l₂ (latest f l₁ d) := by
  simp [latest]

theorem pfRun_cons (s : PfState K) (op : PfOp K) (ops : List (PfOp K)) :
    pfRun gray fuel s (op :: ops) = pfRun gray fuel (pfStep gray fuel s op).1 ops := rfl

theorem pfRun_append (s : PfState K) (l₁ l₂ : List (PfOp K)) :
    pfRun gray fuel s (l₁ ++ l₂) = pfRun gray fuel (pfRun gray fuel s l₁) l₂ := by
  simp [pfRun]

theorem pf_matrices (r : Nat) (ops : List (PfOp K)) (s : PfState K) :
    (pfRun gray fuel s ops).heap.matrices r = latest (givesMatrixContents r) ops (s.heap.matrices r) := by
  induction ops generalizing s with
  | nil => rfl
  | cons op ops ih =>
    rw [pfRun_cons, latest_cons, ih]
    congr 1
    cases op <;> simp only [pfStep, givesMatrixContents, Option.getD_none]
    · split <;> rfl
    · rename_i i m
      by_cases h : i = r
      · simp [h]
      · simp [h, Ne.symm h]

theorem pf_states (r : Nat) (ops : List (PfOp K)) (s : PfState K) :
    (pfRun gray fuel s ops).heap.states r = latest (givesStateContents r) ops (s.heap.states r) := by
  induction ops generalizing s with
  | nil => rfl
  | cons op ops ih =>
    rw [pfRun_cons, latest_cons, ih]
    congr 1
    cases op <;> simp only [pfStep, givesStateContents, Option.getD_none]
    · split <;> rfl
    · rename_i i m
      by_cases h : i = r
      · simp [h]
      · simp [h, Ne.symm h]

theorem pf_factory (ops : List (PfOp K)) (s : PfState K) :
    (pfRun gray fuel s ops).factory = ⟨latest givesMatrix ops s.factory.matrix,
      latest givesInput ops s.factory.input, latest givesOutput ops s.factory.output,
      s.factory.calculatorType⟩ := by
  induction ops generalizing s with
  | nil => rfl
  | cons op ops ih =>
    rw [pfRun_cons, latest_cons, latest_cons, latest_cons, ih]
    cases op <;> simp only [pfStep, givesMatrix, givesInput, givesOutput, Option.getD_none, Option.getD_some]
    split <;> rfl

theorem pf_length (ops : List (PfOp K)) (s : PfState K) :
    (pfRun gray fuel s ops).calculators.length = s.calculators.length + generated ops := by
  induction ops generalizing s with
  | nil => rfl
  | cons op ops ih =>
    rw [pfRun_cons, ih]
    cases op <;> simp [pfStep, generated] <;> try omega
    split <;> simp

theorem compute_kind (h : PfHeap K) (c : PfCalc K) (junk : GuanScratch K) :
    ∃ x, (c.compute gray fuel h junk).1 = { c with scratch := x } := by
  unfold PfCalc.compute
  split
  · exact ⟨_, rfl⟩
  · exact ⟨_, rfl⟩
  · split <;> exact ⟨_, rfl⟩
  · split <;> exact ⟨_, rfl⟩

theorem pf_calc (k : Nat) (ops : List (PfOp K)) (s : PfState K) (c : PfCalc K)
    (hk : s.calculators[k]? = some c) :
    ∃ x, (pfRun gray fuel s ops).calculators[k]? = some ⟨c.kind,
      latest (givesCalcMatrix k) ops c.matrix, latest (givesCalcInput k) ops c.input,
      latest (givesCalcOutput k) ops c.output, x⟩ := by
  induction ops generalizing s c with
  | nil => exact ⟨c.scratch, hk⟩
  | cons op ops ih =>
    have hkl : k < s.calculators.length := (List.getElem?_eq_some_iff.mp hk).1
    have keep : (pfStep gray fuel s op).1.calculators[k]? = some c →
        givesCalcMatrix k op = none → givesCalcInput k op = none → givesCalcOutput k op = none →
        ∃ x, (pfRun gray fuel s (op :: ops)).calculators[k]? = some ⟨c.kind,
          latest (givesCalcMatrix k) (op :: ops) c.matrix, latest (givesCalcInput k) (op :: ops) c.input,
          latest (givesCalcOutput k) (op :: ops) c.output, x⟩ := by
      intro h h1 h2 h3
      rw [latest_cons, latest_cons, latest_cons, h1, h2, h3, pfRun_cons]
      exact ih _ c h
    cases op with
    | setMatrix r => exact keep hk rfl rfl rfl
    | setInput r => exact keep hk rfl rfl rfl
    | setOutput r => exact keep hk rfl rfl rfl
    | generate =>
      refine keep ?_ rfl rfl rfl
      simp only [pfStep]
      rw [List.getElem?_append_left hkl, hk]
    | writeMatrix r m => exact keep hk rfl rfl rfl
    | writeState r m => exact keep hk rfl rfl rfl
    | on i op =>
      by_cases hi : i = k
      · subst hi
        have hs : ∀ op' : PfCalcOp K, (pfStep gray fuel s (.on i op')).1.calculators[i]?
            = some (c.step gray fuel s.heap op').1 := by
          intro op'
          simp only [pfStep, hk]
          rw [List.getElem?_set_self hkl]
        rw [latest_cons, latest_cons, latest_cons, pfRun_cons]
        obtain ⟨x, hx⟩ := ih _ _ (hs op)
        refine ⟨x, hx.trans ?_⟩
        cases op with
        | setMatrix r => simp [PfCalc.step, givesCalcMatrix, givesCalcInput, givesCalcOutput]
        | setInput r => simp [PfCalc.step, givesCalcMatrix, givesCalcInput, givesCalcOutput]
        | setOutput r => simp [PfCalc.step, givesCalcMatrix, givesCalcInput, givesCalcOutput]
        | compute junk =>
          obtain ⟨y, hy⟩ := compute_kind gray fuel s.heap c junk
          simp [PfCalc.step, givesCalcMatrix, givesCalcInput, givesCalcOutput, hy]
      · refine keep ?_ ?_ ?_ ?_
        · simp only [pfStep]
          split
          · exact hk
          · simp only
            rw [List.getElem?_set_ne hi, hk]
        · cases op <;> simp [givesCalcMatrix, hi]
        · cases op <;> simp [givesCalcInput, hi]
        · cases op <;> simp [givesCalcOutput, hi]

/-- The result of `compute_permanent` of a generated calculator. -/
theorem pfCompute (h : PfHeap K) (c : PfCalc K) (t : Int) (junk : GuanScratch K)
    (hk : c.kind = if t = 1 then 1 else if t = 2 then 2 else if t = 3 then 3 else if t = 4 then 4 else 3) :
    (c.compute gray fuel h junk).2 = factoryPermanent gray t fuel (c.cfg h) := by
  unfold PfCalc.compute factoryPermanent
  split_ifs at hk ⊢ <;> simp only [hk]
  · have := compute_no_state chinHuhMethod chinHuh_init_withIL fuel (c.cfg h) c.scratch (freshScratch (c.cfg h))
    unfold chinHuhPermanent
    revert this
    rcases computePermanent chinHuhMethod fuel (c.cfg h) c.scratch with e | p <;>
      rcases computePermanent chinHuhMethod fuel (c.cfg h) (freshScratch (c.cfg h)) with e' | p' <;>
      intro this <;> simp [Except.map] at this <;> simp only [this] <;> rfl
  · have := compute_no_state ryserMethod ryser_init_withIL fuel (c.cfg h) c.scratch (freshScratch (c.cfg h))
    unfold ryserPermanent
    revert this
    rcases computePermanent ryserMethod fuel (c.cfg h) c.scratch with e | p <;>
      rcases computePermanent ryserMethod fuel (c.cfg h) (freshScratch (c.cfg h)) with e' | p' <;>
      intro this <;> simp [Except.map] at this <;> simp only [this] <;> rfl
  · have := compute_no_state chinHuhMethod chinHuh_init_withIL fuel (c.cfg h) c.scratch (freshScratch (c.cfg h))
    unfold chinHuhPermanent
    revert this
    rcases computePermanent chinHuhMethod fuel (c.cfg h) c.scratch with e | p <;>
      rcases computePermanent chinHuhMethod fuel (c.cfg h) (freshScratch (c.cfg h)) with e' | p' <;>
      intro this <;> simp [Except.map] at this <;> simp only [this] <;> rfl

end Verif
