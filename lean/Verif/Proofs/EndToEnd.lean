import Verif.Spec.EndToEnd
import Verif.Model.EndToEnd
import Verif.Proofs.StrategyFactory

/-! Helper lemmas: the matrix of a generated strategy after a history of actions. -/
namespace Verif

/-- The calculator of the strategy `s` holds the matrix `M` (expanded, for lossy networks). -/
def HoldsMatrix (env : FactoryEnv) (s : StrategyObj) (a : ℕ) (M : Rows) (c : CalcObj) : Prop :=
  (s = .gcc a ∧ c.matrix = M) ∨ (∃ eta, s = .uniformGcc a eta ∧ c.matrix = M) ∨
    (s = .lossyNet a ∧ env.expand M = .ok c.matrix)

theorem HoldsMatrix.owns {env : FactoryEnv} {s : StrategyObj} {a : ℕ} {M : Rows} {c : CalcObj}
    (h : HoldsMatrix env s a M c) : s.owns = some a := by
  rcases h with ⟨rfl, -⟩ | ⟨eta, rfl, -⟩ | ⟨rfl, -⟩ <;> rfl

theorem HoldsMatrix.congr {env : FactoryEnv} {s : StrategyObj} {a : ℕ} {M : Rows} {c c' : CalcObj}
    (h : HoldsMatrix env s a M c) (hc : c'.matrix = c.matrix) : HoldsMatrix env s a M c' := by
  unfold HoldsMatrix at h ⊢
  rwa [hc]

/-- One action. -/
theorem holdsMatrix_step {env : FactoryEnv} {w w' : FactoryWorld} (hw : FactoryInv w) {op : FactoryOp}
    (h : factoryStep env w op = .ok w') {j a : ℕ} {s : StrategyObj} {c : CalcObj} {M : Rows}
    (hs : w.strategies[j]? = some s) (hc : w.calcs[a]? = some c) (hM : HoldsMatrix env s a M c) :
    ∃ c', w'.strategies[j]? = some s ∧ w'.calcs[a]? = some c' ∧ HoldsMatrix env s a (lastMatrix j M [op]) c' := by
  have ho := hM.owns
  have hlt : a < w.calcs.length := (List.getElem?_eq_some_iff.mp hc).1
  have hjl : j < w.strategies.length := (List.getElem?_eq_some_iff.mp hs).1
  have happ : ∀ l : List CalcObj, (w.calcs ++ l)[a]? = some c := fun l => by
    rw [List.getElem?_append_left hlt]; exact hc
  cases op with
  | newCalc c0 =>
    simp only [factoryStep, pure, Except.pure, Except.ok.injEq] at h
    subst h
    exact ⟨c, hs, happ _, hM⟩
  | writeCalc b c0 =>
    simp only [factoryStep] at h
    split_ifs at h with hb
    simp only [pure, Except.pure, Except.ok.injEq] at h
    subst h
    refine ⟨c, hs, ?_, hM⟩
    simp only
    rw [List.getElem?_set_ne]
    · exact hc
    · rintro rfl
      exact hw.owns_held j s _ hs ho hb
  | newCfg c0 =>
    simp only [factoryStep, pure, Except.pure, Except.ok.injEq] at h
    subst h
    exact ⟨c, hs, hc, hM⟩
  | writeCfg b c0 =>
    simp only [factoryStep, pure, Except.pure, Except.ok.injEq] at h
    subst h
    exact ⟨c, hs, hc, hM⟩
  | getCalc =>
    simp only [factoryStep, pure, Except.pure, Except.ok.injEq] at h
    subst h
    exact ⟨c, hs, hc, hM⟩
  | setCalc b =>
    simp only [factoryStep] at h
    split_ifs at h with hb
    cases hd : deepcopyCalc w.calcs b with
    | error e => rw [hd] at h; simp [bind, Except.bind] at h
    | ok x =>
      obtain ⟨b', calcs'⟩ := x
      obtain ⟨rfl, c1, h2, rfl⟩ := deepcopyCalc_eq_ok.mp hd
      rw [hd, ok_bind] at h
      simp only [pure, Except.pure, Except.ok.injEq] at h
      subst h
      exact ⟨c, hs, happ _, hM⟩
  | setType t =>
    simp only [factoryStep, pure, Except.pure, Except.ok.injEq] at h
    subst h
    exact ⟨c, hs, hc, hM⟩
  | setCfg b =>
    simp only [factoryStep] at h
    split_ifs at h with hb
    simp only [pure, Except.pure, Except.ok.injEq] at h
    subst h
    exact ⟨c, hs, hc, hM⟩
  | setThreads t =>
    simp only [factoryStep, pure, Except.pure, Except.ok.injEq] at h
    subst h
    exact ⟨c, hs, hc, hM⟩
  | generate =>
    simp only [factoryStep] at h
    cases hg : generateStrategy env w with
    | error e => rw [hg] at h; simp [bind, Except.bind] at h
    | ok x =>
      obtain ⟨calcs, s'⟩ := x
      rw [hg, ok_bind] at h
      simp only [pure, Except.pure, Except.ok.injEq] at h
      subst h
      obtain ⟨⟨l, rfl⟩, -, -⟩ := generateStrategy_facts hw hg
      refine ⟨c, ?_, happ _, hM⟩
      simp only
      rw [List.getElem?_append_left hjl]
      exact hs
  | setMatrix k N =>
    simp only [lastMatrix, List.foldl_cons, List.foldl_nil]
    rcases setStrategyMatrix_cases h with ⟨s', a', c', M', h1, h2, h3, h4, rfl⟩ | ⟨N', h1, rfl⟩
    · by_cases hk : k = j
      · subst hk
        rw [hs, Option.some.injEq] at h1
        subst h1
        rw [ho, Option.some.injEq] at h2
        subst h2
        rw [if_pos rfl]
        refine ⟨_, hs, List.getElem?_set_self hlt, ?_⟩
        rcases hM with ⟨rfl, -⟩ | ⟨eta, rfl, -⟩ | ⟨rfl, -⟩
        · rcases h4 with ⟨rfl, -⟩ | ⟨-, h5⟩
          · exact .inl ⟨rfl, rfl⟩
          · simp at h5
        · rcases h4 with ⟨rfl, -⟩ | ⟨-, h5⟩
          · exact .inr (.inl ⟨eta, rfl, rfl⟩)
          · simp at h5
        · rcases h4 with ⟨rfl, h5⟩ | ⟨h5, -⟩
          · exact absurd rfl (h5 a)
          · exact .inr (.inr ⟨rfl, h5⟩)
      · rw [if_neg hk]
        refine ⟨c, hs, ?_, hM⟩
        simp only
        rw [List.getElem?_set_ne]
        · exact hc
        · rintro rfl
          exact hw.owns_other k j s' s _ hk h1 hs h2 (StrategyObj.uses_of_owns ho)
    · have hk : k ≠ j := by
        rintro rfl
        rw [hs, Option.some.injEq] at h1
        subst h1
        simp [StrategyObj.owns] at ho
      rw [if_neg hk]
      refine ⟨c, ?_, hc, hM⟩
      simp only
      rw [List.getElem?_set_ne hk]
      exact hs
  | simulate k i o =>
    rcases simulateStrategy_cases h with rfl | ⟨s', a', c', h1, h2, h3, rfl⟩
    · exact ⟨c, hs, hc, hM⟩
    · by_cases hk : a' = a
      · subst hk
        rw [hc, Option.some.injEq] at h3
        subst h3
        exact ⟨_, hs, List.getElem?_set_self hlt, hM.congr rfl⟩
      · refine ⟨c, hs, ?_, hM⟩
        simp only
        rw [List.getElem?_set_ne hk]
        exact hc

/-- A history of actions. -/
theorem holdsMatrix_run {env : FactoryEnv} {w : FactoryWorld} (hw : FactoryInv w) (ops : List FactoryOp) {j a : ℕ}
    {s : StrategyObj} {c : CalcObj} {M : Rows} (hs : w.strategies[j]? = some s) (hc : w.calcs[a]? = some c)
    (hM : HoldsMatrix env s a M c) (hops : s = .lossyNet a → ∀ N, .setMatrix j N ∈ ops → ∃ X, env.expand N = .ok X) :
    ∃ c', (factoryRun env w ops).strategies[j]? = some s ∧ (factoryRun env w ops).calcs[a]? = some c' ∧
      HoldsMatrix env s a (lastMatrix j M ops) c' := by
  induction ops generalizing w c M with
  | nil => exact ⟨c, hs, hc, hM⟩
  | cons op ops ih =>
    unfold factoryRun
    cases h : factoryStep env w op with
    | ok w' =>
      obtain ⟨c', h1, h2, h3⟩ := holdsMatrix_step hw h hs hc hM
      exact ih (factoryInv_step hw h) h1 h2 h3 fun hl N hN => hops hl N (List.mem_cons_of_mem _ hN)
    | error e =>
      have hlast : lastMatrix j M (op :: ops) = lastMatrix j M ops := by
        cases op with
        | setMatrix k N =>
          by_cases hk : k = j
          · subst hk
            exfalso
            simp only [factoryStep, setStrategyMatrix] at h
            rw [pyGetN_eq_ok.mpr hs, ok_bind] at h
            rcases hM with ⟨rfl, -⟩ | ⟨eta, rfl, -⟩ | ⟨rfl, -⟩
            · simp only [pyGetN_eq_ok.mpr hc, ok_bind] at h
              exact absurd h (by simp [pure, Except.pure])
            · simp only [pyGetN_eq_ok.mpr hc, ok_bind] at h
              exact absurd h (by simp [pure, Except.pure])
            · obtain ⟨X, hX⟩ := hops rfl N (by simp)
              simp only [hX, pyGetN_eq_ok.mpr hc, ok_bind] at h
              exact absurd h (by simp [pure, Except.pure])
          · simp only [lastMatrix, List.foldl_cons, if_neg hk]
        | _ => rfl
      rw [hlast]
      exact ih hw hs hc hM fun hl N hN => hops hl N (List.mem_cons_of_mem _ hN)

/-- Only the R wrapper is replaced by an action. -/
theorem strategy_kept {env : FactoryEnv} {w : FactoryWorld} (hw : FactoryInv w) (ops : List FactoryOp) {j : ℕ}
    {s : StrategyObj} (hs : w.strategies[j]? = some s) (hr : ∀ M, s ≠ .cliffordR M) :
    (factoryRun env w ops).strategies[j]? = some s := by
  induction ops generalizing w with
  | nil => exact hs
  | cons op ops ih =>
    unfold factoryRun
    cases h : factoryStep env w op with
    | error e => exact ih hw hs
    | ok w' =>
      refine ih (factoryInv_step hw h) ?_
      have hjl : j < w.strategies.length := (List.getElem?_eq_some_iff.mp hs).1
      cases op with
      | setMatrix k N =>
        rcases setStrategyMatrix_cases h with ⟨s', a', c', M', h1, h2, h3, h4, rfl⟩ | ⟨N', h1, rfl⟩
        · exact hs
        · have hk : k ≠ j := by
            rintro rfl
            rw [hs, Option.some.injEq] at h1
            exact hr _ h1
          simp only
          rw [List.getElem?_set_ne hk]
          exact hs
      | simulate k i o =>
        rcases simulateStrategy_cases h with rfl | ⟨s', a', c', h1, h2, h3, rfl⟩ <;> exact hs
      | generate =>
        simp only [factoryStep] at h
        cases hg : generateStrategy env w with
        | error e => rw [hg] at h; simp [bind, Except.bind] at h
        | ok x =>
          obtain ⟨calcs, s'⟩ := x
          rw [hg, ok_bind] at h
          simp only [pure, Except.pure, Except.ok.injEq] at h
          subst h
          simp only
          rw [List.getElem?_append_left hjl]
          exact hs
      | setCalc b =>
        simp only [factoryStep] at h
        split_ifs at h with hb
        cases hd : deepcopyCalc w.calcs b with
        | error e => rw [hd] at h; simp [bind, Except.bind] at h
        | ok x =>
          rw [hd, ok_bind] at h
          simp only [pure, Except.pure, Except.ok.injEq] at h
          subst h
          exact hs
      | writeCalc b c0 =>
        simp only [factoryStep] at h
        split_ifs at h with hb
        simp only [pure, Except.pure, Except.ok.injEq] at h
        subst h
        exact hs
      | setCfg b =>
        simp only [factoryStep] at h
        split_ifs at h with hb
        simp only [pure, Except.pure, Except.ok.injEq] at h
        subst h
        exact hs
      | _ =>
        simp only [factoryStep, pure, Except.pure, Except.ok.injEq] at h
        subst h
        exact hs

end Verif
