import Verif.Proofs.StrategyFactory

/-!
C54: the strategy factory, over all histories of actions. Helper lemmas are in
`Proofs/StrategyFactory.lean`.
-/
namespace Verif

private theorem view_append {w : FactoryWorld} (hw : FactoryInv w) (l : List CalcObj) (s : List StrategyObj) {j : ℕ}
    (hj : j < w.strategies.length) :
    FactoryWorld.view { w with calcs := w.calcs ++ l, strategies := w.strategies ++ s } j = w.view j := by
  unfold FactoryWorld.view
  simp only
  rw [List.getElem?_append_left hj, List.getElem?_eq_getElem hj]
  simp only [Option.map_some]
  congr 2
  cases hu : w.strategies[j].uses with
  | none => rfl
  | some a =>
    simp only [Option.bind_some]
    rw [List.getElem?_append_left (hw.uses_lt j _ a (List.getElem?_eq_getElem hj) hu)]

private theorem view_set_ne {w : FactoryWorld} {j a : ℕ} {c : CalcObj}
    (h : ∀ s, w.strategies[j]? = some s → s.uses ≠ some a) :
    FactoryWorld.view { w with calcs := w.calcs.set a c } j = w.view j := by
  unfold FactoryWorld.view
  simp only
  cases hs : w.strategies[j]? with
  | none => rfl
  | some s =>
    simp only [Option.map_some]
    congr 2
    cases hu : s.uses with
    | none => rfl
    | some b =>
      simp only [Option.bind_some]
      rw [List.getElem?_set_ne]
      rintro rfl
      exact h s hs hu

/-- C54, dispatch: after any history, `generate_strategy` adds a strategy of the current type, built
from the current configuration and from the present contents of the factory's calculator; the factory,
its calculator, the calculators of the caller and the strategies generated before are as they were. -/
theorem C54_generate (env : FactoryEnv) (w w' : FactoryWorld) (hw : Reaches env w)
    (h : factoryStep env w .generate = .ok w') :
    (∃ s content c p, w'.strategies = w.strategies ++ [s] ∧ w'.view w.strategies.length = some (s, content) ∧
      w.config = some c ∧ w.own = some p ∧ BuiltFrom env c p w.threads w.type s content) ∧
    (w'.own = w.own ∧ w'.config = w.config ∧ w'.type = w.type ∧ w'.threads = w.threads ∧ w'.held = w.held) ∧
    (∀ a ∈ w.held, w'.calcs[a]? = w.calcs[a]?) ∧
    ∀ j < w.strategies.length, w'.view j = w.view j := by
  have hi := hw.inv
  simp only [factoryStep] at h
  cases hg : generateStrategy env w with
  | error e => rw [hg] at h; simp [bind, Except.bind] at h
  | ok x =>
    obtain ⟨calcs, s⟩ := x
    rw [hg, ok_bind] at h
    simp only [pure, Except.pure, Except.ok.injEq] at h
    subst h
    obtain ⟨⟨l, rfl⟩, -, c, p, hc, hp, hb⟩ := generateStrategy_facts hi hg
    refine ⟨⟨s, _, c, p, rfl, ?_, hc, hp, hb⟩, ⟨?_, rfl, rfl, rfl, rfl⟩, ?_, fun j hj => view_append hi l [s] hj⟩
    · unfold FactoryWorld.view
      simp
    · unfold FactoryWorld.own
      simp only
      rw [List.getElem?_append_left hi.perm_lt]
    · intro a ha
      simp only
      rw [List.getElem?_append_left (hi.held_lt a ha)]

/-- C54: `generate_strategy` raises only if R or its packages are missing, or if the constructor of the
requested strategy does. -/
theorem C54_generate_raises (env : FactoryEnv) (w : FactoryWorld) (hw : Reaches env w) (e : PyErr) :
    factoryStep env w .generate = .error e ↔
      (w.type = 3 ∧ env.r = false ∧ e = .importError) ∨
      ∃ c p, w.config = some c ∧ w.own = some p ∧
        ((w.type = 5 ∧ env.expand p.matrix = .error e) ∨ (w.type = 8 ∧ env.losses p.matrix = .error e) ∨
          (w.type = 9 ∧ env.qft (p.input.length - c.level) p.input.length = .error e) ∨
          (w.type ∉ ([2, 3, 4, 5, 7, 8, 9] : List ℤ) ∧ c.net = none ∧ env.expand c.matrix = .error e)) := by
  have hi := hw.inv
  obtain ⟨c, hc⟩ : ∃ c, w.cfgs[w.cfg]? = some c := ⟨_, List.getElem?_eq_getElem hi.cfg_lt⟩
  obtain ⟨p, hp⟩ : ∃ p, w.calcs[w.perm]? = some p := ⟨_, List.getElem?_eq_getElem hi.perm_lt⟩
  have hd : deepcopyCalc w.calcs w.perm = .ok (w.calcs.length, w.calcs ++ [p]) :=
    deepcopyCalc_eq_ok.mpr ⟨rfl, p, hp, rfl⟩
  have hl : (w.calcs ++ [p])[w.calcs.length]? = some p := by simp
  have hc' : w.config = some c := hc
  have hp' : w.own = some p := hp
  have hex : ∀ P : FactoryCfg → CalcObj → Prop, (∃ c p, w.config = some c ∧ w.own = some p ∧ P c p) ↔ P c p := by
    intro P
    simp [hc', hp']
  rw [hex fun c p => _]
  simp only [factoryStep, generateStrategy, genFixedLoss, genBobs, genUBobs, hd, pyGetN_eq_ok.mpr hc, pyGetN_eq_ok.mpr hp,
    pyGetN_eq_ok.mpr hl, ok_bind]
  by_cases h1 : w.type = 1
  · by_cases hn : c.net = none
    · cases hM : env.expand c.matrix <;> simp [h1, hn, bind, Except.bind, pure, Except.pure]
    · simp [h1, hn, bind, Except.bind, pure, Except.pure]
  by_cases h2 : w.type = 2
  · simp [h2, bind, Except.bind, pure, Except.pure]
  by_cases h3 : w.type = 3
  · cases hr : env.r <;> simp [h3, bind, Except.bind, pure, Except.pure, eq_comm]
  by_cases h4 : w.type = 4
  · simp [h4, bind, Except.bind, pure, Except.pure]
  by_cases h5 : w.type = 5
  · cases hM : env.expand p.matrix <;> simp [h5, bind, Except.bind, pure, Except.pure]
  by_cases h7 : w.type = 7
  · simp [h7, bind, Except.bind, pure, Except.pure]
  by_cases h8 : w.type = 8
  · cases hM : env.losses p.matrix <;> simp [h8, bind, Except.bind, pure, Except.pure]
  by_cases h9 : w.type = 9
  · cases hM : env.qft (p.input.length - c.level) p.input.length <;> simp [h9, bind, Except.bind, pure, Except.pure]
  by_cases hn : c.net = none
  · cases hM : env.expand c.matrix <;> simp [h1, h2, h3, h4, h5, h7, h8, h9, hn, bind, Except.bind, pure, Except.pure]
  · simp [h1, h2, h3, h4, h5, h7, h8, h9, hn, bind, Except.bind, pure, Except.pure]

/-- C54: the type and the number of threads used are those set last. -/
theorem C54_current (env : FactoryEnv) (w : FactoryWorld) (ops : List FactoryOp) :
    (factoryRun env w ops).type = lastType w.type ops ∧
    (factoryRun env w ops).threads = lastThreads w.threads ops := by
  have hstep : ∀ (w w' : FactoryWorld) (op : FactoryOp), factoryStep env w op = .ok w' →
      w'.type = lastType w.type [op] ∧ w'.threads = lastThreads w.threads [op] := by
    intro w w' op h
    cases op with
    | setMatrix k M =>
      rcases setStrategyMatrix_cases h with ⟨s, a, c, M', -, -, -, -, rfl⟩ | ⟨N, h1, rfl⟩ <;> exact ⟨rfl, rfl⟩
    | simulate k i o =>
      rcases simulateStrategy_cases h with rfl | ⟨s, a, c, -, -, -, rfl⟩ <;> exact ⟨rfl, rfl⟩
    | generate =>
      simp only [factoryStep] at h
      cases hg : generateStrategy env w with
      | error e => rw [hg] at h; simp [bind, Except.bind] at h
      | ok x =>
        rw [hg, ok_bind] at h
        simp only [pure, Except.pure, Except.ok.injEq] at h
        subst h
        exact ⟨rfl, rfl⟩
    | setCalc a =>
      simp only [factoryStep] at h
      split_ifs at h with h1
      cases hd : deepcopyCalc w.calcs a with
      | error e => rw [hd] at h; simp [bind, Except.bind] at h
      | ok x =>
        rw [hd, ok_bind] at h
        simp only [pure, Except.pure, Except.ok.injEq] at h
        subst h
        exact ⟨rfl, rfl⟩
    | writeCalc a c | setCfg a =>
      simp only [factoryStep] at h
      split_ifs at h with h1
      simp only [pure, Except.pure, Except.ok.injEq] at h
      subst h
      exact ⟨rfl, rfl⟩
    | _ =>
      simp only [factoryStep, pure, Except.pure, Except.ok.injEq] at h
      subst h
      exact ⟨rfl, rfl⟩
  have herr : ∀ (w : FactoryWorld) (op : FactoryOp) (e : PyErr), factoryStep env w op = .error e →
      lastType w.type [op] = w.type ∧ lastThreads w.threads [op] = w.threads := by
    intro w op e h
    cases op with
    | setType t => simp [factoryStep, pure, Except.pure] at h
    | setThreads t => simp [factoryStep, pure, Except.pure] at h
    | _ => exact ⟨rfl, rfl⟩
  induction ops generalizing w with
  | nil => exact ⟨rfl, rfl⟩
  | cons op ops ih =>
    have e1 : ∀ t, lastType t (op :: ops) = lastType (lastType t [op]) ops := fun t => rfl
    have e2 : ∀ t, lastThreads t (op :: ops) = lastThreads (lastThreads t [op]) ops := fun t => rfl
    rw [e1, e2]
    unfold factoryRun
    cases h : factoryStep env w op with
    | ok w' =>
      rw [← (hstep w w' op h).1, ← (hstep w w' op h).2]
      exact ih w'
    | error e =>
      rw [(herr w op e h).1, (herr w op e h).2]
      exact ih w

/-- C54, isolation: after any history, changing the matrix of a generated strategy changes this
strategy and nothing else — not the factory, not its calculator, not a calculator of the caller, not
another strategy. -/
theorem C54_isolated (env : FactoryEnv) (w w' : FactoryWorld) (hw : Reaches env w) (k : ℕ) (M : Rows)
    (h : factoryStep env w (.setMatrix k M) = .ok w') :
    (∃ s' : StrategyObj, w'.strategies[k]? = some s' ∧ (s' = .cliffordR M ∨
      ∃ c : CalcObj, w'.view k = some (s', some c) ∧
        (c.matrix = M ∧ (∀ a, s' ≠ .lossyNet a) ∨ (∃ a, s' = .lossyNet a) ∧ env.expand M = .ok c.matrix))) ∧
    (w'.perm = w.perm ∧ w'.own = w.own ∧ w'.cfg = w.cfg ∧ w'.cfgs = w.cfgs ∧ w'.type = w.type ∧
      w'.threads = w.threads) ∧
    (w'.held = w.held ∧ ∀ a ∈ w.held, w'.calcs[a]? = w.calcs[a]?) ∧
    ∀ j ≠ k, w'.view j = w.view j := by
  have hi := hw.inv
  rcases setStrategyMatrix_cases h with ⟨s, a, c, M', h1, h2, h3, h4, rfl⟩ | ⟨N, h1, rfl⟩
  · have hlt := hi.uses_lt k s a h1 (StrategyObj.uses_of_owns h2)
    refine ⟨⟨s, h1, .inr ⟨{ c with matrix := M' }, ?_, ?_⟩⟩, ⟨rfl, ?_, rfl, rfl, rfl, rfl⟩, ⟨rfl, ?_⟩, ?_⟩
    · unfold FactoryWorld.view
      simp only [h1, Option.map_some, StrategyObj.uses_of_owns h2, Option.bind_some]
      rw [List.getElem?_set_self hlt]
    · rcases h4 with ⟨rfl, h5⟩ | ⟨h5, rfl⟩
      · exact .inl ⟨rfl, h5⟩
      · exact .inr ⟨⟨_, rfl⟩, h5⟩
    · exact List.getElem?_set_ne (hi.owns_perm k s a h1 h2)
    · intro b hb
      refine List.getElem?_set_ne ?_
      rintro rfl
      exact hi.owns_held k s _ h1 h2 hb
    · intro j hj
      exact view_set_ne fun t ht => hi.owns_other k j s t a hj.symm h1 ht h2
  · have hlt : k < w.strategies.length := (List.getElem?_eq_some_iff.mp h1).1
    refine ⟨⟨.cliffordR M, List.getElem?_set_self hlt, .inl rfl⟩, ⟨rfl, rfl, rfl, rfl, rfl, rfl⟩, ⟨rfl, fun _ _ => rfl⟩, ?_⟩
    intro j hj
    unfold FactoryWorld.view
    simp only
    rw [List.getElem?_set_ne hj.symm]

/-- C54, isolation: sampling with a generated strategy changes at most its own calculator. -/
theorem C54_simulate (env : FactoryEnv) (w w' : FactoryWorld) (hw : Reaches env w) (k : ℕ) (i o : List ℕ)
    (h : factoryStep env w (.simulate k i o) = .ok w') :
    w'.own = w.own ∧ w'.config = w.config ∧ w'.type = w.type ∧ w'.threads = w.threads ∧
    (∀ a ∈ w.held, w'.calcs[a]? = w.calcs[a]?) ∧ ∀ j ≠ k, w'.view j = w.view j := by
  have hi := hw.inv
  rcases simulateStrategy_cases h with rfl | ⟨s, a, c, h1, h2, h3, rfl⟩
  · exact ⟨rfl, rfl, rfl, rfl, fun _ _ => rfl, fun _ _ => rfl⟩
  · refine ⟨List.getElem?_set_ne (hi.owns_perm k s a h1 h2), rfl, rfl, rfl, ?_, ?_⟩
    · intro b hb
      refine List.getElem?_set_ne ?_
      rintro rfl
      exact hi.owns_held k s _ h1 h2 hb
    · intro j hj
      exact view_set_ne fun t ht => hi.owns_other k j s t a hj.symm h1 ht h2

/-- C54, isolation: whatever the caller does with calculators, configurations and the factory, the
strategies generated before stay as they are; the only exception are strategies of the type
UNIFORM_LOSSES_BOBS (see `C54_shared`), when the caller changes a calculator. -/
theorem C54_caller (env : FactoryEnv) (w w' : FactoryWorld) (hw : Reaches env w) (op : FactoryOp)
    (h : factoryStep env w op = .ok w') (h1 : ∀ k M, op ≠ .setMatrix k M) (h2 : ∀ k i o, op ≠ .simulate k i o)
    (j : ℕ) (hj : j < w.strategies.length)
    (hu : (∀ a c, op ≠ .writeCalc a c) ∨ ∀ a eta level t n, w.strategies[j]? ≠ some (.uBobs a eta level t n)) :
    w'.view j = w.view j := by
  have hi := hw.inv
  cases op with
  | newCalc c =>
    simp only [factoryStep, pure, Except.pure, Except.ok.injEq] at h
    subst h
    have := view_append hi [c] [] hj
    rw [List.append_nil] at this
    exact this
  | writeCalc a c =>
    simp only [factoryStep] at h
    split_ifs at h with h3
    simp only [pure, Except.pure, Except.ok.injEq] at h
    subst h
    rcases hu with hu | hu
    · exact absurd rfl (hu a c)
    · refine view_set_ne fun s hs h4 => ?_
      have h5 : s.owns = some a := by
        cases s <;> simp_all [StrategyObj.owns, StrategyObj.uses]
      exact hi.owns_held j s a hs h5 h3
  | setCalc a =>
    simp only [factoryStep] at h
    split_ifs at h with h3
    cases hd : deepcopyCalc w.calcs a with
    | error e => rw [hd] at h; simp [bind, Except.bind] at h
    | ok x =>
      obtain ⟨b, calcs'⟩ := x
      rw [hd, ok_bind] at h
      simp only [pure, Except.pure, Except.ok.injEq] at h
      obtain ⟨rfl, c, h2, rfl⟩ := deepcopyCalc_eq_ok.mp hd
      subst h
      have := view_append hi [c] [] hj
      rw [List.append_nil] at this
      exact this
  | setCfg a =>
    simp only [factoryStep] at h
    split_ifs at h with h3
    simp only [pure, Except.pure, Except.ok.injEq] at h
    subst h
    rfl
  | generate => exact (C54_generate env w w' hw h).2.2.2 j hj
  | setMatrix k M => exact absurd rfl (h1 k M)
  | simulate k i o => exact absurd rfl (h2 k i o)
  | _ =>
    simp only [factoryStep, pure, Except.pure, Except.ok.injEq] at h
    subst h
    rfl

/-- C54: the factory works on a copy. In a history in which the caller does not ask the factory for
its calculator, changing a calculator does not change the factory's. -/
theorem C54_copy (env : FactoryEnv) (calcs : List CalcObj) (cfgs : List FactoryCfg) (cfg perm : ℕ) (type : ℤ)
    (w₀ : FactoryWorld) (h₀ : factoryInit calcs cfgs cfg perm type = .ok w₀) (ops : List FactoryOp)
    (hops : FactoryOp.getCalc ∉ ops) (hc : cfg < cfgs.length) (a : ℕ) (c : CalcObj) (w' : FactoryWorld)
    (h : factoryStep env (factoryRun env w₀ ops) (.writeCalc a c) = .ok w') :
    w₀.own = calcs[perm]? ∧ w'.own = (factoryRun env w₀ ops).own := by
  have hi₀ := factoryInv_init hc h₀
  have h1 : w₀.own = calcs[perm]? ∧ w₀.perm ∉ w₀.held := by
    unfold factoryInit at h₀
    cases hd : deepcopyCalc calcs perm with
    | error e => rw [hd] at h₀; simp [bind, Except.bind] at h₀
    | ok x =>
      obtain ⟨b, calcs'⟩ := x
      obtain ⟨rfl, c, h2, rfl⟩ := deepcopyCalc_eq_ok.mp hd
      rw [hd] at h₀
      simp only [bind, Except.bind, pure, Except.pure, Except.ok.injEq] at h₀
      subst h₀
      refine ⟨?_, by simp⟩
      unfold FactoryWorld.own
      simp [h2]
  refine ⟨h1.1, ?_⟩
  have key : (factoryRun env w₀ ops).perm ∉ (factoryRun env w₀ ops).held := by
    have h2 := h1.2
    clear h h1 h₀
    induction ops generalizing w₀ with
    | nil => exact h2
    | cons op ops ih =>
      have hops' : FactoryOp.getCalc ∉ ops := fun hm => hops (List.mem_cons_of_mem _ hm)
      unfold factoryRun
      cases hs : factoryStep env w₀ op with
      | error e => exact ih w₀ hops' hi₀ h2
      | ok w₁ =>
        refine ih w₁ hops' (factoryInv_step hi₀ hs) ?_
        cases op with
        | getCalc => exact absurd (List.mem_cons_self) hops
        | newCalc c =>
          simp only [factoryStep, pure, Except.pure, Except.ok.injEq] at hs
          subst hs
          have := hi₀.perm_lt
          simp only [List.mem_cons, not_or]
          exact ⟨by omega, h2⟩
        | writeCalc a c | setCfg a =>
          simp only [factoryStep] at hs
          split_ifs at hs with h3
          simp only [pure, Except.pure, Except.ok.injEq] at hs
          subst hs
          exact h2
        | setCalc a =>
          simp only [factoryStep] at hs
          split_ifs at hs with h3
          cases hd : deepcopyCalc w₀.calcs a with
          | error e => rw [hd] at hs; simp [bind, Except.bind] at hs
          | ok x =>
            obtain ⟨b, calcs'⟩ := x
            rw [hd, ok_bind] at hs
            simp only [pure, Except.pure, Except.ok.injEq] at hs
            obtain ⟨rfl, c, h4, rfl⟩ := deepcopyCalc_eq_ok.mp hd
            subst hs
            intro hm
            exact absurd (hi₀.held_lt _ hm) (lt_irrefl _)
        | generate =>
          simp only [factoryStep] at hs
          cases hg : generateStrategy env w₀ with
          | error e => rw [hg] at hs; simp [bind, Except.bind] at hs
          | ok x =>
            rw [hg, ok_bind] at hs
            simp only [pure, Except.pure, Except.ok.injEq] at hs
            subst hs
            exact h2
        | setMatrix k M =>
          rcases setStrategyMatrix_cases hs with ⟨s, a, c, M', -, -, -, -, rfl⟩ | ⟨N, h1, rfl⟩ <;> exact h2
        | simulate k i o =>
          rcases simulateStrategy_cases hs with rfl | ⟨s, a, c, -, -, -, rfl⟩ <;> exact h2
        | _ =>
          simp only [factoryStep, pure, Except.pure, Except.ok.injEq] at hs
          subst hs
          exact h2
  simp only [factoryStep] at h
  split_ifs at h with h3
  simp only [pure, Except.pure, Except.ok.injEq] at h
  subst h
  refine List.getElem?_set_ne fun hp => key ?_
  rw [← hp]
  exact h3

/-- An environment in which every constructor succeeds. -/
def plainEnv : FactoryEnv where
  expand M := .ok (M ++ M)
  losses M := .ok (0, M)
  qft _ _ := .ok ()
  cpu := 2
  r := false

/-- A calculator and a configuration for one mode. -/
def plainWorld (type : ℤ) : Py FactoryWorld :=
  factoryInit [⟨[[1]], [1], [1]⟩] [⟨[[1]], 1, 1, 1, none, 0⟩] 0 0 type

/-- C54: a strategy of the type UNIFORM_LOSSES_BOBS shares the factory's calculator, so changing the
calculator returned by the factory's getter changes this strategy after it was generated; strategies
of the other types are not changed. -/
theorem C54_shared : ∃ w₀, plainWorld 9 = .ok w₀ ∧
    (factoryRun plainEnv w₀ [.generate]).view 0 = some (.uBobs 1 1 0 2 1, some ⟨[[1]], [1], [1]⟩) ∧
    (factoryRun plainEnv w₀ [.generate, .getCalc, .writeCalc 1 ⟨[[0]], [1], [1]⟩]).view 0
      = some (.uBobs 1 1 0 2 1, some ⟨[[0]], [1], [1]⟩) ∧
    (factoryRun plainEnv w₀ [.setType 4, .generate, .getCalc, .writeCalc 1 ⟨[[0]], [1], [1]⟩]).view 0
      = some (.gcc 2, some ⟨[[1]], [1], [1]⟩) :=
  ⟨_, rfl, rfl, rfl, rfl⟩

/-- A case of `C54_isolated` and `C54_generate`: two strategies, the matrix of the first is changed. -/
example : ∃ w₀, plainWorld 5 = .ok w₀ ∧
    (factoryRun plainEnv w₀ [.generate, .setType 6, .generate, .setType 4, .generate, .setMatrix 0 [[7]]]).view 0
      = some (.lossyNet 2, some ⟨[[7], [7]], [1], [1]⟩) ∧
    (factoryRun plainEnv w₀ [.generate, .setType 6, .generate, .setType 4, .generate, .setMatrix 0 [[7]]]).view 1
      = some (.fixedLoss [[1]] 1 1 none, none) ∧
    (factoryRun plainEnv w₀ [.generate, .setType 6, .generate, .setType 4, .generate, .setMatrix 0 [[7]]]).view 2
      = some (.gcc 3, some ⟨[[1]], [1], [1]⟩) :=
  ⟨_, rfl, rfl, rfl, rfl⟩

end Verif
