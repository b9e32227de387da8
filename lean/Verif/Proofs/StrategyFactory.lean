import Verif.Spec.StrategyFactory
import Verif.Proofs.PyLemmas

/-! Helper lemmas: who owns which calculator in a factory's heap. -/
namespace Verif

/-- The calculator a strategy has for itself. -/
def StrategyObj.owns : StrategyObj → Option ℕ
  | .gcc a | .lossyNet a | .uniformGcc a _ | .bobs a _ _ _ _ => some a
  | _ => none

theorem StrategyObj.uses_of_owns {s : StrategyObj} {a : ℕ} (h : s.owns = some a) : s.uses = some a := by
  cases s <;> simp_all [StrategyObj.owns, StrategyObj.uses]

/-- Invariant: references point into the heap, and a calculator that a strategy has for itself is
not the factory's, not known to the caller and not used by another strategy. -/
structure FactoryInv (w : FactoryWorld) : Prop where
  perm_lt : w.perm < w.calcs.length
  cfg_lt : w.cfg < w.cfgs.length
  held_lt : ∀ a ∈ w.held, a < w.calcs.length
  uses_lt : ∀ (k : ℕ) (s : StrategyObj) (a : ℕ), w.strategies[k]? = some s → s.uses = some a → a < w.calcs.length
  owns_perm : ∀ (k : ℕ) (s : StrategyObj) (a : ℕ), w.strategies[k]? = some s → s.owns = some a → a ≠ w.perm
  owns_held : ∀ (k : ℕ) (s : StrategyObj) (a : ℕ), w.strategies[k]? = some s → s.owns = some a → a ∉ w.held
  owns_other : ∀ (k j : ℕ) (s t : StrategyObj) (a : ℕ), k ≠ j → w.strategies[k]? = some s → w.strategies[j]? = some t →
    s.owns = some a → t.uses ≠ some a

theorem pyGetN_eq_ok {α : Type} {l : List α} {i : ℕ} {a : α} : pyGetN l i = .ok a ↔ l[i]? = some a := by
  unfold pyGetN
  cases h : l[i]? <;> simp

theorem deepcopyCalc_eq_ok {calcs calcs' : List CalcObj} {a b : ℕ} :
    deepcopyCalc calcs a = .ok (b, calcs') ↔ b = calcs.length ∧ ∃ c, calcs[a]? = some c ∧ calcs' = calcs ++ [c] := by
  unfold deepcopyCalc pyGetN
  cases h : calcs[a]? with
  | none => simp [bind, Except.bind]
  | some c => simp [bind, Except.bind, pure, Except.pure, eq_comm]

theorem factoryInv_init {calcs : List CalcObj} {cfgs : List FactoryCfg} {cfg perm : ℕ} {type : ℤ} {w : FactoryWorld}
    (hc : cfg < cfgs.length) (h : factoryInit calcs cfgs cfg perm type = .ok w) : FactoryInv w := by
  unfold factoryInit at h
  cases h1 : deepcopyCalc calcs perm with
  | error e => rw [h1] at h; simp [bind, Except.bind] at h
  | ok x =>
    obtain ⟨b, calcs'⟩ := x
    obtain ⟨rfl, c, h2, rfl⟩ := deepcopyCalc_eq_ok.mp h1
    rw [h1] at h
    simp only [bind, Except.bind, pure, Except.pure, Except.ok.injEq] at h
    subst h
    exact ⟨by simp, hc, by simp; omega, by simp, by simp, by simp, by simp⟩

/-- What `generate_strategy` does to the heap. -/
structure GenFacts (env : FactoryEnv) (w : FactoryWorld) (calcs : List CalcObj) (s : StrategyObj) : Prop where
  ext : ∃ l, calcs = w.calcs ++ l
  kind : (s.owns = none ∧ (s.uses = none ∨ s.uses = some w.perm)) ∨
    (s.owns = some w.calcs.length ∧ w.calcs.length < calcs.length)
  built : ∃ c p, w.config = some c ∧ w.own = some p ∧
    BuiltFrom env c p w.threads w.type s (s.uses.bind fun a => calcs[a]?)

theorem bobsModes_eq (m : ℕ) (k : ℤ) : ((bobsModes m k : ℕ) : ℤ) = max 0 (min k m) := by
  unfold bobsModes
  simp only
  split_ifs <;> omega

theorem genFixedLoss_eq_ok {env : FactoryEnv} {w : FactoryWorld} {c : FactoryCfg} {calcs : List CalcObj} {s : StrategyObj}
    (h : genFixedLoss env w c = .ok (calcs, s)) :
    calcs = w.calcs ∧ s = .fixedLoss c.matrix c.left c.modes c.net ∧ (c.net = none → ∃ M, env.expand c.matrix = .ok M) := by
  unfold genFixedLoss at h
  split_ifs at h with hn
  · cases hM : env.expand c.matrix with
    | error e => rw [hM] at h; simp [bind, Except.bind] at h
    | ok M =>
      rw [hM, ok_bind] at h
      simp only [pure, Except.pure, Except.ok.injEq, Prod.mk.injEq] at h
      obtain ⟨rfl, rfl⟩ := h
      exact ⟨rfl, by rw [hn], fun _ => ⟨M, rfl⟩⟩
  · simp only [pure, Except.pure, Except.ok.injEq, Prod.mk.injEq] at h
    obtain ⟨rfl, rfl⟩ := h
    exact ⟨rfl, rfl, fun h => absurd h hn⟩

theorem generateStrategy_facts {env : FactoryEnv} {w : FactoryWorld} (hw : FactoryInv w) {calcs : List CalcObj}
    {s : StrategyObj} (h : generateStrategy env w = .ok (calcs, s)) : GenFacts env w calcs s := by
  obtain ⟨c, hc⟩ : ∃ c, w.cfgs[w.cfg]? = some c := ⟨_, List.getElem?_eq_getElem hw.cfg_lt⟩
  obtain ⟨p, hp⟩ : ∃ p, w.calcs[w.perm]? = some p := ⟨_, List.getElem?_eq_getElem hw.perm_lt⟩
  have hd : deepcopyCalc w.calcs w.perm = .ok (w.calcs.length, w.calcs ++ [p]) :=
    deepcopyCalc_eq_ok.mpr ⟨rfl, p, hp, rfl⟩
  have hl : (w.calcs ++ [p])[w.calcs.length]? = some p := by simp
  unfold generateStrategy at h
  rw [pyGetN_eq_ok.mpr hc, ok_bind] at h
  split_ifs at h with h1 h2 h3 h4 h5 h6 h7 h8 h9
  · obtain ⟨rfl, rfl, hn⟩ := genFixedLoss_eq_ok h
    refine ⟨⟨[], by simp⟩, .inl ⟨rfl, .inl rfl⟩, c, p, hc, hp, ?_⟩
    rw [h1]
    exact .fixedLoss 1 (by decide) hn
  · simp only [pure, Except.pure, Except.ok.injEq, Prod.mk.injEq] at h
    obtain ⟨rfl, rfl⟩ := h
    refine ⟨⟨[], by simp⟩, .inl ⟨rfl, .inl rfl⟩, c, p, hc, hp, ?_⟩
    rw [h2]
    exact .uniformLoss
  · simp only [pure, Except.pure, Except.ok.injEq, Prod.mk.injEq] at h
    obtain ⟨rfl, rfl⟩ := h
    refine ⟨⟨[], by simp⟩, .inl ⟨rfl, .inl rfl⟩, c, p, hc, hp, ?_⟩
    rw [h3]
    exact .cliffordR h4
  · rw [hd, ok_bind] at h
    simp only [pure, Except.pure, Except.ok.injEq, Prod.mk.injEq] at h
    obtain ⟨rfl, rfl⟩ := h
    refine ⟨⟨[p], rfl⟩, .inr ⟨rfl, by simp⟩, c, p, hc, hp, ?_⟩
    rw [h5]
    change BuiltFrom env c p w.threads 4 (.gcc _) ((w.calcs ++ [p])[w.calcs.length]?)
    rw [hl]
    exact .gcc _
  · rw [hd, ok_bind] at h
    simp only [pyGetN_eq_ok.mpr hl, ok_bind] at h
    cases hM : env.expand p.matrix with
    | error e => rw [hM] at h; simp [bind, Except.bind] at h
    | ok M =>
      rw [hM, ok_bind] at h
      simp only [pure, Except.pure, Except.ok.injEq, Prod.mk.injEq] at h
      obtain ⟨rfl, rfl⟩ := h
      refine ⟨⟨[{ p with matrix := M }], by simp⟩, .inr ⟨rfl, by simp⟩, c, p, hc, hp, ?_⟩
      rw [h6]
      change BuiltFrom env c p w.threads 5 (.lossyNet _) (((w.calcs ++ [p]).set w.calcs.length _)[w.calcs.length]?)
      rw [List.getElem?_set_self (by simp)]
      exact .lossyNet _ M hM
  · rw [hd, ok_bind] at h
    simp only [pure, Except.pure, Except.ok.injEq, Prod.mk.injEq] at h
    obtain ⟨rfl, rfl⟩ := h
    refine ⟨⟨[p], rfl⟩, .inr ⟨rfl, by simp⟩, c, p, hc, hp, ?_⟩
    rw [h7]
    change BuiltFrom env c p w.threads 7 (.uniformGcc _ _) ((w.calcs ++ [p])[w.calcs.length]?)
    rw [hl]
    exact .uniformGcc _
  · unfold genBobs at h
    rw [hd, ok_bind] at h
    simp only [pyGetN_eq_ok.mpr hl, ok_bind] at h
    cases hM : env.losses p.matrix with
    | error e => rw [hM] at h; simp [bind, Except.bind] at h
    | ok M =>
      obtain ⟨l, M⟩ := M
      rw [hM, ok_bind] at h
      simp only [pure, Except.pure, Except.ok.injEq, Prod.mk.injEq] at h
      obtain ⟨rfl, rfl⟩ := h
      refine ⟨⟨[p], rfl⟩, .inr ⟨rfl, by simp⟩, c, p, hc, hp, ?_⟩
      rw [h8]
      change BuiltFrom env c p w.threads 8 (.bobs _ _ _ _ _) ((w.calcs ++ [p])[w.calcs.length]?)
      rw [hl, bobsThreadsNumber, if_pos (.inl (by norm_num))]
      exact .bobs _ _ l M hM (bobsModes_eq _ _)
  · unfold genUBobs at h
    simp only [pyGetN_eq_ok.mpr hp, ok_bind] at h
    cases hM : env.qft (p.input.length - c.level) p.input.length with
    | error e => rw [hM] at h; simp [bind, Except.bind] at h
    | ok M =>
      rw [hM, ok_bind] at h
      simp only [pure, Except.pure, Except.ok.injEq, Prod.mk.injEq] at h
      obtain ⟨rfl, rfl⟩ := h
      refine ⟨⟨[], by simp⟩, .inl ⟨rfl, .inr rfl⟩, c, p, hc, hp, ?_⟩
      rw [h9]
      change BuiltFrom env c p w.threads 9 (.uBobs _ _ _ _ _) (w.calcs[w.perm]?)
      rw [hp]
      refine .uBobs _ _ hM ?_ ?_
      · rintro ⟨ha, hb⟩
        rw [uBobsThreadsNumber, if_neg (by omega)]
        omega
      · intro ha
        rw [uBobsThreadsNumber, if_pos (by omega)]
  · obtain ⟨rfl, rfl, hn⟩ := genFixedLoss_eq_ok h
    refine ⟨⟨[], by simp⟩, .inl ⟨rfl, .inl rfl⟩, c, p, hc, hp, ?_⟩
    exact .fixedLoss _ (by simp; omega) hn

/-- Adding objects at the end of the heap. -/
theorem factoryInv_append {w : FactoryWorld} (hw : FactoryInv w) (l : List CalcObj) :
    FactoryInv { w with calcs := w.calcs ++ l } :=
  ⟨by have := hw.perm_lt; simp; omega, hw.cfg_lt, fun a ha => by have := hw.held_lt a ha; simp; omega,
   fun k s a h1 h2 => by have := hw.uses_lt k s a h1 h2; simp; omega, hw.owns_perm, hw.owns_held, hw.owns_other⟩

/-- Changing an object of the heap. -/
theorem factoryInv_set {w : FactoryWorld} (hw : FactoryInv w) (a : ℕ) (c : CalcObj) :
    FactoryInv { w with calcs := w.calcs.set a c } :=
  ⟨by simpa using hw.perm_lt, hw.cfg_lt, fun a ha => by simpa using hw.held_lt a ha,
   fun k s a h1 h2 => by simpa using hw.uses_lt k s a h1 h2, hw.owns_perm, hw.owns_held, hw.owns_other⟩

theorem factoryInv_generate {env : FactoryEnv} {w : FactoryWorld} (hw : FactoryInv w) {calcs : List CalcObj}
    {s : StrategyObj} (hg : GenFacts env w calcs s) :
    FactoryInv { w with calcs := calcs, strategies := w.strategies ++ [s] } := by
  obtain ⟨⟨l, rfl⟩, hk, -⟩ := hg
  have h0 := factoryInv_append hw l
  have hnew : ∀ (k : ℕ) (t : StrategyObj), (w.strategies ++ [s])[k]? = some t →
      w.strategies[k]? = some t ∧ k < w.strategies.length ∨ t = s ∧ k = w.strategies.length := by
    intro k t h
    rcases lt_trichotomy k w.strategies.length with hlt | heq | hgt
    · rw [List.getElem?_append_left hlt] at h
      exact .inl ⟨h, hlt⟩
    · subst heq
      simp at h
      exact .inr ⟨h.symm, rfl⟩
    · rw [List.getElem?_eq_none (by simp; omega)] at h
      cases h
  have hs : ∀ a, s.uses = some a → a = w.perm ∧ s.owns = none ∨ a = w.calcs.length ∧ w.calcs.length < (w.calcs ++ l).length := by
    intro a ha
    rcases hk with ⟨h1, h2 | h2⟩ | ⟨h1, h2⟩
    · rw [h2] at ha; cases ha
    · rw [h2] at ha
      exact .inl ⟨by injection ha with ha; exact ha.symm, h1⟩
    · have := StrategyObj.uses_of_owns h1
      rw [this] at ha
      exact .inr ⟨by injection ha with ha; exact ha.symm, h2⟩
  refine ⟨h0.perm_lt, hw.cfg_lt, h0.held_lt, ?_, ?_, ?_, ?_⟩
  · intro k t a h1 h2
    rcases hnew k t h1 with ⟨h3, -⟩ | ⟨rfl, -⟩
    · exact h0.uses_lt k t a h3 h2
    · rcases hs a h2 with ⟨rfl, -⟩ | ⟨rfl, h⟩
      · exact h0.perm_lt
      · exact h
  · intro k t a h1 h2
    rcases hnew k t h1 with ⟨h3, -⟩ | ⟨rfl, -⟩
    · exact hw.owns_perm k t a h3 h2
    · rcases hs a (StrategyObj.uses_of_owns h2) with ⟨-, h⟩ | ⟨rfl, -⟩
      · rw [h] at h2; cases h2
      · have := hw.perm_lt
        change w.calcs.length ≠ w.perm
        omega
  · intro k t a h1 h2
    rcases hnew k t h1 with ⟨h3, -⟩ | ⟨rfl, -⟩
    · exact hw.owns_held k t a h3 h2
    · rcases hs a (StrategyObj.uses_of_owns h2) with ⟨-, h⟩ | ⟨rfl, -⟩
      · rw [h] at h2; cases h2
      · intro hmem
        exact absurd (hw.held_lt _ hmem) (lt_irrefl _)
  · intro k j t u a hkj h1 h2 h3 h4
    rcases hnew k t h1 with ⟨h5, hk5⟩ | ⟨rfl, hk5⟩ <;> rcases hnew j u h2 with ⟨h6, hj6⟩ | ⟨rfl, hj6⟩
    · exact hw.owns_other k j t u a hkj h5 h6 h3 h4
    · rcases hs a h4 with ⟨rfl, -⟩ | ⟨rfl, -⟩
      · exact hw.owns_perm k t _ h5 h3 rfl
      · exact absurd (hw.uses_lt k t _ h5 (StrategyObj.uses_of_owns h3)) (lt_irrefl _)
    · rcases hs a (StrategyObj.uses_of_owns h3) with ⟨-, h⟩ | ⟨rfl, -⟩
      · rw [h] at h3; cases h3
      · exact absurd (hw.uses_lt j u _ h6 h4) (lt_irrefl _)
    · omega

/-- The effect of `set_new_matrix` and `set_matrix`. -/
theorem setStrategyMatrix_cases {env : FactoryEnv} {w w' : FactoryWorld} {k : ℕ} {M : Rows}
    (h : setStrategyMatrix env w k M = .ok w') :
    (∃ s a c M', w.strategies[k]? = some s ∧ s.owns = some a ∧ w.calcs[a]? = some c ∧
      (M' = M ∧ (∀ b, s ≠ .lossyNet b) ∨ env.expand M = .ok M' ∧ s = .lossyNet a) ∧
      w' = { w with calcs := w.calcs.set a { c with matrix := M' } }) ∨
    (∃ N, w.strategies[k]? = some (.cliffordR N) ∧ w' = { w with strategies := w.strategies.set k (.cliffordR M) }) := by
  unfold setStrategyMatrix at h
  cases hs : w.strategies[k]? with
  | none => simp [pyGetN, hs, bind, Except.bind] at h
  | some s =>
    rw [pyGetN_eq_ok.mpr hs, ok_bind] at h
    cases s with
    | gcc a =>
      simp only at h
      cases hc : w.calcs[a]? with
      | none => simp [pyGetN, hc, bind, Except.bind] at h
      | some c =>
        rw [pyGetN_eq_ok.mpr hc, ok_bind] at h
        simp only [pure, Except.pure, Except.ok.injEq] at h
        exact .inl ⟨_, a, c, M, rfl, rfl, hc, .inl ⟨rfl, by simp⟩, h.symm⟩
    | uniformGcc a eta =>
      simp only at h
      cases hc : w.calcs[a]? with
      | none => simp [pyGetN, hc, bind, Except.bind] at h
      | some c =>
        rw [pyGetN_eq_ok.mpr hc, ok_bind] at h
        simp only [pure, Except.pure, Except.ok.injEq] at h
        exact .inl ⟨_, a, c, M, rfl, rfl, hc, .inl ⟨rfl, by simp⟩, h.symm⟩
    | lossyNet a =>
      simp only at h
      cases hM : env.expand M with
      | error e => rw [hM] at h; simp [bind, Except.bind] at h
      | ok M' =>
        rw [hM, ok_bind] at h
        cases hc : w.calcs[a]? with
        | none => simp [pyGetN, hc, bind, Except.bind] at h
        | some c =>
          rw [pyGetN_eq_ok.mpr hc, ok_bind] at h
          simp only [pure, Except.pure, Except.ok.injEq] at h
          exact .inl ⟨_, a, c, M', rfl, rfl, hc, .inr ⟨rfl, rfl⟩, h.symm⟩
    | cliffordR N =>
      simp only [pure, Except.pure, Except.ok.injEq] at h
      exact .inr ⟨N, rfl, h.symm⟩
    | fixedLoss _ _ _ _ => simp at h
    | uniformLoss _ _ _ => simp at h
    | bobs _ _ _ _ _ => simp at h
    | uBobs _ _ _ _ _ => simp at h

theorem simulateStrategy_cases {w w' : FactoryWorld} {k : ℕ} {i o : List ℕ}
    (h : simulateStrategy w k i o = .ok w') : w' = w ∨
    (∃ s a c, w.strategies[k]? = some s ∧ s.owns = some a ∧ w.calcs[a]? = some c ∧
      w' = { w with calcs := w.calcs.set a { c with input := i, output := o } }) := by
  unfold simulateStrategy at h
  cases hs : w.strategies[k]? with
  | none => simp [pyGetN, hs, bind, Except.bind] at h
  | some s =>
    rw [pyGetN_eq_ok.mpr hs, ok_bind] at h
    cases s with
    | gcc a | lossyNet a =>
      simp only at h
      cases hc : w.calcs[a]? with
      | none => simp [pyGetN, hc, bind, Except.bind] at h
      | some c =>
        rw [pyGetN_eq_ok.mpr hc, ok_bind] at h
        simp only [pure, Except.pure, Except.ok.injEq] at h
        exact .inr ⟨_, a, c, rfl, rfl, hc, h.symm⟩
    | uniformGcc a eta =>
      simp only at h
      cases hc : w.calcs[a]? with
      | none => simp [pyGetN, hc, bind, Except.bind] at h
      | some c =>
        rw [pyGetN_eq_ok.mpr hc, ok_bind] at h
        simp only [pure, Except.pure, Except.ok.injEq] at h
        exact .inr ⟨_, a, c, rfl, rfl, hc, h.symm⟩
    | _ =>
      simp only [pure, Except.pure, Except.ok.injEq] at h
      exact .inl h.symm

theorem factoryInv_replace {w : FactoryWorld} (hw : FactoryInv w) {k : ℕ} {N M : Rows}
    (h : w.strategies[k]? = some (.cliffordR N)) :
    FactoryInv { w with strategies := w.strategies.set k (.cliffordR M) } := by
  have key : ∀ (j : ℕ) (t : StrategyObj), (w.strategies.set k (.cliffordR M))[j]? = some t →
      (w.strategies[j]? = some t ∨ t = .cliffordR M) := by
    intro j t ht
    by_cases hj : j = k
    · subst hj
      have hlt : j < w.strategies.length := by
        rw [List.getElem?_eq_some_iff] at h
        exact h.1
      rw [List.getElem?_set_self hlt] at ht
      injection ht with ht
      exact .inr ht.symm
    · rw [List.getElem?_set_ne (Ne.symm hj)] at ht
      exact .inl ht
  refine ⟨hw.perm_lt, hw.cfg_lt, hw.held_lt, ?_, ?_, ?_, ?_⟩
  · intro j t a h1 h2
    rcases key j t h1 with h3 | rfl
    · exact hw.uses_lt j t a h3 h2
    · cases h2
  · intro j t a h1 h2
    rcases key j t h1 with h3 | rfl
    · exact hw.owns_perm j t a h3 h2
    · cases h2
  · intro j t a h1 h2
    rcases key j t h1 with h3 | rfl
    · exact hw.owns_held j t a h3 h2
    · cases h2
  · intro i j t u a hij h1 h2 h3 h4
    rcases key i t h1 with h5 | rfl
    · rcases key j u h2 with h6 | rfl
      · exact hw.owns_other i j t u a hij h5 h6 h3 h4
      · cases h4
    · cases h3

theorem factoryInv_step {env : FactoryEnv} {w w' : FactoryWorld} (hw : FactoryInv w) {op : FactoryOp}
    (h : factoryStep env w op = .ok w') : FactoryInv w' := by
  cases op with
  | newCalc c =>
    simp only [factoryStep, pure, Except.pure, Except.ok.injEq] at h
    subst h
    have h0 := factoryInv_append hw [c]
    refine ⟨h0.perm_lt, h0.cfg_lt, ?_, h0.uses_lt, h0.owns_perm, ?_, h0.owns_other⟩
    · intro a ha
      rcases List.mem_cons.mp ha with rfl | ha
      · simp
      · exact h0.held_lt a ha
    · intro k s a h1 h2 h3
      rcases List.mem_cons.mp h3 with rfl | h3
      · exact absurd (hw.uses_lt k s _ h1 (StrategyObj.uses_of_owns h2)) (lt_irrefl _)
      · exact hw.owns_held k s a h1 h2 h3
  | writeCalc a c =>
    simp only [factoryStep] at h
    split_ifs at h with h1
    simp only [pure, Except.pure, Except.ok.injEq] at h
    subst h
    exact factoryInv_set hw a c
  | newCfg c =>
    simp only [factoryStep, pure, Except.pure, Except.ok.injEq] at h
    subst h
    exact ⟨hw.perm_lt, by have := hw.cfg_lt; simp; omega, hw.held_lt, hw.uses_lt, hw.owns_perm, hw.owns_held, hw.owns_other⟩
  | writeCfg a c =>
    simp only [factoryStep, pure, Except.pure, Except.ok.injEq] at h
    subst h
    exact ⟨hw.perm_lt, by simpa using hw.cfg_lt, hw.held_lt, hw.uses_lt, hw.owns_perm, hw.owns_held, hw.owns_other⟩
  | getCalc =>
    simp only [factoryStep, pure, Except.pure, Except.ok.injEq] at h
    subst h
    refine ⟨hw.perm_lt, hw.cfg_lt, ?_, hw.uses_lt, hw.owns_perm, ?_, hw.owns_other⟩
    · intro a ha
      rcases List.mem_cons.mp ha with rfl | ha
      · exact hw.perm_lt
      · exact hw.held_lt a ha
    · intro k s a h1 h2 h3
      rcases List.mem_cons.mp h3 with rfl | h3
      · exact hw.owns_perm k s _ h1 h2 rfl
      · exact hw.owns_held k s a h1 h2 h3
  | setCalc a =>
    simp only [factoryStep] at h
    split_ifs at h with h1
    cases hd : deepcopyCalc w.calcs a with
    | error e => rw [hd] at h; simp [bind, Except.bind] at h
    | ok x =>
      obtain ⟨b, calcs'⟩ := x
      rw [hd, ok_bind] at h
      simp only [pure, Except.pure, Except.ok.injEq] at h
      obtain ⟨rfl, c, h2, rfl⟩ := deepcopyCalc_eq_ok.mp hd
      subst h
      have h0 := factoryInv_append hw [c]
      refine ⟨by simp, h0.cfg_lt, h0.held_lt, h0.uses_lt, ?_, h0.owns_held, h0.owns_other⟩
      rintro k s b h3 h4 rfl
      exact absurd (hw.uses_lt k s _ h3 (StrategyObj.uses_of_owns h4)) (lt_irrefl _)
  | setType t =>
    simp only [factoryStep, pure, Except.pure, Except.ok.injEq] at h
    subst h
    exact ⟨hw.perm_lt, hw.cfg_lt, hw.held_lt, hw.uses_lt, hw.owns_perm, hw.owns_held, hw.owns_other⟩
  | setCfg a =>
    simp only [factoryStep] at h
    split_ifs at h with h1
    simp only [pure, Except.pure, Except.ok.injEq] at h
    subst h
    exact ⟨hw.perm_lt, h1, hw.held_lt, hw.uses_lt, hw.owns_perm, hw.owns_held, hw.owns_other⟩
  | setThreads t =>
    simp only [factoryStep, pure, Except.pure, Except.ok.injEq] at h
    subst h
    exact ⟨hw.perm_lt, hw.cfg_lt, hw.held_lt, hw.uses_lt, hw.owns_perm, hw.owns_held, hw.owns_other⟩
  | generate =>
    simp only [factoryStep] at h
    cases hg : generateStrategy env w with
    | error e => rw [hg] at h; simp [bind, Except.bind] at h
    | ok x =>
      obtain ⟨calcs, s⟩ := x
      rw [hg, ok_bind] at h
      simp only [pure, Except.pure, Except.ok.injEq] at h
      subst h
      exact factoryInv_generate hw (generateStrategy_facts hw hg)
  | setMatrix k M =>
    rcases setStrategyMatrix_cases h with ⟨s, a, c, M', -, -, -, -, rfl⟩ | ⟨N, h1, rfl⟩
    · exact factoryInv_set hw _ _
    · exact factoryInv_replace hw h1
  | simulate k i o =>
    rcases simulateStrategy_cases h with rfl | ⟨s, a, c, -, -, -, rfl⟩
    · exact hw
    · exact factoryInv_set hw _ _

theorem factoryInv_run (env : FactoryEnv) {w : FactoryWorld} (hw : FactoryInv w) (ops : List FactoryOp) :
    FactoryInv (factoryRun env w ops) := by
  induction ops generalizing w with
  | nil => exact hw
  | cons op ops ih =>
    unfold factoryRun
    cases h : factoryStep env w op with
    | ok w' => exact ih (factoryInv_step hw h)
    | error e => exact ih hw

theorem Reaches.inv {env : FactoryEnv} {w : FactoryWorld} (h : Reaches env w) : FactoryInv w := by
  obtain ⟨calcs, cfgs, cfg, perm, type, w₀, ops, h1, h2, rfl⟩ := h
  exact factoryInv_run env (factoryInv_init h1 h2) ops

end Verif
