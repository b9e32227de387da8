import Verif.Proofs.EndToEnd
import Verif.Proofs.ReflectedGray
import Verif.Props.StrategyFactory
import Verif.Props.Independence
import Verif.Props.Statistics
import Verif.Props.UniformBobsLevels
import Verif.Proofs.SvdExists

/-!
C82: from the factory to the samples. `Reaches` is defined in `Spec/StrategyFactory.lean`, `lastMatrix` in
`Spec/EndToEnd.lean`.
-/
namespace Verif

open Finset
open scoped ENNReal

/-- In the state `w`, reached by some history, the factory with configuration `c` and a calculator with
contents `p` generates a strategy; `w'` is the state afterwards. The new strategy has the index
`w.strategies.length`. -/
structure Generated (env : FactoryEnv) (w w' : FactoryWorld) (c : FactoryCfg) (p : CalcObj) : Prop where
  reaches : Reaches env w
  step : factoryStep env w .generate = .ok w'
  config : w.config = some c
  own : w.own = some p

theorem strategyOf_view {E : Externals} {perm : CalcCfg ℂ → Py ℂ} {sub : CalcCfg ℂ → Py (List ℂ)} {fuel : ℕ}
    {mem : StrategyMemory} {w : FactoryWorld} {k : ℕ} {v : StrategyObj × Option CalcObj} (h : w.view k = some v) :
    strategyOf E perm sub fuel mem w k = runStrategy E perm sub fuel mem v := by
  unfold FactoryWorld.view at h
  cases hs : w.strategies[k]? with
  | none => rw [hs] at h; simp at h
  | some s =>
    rw [hs, Option.map_some, Option.some.injEq] at h
    subst h
    unfold strategyOf
    rw [hs]
    cases s <;> rfl

theorem Generated.built {env : FactoryEnv} {w w' : FactoryWorld} {c : FactoryCfg} {p : CalcObj}
    (h : Generated env w w' c p) : ∃ s content, w'.strategies[w.strategies.length]? = some s ∧
      w'.view w.strategies.length = some (s, content) ∧ BuiltFrom env c p w.threads w.type s content := by
  obtain ⟨⟨s, content, c', p', h1, h2, h3, h4, h5⟩, -⟩ := C54_generate env w w' h.reaches h.step
  rw [h.config, Option.some.injEq] at h3
  rw [h.own, Option.some.injEq] at h4
  subst h3 h4
  exact ⟨s, content, by rw [h1]; simp, h2, h5⟩

theorem Generated.inv {env : FactoryEnv} {w w' : FactoryWorld} {c : FactoryCfg} {p : CalcObj}
    (h : Generated env w w' c p) : FactoryInv w' := factoryInv_step h.reaches.inv h.step

theorem asMatrix_rowsOf {m : ℕ} (A : Matrix (Fin m) (Fin m) ℂ) : asMatrix m (rowsOf A) = A := by
  ext i j
  exact mget_rowsOf A i j i.2 j.2

theorem rowsOf_asMatrix {M : Rows} (h : isSquare M = true) : rowsOf (asMatrix M.length M) = M := by
  unfold isSquare at h
  rw [List.all_eq_true] at h
  refine List.ext_getElem (by simp [rowsOf]) fun i h1 h2 => ?_
  have hr : M[i].length = M.length := by simpa using h _ (List.getElem_mem h2)
  simp only [rowsOf, List.getElem_ofFn]
  refine List.ext_getElem (by simp [hr]) fun j h3 h4 => ?_
  simp only [List.getElem_ofFn, asMatrix, Matrix.of_apply]
  rw [getD_of_lt _ _ h2, getD_of_lt _ _ h4]

/-- The matrix held after a history. -/
theorem Generated.holds {env : FactoryEnv} {w w' : FactoryWorld} {c : FactoryCfg} {p : CalcObj}
    (h : Generated env w w' c p) (ht : w.type = 4 ∨ w.type = 5 ∨ w.type = 7) (ops : List FactoryOp)
    (hops : w.type = 5 → ∀ N, .setMatrix w.strategies.length N ∈ ops → ∃ X, env.expand N = .ok X) :
    ∃ s a c', (factoryRun env w' ops).view w.strategies.length = some (s, some c') ∧
      HoldsMatrix env s a (lastMatrix w.strategies.length p.matrix ops) c' ∧
      (w.type = 4 → s = .gcc a) ∧ (w.type = 5 → s = .lossyNet a) ∧ (w.type = 7 → s = .uniformGcc a c.eta) := by
  obtain ⟨s, content, h1, h2, h3⟩ := h.built
  have key : ∃ a c₀, s.uses = some a ∧ content = some c₀ ∧ HoldsMatrix env s a p.matrix c₀ ∧
      (w.type = 4 → s = .gcc a) ∧ (w.type = 5 → s = .lossyNet a) ∧ (w.type = 7 → s = .uniformGcc a c.eta) := by
    generalize w.type = ty at h3 ht
    cases h3 with
    | gcc a => exact ⟨a, p, rfl, rfl, .inl ⟨rfl, rfl⟩, fun _ => rfl, by omega, by omega⟩
    | lossyNet a M hM => exact ⟨a, _, rfl, rfl, .inr (.inr ⟨rfl, hM⟩), by omega, fun _ => rfl, by omega⟩
    | uniformGcc a => exact ⟨a, p, rfl, rfl, .inr (.inl ⟨_, rfl, rfl⟩), by omega, by omega, fun _ => rfl⟩
    | fixedLoss _ hty _ =>
      rcases ht with rfl | rfl | rfl <;> simp at hty
    | _ => omega
  obtain ⟨a, c₀, hu, rfl, hM, k4, k5, k7⟩ := key
  have hc : w'.calcs[a]? = some c₀ := by
    unfold FactoryWorld.view at h2
    rw [h1, Option.map_some, Option.some.injEq, hu] at h2
    simpa using h2
  obtain ⟨c', e1, e2, e3⟩ := holdsMatrix_run h.inv ops h1 hc hM (fun hs N hN => by
    refine hops ?_ N hN
    rcases ht with ht | ht | ht
    · have := k4 ht; rw [hs] at this; simp at this
    · exact ht
    · have := k7 ht; rw [hs] at this; simp at this)
  refine ⟨s, a, c', ?_, e3, k4, k5, k7⟩
  unfold FactoryWorld.view
  rw [e1, Option.map_some, hu, Option.bind_some, e2]

section
variable (gray : Nat → List Nat) (hgray : ∀ n, IsGrayCode n (gray n)) (t : Int)
variable {E : Externals} {w w' : FactoryWorld} {c : FactoryCfg} {p : CalcObj}
include hgray

/-- C82, type GCC: the results of the simulator are independent samples of the lossless experiment with
the matrix of the factory's calculator, or the matrix set last; by default there is one. -/
theorem C82_exact (h : Generated E.env w w' c p) (ht : w.type = 4) (ops : List FactoryOp) (U : Rows)
    (hU : U = lastMatrix w.strategies.length p.matrix ops) (S : List ℕ) (hS : Interferometer U S) (mem : StrategyMemory) :
    ∃ F, ∀ fuel ≥ F, ∀ st, st = strategyOf E (factoryPermanent gray t fuel) (ryserSubPermanents fuel) fuel mem
        (factoryRun E.env w' ops) w.strategies.length →
      (∀ l : List (List ℕ), (∀ T ∈ l, T.length = S.length ∧ T.sum = S.sum) →
        (simulatorResults st S l.length).prob (fun r => r = .ok l)
          = (l.map fun T => ENNReal.ofReal (bosonProb U S T)).prod) ∧
      ∀ T : List ℕ, T.length = S.length → T.sum = S.sum →
        (simulatorResults st S).prob (fun r => r = .ok [T]) = ENNReal.ofReal (bosonProb U S T) := by
  subst hU
  obtain ⟨s, a, c', h1, h2, h3, -, -⟩ := h.holds (.inl ht) ops (by omega)
  obtain rfl := h3 ht
  obtain hm : c'.matrix = _ := by
    rcases h2 with ⟨-, h2⟩ | ⟨_, h2, -⟩ | ⟨h2, -⟩
    · exact h2
    · simp at h2
    · simp at h2
  refine ⟨(S.map (· + 1)).prod, fun fuel hf st hst => ?_⟩
  rw [strategyOf_view h1] at hst
  simp only [runStrategy, hm] at hst
  have key : ∀ l : List (List ℕ), (∀ T ∈ l, T.length = S.length ∧ T.sum = S.sum) →
      (simulatorResults st S l.length).prob (fun r => r = .ok l)
        = (l.map fun T => ENNReal.ofReal (bosonProb (lastMatrix w.strategies.length p.matrix ops) S T)).prod := by
    intro l hl
    unfold Prog.prob simulatorResults
    rw [hst, gccStrategy_wp gray hgray t (okA _) hS fuel hf]
    simp only [Except.ok.injEq]
    exact expIid_indicator _ _ l fun T hT => (mem_statesFin _ _ T).mpr (hl T hT)
  refine ⟨key, fun T h1 h2 => ?_⟩
  have := key [T] (by simpa using ⟨h1, h2⟩)
  simpa using this

/-- C82, type UNIFORM_LOSSES_GCC: the same with uniform losses of the transmissivity in the
configuration at the time of generation. -/
theorem C82_uniform (h : Generated E.env w w' c p) (ht : w.type = 7) (h0 : 0 ≤ c.eta) (h1 : c.eta ≤ 1)
    (ops : List FactoryOp) (U : Rows) (hU : U = lastMatrix w.strategies.length p.matrix ops) (S : List ℕ)
    (hS : Interferometer U S) (mem : StrategyMemory) :
    ∃ F, ∀ fuel ≥ F, ∀ st, st = strategyOf E (factoryPermanent gray t fuel) (ryserSubPermanents fuel) fuel mem
        (factoryRun E.env w' ops) w.strategies.length →
      (∀ l : List (List ℕ), (∀ T ∈ l, T.length = S.length ∧ T.sum ≤ S.sum) →
        (simulatorResults st S l.length).prob (fun r => r = .ok l)
          = (l.map fun T => ENNReal.ofReal (binomialWeight S.sum T.sum c.eta * fixedLossProb U S T.sum T)).prod) ∧
      ∀ T : List ℕ, T.length = S.length → T.sum ≤ S.sum →
        (simulatorResults st S).prob (fun r => r = .ok [T])
          = ENNReal.ofReal (binomialWeight S.sum T.sum c.eta * fixedLossProb U S T.sum T) := by
  subst hU
  obtain ⟨s, a, c', e1, e2, -, -, e3⟩ := h.holds (.inr (.inr ht)) ops (by omega)
  obtain rfl := e3 ht
  obtain hm : c'.matrix = _ := by
    rcases e2 with ⟨h2, -⟩ | ⟨_, -, h2⟩ | ⟨h2, -⟩
    · simp at h2
    · exact h2
    · simp at h2
  obtain ⟨k, hk⟩ : ∃ k, S.length = k + 1 := ⟨S.length - 1, by have := List.length_pos_of_ne_nil hS.ne; omega⟩
  refine ⟨genFuel k S.sum + (S.map (· + 1)).prod, fun fuel hf st hst => ?_⟩
  rw [strategyOf_view e1] at hst
  simp only [runStrategy, hm] at hst
  have key : ∀ l : List (List ℕ), (∀ T ∈ l, T.length = S.length ∧ T.sum ≤ S.sum) →
      (simulatorResults st S l.length).prob (fun r => r = .ok l)
        = (l.map fun T => ENNReal.ofReal (binomialWeight S.sum T.sum c.eta *
            fixedLossProb (lastMatrix w.strategies.length p.matrix ops) S T.sum T)).prod := by
    intro l hl
    unfold Prog.prob simulatorResults
    rw [hst, gccuStrategy_wp gray hgray t hS h0 h1 { mem.gccu with eta := c.eta } rfl k hk fuel hf]
    simp only [Except.ok.injEq]
    exact expIid_indicator _ _ l fun T hT => (mem_statesUpTo _ _ T).mpr (hl T hT)
  refine ⟨key, fun T h1 h2 => ?_⟩
  have := key [T] (by simpa using ⟨h1, h2⟩)
  simpa using this

end

section
variable {E : Externals} {w w' : FactoryWorld} {c : FactoryCfg} {p : CalcObj}

/-- C82, type LOSSY_NET_GCC: independent samples of the lossy network with the matrix of the factory's
calculator, or the matrix set last; here `W` is any interferometer with `b` further modes that has this
matrix as its first part. -/
theorem C82_lossy_network (h : Generated E.env w w' c p) (ht : w.type = 5) (hsvd : ∀ m A, IsSvd A (E.svd m A))
    (ops : List FactoryOp) (hops : ∀ N, .setMatrix w.strategies.length N ∈ ops → isSquare N = true) (M : Rows)
    (hM : M = lastMatrix w.strategies.length p.matrix ops) (hsq : isSquare M = true)
    (hle : ∀ i, (E.svd M.length (asMatrix M.length M)).s i ≤ 1) (W : List (List ℂ)) (b : ℕ)
    (hW : IsDilation M W M.length b) (S : List ℕ) (hS : S.length = M.length) (hm : S ≠ []) (mem : StrategyMemory)
    (perm : CalcCfg ℂ → Py ℂ) (fuel : ℕ) (hf : (S.map (· + 1)).prod + S.length < fuel) (st : Strategy)
    (hst : st = strategyOf E perm (ryserSubPermanents fuel) fuel mem (factoryRun E.env w' ops) w.strategies.length) :
    (∀ l : List (List ℕ), (∀ T ∈ l, T.length = S.length) →
      (simulatorResults st S l.length).prob (fun r => r = .ok l)
        = (l.map fun T => ENNReal.ofReal (lossyProb W b S T)).prod) ∧
    ∀ T : List ℕ, T.length = S.length →
      (simulatorResults st S).prob (fun r => r = .ok [T]) = ENNReal.ofReal (lossyProb W b S T) := by
  obtain ⟨s, a, c', e1, e2, -, e3, -⟩ := h.holds (.inr (.inl ht)) ops (fun _ N hN =>
    ⟨_, show (if isSquare N then _ else _ : Py Rows) = _ by rw [if_pos (hops N hN)]; rfl⟩)
  obtain rfl := e3 ht
  have hc : c'.matrix = rowsOf (expandedMatrix (E.svd M.length (asMatrix M.length M))) := by
    rcases e2 with ⟨h2, -⟩ | ⟨_, h2, -⟩ | ⟨-, h2⟩
    · simp at h2
    · simp at h2
    · rw [← hM] at h2
      change (if isSquare M then _ else _ : Py Rows) = _ at h2
      rw [if_pos hsq] at h2
      exact (Except.ok.inj h2).symm
  rw [strategyOf_view e1] at hst
  simp only [runStrategy, hc] at hst
  have key : ∀ l : List (List ℕ), (∀ T ∈ l, T.length = S.length) →
      (simulatorResults st S l.length).prob (fun r => r = .ok l)
        = (l.map fun T => ENNReal.ofReal (lossyProb W b S T)).prod := by
    intro l hl
    have := C70_network (asMatrix M.length M) _ (hsvd _ _) hle W b (by rwa [rowsOf_asMatrix hsq]) S hS
      (by rw [← hS]; exact List.length_pos_of_ne_nil hm) fuel (by omega) (by omega) l fun T hT => (hl T hT).trans hS
    rw [← this, simulatorResults, hst]
    rfl
  refine ⟨key, fun T h1 => ?_⟩
  have := key [T] (by simpa using h1)
  simpa using this

/-- The networks of the configurations: without a network object the lossy network of the matrix. -/
def ConfigNetwork (E : Externals) (c : FactoryCfg) (A : Matrix (Fin c.matrix.length) (Fin c.matrix.length) ℂ) : Prop :=
  match c.net with
  | none => A = asMatrix c.matrix.length c.matrix
  | some a => NetworkOf (E.nets a) A

/-- C82, type FIXED_LOSS and numbers without a strategy: independent samples of the approximation for
fixed losses, for the network in the configuration at the time of generation. -/
theorem C82_fixed_loss (h : Generated E.env w w' c p) (ht : w.type ∉ ([2, 3, 4, 5, 7, 8, 9] : List ℤ))
    (hsvd : ∀ m A, IsSvd A (E.svd m A)) (ops : List FactoryOp) (hmodes : c.modes = c.matrix.length)
    (A : Matrix (Fin c.matrix.length) (Fin c.matrix.length) ℂ) (hA : ConfigNetwork E c A)
    (hle : ∀ i, (E.svd _ A).s i ≤ 1) (S : List ℕ) (hS : 1 ≤ S.sum) (hm : 0 < c.matrix.length)
    (mem : StrategyMemory) (perm : CalcCfg ℂ → Py ℂ) (sub : CalcCfg ℂ → Py (List ℂ)) (fuel : ℕ)
    (hf : c.matrix.length < fuel) (st : Strategy)
    (hst : st = strategyOf E perm sub fuel mem (factoryRun E.env w' ops) w.strategies.length) :
    (∀ l : List (List ℕ), (∀ T ∈ l, T.length = c.matrix.length ∧ T.sum ≤ c.left.toNat) →
      (simulatorResults st S l.length).prob (fun r => r = .ok l)
        = (l.map fun T => expUniform c.matrix.length fun us => ENNReal.ofReal (multinomialProb
            (List.ofFn fun i => Complex.normSq ((A.mulVec (smeared c.matrix.length S.sum us)) i)) c.left.toNat T)).prod) ∧
    ∀ T : List ℕ, T.length = c.matrix.length → T.sum ≤ c.left.toNat →
      (simulatorResults st S).prob (fun r => r = .ok [T])
        = expUniform c.matrix.length fun us => ENNReal.ofReal (multinomialProb
            (List.ofFn fun i => Complex.normSq ((A.mulVec (smeared c.matrix.length S.sum us)) i)) c.left.toNat T) := by
  obtain ⟨s, content, h1, h2, h3⟩ := h.built
  obtain rfl : s = .fixedLoss c.matrix c.left c.modes c.net := by
    generalize w.type = ty at h3 ht
    cases h3 <;> first | rfl | simp at ht
  have hv : (factoryRun E.env w' ops).view w.strategies.length
      = some (.fixedLoss c.matrix c.left c.modes c.net, none) := by
    unfold FactoryWorld.view
    rw [strategy_kept h.inv ops h1 (by simp)]
    rfl
  rw [strategyOf_view hv] at hst
  obtain ⟨net, hn, e⟩ : ∃ net, NetworkOf net A ∧ st = fun S N => fixedSimulate net c.matrix.length c.left S N := by
    unfold ConfigNetwork at hA
    cases hc : c.net with
    | none =>
      rw [hc] at hA hst
      simp only at hA
      refine ⟨_, ?_, by rw [hst]; simp only [runStrategy, hmodes, Int.toNat_natCast]; rfl⟩
      rw [hA]
      exact (networkOf_strategies _ _ (hsvd _ _) fuel hf).1
    | some a =>
      rw [hc] at hA hst
      exact ⟨_, hA, by rw [hst]; simp only [runStrategy, hmodes, Int.toNat_natCast]⟩
  have key : ∀ l : List (List ℕ), (∀ T ∈ l, T.length = c.matrix.length ∧ T.sum ≤ c.left.toNat) →
      (simulatorResults st S l.length).prob (fun r => r = .ok l)
        = (l.map fun T => expUniform c.matrix.length fun us => ENNReal.ofReal (multinomialProb
            (List.ofFn fun i => Complex.normSq ((A.mulVec (smeared c.matrix.length S.sum us)) i)) c.left.toNat T)).prod := by
    intro l hl
    rw [simulatorResults, e]
    exact C70_fixed hn hm _ (hsvd _ A) hle c.left S hS l hl
  refine ⟨key, fun T h1 h2 => ?_⟩
  have := key [T] (by simpa using ⟨h1, h2⟩)
  simpa using this

/-- C82, type UNIFORM_LOSS: independent samples of the approximation for uniform losses, for the matrix
and the transmissivity in the configuration at the time of generation. -/
theorem C82_uniform_loss (h : Generated E.env w w' c p) (ht : w.type = 2) (hsvd : ∀ m A, IsSvd A (E.svd m A))
    (ops : List FactoryOp) (hmodes : c.modes = c.matrix.length) (h0 : 0 ≤ c.eta) (h1 : c.eta ≤ 1)
    (hle : ∀ i, (E.svd _ (asMatrix c.matrix.length c.matrix)).s i ≤ 1) (S : List ℕ) (hS : 1 ≤ S.sum)
    (hm : 0 < c.matrix.length) (mem : StrategyMemory) (perm : CalcCfg ℂ → Py ℂ) (sub : CalcCfg ℂ → Py (List ℂ))
    (fuel : ℕ) (hf : c.matrix.length < fuel) (st : Strategy)
    (hst : st = strategyOf E perm sub fuel mem (factoryRun E.env w' ops) w.strategies.length) :
    (∀ l : List (List ℕ), (∀ T ∈ l, T.length = c.matrix.length) →
      (simulatorResults st S l.length).prob (fun r => r = .ok l)
        = (l.map fun T => ∑ k ∈ Icc T.sum S.sum,
            ENNReal.ofReal ((S.sum.choose k : ℝ) * c.eta ^ k * (1 - c.eta) ^ (S.sum - k)) *
              expUniform c.matrix.length fun us => ENNReal.ofReal (multinomialProb (List.ofFn fun i => Complex.normSq
                (((asMatrix c.matrix.length c.matrix).mulVec (smeared c.matrix.length S.sum us)) i)) k T)).prod) ∧
    ∀ T : List ℕ, T.length = c.matrix.length →
      (simulatorResults st S).prob (fun r => r = .ok [T])
        = ∑ k ∈ Icc T.sum S.sum, ENNReal.ofReal ((S.sum.choose k : ℝ) * c.eta ^ k * (1 - c.eta) ^ (S.sum - k)) *
            expUniform c.matrix.length fun us => ENNReal.ofReal (multinomialProb (List.ofFn fun i => Complex.normSq
              (((asMatrix c.matrix.length c.matrix).mulVec (smeared c.matrix.length S.sum us)) i)) k T) := by
  obtain ⟨s, content, e1, e2, e3⟩ := h.built
  obtain rfl : s = .uniformLoss c.matrix c.modes c.eta := by
    generalize w.type = ty at e3 ht
    cases e3 with
    | uniformLoss => rfl
    | fixedLoss _ hty _ => rw [ht] at hty; simp at hty
    | _ => omega
  have hv : (factoryRun E.env w' ops).view w.strategies.length = some (.uniformLoss c.matrix c.modes c.eta, none) := by
    unfold FactoryWorld.view
    rw [strategy_kept h.inv ops e1 (by simp)]
    rfl
  rw [strategyOf_view hv] at hst
  simp only [runStrategy, hmodes, Int.toNat_natCast] at hst
  have key := fun (l : List (List ℕ)) (hl : ∀ T ∈ l, T.length = c.matrix.length) =>
    C70_separable hm _ (hsvd _ (asMatrix c.matrix.length c.matrix)) hle fuel hf c.eta h0 h1 S hS l hl
  subst hst
  refine ⟨key, fun T h1 => ?_⟩
  have := key [T] (by simpa using h1)
  simp only [List.length_cons, List.length_nil, List.map_cons, List.map_nil, List.prod_cons, List.prod_nil, mul_one] at this
  exact this

end

theorem Reaches.step {env : FactoryEnv} {w w' : FactoryWorld} {op : FactoryOp} (h : Reaches env w)
    (hs : factoryStep env w op = .ok w') : Reaches env w' := by
  obtain ⟨calcs, cfgs, cfg, perm, type, w₀, ops, h1, h2, rfl⟩ := h
  refine ⟨calcs, cfgs, cfg, perm, type, w₀, ops ++ [op], h1, h2, ?_⟩
  clear h2
  induction ops generalizing w₀ with
  | nil => simp only [factoryRun, List.nil_append] at hs ⊢; rw [hs]
  | cons o ops ih =>
    simp only [factoryRun, List.cons_append] at hs ⊢
    cases ho : factoryStep env w₀ o with
    | ok w₁ => rw [ho] at hs; exact ih w₁ hs
    | error e => rw [ho] at hs; exact ih w₀ hs

/-- BOBS strategies stay as they are, with uniform losses as long as the caller changes no calculator. -/
theorem view_kept {env : FactoryEnv} {w : FactoryWorld} (h : Reaches env w) {k : ℕ} {s : StrategyObj}
    (hk : w.strategies[k]? = some s) (ops : List FactoryOp)
    (hs : (∃ a n l M t, s = .bobs a n l M t) ∨
      (∃ a eta level t n, s = .uBobs a eta level t n) ∧ ∀ a c, .writeCalc a c ∉ ops) :
    (factoryRun env w ops).view k = w.view k := by
  induction ops generalizing w with
  | nil => rfl
  | cons op ops ih =>
    have hs' : (∃ a n l M t, s = .bobs a n l M t) ∨
        (∃ a eta level t n, s = .uBobs a eta level t n) ∧ ∀ a c, .writeCalc a c ∉ ops :=
      hs.imp_right fun h => ⟨h.1, fun a c hm => h.2 a c (List.mem_cons_of_mem _ hm)⟩
    unfold factoryRun
    cases ho : factoryStep env w op with
    | error e => exact ih h hk hs'
    | ok w₁ =>
      have hk₁ : w₁.strategies[k]? = some s := by
        have := strategy_kept (env := env) h.inv [op] hk (by
          rcases hs with ⟨a, n, l, M, t, rfl⟩ | ⟨⟨a, eta, level, t, n, rfl⟩, -⟩ <;> simp)
        simpa [factoryRun, ho] using this
      simp only
      rw [ih (h.step ho) hk₁ hs']
      have hkl : k < w.strategies.length := (List.getElem?_eq_some_iff.mp hk).1
      cases op with
      | setMatrix j M =>
        refine (C54_isolated env w w₁ h j M ho).2.2.2 k ?_
        rintro rfl
        simp only [factoryStep, setStrategyMatrix, pyGetN_eq_ok.mpr hk, ok_bind] at ho
        rcases hs with ⟨a, n, l, M, t, rfl⟩ | ⟨⟨a, eta, level, t, n, rfl⟩, -⟩ <;> simp at ho
      | simulate j i o =>
        by_cases hj : k = j
        · subst hj
          simp only [factoryStep, simulateStrategy, pyGetN_eq_ok.mpr hk, ok_bind] at ho
          rcases hs with ⟨a, n, l, M, t, rfl⟩ | ⟨⟨a, eta, level, t, n, rfl⟩, -⟩ <;>
            (simp only [pure, Except.pure, Except.ok.injEq] at ho; rw [ho])
        · exact (C54_simulate env w w₁ h j i o ho).2.2.2.2.2 k hj
      | _ =>
        refine C54_caller env w w₁ h _ ho (by simp) (by simp) k hkl ?_
        rcases hs with ⟨a, n, l, M, t, rfl⟩ | ⟨-, hw⟩
        · exact .inr (by simp [hk])
        · exact .inl fun a c e => hw a c (by rw [← e]; exact List.mem_cons_self)

section
variable {E : Externals} {w w' : FactoryWorld} {c : FactoryCfg} {p : CalcObj}

/-- C82, type BOBS, first call: independent samples of the law of the approximation with
`number_of_modes - hierarchy_level` approximated modes, for the matrix of the factory's calculator. The
number of samples is the one of `C39`. -/
theorem C82_bobs (h : Generated E.env w w' c p) (ht : w.type = 8) (hsvd : ∀ m A, IsSvd A (E.svd m A))
    (ops : List FactoryOp) (A : Matrix (Fin p.matrix.length) (Fin p.matrix.length) ℂ) (l₀ eta : ℝ) (K th : ℕ)
    (hb : BobsSetup (asMatrix p.matrix.length p.matrix) (E.svd _ (asMatrix p.matrix.length p.matrix)) E.cpu
      (c.modes - c.level) (-1) A l₀ eta K th)
    (mem : StrategyMemory) (hmem : mem.particles = 0) (S : List ℕ) (hS : S.length = p.matrix.length)
    (W : (Fin K → ℝ) → List (List ℂ)) (b : ℕ)
    (hW : ∀ us, IsDilation (rowsOf (A * phaseMatrix K _ us * dftMatrix K _)) (W us) p.matrix.length b)
    (perm : CalcCfg ℂ → Py ℂ) (fuel : ℕ) (hf : (S.sum + 1) ^ p.matrix.length ≤ fuel) (hf' : p.matrix.length < fuel)
    (st : Strategy)
    (hst : st = strategyOf E perm (ryserSubPermanents fuel) fuel mem (factoryRun E.env w' ops) w.strategies.length) :
    (∀ (N : ℤ) (l : List (List ℕ)), 1 ≤ N → l.length = th * (N.toNat / th + 1) → (∀ T ∈ l, T.length = S.length) →
      (simulatorResults st S N).prob (fun r => r = .ok l) = (l.map fun T => approxLaw K (S.take K).sum eta W b S T).prod) ∧
    ∀ l : List (List ℕ), l.length = th * (1 / th + 1) → (∀ T ∈ l, T.length = S.length) →
      (simulatorResults st S).prob (fun r => r = .ok l) = (l.map fun T => approxLaw K (S.take K).sum eta W b S T).prod := by
  obtain ⟨s, content, e1, e2, e3⟩ := h.built
  obtain ⟨a, k, lo, M, hl, hk, rfl, rfl⟩ : ∃ a k lo M, E.env.losses p.matrix = .ok (lo, M) ∧
      ((k : ℕ) : ℤ) = max 0 (min (c.modes - c.level) p.matrix.length) ∧ s = .bobs a k lo M E.env.cpu ∧ content = some p := by
    generalize w.type = ty at e3 ht
    cases e3 with
    | bobs a k l M h1 h2 => exact ⟨a, k, l, M, h1, h2, rfl, rfl⟩
    | fixedLoss _ hty _ => rw [ht] at hty; simp at hty
    | _ => omega
  rw [strategyOf_view ((view_kept (h.reaches.step h.step) e1 ops (.inl ⟨_, _, _, _, _, rfl⟩)).trans e2)] at hst
  obtain ⟨o, i1, i2, i3, i4, i5, i6⟩ := hb.inv
  have ho : o = ⟨k, lo, some (asMatrix p.matrix.length M), [], E.env.cpu, [], mem.particles⟩ := by
    change (if isSquare p.matrix then _ else _ : Py (ℝ × Rows)) = _ at hl
    split_ifs at hl with hsq
    unfold bobsInit at i1
    cases hx : extractLosses (E.svd p.matrix.length (asMatrix p.matrix.length p.matrix)) with
    | error e => rw [hx] at i1; cases i1
    | ok x =>
      obtain ⟨l', A'⟩ := x
      rw [hx] at i1 hl
      simp only [ok_bind] at i1 hl
      cases A' with
      | none => cases hl
      | some A' =>
        simp only [pure, Except.pure, Except.ok.injEq, Prod.mk.injEq] at hl i1
        obtain ⟨rfl, rfl⟩ := hl
        rw [← i1, asMatrix_rowsOf, hmem]
        congr 1
        have := hb.modes
        rw [hb.modes_eq]
        omega
  rw [hmem] at ho
  simp only [runStrategy, hmem, ← ho] at hst
  have key : ∀ (N : ℤ) (l : List (List ℕ)), 1 ≤ N → l.length = th * (N.toNat / th + 1) → (∀ T ∈ l, T.length = S.length) →
      (simulatorResults st S N).prob (fun r => r = .ok l) = (l.map fun T => approxLaw K (S.take K).sum eta W b S T).prod := by
    intro N l hN hc hl
    have := C70_bobs hb (hsvd _) (.new i1) S hS N hN (by simpa [pastParticles] using hf) hf' W b hW l hc
      fun T hT => (hl T hT).trans hS
    simp only [pastParticles, List.map_nil, List.sum_nil, zero_add] at this
    rw [← this, simulatorResults, hst]
    unfold Prog.prob
    simp only
    rw [Prog.bind_eq, Prog.wp_bind]
    refine Prog.wp_congr _ _ _ fun r _ => ?_
    cases r with
    | error e => simp [Prog.post]
    | ok x => obtain ⟨x1, x2⟩ := x; simp [Prog.post, Prog.wp]
  exact ⟨key, fun l hc hl => key 1 l le_rfl hc hl⟩

/-- C82, type UNIFORM_LOSSES_BOBS, as long as the caller changes no calculator: independent samples of
the law of the approximation for uniform losses, with the matrix of the factory's calculator and the
transmissivity and level in the configuration at the time of generation. -/
theorem C82_uniform_bobs (h : Generated E.env w w' c p) (ht : w.type = 9) (hcpu : 0 < E.cpu) (ops : List FactoryOp)
    (hops : ∀ a c, .writeCalc a c ∉ ops) (m : ℕ) (hm : p.matrix.length = m) (hi : p.input.length = m)
    (hU : asMatrix m p.matrix ∈ Matrix.unitaryGroup (Fin m) ℂ) (h0 : 0 ≤ c.eta) (h1 : c.eta ≤ 1) (n : ℕ)
    (hn : c.level = n) (hn1 : 1 ≤ n) (hnm : n < m) (S : List ℕ) (hS : S.length = m)
    (hp : c.eta = 0 ∨ c.eta = 1 ∨ ∀ a ∈ S.take n, a ≤ 1) (hhash : HashOk E.hash (S.take n)) (mem : StrategyMemory)
    (perm : CalcCfg ℂ → Py ℂ) (fuel : ℕ) (hf : (S.sum + 1) ^ m ≤ fuel) (st : Strategy)
    (hst : st = strategyOf E perm (ryserSubPermanents fuel) fuel mem (factoryRun E.env w' ops) w.strategies.length)
    (law : List ℕ → ℝ≥0∞)
    (hlaw : ∀ T, law T = ∑ k ∈ range ((S.drop n).sum + 1), ENNReal.ofReal (binomialWeight (S.drop n).sum k c.eta) *
      expLoss c.eta (S.take n) fun q => expUniform (m - n) fun us =>
        (∑ σ : Equiv.Perm (Fin m), ENNReal.ofReal (lossyProb
          (rowsOf ((asMatrix m p.matrix).submatrix id σ * phaseMatrix (m - n) m us * dftMatrix (m - n) m)) 0
          (q ++ k :: List.replicate (m - n - 1) 0) T)) / m.factorial) :
    (∀ l : List (List ℕ), l ≠ [] → (∀ T ∈ l, T.length = m) →
      (simulatorResults st S l.length).prob (fun r => r = .ok l) = (l.map law).prod) ∧
    ∀ T : List ℕ, T.length = m → (simulatorResults st S).prob (fun r => r = .ok [T]) = law T := by
  obtain ⟨s, content, e1, e2, e3⟩ := h.built
  obtain ⟨a, t, hq, ht1, ht2, rfl, rfl⟩ : ∃ a, ∃ t : ℕ, E.env.qft (p.input.length - c.level) p.input.length = .ok () ∧
      (1 ≤ w.threads ∧ w.threads ≤ E.env.cpu → (t : ℤ) = w.threads) ∧
      (w.threads < 1 ∨ E.env.cpu < w.threads → t = E.env.cpu) ∧
      s = .uBobs a c.eta c.level t p.input.length ∧ content = some p := by
    generalize w.type = ty at e3 ht
    cases e3 with
    | uBobs a t h1 h2 h3 => exact ⟨a, t, h1, h2, h3, rfl, rfl⟩
    | fixedLoss _ hty _ => rw [ht] at hty; simp at hty
    | _ => omega
  rw [strategyOf_view ((view_kept (h.reaches.step h.step) e1 ops (.inr ⟨⟨_, _, _, _, _, rfl⟩, hops⟩)).trans e2)] at hst
  subst hm
  rw [hi] at hst hq
  obtain ⟨Q, hQ⟩ : ∃ Q, generateQftInt (p.matrix.length - c.level) p.matrix.length = .ok Q := by
    change (do let _ ← generateQftInt _ _; pure () : Py Unit) = _ at hq
    cases hg : generateQftInt (p.matrix.length - c.level) p.matrix.length with
    | error e => rw [hg] at hq; cases hq
    | ok Q => exact ⟨Q, rfl⟩
  have hcpu' : E.env.cpu = E.cpu := rfl
  have ho : uAnyInit p.matrix.length (asMatrix p.matrix.length p.matrix) E.cpu c.eta c.level w.threads
      = .ok ⟨c.level, c.eta, t, asMatrix p.matrix.length p.matrix, Q⟩ := by
    unfold uAnyInit
    rw [hQ, ok_bind]
    simp only [pure, Except.pure]
    congr 2
    unfold uBobsThreadsNumber
    rw [hcpu'] at ht1 ht2
    split_ifs <;> omega
  obtain ⟨-, hu⟩ := uAnyInit_eq _ _ _ _ _ (by omega) (by omega) _ ho
  rw [hn, Int.toNat_natCast] at hu
  have key : ∀ l : List (List ℕ), l ≠ [] → (∀ T ∈ l, T.length = p.matrix.length) →
      (simulatorResults st S l.length).prob (fun r => r = .ok l) = (l.map law).prod := by
    intro l hne hl
    have := C70_uniform_bobs E.hash fuel _ hU E.cpu hcpu c.eta h0 h1 n hn1 hnm w.threads _ hu S hS hp hhash hf l hne hl
    rw [List.map_congr_left fun T _ => hlaw T, ← this, simulatorResults, hst]
    simp only [runStrategy, hQ, Prog.lift_def, Prog.bind_eq, Prog.done_ok_bind]
    rw [uAnySimulate_eq _ _ _ _ (by simp only; omega) (by simp only; omega)]
    simp only [hn]
  refine ⟨key, fun T hT => ?_⟩
  have := key [T] (by simp) (by simpa using hT)
  simpa using this

end

/-! ### Concrete cases -/

/-- A factory for 2 modes: transmissivity 1/2, level 1, one particle left; `M` is the matrix of the
configuration, `N` the one of the calculator. -/
noncomputable def demoWorld (M N : Rows) (type : ℤ) : FactoryWorld where
  calcs := [⟨N, [1, 1], [1, 1]⟩, ⟨N, [1, 1], [1, 1]⟩]
  cfgs := [⟨M, 2, 1, 1 / 2, none, 1⟩]
  cfg := 0
  type := type
  perm := 1
  threads := -1
  strategies := []
  held := [0]

theorem demoWorld_reaches (env : FactoryEnv) (M N : Rows) (type : ℤ) : Reaches env (demoWorld M N type) :=
  ⟨[⟨N, [1, 1], [1, 1]⟩], [⟨M, 2, 1, 1 / 2, none, 1⟩], 0, 0, type, _, [], by simp, rfl, rfl⟩

/-- The strategy is generated. -/
theorem demoWorld_generated {env : FactoryEnv} {M N : Rows} {type : ℤ} {w' : FactoryWorld}
    (h : factoryStep env (demoWorld M N type) .generate = .ok w') :
    Generated env (demoWorld M N type) w' ⟨M, 2, 1, 1 / 2, none, 1⟩ ⟨N, [1, 1], [1, 1]⟩ :=
  ⟨demoWorld_reaches env M N type, h, rfl, rfl⟩

/-- The rotation. -/
noncomputable def rotationRows : Rows := [[3 / 5, 4 / 5], [4 / 5, -3 / 5]]

/-- The identity. -/
noncomputable def identityRows : Rows := [[1, 0], [0, 1]]

theorem identity_prob : bosonProb identityRows [1, 1] [1, 1] = 1 := by
  have hp : scatteringPermanent identityRows [1, 1] [1, 1] = (1 : ℂ) := by
    change Matrix.permanent (Matrix.of fun (a b : Fin 2) =>
      mget [[(1 : ℂ), 0], [0, 1]] ([0, 1].getD a 0) ([0, 1].getD b 0)) = _
    rw [Matrix.permanent, Fintype.sum_equiv (Equiv.Perm.decomposeFin (n := 1)) _
      (fun p => ∏ i, Matrix.of (fun (a b : Fin 2) =>
        mget [[(1 : ℂ), 0], [0, 1]] ([0, 1].getD a 0) ([0, 1].getD b 0))
          (Equiv.Perm.decomposeFin.symm p i) i) (fun σ => by simp)]
    rw [Fintype.sum_prod_type]
    simp [Fin.sum_univ_two, Fin.prod_univ_two, mget, Matrix.of_apply]
  rw [bosonProb, hp]
  simp [factProd]

section
variable (gray : Nat → List Nat) (hgray : ∀ n, IsGrayCode n (gray n)) (t : Int)
include hgray

/-- C82: the configuration does not determine the samples of the type GCC. Here its matrix is the
identity, for which `(1, 1)` is the only outcome; the calculator holds a rotation and the samples follow
the rotation. -/
theorem C82_configuration (E : Externals) (mem : StrategyMemory) : ∃ w' c p F,
    Generated E.env (demoWorld identityRows rotationRows 4) w' c p ∧ c.matrix = identityRows ∧
      bosonProb c.matrix [1, 1] [1, 1] = 1 ∧ ∀ fuel ≥ F,
        (simulatorResults (strategyOf E (factoryPermanent gray t fuel) (ryserSubPermanents fuel) fuel mem w' 0)
          [1, 1]).prob (fun r => r = .ok [[1, 1]]) = ENNReal.ofReal (49 / 625) := by
  have hg := demoWorld_generated (env := E.env) (M := identityRows) (N := rotationRows) (type := 4) rfl
  obtain ⟨F, hF⟩ := C82_exact gray hgray t hg rfl [] rotationRows rfl [1, 1] (rotation_interferometer [1, 1] rfl) mem
  refine ⟨_, _, _, F, hg, rfl, identity_prob, fun fuel hf => ?_⟩
  have := (hF fuel hf _ rfl).2 [1, 1] rfl rfl
  rw [← rotation_prob]
  exact this

/-- A case of `C82_exact`: the calculator holds the identity, then the matrix of the strategy is set to
the rotation; two samples. -/
example (E : Externals) (mem : StrategyMemory) : ∃ w' F, factoryStep E.env (demoWorld identityRows identityRows 4) .generate = .ok w' ∧
    ∀ fuel ≥ F, (simulatorResults (strategyOf E (factoryPermanent gray t fuel) (ryserSubPermanents fuel) fuel mem
        (factoryRun E.env w' [.simulate 0 [1, 1] [2, 0], .setMatrix 0 rotationRows]) 0) [1, 1] 2).prob
          (fun r => r = .ok [[1, 1], [1, 1]]) = ENNReal.ofReal (49 / 625) * ENNReal.ofReal (49 / 625) := by
  have hg := demoWorld_generated (env := E.env) (M := identityRows) (N := identityRows) (type := 4) rfl
  obtain ⟨F, hF⟩ := C82_exact gray hgray t hg rfl [.simulate 0 [1, 1] [2, 0], .setMatrix 0 rotationRows] rotationRows rfl
    [1, 1] (rotation_interferometer [1, 1] rfl) mem
  refine ⟨_, F, rfl, fun fuel hf => ?_⟩
  have := (hF fuel hf _ rfl).1 [[1, 1], [1, 1]] (by simp)
  rw [List.map_cons, List.map_cons, List.map_nil, List.prod_cons, List.prod_cons, List.prod_nil, mul_one] at this
  rw [← rotation_prob]
  exact this

/-- A case of `C82_uniform`: both particles survive with probability 1/4. -/
example (E : Externals) (mem : StrategyMemory) : ∃ w' F, factoryStep E.env (demoWorld identityRows rotationRows 7) .generate = .ok w' ∧
    ∀ fuel ≥ F, (simulatorResults (strategyOf E (factoryPermanent gray t fuel) (ryserSubPermanents fuel) fuel mem w' 0)
      [1, 1]).prob (fun r => r = .ok [[1, 1]]) = ENNReal.ofReal (1 / 4 * (49 / 625)) := by
  have hg := demoWorld_generated (env := E.env) (M := identityRows) (N := rotationRows) (type := 7) rfl
  obtain ⟨F, hF⟩ := C82_uniform gray hgray t hg rfl (by norm_num) (by norm_num) [] rotationRows rfl [1, 1]
    (rotation_interferometer [1, 1] rfl) mem
  refine ⟨_, F, rfl, fun fuel hf => ?_⟩
  have := (hF fuel hf _ rfl).2 [1, 1] rfl le_rfl
  have e : fixedLossProb rotationRows [1, 1] 2 [1, 1] = 49 / 625 := by
    rw [← rotation_prob]; exact fixedLossProb_full _ [1, 1] [1, 1]
  have e' : binomialWeight 2 2 (1 / 2) = 1 / 4 := by norm_num [binomialWeight, Nat.choose]
  rw [← e, ← e']
  exact this

end

/-- Singular value decompositions as they should be. -/
noncomputable def properExternals : Externals where
  svd _ A := (svd_exists A).choose
  nets _ := fun x => .ok x
  sampler := fun _ _ => pure []
  hash l := (Encodable.encode l : ℤ)
  cpu := 2
  r := false

theorem properExternals_svd (m : ℕ) (A : Matrix (Fin m) (Fin m) ℂ) : IsSvd A (properExternals.svd m A) :=
  (svd_exists A).choose_spec

theorem identity_asMatrix : asMatrix 2 identityRows = 1 := by
  ext i j
  fin_cases i <;> fin_cases j <;> simp [asMatrix, identityRows]

theorem identity_unitary : asMatrix 2 identityRows ∈ Matrix.unitaryGroup (Fin 2) ℂ := identity_asMatrix ▸ one_mem _

open Matrix in
theorem unitary_svd_le {m : ℕ} {A : Matrix (Fin m) (Fin m) ℂ} (hA : A ∈ unitaryGroup (Fin m) ℂ) (i : Fin m) :
    (properExternals.svd m A).s i ≤ 1 :=
  svd_le_one A _ (properExternals_svd m A) (fun x => (normSq_unitary _ hA x).le) i

/-- A case of `C82_lossy_network`: nothing is lost in the identity. -/
example (mem : StrategyMemory) (perm : CalcCfg ℂ → Py ℂ) : ∃ w', factoryStep properExternals.env (demoWorld rotationRows identityRows 5) .generate = .ok w' ∧
    (simulatorResults (strategyOf properExternals perm (ryserSubPermanents 7) 7 mem w' 0) [1, 1]).prob
      (fun r => r = .ok [[1, 1]]) = ENNReal.ofReal (lossyProb identityRows 0 [1, 1] [1, 1]) := by
  have hsq : isSquare identityRows = true := by simp [isSquare, identityRows]
  have hx : properExternals.env.expand identityRows
      = .ok (rowsOf (expandedMatrix (properExternals.svd identityRows.length (asMatrix identityRows.length identityRows)))) := by
    exact if_pos (e := .error .valueError) hsq
  obtain ⟨w', hw⟩ : ∃ w', factoryStep properExternals.env (demoWorld rotationRows identityRows 5) .generate = .ok w' := by
    cases hs : factoryStep properExternals.env (demoWorld rotationRows identityRows 5) .generate with
    | ok w' => exact ⟨w', rfl⟩
    | error e =>
      rcases (C54_generate_raises _ _ (demoWorld_reaches _ _ _ 5) e).mp hs with ⟨h, -⟩ | ⟨c, p, -, hp, ⟨-, h⟩ | ⟨h, -⟩ | ⟨h, -⟩ | ⟨h, -, -⟩⟩
      pick_goal 5
      · exact absurd h (by decide)
      · exact absurd h (by decide)
      · obtain rfl : p = ⟨identityRows, [1, 1], [1, 1]⟩ := (Option.some.inj hp).symm
        rw [hx] at h
        cases h
      · exact absurd h (by decide)
      · exact absurd h (by decide)
  refine ⟨w', hw, ?_⟩
  have hr : rowsOf (1 : Matrix (Fin 2) (Fin 2) ℂ) = identityRows := by
    rw [← identity_asMatrix]; exact rowsOf_asMatrix hsq
  refine (C82_lossy_network (demoWorld_generated hw) rfl properExternals_svd [] (by simp) identityRows rfl hsq
    (fun i => ?_) identityRows 0 ?_ [1, 1] rfl (by simp) mem perm 7 (by decide) _ rfl).2 [1, 1] rfl
  · exact unitary_svd_le identity_unitary i
  · have := unitary_isDilation (one_mem (Matrix.unitaryGroup (Fin 2) ℂ))
    rw [hr] at this
    exact this

/-- A case of `C82_fixed_loss`, with the type LOSSLESS_MODES_STRATEGY, for which there is no entry. -/
example (mem : StrategyMemory) (perm : CalcCfg ℂ → Py ℂ) (sub : CalcCfg ℂ → Py (List ℂ)) :
    ∃ w', factoryStep properExternals.env (demoWorld identityRows rotationRows 6) .generate = .ok w' ∧
    (simulatorResults (strategyOf properExternals perm sub 3 mem w' 0) [2, 1]).prob (fun r => r = .ok [[0, 1]])
      = expUniform 2 fun us => ENNReal.ofReal (multinomialProb
          (List.ofFn fun i => Complex.normSq (((asMatrix 2 identityRows).mulVec (smeared 2 3 us)) i)) 1 [0, 1]) := by
  refine ⟨_, rfl, ?_⟩
  have hg := demoWorld_generated (env := properExternals.env) (M := identityRows) (N := rotationRows) (type := 6) rfl
  exact (C82_fixed_loss hg (by change (6 : ℤ) ∉ _; decide) properExternals_svd [] rfl (asMatrix 2 identityRows) rfl
    (fun i => unitary_svd_le identity_unitary i) [2, 1] (by decide) two_pos mem perm sub 3 (show 2 < 3 by decide) _ rfl).2
    [0, 1] rfl le_rfl

/-- A case of `C82_uniform_loss`; the fields of the configuration are changed afterwards. -/
example (mem : StrategyMemory) (perm : CalcCfg ℂ → Py ℂ) (sub : CalcCfg ℂ → Py (List ℂ)) :
    ∃ w', factoryStep properExternals.env (demoWorld identityRows rotationRows 2) .generate = .ok w' ∧
    (simulatorResults (strategyOf properExternals perm sub 3 mem
        (factoryRun properExternals.env w' [.writeCfg 0 ⟨rotationRows, 2, 7, 0, none, 5⟩]) 0) [1, 1]).prob (fun r => r = .ok [[0, 1]])
      = ∑ k ∈ Icc 1 2, ENNReal.ofReal ((Nat.choose 2 k : ℝ) * (1 / 2) ^ k * (1 - 1 / 2) ^ (2 - k)) *
          expUniform 2 fun us => ENNReal.ofReal (multinomialProb
            (List.ofFn fun i => Complex.normSq (((asMatrix 2 identityRows).mulVec (smeared 2 2 us)) i)) k [0, 1]) := by
  refine ⟨_, rfl, ?_⟩
  have hg := demoWorld_generated (env := properExternals.env) (M := identityRows) (N := rotationRows) (type := 2) rfl
  exact (C82_uniform_loss hg rfl properExternals_svd [.writeCfg 0 ⟨rotationRows, 2, 7, 0, none, 5⟩] rfl
    (by norm_num) (by norm_num) (fun i => unitary_svd_le identity_unitary i) [1, 1] (by decide) two_pos mem
    perm sub 3 (show 2 < 3 by decide) _ rfl).2 [0, 1] rfl

/-- A case of `C82_uniform_bobs`. -/
example (mem : StrategyMemory) (perm : CalcCfg ℂ → Py ℂ) :
    ∃ w', factoryStep properExternals.env (demoWorld rotationRows identityRows 9) .generate = .ok w' ∧
    (simulatorResults (strategyOf properExternals perm (ryserSubPermanents 9) 9 mem w' 0) [1, 1]).prob
      (fun r => r = .ok [[1, 0]])
      = ∑ k ∈ range 2, ENNReal.ofReal (binomialWeight 1 k (1 / 2)) * expLoss (1 / 2) [1] fun q => expUniform 1 fun us =>
          (∑ σ : Equiv.Perm (Fin 2), ENNReal.ofReal (lossyProb
            (rowsOf ((asMatrix 2 identityRows).submatrix id σ * phaseMatrix 1 2 us * dftMatrix 1 2)) 0
              (q ++ [k]) [1, 0])) / (Nat.factorial 2 : ℕ) := by
  obtain ⟨w', hw⟩ : ∃ w', factoryStep properExternals.env (demoWorld rotationRows identityRows 9) .generate = .ok w' := by
    cases hs : factoryStep properExternals.env (demoWorld rotationRows identityRows 9) .generate with
    | ok w' => exact ⟨w', rfl⟩
    | error e =>
      rcases (C54_generate_raises _ _ (demoWorld_reaches _ _ _ 9) e).mp hs with ⟨h, -⟩ | ⟨c, p, hc, hp, ⟨h, -⟩ | ⟨h, -⟩ | ⟨-, h⟩ | ⟨h, -, -⟩⟩
      pick_goal 5
      · exact absurd h (by decide)
      · exact absurd h (by decide)
      · exact absurd h (by decide)
      · exact absurd h (by decide)
      · obtain rfl : p = ⟨identityRows, [1, 1], [1, 1]⟩ := (Option.some.inj hp).symm
        obtain rfl : c = ⟨rotationRows, 2, 1, 1 / 2, none, 1⟩ := (Option.some.inj hc).symm
        obtain ⟨o, ho, -⟩ := (C77_constructor 2 (1 : Matrix (Fin 2) (Fin 2) ℂ) 4 1 1 2).1 (by omega)
        change (do let _ ← generateQftInt (2 - 1) 2; pure () : Py Unit) = _ at h
        unfold uAnyInit at ho
        cases hq : generateQftInt (((2 : ℕ) : ℤ) - 1) 2 with
        | error e => rw [hq] at ho; cases ho
        | ok Q =>
          have hq' : generateQftInt (2 - 1) 2 = .ok Q := hq
          rw [hq'] at h
          cases h
  refine ⟨w', hw, ?_⟩
  exact (C82_uniform_bobs (demoWorld_generated hw) rfl (by decide) [] (by simp) 2 rfl rfl identity_unitary
    (by norm_num) (by norm_num) 1 rfl le_rfl (by decide) [1, 1] rfl (.inr (.inr (by simp))) (hashOk_encode _) mem perm 9
    (by decide) _ rfl _ fun T => rfl).2 [1, 0] rfl

theorem properExternals_losses : ∃ x, properExternals.env.losses identityRows = .ok x := by
  have hsq : isSquare identityRows = true := by simp [isSquare, identityRows]
  have hs := svd_unitary_sq (properExternals_svd 2 (asMatrix 2 identityRows)) identity_unitary
  obtain ⟨l, A, h⟩ : ∃ l A, extractLosses (properExternals.svd 2 (asMatrix 2 identityRows)) = .ok (l, some A) := by
    unfold extractLosses
    simp only [hs, sub_self, List.ofFn_succ, List.ofFn_zero, pyMinR, List.foldl_cons, List.foldl_nil, lt_self_iff_false,
      if_false, ok_bind, sub_zero, if_neg one_ne_zero]
    exact ⟨_, _, rfl⟩
  refine ⟨(l, rowsOf A), ?_⟩
  have h' : extractLosses (properExternals.svd identityRows.length (asMatrix identityRows.length identityRows))
      = .ok (l, some A) := h
  simp only [Externals.env, hsq, if_true, h', ok_bind]
  rfl

/-- A case of `C82_bobs`: with two processes a call for one sample returns two. -/
example (mem : StrategyMemory) (hmem : mem.particles = 0) (perm : CalcCfg ℂ → Py ℂ) :
    ∃ w', factoryStep properExternals.env (demoWorld rotationRows identityRows 8) .generate = .ok w' ∧
    (simulatorResults (strategyOf properExternals perm (ryserSubPermanents 9) 9 mem w' 0) [1, 1]).prob
      (fun r => r = .ok [[1, 1], [2, 0]])
      = ([[1, 1], [2, 0]].map fun T => approxLaw 1 1 1
          (fun us => rowsOf (1 * phaseMatrix 1 2 us * dftMatrix 1 2)) 0 [1, 1] T).prod := by
  obtain ⟨w', hw⟩ : ∃ w', factoryStep properExternals.env (demoWorld rotationRows identityRows 8) .generate = .ok w' := by
    cases hs : factoryStep properExternals.env (demoWorld rotationRows identityRows 8) .generate with
    | ok w' => exact ⟨w', rfl⟩
    | error e =>
      rcases (C54_generate_raises _ _ (demoWorld_reaches _ _ _ 8) e).mp hs with ⟨h, -⟩ | ⟨c, p, hc, hp, ⟨h, -⟩ | ⟨-, h⟩ | ⟨h, -⟩ | ⟨h, -, -⟩⟩
      pick_goal 5
      · exact absurd h (by decide)
      · exact absurd h (by decide)
      · exact absurd h (by decide)
      · obtain rfl : p = ⟨identityRows, [1, 1], [1, 1]⟩ := (Option.some.inj hp).symm
        obtain ⟨x, hx⟩ := properExternals_losses
        rw [hx] at h
        cases h
      · exact absurd h (by decide)
  refine ⟨w', hw, ?_⟩
  have hsq := svd_unitary_sq (properExternals_svd 2 (asMatrix 2 identityRows)) identity_unitary
  have hb : BobsSetup (asMatrix 2 identityRows) (properExternals.svd 2 (asMatrix 2 identityRows)) 2 (2 - 1) (-1) 1 0 1 1 2 := by
    refine ⟨properExternals_svd _ _, fun i => unitary_svd_le identity_unitary i, ?_, by decide, ?_, ?_, by norm_num,
      by decide, by decide⟩
    · rw [identity_asMatrix]; exact one_ne_zero
    · simp only [hsq, sub_zero]
      simp [IsGreatest, upperBounds]
    · rw [identity_asMatrix]; simp
  exact (C82_bobs (demoWorld_generated hw) rfl properExternals_svd [] 1 0 1 1 2 hb mem hmem [1, 1] rfl _ 0
    (fun us => unitary_isDilation (mul_mem (mul_mem (one_mem _) (generatePhases_eq 1 2 (by decide) us).2)
      (generateQft_eq 1 2 (by decide)).2)) perm 9 (by decide) (show 2 < 9 by decide) _ rfl).2 [[1, 1], [2, 0]] rfl (by simp)

end Verif
