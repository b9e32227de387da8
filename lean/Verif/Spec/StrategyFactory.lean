import Verif.Model.StrategyFactory

/-! What a caller can observe of a factory and of the strategies it generated. -/
namespace Verif

/-- The calculator object a strategy uses. -/
def StrategyObj.uses : StrategyObj → Option ℕ
  | .gcc a | .lossyNet a | .uniformGcc a _ | .bobs a _ _ _ _ | .uBobs a _ _ _ _ => some a
  | _ => none

/-- A generated strategy with the present contents of its calculator. -/
def FactoryWorld.view (w : FactoryWorld) (k : ℕ) : Option (StrategyObj × Option CalcObj) :=
  w.strategies[k]?.map fun s => (s, s.uses.bind fun a => w.calcs[a]?)

/-- The present contents of the factory's calculator. -/
def FactoryWorld.own (w : FactoryWorld) : Option CalcObj := w.calcs[w.perm]?

/-- The present configuration of the factory. -/
def FactoryWorld.config (w : FactoryWorld) : Option FactoryCfg := w.cfgs[w.cfg]?

/-- The type set last. -/
def lastType (t : ℤ) (ops : List FactoryOp) : ℤ :=
  ops.foldl (fun t op => match op with | .setType t' => t' | _ => t) t

/-- The number of threads set last. -/
def lastThreads (t : ℤ) (ops : List FactoryOp) : ℤ :=
  ops.foldl (fun t op => match op with | .setThreads t' => t' | _ => t) t

/-- `s` is a strategy of type `type` for the configuration `c`, and `content` are the contents of its
calculator, if it has one, made from a calculator with contents `p`. -/
inductive BuiltFrom (env : FactoryEnv) (c : FactoryCfg) (p : CalcObj) (threads : ℤ) :
    ℤ → StrategyObj → Option CalcObj → Prop
  | uniformLoss : BuiltFrom env c p threads 2 (.uniformLoss c.matrix c.modes c.eta) none
  | cliffordR : env.r = true → BuiltFrom env c p threads 3 (.cliffordR c.matrix) none
  | gcc (a) : BuiltFrom env c p threads 4 (.gcc a) (some p)
  | lossyNet (a M) : env.expand p.matrix = .ok M →
      BuiltFrom env c p threads 5 (.lossyNet a) (some { p with matrix := M })
  | uniformGcc (a) : BuiltFrom env c p threads 7 (.uniformGcc a c.eta) (some p)
  | bobs (a k : ℕ) (l M) : env.losses p.matrix = .ok (l, M) →
      ((k : ℤ) = max 0 (min (c.modes - c.level) p.matrix.length)) →
      BuiltFrom env c p threads 8 (.bobs a k l M env.cpu) (some p)
  | uBobs (a t : ℕ) : env.qft (p.input.length - c.level) p.input.length = .ok () →
      (1 ≤ threads ∧ threads ≤ env.cpu → (t : ℤ) = threads) →
      (threads < 1 ∨ env.cpu < threads → t = env.cpu) →
      BuiltFrom env c p threads 9 (.uBobs a c.eta c.level t p.input.length) (some p)
  | fixedLoss (type) : type ∉ ([2, 3, 4, 5, 7, 8, 9] : List ℤ) →
      (c.net = none → ∃ M, env.expand c.matrix = .ok M) →
      BuiltFrom env c p threads type (.fixedLoss c.matrix c.left c.modes c.net) none

/-- The states that can be reached by constructing a factory and any history of actions. -/
def Reaches (env : FactoryEnv) (w : FactoryWorld) : Prop :=
  ∃ calcs cfgs cfg perm type w₀ ops, cfg < cfgs.length ∧ factoryInit calcs cfgs cfg perm type = .ok w₀ ∧
    w = factoryRun env w₀ ops

end Verif
