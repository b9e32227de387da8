import Verif.Model.Bobs
import Verif.Model.UniformBobs

/-!
Model of `simulation_strategy_factory.py` together with the constructors and matrix setters of the
strategies, as a machine over a heap of objects.

Calculators and configurations are mutable objects shared by reference, so they live in lists and are
referred to by their index; nothing is removed. Matrices and states are values: code that changes the
elements of an array that it passed to one of these objects is not modelled. A network object is
referred to by an opaque number. `expand` stands for `prepare_interferometer_matrix_in_expanded_space`
and `losses` for the loss extraction of the BOBS constructor (modelled in `Networks.lean` and
`Bobs.lean`), `cpu` for `cpu_count()`, `r` says whether rpy2 and the R packages are installed.
-/
namespace Verif

/-- A matrix as passed to the calculators. -/
abbrev Rows := List (List ℂ)

/-- The attributes of a permanent calculator that the strategies read and write,
bs_permanent_calculator_base.py:23-36. -/
structure CalcObj where
  matrix : Rows
  input : List ℕ
  output : List ℕ

/-- The fields of `BosonSamplingExperimentConfiguration` that the factory reads,
bs_distribution_calculator_interface.py:12-27. -/
structure FactoryCfg where
  /-- `interferometer_matrix` -/
  matrix : Rows
  /-- `number_of_modes` -/
  modes : ℤ
  /-- `number_of_particles_left` -/
  left : ℤ
  /-- `uniform_transmissivity` -/
  eta : ℝ
  /-- `network_simulation_strategy` -/
  net : Option ℕ
  /-- `hierarchy_level` -/
  level : ℤ

/-- A generated strategy, with the references and values its constructor stores. -/
inductive StrategyObj where
  /-- fixed_loss_simulation_strategy.py:25-39; `net = none` is a lossy network built from the matrix -/
  | fixedLoss (matrix : Rows) (left modes : ℤ) (net : Option ℕ)
  /-- uniform_loss_simulation_strategy.py:23-31 -/
  | uniformLoss (matrix : Rows) (modes : ℤ) (eta : ℝ)
  /-- cliffords_r_simulation_strategy.py:31-35 -/
  | cliffordR (matrix : Rows)
  /-- generalized_cliffords_simulation_strategy.py:25-38 -/
  | gcc (perm : ℕ)
  /-- lossy_networks_generalized_cliffords_simulation_strategy.py:41-51 -/
  | lossyNet (perm : ℕ)
  /-- generalized_cliffords_uniform_losses_simulation_strategy.py:22-33 -/
  | uniformGcc (perm : ℕ) (eta : ℝ)
  /-- nonuniform_losses_approximation_strategy.py:72-95 -/
  | bobs (perm : ℕ) (approximated : ℕ) (losses : ℝ) (matrix : Rows) (threads : ℕ)
  /-- lossy_state_approximated_simulation_strategy.py:42-65; `inputModes` is the number of modes of the
  calculator's input state, which fixes the Fourier matrix -/
  | uBobs (perm : ℕ) (eta : ℝ) (level : ℤ) (threads : ℕ) (inputModes : ℕ)

/-- What the strategies and the factory take from their surroundings. -/
structure FactoryEnv where
  /-- `prepare_interferometer_matrix_in_expanded_space` -/
  expand : Rows → Py Rows
  /-- `_extract_losses_from_the_interferometer`: the losses and the remaining network -/
  losses : Rows → Py (ℝ × Rows)
  /-- `generate_qft_matrix_for_first_m_modes` succeeds for these sizes -/
  qft : ℤ → ℕ → Py Unit
  /-- `cpu_count()` -/
  cpu : ℕ
  /-- rpy2 and the R packages are installed -/
  r : Bool

/-- The heap, the attributes of the factory (simulation_strategy_factory.py:49-73), the strategies
generated so far, and the calculators to which the caller has references. -/
structure FactoryWorld where
  calcs : List CalcObj
  cfgs : List FactoryCfg
  /-- `_experiment_configuration` -/
  cfg : ℕ
  /-- `_strategy_type` -/
  type : ℤ
  /-- `_bs_permanent_calculator` -/
  perm : ℕ
  /-- `_available_threads_number` -/
  threads : ℤ
  strategies : List StrategyObj
  held : List ℕ

/-- `deepcopy(calculator)`: a new object with the same contents; its reference and the new heap. -/
def deepcopyCalc (calcs : List CalcObj) (a : ℕ) : Py (ℕ × List CalcObj) := do
  let c ← pyGetN calcs a
  pure (calcs.length, calcs ++ [c])

/-- `SimulationStrategyFactory.__init__`, simulation_strategy_factory.py:49-73, for a configuration and
a calculator of the caller. -/
def factoryInit (calcs : List CalcObj) (cfgs : List FactoryCfg) (cfg perm : ℕ) (type : ℤ) : Py FactoryWorld := do
  let (a, calcs) ← deepcopyCalc calcs perm
  pure { calcs := calcs, cfgs := cfgs, cfg := cfg, type := type, perm := a, threads := -1, strategies := [],
         held := (List.range (calcs.length - 1)) }

/-- `_generate_fixed_losses_strategy`, simulation_strategy_factory.py:121-132. Without a network object in
the configuration the constructor (fixed_loss_simulation_strategy.py:32-35) builds a lossy network, whose
constructor (lossy_network_simulation_strategy.py:13-14) expands the matrix. -/
def genFixedLoss (env : FactoryEnv) (w : FactoryWorld) (c : FactoryCfg) : Py (List CalcObj × StrategyObj) := do
  if c.net = none then
    let _ ← env.expand c.matrix
    pure (w.calcs, .fixedLoss c.matrix c.left c.modes none)
  else pure (w.calcs, .fixedLoss c.matrix c.left c.modes c.net)

/-- `_generate_bobs_strategy`, simulation_strategy_factory.py:209-216, with the clamping of the number
of approximated modes, nonuniform_losses_approximation_strategy.py:97-118. -/
def genBobs (env : FactoryEnv) (w : FactoryWorld) (c : FactoryCfg) : Py (List CalcObj × StrategyObj) := do
  let (a, calcs) ← deepcopyCalc w.calcs w.perm
  let copy ← pyGetN calcs a
  let (losses, matrix) ← env.losses copy.matrix
  pure (calcs, .bobs a (bobsModes copy.matrix.length (c.modes - c.level)) losses matrix
    (bobsThreadsNumber env.cpu (-1)))

/-- `_generate_uniform_losses_bobs_strategy`, simulation_strategy_factory.py:218-226: the strategy gets
the calculator of the factory itself. -/
def genUBobs (env : FactoryEnv) (w : FactoryWorld) (c : FactoryCfg) : Py (List CalcObj × StrategyObj) := do
  let own ← pyGetN w.calcs w.perm
  env.qft (own.input.length - c.level) own.input.length
  pure (w.calcs, .uBobs w.perm c.eta c.level (uBobsThreadsNumber env.cpu w.threads) own.input.length)

/-- `generate_strategy` with the methods in `_strategy_mapping`, simulation_strategy_factory.py:109-226:
the heap afterwards and the new strategy. Types: 1 FIXED_LOSS, 2 UNIFORM_LOSS, 3 CLIFFORD_R, 4 GCC,
5 LOSSY_NET_GCC, 6 LOSSLESS_MODES_STRATEGY, 7 UNIFORM_LOSSES_GCC, 8 BOBS, 9 UNIFORM_LOSSES_BOBS
(simulation_strategy_factory.py:36-45). -/
def generateStrategy (env : FactoryEnv) (w : FactoryWorld) : Py (List CalcObj × StrategyObj) := do
  let c ← pyGetN w.cfgs w.cfg
  if w.type = 1 then genFixedLoss env w c
  else if w.type = 2 then pure (w.calcs, .uniformLoss c.matrix c.modes c.eta)
  else if w.type = 3 then
    if env.r then pure (w.calcs, .cliffordR c.matrix) else .error .importError
  else if w.type = 4 then do
    let (a, calcs) ← deepcopyCalc w.calcs w.perm
    pure (calcs, .gcc a)
  else if w.type = 5 then do
    let (a, calcs) ← deepcopyCalc w.calcs w.perm
    let copy ← pyGetN calcs a
    let big ← env.expand copy.matrix
    pure (calcs.set a { copy with matrix := big }, .lossyNet a)
  else if w.type = 7 then do
    let (a, calcs) ← deepcopyCalc w.calcs w.perm
    pure (calcs, .uniformGcc a c.eta)
  else if w.type = 8 then genBobs env w c
  else if w.type = 9 then genUBobs env w c
  else genFixedLoss env w c

/-- `set_new_matrix` (generalized_cliffords_simulation_strategy.py:40-47,
lossy_networks_generalized_cliffords_simulation_strategy.py:85-88) and `set_matrix` of the R wrapper
(cliffords_r_simulation_strategy.py:37-44). The other strategies have no such method. -/
def setStrategyMatrix (env : FactoryEnv) (w : FactoryWorld) (k : ℕ) (M : Rows) : Py FactoryWorld := do
  let s ← pyGetN w.strategies k
  match s with
  | .gcc a | .uniformGcc a _ => do
    let c ← pyGetN w.calcs a
    pure { w with calcs := w.calcs.set a { c with matrix := M } }
  | .lossyNet a => do
    let big ← env.expand M
    let c ← pyGetN w.calcs a
    pure { w with calcs := w.calcs.set a { c with matrix := big } }
  | .cliffordR _ => pure { w with strategies := w.strategies.set k (.cliffordR M) }
  | _ => .error .attributeError

/-- The effect of `simulate` of a generated strategy on the heap: the samplers built on a calculator
write states into it (generalized_cliffords_simulation_strategy.py:238-239,
generalized_cliffords_b_simulation_strategy.py:79); BOBS samplers work on copies
(nonuniform_losses_approximation_strategy.py:277, lossy_state_approximated_simulation_strategy.py:301).
Which states they leave does not matter here. -/
def simulateStrategy (w : FactoryWorld) (k : ℕ) (input output : List ℕ) : Py FactoryWorld := do
  let s ← pyGetN w.strategies k
  match s with
  | .gcc a | .uniformGcc a _ | .lossyNet a => do
    let c ← pyGetN w.calcs a
    pure { w with calcs := w.calcs.set a { c with input := input, output := output } }
  | _ => pure w

/-- Actions of a program that uses a factory. -/
inductive FactoryOp where
  /-- the caller makes a calculator -/
  | newCalc (c : CalcObj)
  /-- the caller changes a calculator to which it has a reference -/
  | writeCalc (a : ℕ) (c : CalcObj)
  /-- the caller makes a configuration -/
  | newCfg (c : FactoryCfg)
  /-- the caller changes fields of a configuration -/
  | writeCfg (a : ℕ) (c : FactoryCfg)
  /-- the getter, simulation_strategy_factory.py:99-101 -/
  | getCalc
  /-- the setter, simulation_strategy_factory.py:103-107 -/
  | setCalc (a : ℕ)
  /-- simulation_strategy_factory.py:85-87 -/
  | setType (t : ℤ)
  /-- simulation_strategy_factory.py:93-97 -/
  | setCfg (a : ℕ)
  /-- simulation_strategy_factory.py:77-79 -/
  | setThreads (t : ℤ)
  | generate
  | setMatrix (k : ℕ) (M : Rows)
  | simulate (k : ℕ) (input output : List ℕ)

/-- One action. `indexError` also stands for actions the program cannot do: using a reference that it
does not have. -/
def factoryStep (env : FactoryEnv) (w : FactoryWorld) : FactoryOp → Py FactoryWorld
  | .newCalc c => pure { w with calcs := w.calcs ++ [c], held := w.calcs.length :: w.held }
  | .writeCalc a c => if a ∈ w.held then pure { w with calcs := w.calcs.set a c } else .error .indexError
  | .newCfg c => pure { w with cfgs := w.cfgs ++ [c] }
  | .writeCfg a c => pure { w with cfgs := w.cfgs.set a c }
  | .getCalc => pure { w with held := w.perm :: w.held }
  | .setCalc a => if a ∈ w.held then do
      let (b, calcs) ← deepcopyCalc w.calcs a
      pure { w with calcs := calcs, perm := b }
    else .error .indexError
  | .setType t => pure { w with type := t }
  | .setCfg a => if a < w.cfgs.length then pure { w with cfg := a } else .error .indexError
  | .setThreads t => pure { w with threads := t }
  | .generate => do
    let (calcs, s) ← generateStrategy env w
    pure { w with calcs := calcs, strategies := w.strategies ++ [s] }
  | .setMatrix k M => setStrategyMatrix env w k M
  | .simulate k input output => simulateStrategy w k input output

/-- A history of actions; an action that raises changes nothing. -/
def factoryRun (env : FactoryEnv) : FactoryWorld → List FactoryOp → FactoryWorld
  | w, [] => w
  | w, op :: ops =>
    match factoryStep env w op with
    | .ok w' => factoryRun env w' ops
    | .error _ => factoryRun env w ops

end Verif
