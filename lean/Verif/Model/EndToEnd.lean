import Verif.Model.StrategyFactory
import Verif.Model.Strategies
import Verif.Model.CliffordsR
import Verif.Model.UniformBobsLevels

/-!
From the strategy factory to the samples: what `BosonSamplingSimulator` (boson_sampling_simulator.py)
returns for a strategy generated by `SimulationStrategyFactory`. The strategies live on the heap of
`StrategyFactory.lean`; running one of them means running the program of its class on the contents its
attributes have at that moment.

Simplifications: matrices are square (others raise `ValueError`); BOBS for the zero matrix, whose
constructor works with NaNs, is not covered; the number of observed modes is not negative.
-/
namespace Verif

/-- Routines outside of the project: the singular value decomposition, the network objects to which the
configurations refer, the sampler of the R package, the hash of tuples, `cpu_count()` and whether the R
packages are installed. -/
structure Externals where
  svd : (m : ℕ) → Matrix (Fin m) (Fin m) ℂ → Svd m
  nets : ℕ → List ℂ → Py (List ℂ)
  sampler : RSampler
  hash : List ℕ → ℤ
  cpu : ℕ
  r : Bool

/-- An array with `m` rows and columns. -/
noncomputable def asMatrix (m : ℕ) (M : Rows) : Matrix (Fin m) (Fin m) ℂ := Matrix.of fun i j => (M.getD i []).getD j 0

/-- `M.shape[0] == M.shape[1]` -/
def isSquare (M : Rows) : Bool := M.all fun r => r.length = M.length

/-- What the factory takes from its surroundings:
`prepare_interferometer_matrix_in_expanded_space` (boson_sampling_utilities.py:287-342),
`_extract_losses_from_the_interferometer` (nonuniform_losses_approximation_strategy.py:120-144) and
`generate_qft_matrix_for_first_m_modes` (boson_sampling_utilities.py:505-521). -/
noncomputable def Externals.env (E : Externals) : FactoryEnv where
  expand M := if isSquare M then pure (rowsOf (expandedMatrix (E.svd M.length (asMatrix M.length M)))) else .error .valueError
  losses M := if isSquare M then do
      let (l, A) ← extractLosses (E.svd M.length (asMatrix M.length M))
      match A with
      | some A => pure (l, rowsOf A)
      | none => .error .valueError
    else .error .valueError
  qft n k := do
    let _ ← generateQftInt n k
    pure ()
  cpu := E.cpu
  r := E.r

/-- Attributes of the strategies that earlier calls of `simulate` leave behind: the tables of the
generalized Clifford strategies and the particle counter of BOBS. -/
structure StrategyMemory where
  gcc : GccObj
  gccu : GccuObj
  particles : ℕ

/-- `simulate` of a generated strategy, on the contents its calculator has at that time; `perm` is
`compute_permanent` of the calculator, `sub` the submatrix permanents of version B. -/
noncomputable def runStrategy (E : Externals) (perm : CalcCfg ℂ → Py ℂ) (sub : CalcCfg ℂ → Py (List ℂ)) (fuel : ℕ)
    (mem : StrategyMemory) : StrategyObj × Option CalcObj → Strategy
  -- fixed_loss_simulation_strategy.py:25-67
  | (.fixedLoss M left modes none, _) => fun S N =>
      fixedSimulate (lossySimulate fuel (E.svd M.length (asMatrix M.length M))) modes.toNat left S N
  | (.fixedLoss _ left modes (some a), _) => fun S N => fixedSimulate (E.nets a) modes.toNat left S N
  -- uniform_loss_simulation_strategy.py:23-70
  | (.uniformLoss M modes eta, _) => fun S N => uniformSimulate fuel (E.svd M.length (asMatrix M.length M)) modes.toNat eta S N
  -- cliffords_r_simulation_strategy.py:64-106
  | (.cliffordR M, _) => fun S N => rSimulate E.sampler M S N
  -- generalized_cliffords_simulation_strategy.py:49-73
  | (.gcc _, some c) => gccStrategy gccA perm c.matrix fuel mem.gcc
  -- lossy_networks_generalized_cliffords_simulation_strategy.py:53-83
  | (.lossyNet _, some c) => fun S N => do
      let samples ← gccbSimulate sub c.matrix fuel (S ++ S.map fun _ => 0) N
      (samples.mapM fun out => trimTo fuel S.length out : Py _)
  -- generalized_cliffords_uniform_losses_simulation_strategy.py:35-50
  | (.uniformGcc _ eta, some c) => gccuStrategy perm c.matrix fuel { mem.gccu with eta := eta }
  -- nonuniform_losses_approximation_strategy.py:210-261; the remaining network has the shape of the
  -- calculator's matrix
  | (.bobs _ k losses M threads, some c) => fun S N => do
      let r ← bobsSimulate (E.svd c.matrix.length) sub fuel
        { k := k, losses := losses, initial := some (asMatrix c.matrix.length M), weights := [], threads := threads, state := [],
          number := mem.particles } S N
      pure r.1
  -- lossy_state_approximated_simulation_strategy.py:89-130
  | (.uBobs _ eta level threads modes, some c) => fun S N => do
      let Q ← (generateQftInt (modes - level) modes : Py _)
      uAnySimulate E.hash sub fuel (⟨level, eta, threads, asMatrix c.matrix.length c.matrix, Q⟩ : UAnyObj c.matrix.length modes) S N
  | (_, none) => fun _ _ => .done (.error .attributeError)

/-- The `k`-th strategy generated so far, as it is now; the simulator (`simulatorResults`,
boson_sampling_simulator.py:18-25) calls its `simulate`. -/
noncomputable def strategyOf (E : Externals) (perm : CalcCfg ℂ → Py ℂ) (sub : CalcCfg ℂ → Py (List ℂ)) (fuel : ℕ)
    (mem : StrategyMemory) (w : FactoryWorld) (k : ℕ) : Strategy :=
  match w.strategies[k]? with
  | none => fun _ _ => .done (.error .indexError)
  | some s =>
    runStrategy E perm sub fuel mem (s, match s with
      | .gcc a | .lossyNet a | .uniformGcc a _ | .bobs a _ _ _ _ | .uBobs a _ _ _ _ => w.calcs[a]?
      | _ => none)

end Verif
