import Verif.Model.CliffordsB
import Verif.Model.CliffordsU
import Verif.Model.FixedLoss
import Verif.Model.QuantumUtilities

/-!
Model of `nonuniform_losses_approximation_strategy.py`.

`svd` is an external routine and a parameter. The worker processes of the pool get copies of the
object and draw independently: they are modelled by running the tasks one after the other. The
construction of the helper strategy (a decomposition whose result is replaced before it is used) is
left out. Arithmetic is exact.
-/
namespace Verif

/-- `choice`, nonuniform_losses_approximation_strategy.py:32-62. When the weights do not exceed the
random number the function returns `None`, on which its caller's arithmetic fails: reported as
`typeError`. -/
noncomputable def bobsChoice (values : List ℕ) (weights : List ℝ) : Prog ℕ :=
  if values.length ≠ weights.length then do
    let i ← Prog.randBelow values.length
    (pyGetN values i : Py _)
  else do
    let u ← Prog.random
    match values[scanIndex u weights 0]? with
    | some v => pure v
    | none => .done (.error .typeError)

/-- Attributes of the object. -/
structure BobsObj (m : ℕ) where
  /-- `_approximated_modes_number` -/
  k : ℕ
  /-- `_uniform_losses` -/
  losses : ℝ
  /-- `_initial_matrix`; `none` for an array of NaNs -/
  initial : Option (Matrix (Fin m) (Fin m) ℂ)
  /-- `_binomial_weights` -/
  weights : List (ℕ × List ℝ)
  /-- `_threads_number` -/
  threads : ℕ
  /-- `_state_without_approximated_modes` -/
  state : List ℕ
  /-- `_approximated_modes_particles_number` -/
  number : ℕ

/-- `_get_proper_approximated_modes_number`, nonuniform_losses_approximation_strategy.py:96-118. -/
def bobsModes (m : ℕ) (k : ℤ) : ℕ :=
  let k := if k > m then (m : ℤ) else k
  let k := if k < 0 then 0 else k
  k.toNat

/-- `_get_proper_threads_number`, nonuniform_losses_approximation_strategy.py:192-208. -/
def bobsThreadsNumber (cpu : ℕ) (t : ℤ) : ℕ := if t < 1 ∨ t > cpu then cpu else t.toNat

/-- `__init__`, nonuniform_losses_approximation_strategy.py:72-94; `d` is the decomposition of the
matrix of the permanent calculator, `cpu` the value of `cpu_count()`. -/
noncomputable def bobsInit {m : ℕ} (d : Svd m) (cpu : ℕ) (k threads : ℤ) : Py (BobsObj m) := do
  let (l, A) ← extractLosses d
  pure { k := bobsModes m k, losses := l, initial := A, weights := [],
         threads := bobsThreadsNumber cpu threads, state := [], number := 0 }

/-- `binomial_weight`, nonuniform_losses_approximation_strategy.py:168-182. -/
noncomputable def bobsWeight (eta : ℝ) (total left : ℕ) : ℝ :=
  eta ^ left * (total.choose left : ℝ) * (1 - eta) ^ (total - left)

/-- `_compute_binomial_weights`, nonuniform_losses_approximation_strategy.py:146-190. -/
noncomputable def bobsWeights (losses : ℝ) (maxParticles : ℕ) : List (ℕ × List ℝ) :=
  (List.range maxParticles).map fun j =>
    (j + 1, (List.range (j + 1 + 1)).map fun left => bobsWeight (1 - losses) (j + 1) left)

/-- Python's `max` of a list of non-negative integers. -/
def pyMaxN : List ℕ → Py ℕ
  | [] => .error .valueError
  | x :: xs => .ok (xs.foldl max x)

/-- The preparations of `simulate`, nonuniform_losses_approximation_strategy.py:229-241. -/
noncomputable def bobsPrepare {m : ℕ} (o : BobsObj m) (S : List ℕ) : Py (BobsObj m) := do
  let o := { o with state := S }
  let o ← (List.range o.k).foldlM
    (fun (o : BobsObj m) i => do
      let x ← pyGetN S i
      let st ← pySetN o.state i 0
      pure { o with number := o.number + x, state := st }) o
  let mx ← pyMaxN S
  pure { o with weights := bobsWeights o.losses (max mx o.number) }

open Classical in
/-- The loop over the modes in `_compute_lossy_input`,
nonuniform_losses_approximation_strategy.py:316-328. -/
noncomputable def bobsLossyModes (weights : List (ℕ × List ℝ)) : List ℕ → Prog (List ℕ)
  | [] => pure []
  | 0 :: s => do
    let rest ← bobsLossyModes weights s
    pure (0 :: rest)
  | (a + 1) :: s => do
    let w ← (assocGetPy weights (a + 1) : Py _)
    let x ← bobsChoice (List.range (a + 1 + 1)) w
    let rest ← bobsLossyModes weights s
    pure (x :: rest)

open Classical in
/-- `_compute_lossy_input`, nonuniform_losses_approximation_strategy.py:298-329. -/
noncomputable def bobsLossyInput (losses : ℝ) (weights : List (ℕ × List ℝ)) (s : List ℕ) : Prog (List ℕ) :=
  if IsCloseToZero losses then pure s else bobsLossyModes weights s

/-- `_get_matrix_for_approximate_sampling`, nonuniform_losses_approximation_strategy.py:331-347. The
decomposition of an array of NaNs, attempted by the caller, fails: reported as `valueError`. -/
noncomputable def bobsMatrix {m : ℕ} (o : BobsObj m) : Prog (Matrix (Fin m) (Fin m) ℂ) := do
  let Q ← (generateQft o.k m : Py _)
  let us ← randVec o.k
  let P ← (generatePhases o.k m (fun i => us.getD i 0) : Py _)
  match o.initial with
  | some A => pure (A * P * Q)
  | none => .done (.error .valueError)

/-- The loop body of `_simulate_in_parallel`, nonuniform_losses_approximation_strategy.py:281-294. -/
noncomputable def bobsSample {m : ℕ} (svd : Matrix (Fin m) (Fin m) ℂ → Svd m) (sub : CalcCfg ℂ → Py (List ℂ))
    (fuel : ℕ) (o : BobsObj m) : Prog (List ℕ) := do
  let st ← (if o.k > 0 then do
      let i ← Prog.randBelow o.k
      (pySetN o.state i o.number : Py _)
    else pure o.state : Prog (List ℕ))
  let lossy ← bobsLossyInput o.losses o.weights st
  let B ← bobsMatrix o
  let res ← lossyNetSimulate sub (svd B) fuel lossy 1
  (pyGetN res 0 : Py _)

/-- `_simulate_in_parallel`, nonuniform_losses_approximation_strategy.py:263-296. -/
noncomputable def bobsTask {m : ℕ} (svd : Matrix (Fin m) (Fin m) ℂ → Svd m) (sub : CalcCfg ℂ → Py (List ℂ))
    (fuel : ℕ) (o : BobsObj m) : ℕ → Prog (List (List ℕ))
  | 0 => pure []
  | n + 1 => do
    let s ← bobsSample svd sub fuel o
    let l ← bobsTask svd sub fuel o n
    pure (s :: l)

/-- `p.map(…)` and the concatenation, nonuniform_losses_approximation_strategy.py:256-259. -/
noncomputable def bobsPool {m : ℕ} (svd : Matrix (Fin m) (Fin m) ℂ → Svd m) (sub : CalcCfg ℂ → Py (List ℂ))
    (fuel : ℕ) (o : BobsObj m) : List ℕ → Prog (List (List ℕ))
  | [] => pure []
  | n :: ns => do
    let l ← bobsTask svd sub fuel o n
    let ls ← bobsPool svd sub fuel o ns
    pure (l ++ ls)

/-- `samples_for_threads`, nonuniform_losses_approximation_strategy.py:243-250. -/
def bobsSplit (threads N : ℕ) : List ℕ :=
  let perThread := (N + threads - N % threads) / threads
  List.replicate threads perThread

/-- `simulate`, nonuniform_losses_approximation_strategy.py:210-261: the samples and the object
afterwards. -/
noncomputable def bobsSimulate {m : ℕ} (svd : Matrix (Fin m) (Fin m) ℂ → Svd m) (sub : CalcCfg ℂ → Py (List ℂ))
    (fuel : ℕ) (o : BobsObj m) (S : List ℕ) (N : ℤ) : Prog (List (List ℕ) × BobsObj m) :=
  if N < 1 then pure ([], o)
  else do
    let o ← (bobsPrepare o S : Py _)
    let samples ← bobsPool svd sub fuel o (bobsSplit o.threads N.toNat)
    pure (samples, o)

end Verif
