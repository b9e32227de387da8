import Verif.Spec.Floats
import Verif.Model.Cliffords
import Verif.Model.CliffordsB
import Verif.Model.FixedLoss
import Verif.Model.Bobs

/-!
The code that turns values of `random()` into particles, and the whole generalized Clifford & Clifford
sampler, in floating-point arithmetic: every `+`, `-`, `*`, `/` of floats, every conversion of an
integer to a float, `pow` and `scipy.special.binom` return the exact result rounded to a nearest float
(for `pow` and `binom` this is an assumption on libm and scipy). `random()` returns `k / 2 ^ 53` with `k` uniform
below `2 ^ 53`. The built-in `sum` adds from left to right, as in the Python versions of `tox.ini` (and
in later versions for lists of `numpy.float64`).

The values `abs(compute_permanent()) ** 2` of the permanent calculator are given by a function.
-/
namespace Verif

variable (R : Rounding)

/-- `sum(l)` for a list of floats. -/
noncomputable def sumR (l : List ℝ) : ℝ := l.foldl (fun acc x => R.rnd (acc + x)) 0

/-- `random()`. -/
noncomputable def randomR : Prog ℝ := do
  let k ← Prog.randBelow (2 ^ 53)
  pure ((k : ℝ) / 2 ^ 53)

/-- The loops `for …: total += p; if total > x: break`,
generalized_cliffords_simulation_strategy.py:257-262,
generalized_cliffords_b_uniform_losses_simulation_strategy.py:77-85,
nonuniform_losses_approximation_strategy.py:59-62. -/
noncomputable def scanIndexR (x : ℝ) : List ℝ → ℝ → ℕ
  | [], _ => 0
  | p :: ps, cur => if R.rnd (cur + p) > x then 0 else scanIndexR x ps (R.rnd (cur + p)) + 1

/-- The index drawn by `_sample_from_latest_pmf` when `random()` returns `u`,
generalized_cliffords_simulation_strategy.py:253-262. -/
noncomputable def gccSelect (u : ℝ) (pmf : List ℝ) : ℕ := scanIndexR R (R.rnd (u * sumR R pmf)) pmf 0

/-! ### Uniform losses, version B -/

/-- `_compute_particle_numbers_probabilities`,
generalized_cliffords_b_uniform_losses_simulation_strategy.py:50-65. -/
noncomputable def gccbWeightsR (n : ℕ) (eta : ℝ) : List ℝ :=
  (List.range (n + 1)).map fun l =>
    R.rnd (R.rnd (R.rnd (n.choose l) * R.rnd (eta ^ l)) * R.rnd (R.rnd (1 - eta) ^ (n - l)))

/-- `_get_number_of_particles_left`,
generalized_cliffords_b_uniform_losses_simulation_strategy.py:67-85. -/
noncomputable def gccbParticlesLeftR (weights : List ℝ) : Prog ℕ := do
  let threshold ← randomR
  pure (scanIndexR R threshold weights 0)

/-- The loop of `simulate`, generalized_cliffords_b_uniform_losses_simulation_strategy.py:103-108. Only
the number of particles is computed in floating-point arithmetic. -/
noncomputable def gccbLossyLoopR (sub : CalcCfg ℂ → Py (List ℂ)) (U : List (List ℂ)) (fuel : ℕ)
    (S particles : List ℕ) (weights : List ℝ) : ℕ → Prog (List (List ℕ))
  | 0 => pure []
  | n + 1 => do
    let left ← gccbParticlesLeftR R weights
    let s ← gccbFill sub U fuel S particles left
    let samples ← gccbLossyLoopR sub U fuel S particles weights n
    pure (s.r :: samples)

/-- `simulate`, generalized_cliffords_b_uniform_losses_simulation_strategy.py:87-109. -/
noncomputable def gccbLossySimulateR (sub : CalcCfg ℂ → Py (List ℂ)) (U : List (List ℂ)) (fuel : ℕ)
    (eta : ℝ) (S : List ℕ) (N : ℤ) : Prog (List (List ℕ)) := do
  let particles ← (modeOccupationToModeAssignment S : Py _)
  gccbLossyLoopR R sub U fuel S particles (gccbWeightsR R S.sum eta) N.toNat

/-! ### Losses of the approximate samplers -/

/-- One list of `_compute_binomial_weights`, nonuniform_losses_approximation_strategy.py:163-188. -/
noncomputable def bobsWeightsR (losses : ℝ) (n : ℕ) : List ℝ :=
  let eta := R.rnd (1 - losses)
  (List.range (n + 1)).map fun l =>
    R.rnd (R.rnd (R.rnd (eta ^ l) * R.rnd (n.choose l)) * R.rnd (R.rnd (1 - eta) ^ (n - l)))

/-- `choice`, nonuniform_losses_approximation_strategy.py:32-62, for as many weights as values; `none` is
Python's `None`. -/
noncomputable def bobsChoiceR (values : List ℕ) (weights : List ℝ) : Prog (Option ℕ) := do
  let u ← randomR
  pure values[scanIndexR R u weights 0]?

/-- The loop `while x > prob` after `prob = probabilities[0]`, fixed_loss_simulation_strategy.py:136-141:
the number of further indices passed. -/
noncomputable def scanReachR (x : ℝ) : List ℝ → ℝ → ℕ
  | [], prob => if x > prob then 1 else 0
  | p :: ps, prob => if x > prob then scanReachR x ps (R.rnd (prob + p)) + 1 else 0

/-- The loop over the photons in `_calculate_approximation_of_boson_sampling_outcome`,
fixed_loss_simulation_strategy.py:132-143. -/
noncomputable def fixedPhotonsR (probs : List ℝ) : ℕ → List ℕ → Prog (List ℕ)
  | 0, output => pure output
  | k + 1, output => do
    let x ← randomR
    let i ← (match probs with
      | [] => .error .indexError
      | p :: ps => .ok (scanReachR R x ps p) : Py ℕ)
    if probs.length ≠ i then do
      let v ← (pyGetN output i : Py _)
      let output ← (pySetN output i (v + 1) : Py _)
      fixedPhotonsR probs k output
    else fixedPhotonsR probs k output

/-! ### The generalized Clifford & Clifford sampler -/

/-- `_calculate_weights`, generalized_cliffords_simulation_strategy.py:185-205. The quotient of two
integers is rounded once. -/
noncomputable def calculateWeightR (S k : List ℕ) : Py ℝ := do
  let l := k.sum
  let n := S.sum
  if n < l then .error .valueError else
  (List.range S.length).foldlM
    (fun (w : ℝ) m => do
      let s ← pyGetN S m
      let j ← pyGetN k m
      pure (R.rnd (w * R.rnd (s.choose j))))
    (R.rnd ((l.factorial : ℝ) * ((n - l).factorial : ℝ) / (n.factorial : ℝ)))

/-- `_calculate_outputs_probability`, generalized_cliffords_simulation_strategy.py:224-247; `sq` gives
`abs(compute_permanent()) ** 2`. -/
noncomputable def outputsProbabilityR (sq : CalcCfg ℂ → Py ℝ) (U : List (List ℂ)) (input output : List ℕ) : Py ℝ := do
  let x ← sq ⟨U, input, output⟩
  let p := input.foldl (fun (p : ℝ) o => R.rnd (p / R.rnd o.factorial)) x
  pure (R.rnd (p / R.rnd input.sum.factorial))

/-- The weights of `_calculate_new_layer_of_pmfs`,
generalized_cliffords_simulation_strategy.py:146-155 and 173-183. -/
noncomputable def layerWeightsR (S : List ℕ) (inputs : List (List ℕ)) : Py (List ℝ) := do
  let ks ← inputs.mapM fun st => (List.range st.length).mapM fun i => do
    let s ← pyGetN S i
    let x ← pyGetN st i
    natSub s x
  let weights ← ks.mapM (calculateWeightR R S)
  if weights = [] then .error .typeError else
  weights.mapM fun w => if sumR R weights = 0 then .error .zeroDivisionError else .ok (R.rnd (w / sumR R weights))

/-- One entry of the pmf, generalized_cliffords_simulation_strategy.py:163-169. -/
noncomputable def pmfEntryR (sq : CalcCfg ℂ → Py ℝ) (U : List (List ℂ)) (inputs : List (List ℕ)) (weights : List ℝ)
    (output : List ℕ) : Py ℝ :=
  (List.range inputs.length).foldlM
    (fun (acc : ℝ) i => do
      let st ← pyGetN inputs i
      let p ← outputsProbabilityR R sq U st output
      let w ← pyGetN weights i
      pure (R.rnd (acc + R.rnd (p * w)))) 0

/-- The pmf computed in `_calculate_new_layer_of_pmfs` for the input state `S` and the current sample `r`,
generalized_cliffords_simulation_strategy.py:138-171 and
mode_assignment_generalized_cliffords_simulation_strategy.py:70-97. -/
noncomputable def layerPmfR (v : GccVariant) (sq : CalcCfg ℂ → Py ℝ) (U : List (List ℂ)) (S : List ℕ)
    (labeled : List (ℕ × List (List ℕ))) (r : List ℕ) : Py (List ℝ) := do
  let inputs := (assocGet labeled (v.count r + 1)).getD []
  let weights ← layerWeightsR R S inputs
  (v.next S r).mapM fun out => do
    let occ ← v.occ S out
    pmfEntryR R sq U inputs weights occ

/-- `_calculate_new_layer_of_pmfs`, generalized_cliffords_simulation_strategy.py:136-171 and
mode_assignment_generalized_cliffords_simulation_strategy.py:68-97. -/
noncomputable def newLayerR (v : GccVariant) (sq : CalcCfg ℂ → Py ℝ) (U : List (List ℂ)) (o : GccObj) : Py GccObj := do
  let pmf ← layerPmfR R v sq U o.input o.labeled o.r
  pure { o with outs := assocSet o.outs o.key (v.next o.input o.r), pmfs := assocSet o.pmfs o.key pmf }

/-- `_sample_from_latest_pmf`, generalized_cliffords_simulation_strategy.py:249-266. -/
noncomputable def sampleFromLatestPmfR (o : GccObj) : Prog GccObj := do
  let pmf ← (assocGetPy o.pmfs o.key : Py _)
  let u ← randomR
  let i := gccSelect R u pmf
  let _ ← (pyGetN pmf i : Py _)
  let outs ← (assocGetPy o.outs o.key : Py _)
  let r ← (pyGetN outs i : Py _)
  pure { o with r := r, key := r }

/-- The loop body of `_fill_r_sample`, generalized_cliffords_simulation_strategy.py:132-134. -/
noncomputable def fillStepR (v : GccVariant) (sq : CalcCfg ℂ → Py ℝ) (U : List (List ℂ)) (o : GccObj) : Prog GccObj := do
  let o ← ((if assocGet o.pmfs o.key = none then newLayerR R v sq U o else pure o : Py _) : Py _)
  sampleFromLatestPmfR R o

/-- `_fill_r_sample`, generalized_cliffords_simulation_strategy.py:123-134 and
mode_assignment_generalized_cliffords_simulation_strategy.py:55-66. -/
noncomputable def fillRSampleR (v : GccVariant) (sq : CalcCfg ℂ → Py ℝ) (U : List (List ℂ)) (fuel : ℕ) (o : GccObj) :
    Prog GccObj :=
  Prog.loop fuel (fun o => decide (v.count o.r < o.input.sum)) (fillStepR R v sq U)
    { o with r := v.start o.input, key := v.start o.input }

/-- The loop of `simulate`, generalized_cliffords_simulation_strategy.py:70-72. -/
noncomputable def simulateLoopR (v : GccVariant) (sq : CalcCfg ℂ → Py ℝ) (U : List (List ℂ)) (fuel : ℕ) :
    ℕ → GccObj → Prog (List (List ℕ) × GccObj)
  | 0, o => pure ([], o)
  | n + 1, o => do
    let o ← fillRSampleR R v sq U fuel o
    let sample ← (v.occ o.input o.r : Py _)
    let (samples, o) ← simulateLoopR v sq U fuel n o
    pure (sample :: samples, o)

/-- `simulate`, generalized_cliffords_simulation_strategy.py:49-73 and
mode_assignment_generalized_cliffords_simulation_strategy.py:27-53. -/
noncomputable def gccSimulateR (v : GccVariant) (sq : CalcCfg ℂ → Py ℝ) (U : List (List ℂ)) (fuel : ℕ) (o : GccObj)
    (S : List ℕ) (N : ℤ) : Prog (List (List ℕ) × GccObj) :=
  simulateLoopR R v sq U fuel N.toNat { o with input := S, labeled := labeledStates S, pmfs := [] }

end Verif
