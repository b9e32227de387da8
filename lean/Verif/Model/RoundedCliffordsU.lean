import Verif.Model.Rounded
import Verif.Model.CliffordsU

/-!
`GeneralizedCliffordsUniformLossesSimulationStrategy`
(`theboss/simulation_strategies/generalized_cliffords_uniform_losses_simulation_strategy.py`) in floating-point
arithmetic, with the conventions of `Model/Rounded.lean`. Products with the factorial of a number of particles are
floats for at most 170 particles; beyond that Python raises `OverflowError`, which is not modelled.
-/
namespace Verif

variable (R : Rounding)

/-- The binomial weights, generalized_cliffords_uniform_losses_simulation_strategy.py:79-84. -/
noncomputable def gccuWeightsR (n : ℕ) (eta : ℝ) : List ℝ :=
  (List.range (n + 1)).map fun left =>
    R.rnd (R.rnd (R.rnd (eta ^ left) * R.rnd (n.choose left)) * R.rnd (R.rnd (1 - eta) ^ (n - left)))

/-- `_initialize_simulation`, generalized_cliffords_uniform_losses_simulation_strategy.py:52-85. -/
noncomputable def gccuInitializeR (fuel : ℕ) (o : GccuObj) (S : List ℕ) : Py GccuObj := do
  let initializer : ℝ := if o.missing then -1 else 0
  let outputs ← generatePossibleStates fuel (S.sum : Int) (S.length : Int) true
  let binw := gccuWeightsR R S.sum o.eta
  let w0 ← pyGetN binw 0
  let dist ← pySetN (outputs.map fun _ => initializer) 0 w0
  pure { o with
    base := { o.base with input := S, labeled := labeledStates S, pmfs := [] }
    outputs := outputs
    dist := dist
    udist := outputs.map fun _ => initializer
    binw := binw }

/-- The value recorded for an output, generalized_cliffords_uniform_losses_simulation_strategy.py:166-169; `p` is
`pmf[-1]`. -/
noncomputable def recordValueR (output : List ℕ) (p : ℝ) : ℝ :=
  output.foldl (fun (x : ℝ) val => R.rnd (x / R.rnd val.factorial)) (R.rnd (p * R.rnd output.sum.factorial))

/-- The inner loop over `_possible_outputs`,
generalized_cliffords_uniform_losses_simulation_strategy.py:164-171, acting on the pair of
distributions; `p` is `pmf[-1]`. -/
noncomputable def recordEntryR (outputs : List (List ℕ)) (binw : List ℝ) (output : List ℕ) (p : ℝ)
    (d : List ℝ × List ℝ) : Py (List ℝ × List ℝ) :=
  (List.range outputs.length).foldlM
    (fun d i => do
      let t ← pyGetN outputs i
      if output = t then
        let udist ← pySetN d.2 i (recordValueR R output p)
        let w ← pyGetN binw output.sum
        let dist ← pySetN d.1 i (R.rnd (recordValueR R output p * w))
        pure (dist, udist)
      else pure d) d

/-- `_calculate_new_layer_of_pmfs`,
generalized_cliffords_uniform_losses_simulation_strategy.py:140-173; `sq` gives `abs(compute_permanent()) ** 2`. -/
noncomputable def gccuNewLayerR (sq : CalcCfg ℂ → Py ℝ) (U : List (List ℂ)) (o : GccuObj) : Py GccuObj := do
  let inputs := (assocGet o.base.labeled (o.base.r.sum + 1)).getD []
  let weights ← layerWeightsR R o.base.input inputs
  let outs := gccA.next o.base.input o.base.r
  let res ← outs.foldlM
    (fun (acc : List ℝ × (List ℝ × List ℝ)) out => do
      let p ← pmfEntryR R sq U inputs weights out
      let d ← recordEntryR R o.outputs o.binw out p acc.2
      pure (acc.1 ++ [p], d)) (([] : List ℝ), (o.dist, o.udist))
  pure { o with
    base := { o.base with
      outs := assocSet o.base.outs o.base.key outs, pmfs := assocSet o.base.pmfs o.base.key res.1 }
    dist := res.2.1
    udist := res.2.2 }

/-- The loop over the photons in `_fill_r_sample`,
generalized_cliffords_uniform_losses_simulation_strategy.py:133-138. -/
noncomputable def gccuPhotonsR (sq : CalcCfg ℂ → Py ℝ) (U : List (List ℂ)) : ℕ → GccuObj → Prog GccuObj
  | 0, o => pure o
  | n + 1, o => do
    let u ← randomR
    if u ≥ o.eta then gccuPhotonsR sq U n o
    else do
      let o ← ((if assocGet o.base.pmfs o.base.key = none then gccuNewLayerR R sq U o else pure o : Py _) : Py _)
      let b ← sampleFromLatestPmfR R o.base
      gccuPhotonsR sq U n { o with base := b }

/-- `_fill_r_sample`, generalized_cliffords_uniform_losses_simulation_strategy.py:125-138. -/
noncomputable def gccuFillR (sq : CalcCfg ℂ → Py ℝ) (U : List (List ℂ)) (o : GccuObj) : Prog GccuObj :=
  gccuPhotonsR R sq U o.base.input.sum
    { o with base := { o.base with r := U.map fun _ => 0, key := U.map fun _ => 0 } }

/-- The loop of `simulate`, generalized_cliffords_uniform_losses_simulation_strategy.py:45-50. -/
noncomputable def gccuLoopR (sq : CalcCfg ℂ → Py ℝ) (U : List (List ℂ)) :
    ℕ → GccuObj → Prog (List (List ℕ) × GccuObj)
  | 0, o => pure ([], o)
  | n + 1, o => do
    let o ← gccuFillR R sq U o
    let (samples, o') ← gccuLoopR sq U n o
    pure (o.base.r :: samples, o')

/-- `simulate`, generalized_cliffords_uniform_losses_simulation_strategy.py:35-50. -/
noncomputable def gccuSimulateR (sq : CalcCfg ℂ → Py ℝ) (U : List (List ℂ)) (fuel : ℕ) (o : GccuObj)
    (S : List ℕ) (N : ℤ) : Prog (List (List ℕ) × GccuObj) := do
  let o ← (gccuInitializeR R fuel o S : Py _)
  gccuLoopR R sq U N.toNat o

/-- `sum(l)` starts from the integer 0. `isclose(max(accuracy - sum(l), 0), 0)`,
generalized_cliffords_uniform_losses_simulation_strategy.py:100. -/
noncomputable def accurateR (accuracy total : ℝ) : Prop := IsCloseToZero (max (R.rnd (accuracy - total)) 0)

open Classical in
/-- `compute_distribution_up_to_accuracy`,
generalized_cliffords_uniform_losses_simulation_strategy.py:87-103. -/
noncomputable def gccuDistributionR (sq : CalcCfg ℂ → Py ℝ) (U : List (List ℂ)) (fuel : ℕ) (o : GccuObj)
    (S : List ℕ) (accuracy : ℝ) : Prog (List ℝ × GccuObj) := do
  let o ← (gccuInitializeR R fuel o S : Py _)
  let o ← Prog.loop fuel (fun o => decide (¬ accurateR R accuracy (sumR R o.dist))) (gccuFillR R sq U) o
  pure (o.dist, o)

open Classical in
/-- `compute_unweighted_distribution_up_to_accuracy`,
generalized_cliffords_uniform_losses_simulation_strategy.py:105-123.  An input without particles is
treated as in `gccuUnweighted`. -/
noncomputable def gccuUnweightedR (sq : CalcCfg ℂ → Py ℝ) (U : List (List ℂ)) (fuel : ℕ) (o : GccuObj)
    (S : List ℕ) (accuracy : ℝ) : Prog (List ℝ × GccuObj) := do
  let o ← (gccuInitializeR R fuel o S : Py _)
  let _ ← ((if S.sum = 0 then .error .zeroDivisionError else pure () : Py Unit) : Py _)
  let o ← Prog.loop fuel
    (fun o => decide (¬ accurateR R accuracy (R.rnd (sumR R o.udist / (S.sum : ℝ))))) (gccuFillR R sq U) o
  pure (o.udist, o)

end Verif
