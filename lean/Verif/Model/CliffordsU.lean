import Verif.Model.Cliffords

/-!
Model of `GeneralizedCliffordsUniformLossesSimulationStrategy`
(`theboss/simulation_strategies/generalized_cliffords_uniform_losses_simulation_strategy.py`), the
subclass of the generalized Clifford & Clifford sampler with uniform losses.
-/
namespace Verif

/-- The attributes, generalized_cliffords_uniform_losses_simulation_strategy.py:27-33; `base` are
the inherited ones, `outputs` is `_possible_outputs`, `udist` is `unweighted_distribution`. -/
structure GccuObj where
  base : GccObj
  eta : ℝ
  missing : Bool
  outputs : List (List ℕ)
  dist : List ℝ
  udist : List ℝ
  binw : List ℝ

/-- The object after `__init__`, generalized_cliffords_uniform_losses_simulation_strategy.py:22-33;
`missing` is the public attribute `missing_values_in_distribution`. -/
def gccuInit (eta : ℝ) (missing : Bool) : GccuObj :=
  { base := gccInit, eta := eta, missing := missing, outputs := [], dist := [], udist := [], binw := [] }

/-- The binomial weights, generalized_cliffords_uniform_losses_simulation_strategy.py:79-84. -/
noncomputable def gccuWeights (n : ℕ) (eta : ℝ) : List ℝ :=
  (List.range (n + 1)).map fun left => eta ^ left * (n.choose left : ℝ) * (1 - eta) ^ (n - left)

/-- `_initialize_simulation`, generalized_cliffords_uniform_losses_simulation_strategy.py:52-85. -/
noncomputable def gccuInitialize (fuel : ℕ) (o : GccuObj) (S : List ℕ) : Py GccuObj := do
  let initializer : ℝ := if o.missing then -1 else 0
  let outputs ← generatePossibleStates fuel (S.sum : Int) (S.length : Int) true
  let binw := gccuWeights S.sum o.eta
  let w0 ← pyGetN binw 0
  let dist ← pySetN (outputs.map fun _ => initializer) 0 w0
  pure { o with
    base := { o.base with input := S, labeled := labeledStates S, pmfs := [] }
    outputs := outputs
    dist := dist
    udist := outputs.map fun _ => initializer
    binw := binw }

/-- The inner loop over `_possible_outputs`,
generalized_cliffords_uniform_losses_simulation_strategy.py:164-171, acting on the pair of
distributions; `p` is `pmf[-1]`. -/
noncomputable def recordEntry (outputs : List (List ℕ)) (binw : List ℝ) (output : List ℕ) (p : ℝ)
    (d : List ℝ × List ℝ) : Py (List ℝ × List ℝ) :=
  (List.range outputs.length).foldlM
    (fun d i => do
      let t ← pyGetN outputs i
      if output = t then
        let x := output.foldl (fun (x : ℝ) val => x / (val.factorial : ℝ)) (p * (output.sum.factorial : ℝ))
        let udist ← pySetN d.2 i x
        let w ← pyGetN binw output.sum
        let dist ← pySetN d.1 i (x * w)
        pure (dist, udist)
      else pure d) d

/-- `_calculate_new_layer_of_pmfs`,
generalized_cliffords_uniform_losses_simulation_strategy.py:140-173. -/
noncomputable def gccuNewLayer (perm : CalcCfg ℂ → Py ℂ) (U : List (List ℂ)) (o : GccuObj) : Py GccuObj := do
  let inputs := (assocGet o.base.labeled (o.base.r.sum + 1)).getD []
  let weights ← layerWeights o.base.input inputs
  let outs := gccA.next o.base.input o.base.r
  let res ← outs.foldlM
    (fun (acc : List ℝ × (List ℝ × List ℝ)) out => do
      let p ← pmfEntry perm U inputs weights out
      let d ← recordEntry o.outputs o.binw out p acc.2
      pure (acc.1 ++ [p], d)) (([] : List ℝ), (o.dist, o.udist))
  pure { o with
    base := { o.base with
      outs := assocSet o.base.outs o.base.key outs, pmfs := assocSet o.base.pmfs o.base.key res.1 }
    dist := res.2.1
    udist := res.2.2 }

/-- The loop over the photons in `_fill_r_sample`,
generalized_cliffords_uniform_losses_simulation_strategy.py:133-138. -/
noncomputable def gccuPhotons (perm : CalcCfg ℂ → Py ℂ) (U : List (List ℂ)) : ℕ → GccuObj → Prog GccuObj
  | 0, o => pure o
  | n + 1, o => do
    let u ← Prog.random
    if u ≥ o.eta then gccuPhotons perm U n o
    else do
      let o ← ((if assocGet o.base.pmfs o.base.key = none then gccuNewLayer perm U o else pure o : Py _) : Py _)
      let b ← sampleFromLatestPmf o.base
      gccuPhotons perm U n { o with base := b }

/-- `_fill_r_sample`, generalized_cliffords_uniform_losses_simulation_strategy.py:125-138. -/
noncomputable def gccuFill (perm : CalcCfg ℂ → Py ℂ) (U : List (List ℂ)) (o : GccuObj) : Prog GccuObj :=
  gccuPhotons perm U o.base.input.sum
    { o with base := { o.base with r := U.map fun _ => 0, key := U.map fun _ => 0 } }

/-- The loop of `simulate`, generalized_cliffords_uniform_losses_simulation_strategy.py:45-50. -/
noncomputable def gccuLoop (perm : CalcCfg ℂ → Py ℂ) (U : List (List ℂ)) :
    ℕ → GccuObj → Prog (List (List ℕ) × GccuObj)
  | 0, o => pure ([], o)
  | n + 1, o => do
    let o ← gccuFill perm U o
    let (samples, o') ← gccuLoop perm U n o
    pure (o.base.r :: samples, o')

/-- `simulate`, generalized_cliffords_uniform_losses_simulation_strategy.py:35-50. -/
noncomputable def gccuSimulate (perm : CalcCfg ℂ → Py ℂ) (U : List (List ℂ)) (fuel : ℕ) (o : GccuObj)
    (S : List ℕ) (N : ℤ) : Prog (List (List ℕ) × GccuObj) := do
  let o ← (gccuInitialize fuel o S : Py _)
  gccuLoop perm U N.toNat o

/-- `isclose(x, 0)` with numpy's default tolerances (`|x - 0| ≤ 1e-8 + 1e-5 * |0|`). -/
def IsCloseToZero (x : ℝ) : Prop := |x| ≤ 1e-8

open Classical in
/-- `compute_distribution_up_to_accuracy`,
generalized_cliffords_uniform_losses_simulation_strategy.py:87-103. -/
noncomputable def gccuDistribution (perm : CalcCfg ℂ → Py ℂ) (U : List (List ℂ)) (fuel : ℕ) (o : GccuObj)
    (S : List ℕ) (accuracy : ℝ) : Prog (List ℝ × GccuObj) := do
  let o ← (gccuInitialize fuel o S : Py _)
  let o ← Prog.loop fuel (fun o => decide (¬ IsCloseToZero (max (accuracy - o.dist.sum) 0))) (gccuFill perm U) o
  pure (o.dist, o)

open Classical in
/-- `compute_unweighted_distribution_up_to_accuracy`,
generalized_cliffords_uniform_losses_simulation_strategy.py:105-123.  For an input without
particles the quotient is a division by zero: Python's numbers raise, and with numpy's the quotient is
`nan` or `-inf`, and the loop never ends.  Nothing is returned in either case; the model raises
`zeroDivisionError`. -/
noncomputable def gccuUnweighted (perm : CalcCfg ℂ → Py ℂ) (U : List (List ℂ)) (fuel : ℕ) (o : GccuObj)
    (S : List ℕ) (accuracy : ℝ) : Prog (List ℝ × GccuObj) := do
  let o ← (gccuInitialize fuel o S : Py _)
  let _ ← ((if S.sum = 0 then .error .zeroDivisionError else pure () : Py Unit) : Py _)
  let o ← Prog.loop fuel
    (fun o => decide (¬ IsCloseToZero (max (accuracy - o.udist.sum / (S.sum : ℝ)) 0))) (gccuFill perm U) o
  pure (o.udist, o)

end Verif
