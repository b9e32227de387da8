import Verif.Prog
import Verif.Model.Distributions
import Mathlib.Analysis.Complex.Basic

/-!
Model of the generalized Clifford & Clifford samplers
(`theboss/simulation_strategies/generalized_cliffords_simulation_strategy.py` and
`mode_assignment_generalized_cliffords_simulation_strategy.py`).

Amplitudes are complex numbers and probabilities real numbers, in exact arithmetic.  The permanent
calculator object is a matrix `U` and a function `perm` from matrix, input and output state to the
returned permanent: the code sets both states before every `compute_permanent()`, and by C19 a
calculator has no other state.
-/
namespace Verif

/-- `d[k]` for an association list standing for a Python dict. -/
def assocGet {κ V : Type} [DecidableEq κ] (d : List (κ × V)) (k : κ) : Option V :=
  (d.find? fun e => e.1 = k).map Prod.snd

/-- `d[k] = v`. -/
def assocSet {κ V : Type} [DecidableEq κ] (d : List (κ × V)) (k : κ) (v : V) : List (κ × V) :=
  (k, v) :: d.filter fun e => e.1 ≠ k

/-- `d[k]` with `KeyError`. -/
def assocGetPy {κ V : Type} [DecidableEq κ] (d : List (κ × V)) (k : κ) : Py V :=
  match assocGet d k with
  | none => .error .keyError
  | some v => .ok v

/-- `_calculate_all_input_substates`, generalized_cliffords_simulation_strategy.py:95-121. -/
def inputSubstates : List ℕ → List (List ℕ)
  | [] => [[]]
  | n :: rest =>
    let smaller := inputSubstates rest
    (List.range (n + 1)).flatMap fun i => smaller.map fun s => i :: s

/-- `_get_sorted_possible_states`, generalized_cliffords_simulation_strategy.py:75-93. -/
def labeledStates (S : List ℕ) : List (ℕ × List (List ℕ)) :=
  (inputSubstates S).foldl
    (fun d s => assocSet d s.sum ((assocGet d s.sum).getD [] ++ [s])) []

/-- `_calculate_weights`, generalized_cliffords_simulation_strategy.py:185-205
(`factorial` of a negative number raises `ValueError`). -/
noncomputable def calculateWeight (S k : List ℕ) : Py ℝ := do
  let l := k.sum
  let n := S.sum
  if n < l then .error .valueError else
  (List.range S.length).foldlM
    (fun (w : ℝ) m => do
      let s ← pyGetN S m
      let j ← pyGetN k m
      pure (w * (s.choose j : ℝ)))
    ((l.factorial : ℝ) * ((n - l).factorial : ℝ) / (n.factorial : ℝ))

/-- `_calculate_outputs_probability`, generalized_cliffords_simulation_strategy.py:224-247. -/
noncomputable def outputsProbability (perm : CalcCfg ℂ → Py ℂ) (U : List (List ℂ))
    (input output : List ℕ) : Py ℝ := do
  let x ← perm ⟨U, input, output⟩
  let p := input.foldl (fun (p : ℝ) o => p / (o.factorial : ℝ)) (Complex.normSq x)
  pure (p / (input.sum.factorial : ℝ))

/-- The weights of `_calculate_new_layer_of_pmfs`,
generalized_cliffords_simulation_strategy.py:142-155 and 173-183: `weights /= sum(weights)` raises `TypeError`
for the empty list (`[] / 0`); a zero sum gives `nan`, reported as `zeroDivisionError`. -/
noncomputable def layerWeights (S : List ℕ) (inputs : List (List ℕ)) : Py (List ℝ) := do
  let ks ← inputs.mapM fun st => (List.range st.length).mapM fun i => do
    let s ← pyGetN S i
    let x ← pyGetN st i
    natSub s x
  let weights ← ks.mapM (calculateWeight S)
  if weights = [] then .error .typeError else
  weights.mapM fun w => floatDiv w weights.sum

/-- One entry of the pmf, generalized_cliffords_simulation_strategy.py:163-169. -/
noncomputable def pmfEntry (perm : CalcCfg ℂ → Py ℂ) (U : List (List ℂ))
    (inputs : List (List ℕ)) (weights : List ℝ) (output : List ℕ) : Py ℝ :=
  (List.range inputs.length).foldlM
    (fun (acc : ℝ) i => do
      let st ← pyGetN inputs i
      let p ← outputsProbability perm U st output
      let w ← pyGetN weights i
      pure (acc + p * w)) 0

/-- The attributes of the strategy object, generalized_cliffords_simulation_strategy.py:25-38
(`current_sample_probability` is write-only and left out; `number_of_input_photons` is
`sum(input_state)` whenever it is read). -/
structure GccObj where
  input : List ℕ
  labeled : List (ℕ × List (List ℕ))
  pmfs : List (List ℕ × List ℝ)
  outs : List (List ℕ × List (List ℕ))
  r : List ℕ
  key : List ℕ

/-- The attributes after `__init__`, generalized_cliffords_simulation_strategy.py:25-38. -/
def gccInit : GccObj := { input := [], labeled := [], pmfs := [], outs := [], r := [], key := [] }

/-- What the subclass for mode assignments overrides: the initial `r_sample`, the number of
particles in it, the list of its successors and the conversion to an occupation list. -/
structure GccVariant where
  start : List ℕ → List ℕ
  count : List ℕ → ℕ
  next : List ℕ → List ℕ → List (List ℕ)
  occ : List ℕ → List ℕ → Py (List ℕ)

/-- `GeneralizedCliffordsSimulationStrategy`: generalized_cliffords_simulation_strategy.py:127 (start),
131 and 140 (count), 207-222 (next), 72 (occ: the sample itself). -/
def gccA : GccVariant where
  start S := S.map fun _ => 0
  count r := r.sum
  next _ r := (List.range r.length).map fun i => r.modify i (· + 1)
  occ _ r := .ok r

/-- `ModeAssignmentGeneralizedCliffordsSimulationStrategyInterface`:
mode_assignment_generalized_cliffords_simulation_strategy.py:59 (start), 63 and 72 (count),
99-112 (next), 50-52 and 88 (occ). -/
def gccAssignment : GccVariant where
  start _ := []
  count r := r.length
  next S r := (List.range S.length).map fun i => r ++ [i]
  occ S r := modeAssignmentToModeOccupation (r.map fun (x : ℕ) => (x : Int)) S.length

/-- `_calculate_new_layer_of_pmfs`, generalized_cliffords_simulation_strategy.py:136-171 and
mode_assignment_generalized_cliffords_simulation_strategy.py:68-97. -/
noncomputable def newLayer (v : GccVariant) (perm : CalcCfg ℂ → Py ℂ) (U : List (List ℂ))
    (o : GccObj) : Py GccObj := do
  let inputs := (assocGet o.labeled (v.count o.r + 1)).getD []
  let weights ← layerWeights o.input inputs
  let outs := v.next o.input o.r
  let pmf ← outs.mapM fun out => do
    let occ ← v.occ o.input out
    pmfEntry perm U inputs weights occ
  pure { o with outs := assocSet o.outs o.key outs, pmfs := assocSet o.pmfs o.key pmf }

/-- The loop of `_sample_from_latest_pmf`, generalized_cliffords_simulation_strategy.py:257-262:
the first index whose cumulative sum exceeds `x` (the number of entries if there is none). -/
noncomputable def scanIndex (x : ℝ) : List ℝ → ℝ → ℕ
  | [], _ => 0
  | p :: ps, cur => if cur + p > x then 0 else scanIndex x ps (cur + p) + 1

/-- `_sample_from_latest_pmf`, generalized_cliffords_simulation_strategy.py:249-266. -/
noncomputable def sampleFromLatestPmf (o : GccObj) : Prog GccObj := do
  let pmf ← (assocGetPy o.pmfs o.key : Py _)
  let u ← Prog.random
  let i := scanIndex (u * pmf.sum) pmf 0
  let _ ← (pyGetN pmf i : Py _)
  let outs ← (assocGetPy o.outs o.key : Py _)
  let r ← (pyGetN outs i : Py _)
  pure { o with r := r, key := r }

/-- The loop body of `_fill_r_sample`, generalized_cliffords_simulation_strategy.py:132-134. -/
noncomputable def fillStep (v : GccVariant) (perm : CalcCfg ℂ → Py ℂ) (U : List (List ℂ))
    (o : GccObj) : Prog GccObj := do
  let o ← ((if assocGet o.pmfs o.key = none then newLayer v perm U o else pure o : Py _) : Py _)
  sampleFromLatestPmf o

/-- `_fill_r_sample`, generalized_cliffords_simulation_strategy.py:123-134 and
mode_assignment_generalized_cliffords_simulation_strategy.py:55-66. -/
noncomputable def fillRSample (v : GccVariant) (perm : CalcCfg ℂ → Py ℂ) (U : List (List ℂ))
    (fuel : ℕ) (o : GccObj) : Prog GccObj :=
  Prog.loop fuel (fun o => decide (v.count o.r < o.input.sum)) (fillStep v perm U)
    { o with r := v.start o.input, key := v.start o.input }

/-- The loop of `simulate`, generalized_cliffords_simulation_strategy.py:70-72: every iteration
appends one sample, so `while len(samples) < N` runs `N` times. -/
noncomputable def simulateLoop (v : GccVariant) (perm : CalcCfg ℂ → Py ℂ) (U : List (List ℂ))
    (fuel : ℕ) : ℕ → GccObj → Prog (List (List ℕ) × GccObj)
  | 0, o => pure ([], o)
  | n + 1, o => do
    let o ← fillRSample v perm U fuel o
    let sample ← (v.occ o.input o.r : Py _)
    let (samples, o) ← simulateLoop v perm U fuel n o
    pure (sample :: samples, o)

/-- `simulate`, generalized_cliffords_simulation_strategy.py:49-73 and
mode_assignment_generalized_cliffords_simulation_strategy.py:27-53.  The object keeps
`possible_outputs` from earlier calls. -/
noncomputable def gccSimulate (v : GccVariant) (perm : CalcCfg ℂ → Py ℂ) (U : List (List ℂ))
    (fuel : ℕ) (o : GccObj) (S : List ℕ) (N : ℤ) : Prog (List (List ℕ) × GccObj) :=
  simulateLoop v perm U fuel N.toNat { o with input := S, labeled := labeledStates S, pmfs := [] }

end Verif
