import Verif.Model.Distributions

/-!
The exact distribution calculators as objects with the public attribute `configuration`: the
constructor copies the configuration it is given; afterwards the caller may change the original, the
copy or the attribute itself.

A configuration object is its contents; an array shared by several configuration objects and changed
in place is a change of each of them.
-/
namespace Verif

variable {K R : Type} [Field K] [Field R] [DecidableEq R]

/-- References to configuration objects: those of the caller, and the copies made by the
constructors of the calculators. -/
inductive RcRef
  | user (r : Nat)
  | copy (k : Nat)
  deriving DecidableEq

/-- A calculator: its class, the reference held by `configuration`, and the attributes of
bs_exact_distribution_with_uniform_losses.py:31-32 (unused with fixed losses). -/
structure RcCalc (R : Type) where
  uniform : Bool
  configuration : RcRef
  weights : List R
  weightless : Bool

/-- All objects. -/
structure RcState (K R : Type) where
  configs : RcRef → ExpConfig K R
  calculators : List (RcCalc R)

/-- Changing the contents of an object. -/
def RcState.put (s : RcState K R) (r : RcRef) (c : ExpConfig K R) : RcState K R :=
  { s with configs := fun x => if x = r then c else s.configs x }

/-- What the caller does besides asking for probabilities. -/
inductive RcOp (K R : Type)
  /-- a new fixed-loss or uniform-loss calculator for the configuration `r` -/
  | new (uniform : Bool) (r : RcRef)
  /-- a configuration object is changed -/
  | write (r : RcRef) (c : ExpConfig K R)
  /-- `calculators[k].configuration = r` -/
  | assign (k : Nat) (r : RcRef)
  /-- `calculators[k].set_weightless(flag)` -/
  | weightless (k : Nat) (flag : Bool)

/-- The constructors, bs_distribution_calculator_with_fixed_losses.py:30-36 and
bs_exact_distribution_with_uniform_losses.py:25-32. -/
def rcNew (s : RcState K R) (uniform : Bool) (r : RcRef) : RcState K R :=
  let own := RcRef.copy s.calculators.length
  let s := s.put own (s.configs r)
  let weights := if uniform then initializeWeights (s.configs own) else []
  { s with calculators := s.calculators ++ [⟨uniform, own, weights, false⟩] }

/-- `set_weightless`, bs_exact_distribution_with_uniform_losses.py:34-40; fixed-loss calculators have
no such method (`AttributeError`, nothing happens). -/
def rcSetWeightless (s : RcState K R) (c : RcCalc R) (flag : Bool) : RcCalc R :=
  if c.uniform then
    let c := if !flag then { c with weights := initializeWeights (s.configs c.configuration) }
      else { c with weights := c.weights.map fun _ => 1 }
    { c with weightless := flag }
  else c

/-- One call. Calls on calculators that do not exist are no calls. -/
def rcStep (s : RcState K R) : RcOp K R → RcState K R
  | .new uniform r => rcNew s uniform r
  | .write r c => s.put r c
  | .assign k r => { s with calculators := s.calculators.modify k fun c => { c with configuration := r } }
  | .weightless k flag =>
    { s with calculators := s.calculators.modify k fun c => rcSetWeightless s c flag }

/-- A history of calls. -/
def rcRun (s : RcState K R) (ops : List (RcOp K R)) : RcState K R := ops.foldl rcStep s

/-- `_calculate_probability_of_outcome`, bs_exact_distribution_with_uniform_losses.py:73-97, in a
worker process: the worker's copy of the calculator afterwards, and the result. Lines 83-86 change a
copy of the configuration. -/
def rcWorkerOutcome (nsq : K → R) (perm : CalcCfg K → Py K) (hash : List Nat → Int)
    (u : UniformCalc K R) (outcome : List Nat) : UniformCalc K R × Py R :=
  let l := outcome.sum
  if l = 0 then (u, pyGetN u.weights 0)
  else
    let n := u.config.initialNumber
    let sub := { u.config with left := l, lost := (n : Int) - l }
    (u, do
      let ps ← fixedLossProbabilities nsq perm hash sub [outcome]
      let p ← pyGetN ps 0
      let w ← pyGetN u.weights l
      pure (p * w))

/-- A worker process computes its outcomes one after the other with one copy of the calculator. -/
def rcWorker (nsq : K → R) (perm : CalcCfg K → Py K) (hash : List Nat → Int) (u : UniformCalc K R) :
    List (List Nat) → Py (List R)
  | [] => pure []
  | outcome :: outcomes => do
    let p ← (rcWorkerOutcome nsq perm hash u outcome).2
    let ps ← rcWorker nsq perm hash (rcWorkerOutcome nsq perm hash u outcome).1 outcomes
    pure (p :: ps)

/-- `calculate_probabilities_of_outcomes` of calculator `k`,
bs_distribution_calculator_with_fixed_losses.py:65-82 and
bs_exact_distribution_with_uniform_losses.py:62-71. The outcomes come in the chunks in which a pool
hands them to its workers (the fixed-loss calculator computes them all itself). `none`: no such
calculator. -/
def rcProbabilities (nsq : K → R) (perm : CalcCfg K → Py K) (hash : List Nat → Int) (s : RcState K R)
    (k : Nat) (chunks : List (List (List Nat))) : Option (Py (List R)) :=
  s.calculators[k]?.map fun c =>
    let config := s.configs c.configuration
    if c.uniform then do
      let ps ← chunks.mapM (rcWorker nsq perm hash ⟨config, c.weights, c.weightless⟩)
      pure ps.flatten
    else fixedLossProbabilities nsq perm hash config chunks.flatten

/-- `get_outcomes_in_proper_order` of calculator `k`,
bs_distribution_calculator_with_fixed_losses.py:38-50 and
bs_exact_distribution_with_uniform_losses.py:99-104. -/
def rcOutcomes (fuel : Nat) (s : RcState K R) (k : Nat) : Option (Py (List (List Nat))) :=
  s.calculators[k]?.map fun c =>
    let config := s.configs c.configuration
    if c.uniform then uniformOutcomes fuel config else fixedLossOutcomes fuel config

end Verif
