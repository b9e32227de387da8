import Verif.Model.Permanents

/-! Model of `BSPermanentCalculatorFactory` and of the calculators it builds as Python objects:
attributes hold references to arrays, which the caller may also change in place. -/
namespace Verif

variable {K : Type _} [Field K]

/-- The arrays living in the caller's program, by reference. -/
structure PfHeap (K : Type _) where
  matrices : Nat → List (List K)
  states : Nat → List Nat

/-- The attributes of the factory, bs_permanent_calculator_factory.py:37-49: references to the
matrix and to the states (`None` allowed for the states), and the calculator type.  A `None`
matrix is not modelled. -/
structure PfFactory where
  matrix : Nat
  input : Option Nat
  output : Option Nat
  calculatorType : Int

/-- A calculator object, bs_permanent_calculator_base.py:22-59 (constructors of the subclasses:
classic_permanent_calculator.py:19-25, glynn_gray_permanent_calculator.py:28-39,
chin_huh_permanent_calculator.py:26-36, ryser_permanent_calculator.py:33-43).  `none` is the
private empty list a `None` state is replaced with.  `kind` is the class: 1 classic, 2 Glynn,
3 Chin–Huh, 4 Ryser.  `scratch` are the private attributes of the last two. -/
structure PfCalc (K : Type _) where
  kind : Nat
  matrix : Nat
  input : Option Nat
  output : Option Nat
  scratch : GuanScratch K

/-- All objects. -/
structure PfState (K : Type _) where
  heap : PfHeap K
  factory : PfFactory
  calculators : List (PfCalc K)

/-- Calls on one calculator: setters (bs_permanent_calculator_base.py:37-59) and
`compute_permanent`; `junk` is what an aborted computation leaves in the private attributes. -/
inductive PfCalcOp (K : Type _) where
  | setMatrix (r : Nat)
  | setInput (r : Nat)
  | setOutput (r : Nat)
  | compute (junk : GuanScratch K)

/-- Calls on the factory (setters bs_permanent_calculator_factory.py:56-78, `generate_calculator`
80-88), on the `k`-th calculator it has generated, and in-place changes of arrays. -/
inductive PfOp (K : Type _) where
  | setMatrix (r : Nat)
  | setInput (r : Option Nat)
  | setOutput (r : Option Nat)
  | generate
  | on (k : Nat) (op : PfCalcOp K)
  | writeMatrix (r : Nat) (m : List (List K))
  | writeState (r : Nat) (s : List Nat)

/-- The state a reference denotes; `list()` for `none`. -/
def PfHeap.state (h : PfHeap K) : Option Nat → List Nat
  | none => []
  | some r => h.states r

/-- The matrix and the states a calculator object currently sees. -/
def PfCalc.cfg (h : PfHeap K) (c : PfCalc K) : CalcCfg K :=
  ⟨h.matrices c.matrix, h.state c.input, h.state c.output⟩

/-- `generate_calculator`, bs_permanent_calculator_factory.py:80-115: dictionary lookup with
Chin–Huh as the default; the new object gets the factory's current references. -/
def PfFactory.generate (h : PfHeap K) (f : PfFactory) : PfCalc K :=
  { kind := if f.calculatorType = 1 then 1 else if f.calculatorType = 2 then 2
      else if f.calculatorType = 3 then 3 else if f.calculatorType = 4 then 4 else 3
    matrix := f.matrix
    input := f.input
    output := f.output
    scratch := freshScratch ⟨h.matrices f.matrix, h.state f.input, h.state f.output⟩ }

/-- `compute_permanent` of a calculator object: the object afterwards and the result. -/
def PfCalc.compute (gray : Nat → List Nat) (fuel : Nat) (h : PfHeap K) (c : PfCalc K)
    (junk : GuanScratch K) : PfCalc K × Py K :=
  match c.kind with
  | 1 => (c, classicPermanent (c.cfg h))
  | 2 => (c, glynnPermanent gray (c.cfg h))
  | 4 =>
    match computePermanent ryserMethod fuel (c.cfg h) c.scratch with
    | .ok (p, s) => ({ c with scratch := s }, .ok p)
    | .error e => ({ c with scratch := junk }, .error e)
  | _ =>
    match computePermanent chinHuhMethod fuel (c.cfg h) c.scratch with
    | .ok (p, s) => ({ c with scratch := s }, .ok p)
    | .error e => ({ c with scratch := junk }, .error e)

/-- A call on a calculator: the object afterwards and what is returned. -/
def PfCalc.step (gray : Nat → List Nat) (fuel : Nat) (h : PfHeap K) (c : PfCalc K) :
    PfCalcOp K → PfCalc K × Option (Py K)
  | .setMatrix r => ({ c with matrix := r }, none)
  | .setInput r => ({ c with input := some r }, none)
  | .setOutput r => ({ c with output := some r }, none)
  | .compute junk => ((c.compute gray fuel h junk).1, some (c.compute gray fuel h junk).2)

/-- One call: all objects afterwards and the result of a `compute_permanent`.  Calls on
calculators that do not exist are no calls. -/
def pfStep (gray : Nat → List Nat) (fuel : Nat) (s : PfState K) :
    PfOp K → PfState K × Option (Py K)
  | .setMatrix r => ({ s with factory := { s.factory with matrix := r } }, none)
  | .setInput r => ({ s with factory := { s.factory with input := r } }, none)
  | .setOutput r => ({ s with factory := { s.factory with output := r } }, none)
  | .generate => ({ s with calculators := s.calculators ++ [s.factory.generate s.heap] }, none)
  | .on k op =>
    match s.calculators[k]? with
    | none => (s, none)
    | some c => ({ s with calculators := s.calculators.set k (c.step gray fuel s.heap op).1 },
        (c.step gray fuel s.heap op).2)
  | .writeMatrix r m =>
    ({ s with heap := { s.heap with
        matrices := fun x => if x = r then m else s.heap.matrices x } }, none)
  | .writeState r l =>
    ({ s with heap := { s.heap with states := fun x => if x = r then l else s.heap.states x } },
      none)

/-- A history of calls. -/
def pfRun (gray : Nat → List Nat) (fuel : Nat) (s : PfState K) (ops : List (PfOp K)) : PfState K :=
  ops.foldl (fun s op => (pfStep gray fuel s op).1) s

end Verif
