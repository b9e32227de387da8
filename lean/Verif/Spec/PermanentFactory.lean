import Verif.Model.PermanentFactory

/-! Specification: the latest values given in a history of calls. -/
namespace Verif

variable {K : Type _}

/-- The value given latest in a history, `d` if none was. -/
def latest {α β : Type _} (f : α → Option β) (ops : List α) (d : β) : β :=
  ops.foldl (fun d op => (f op).getD d) d

/-- Number of calculators generated in a history. -/
def generated (ops : List (PfOp K)) : Nat := ops.countP fun | .generate => true | _ => false

/-- The value an operation gives to: the factory's matrix, input, output; the matrix, input,
output of calculator `k`; the contents of a matrix, of a state. -/
def givesMatrix : PfOp K → Option Nat | .setMatrix r => some r | _ => none
@[inherit_doc givesMatrix]
def givesInput : PfOp K → Option (Option Nat) | .setInput r => some r | _ => none
@[inherit_doc givesMatrix]
def givesOutput : PfOp K → Option (Option Nat) | .setOutput r => some r | _ => none
@[inherit_doc givesMatrix]
def givesCalcMatrix (k : Nat) : PfOp K → Option Nat
  | .on i (.setMatrix r) => if i = k then some r else none
  | _ => none
@[inherit_doc givesMatrix]
def givesCalcInput (k : Nat) : PfOp K → Option (Option Nat)
  | .on i (.setInput r) => if i = k then some (some r) else none
  | _ => none
@[inherit_doc givesMatrix]
def givesCalcOutput (k : Nat) : PfOp K → Option (Option Nat)
  | .on i (.setOutput r) => if i = k then some (some r) else none
  | _ => none
@[inherit_doc givesMatrix]
def givesMatrixContents (r : Nat) : PfOp K → Option (List (List K))
  | .writeMatrix i m => if i = r then some m else none
  | _ => none
@[inherit_doc givesMatrix]
def givesStateContents (r : Nat) : PfOp K → Option (List Nat)
  | .writeState i m => if i = r then some m else none
  | _ => none

/-- The contents of a matrix after a history. -/
def matrixAfter (h : PfHeap K) (ops : List (PfOp K)) (r : Nat) : List (List K) :=
  latest (givesMatrixContents r) ops (h.matrices r)

/-- The contents of a state after a history; the empty list for `none`. -/
def stateAfter (h : PfHeap K) (ops : List (PfOp K)) : Option Nat → List Nat
  | none => []
  | some r => latest (givesStateContents r) ops (h.states r)

/-- What the calculator generated between `pre` and `post` sees after both: its own latest
references, else the latest references the factory had when it generated it, else the constructor
arguments; with the current contents of the arrays. -/
def calcSees (h : PfHeap K) (f : PfFactory) (pre post : List (PfOp K)) : CalcCfg K :=
  let k := generated pre
  let ops := pre ++ .generate :: post
  ⟨matrixAfter h ops (latest (givesCalcMatrix k) post (latest givesMatrix pre f.matrix)),
   stateAfter h ops (latest (givesCalcInput k) post (latest givesInput pre f.input)),
   stateAfter h ops (latest (givesCalcOutput k) post (latest givesOutput pre f.output))⟩

end Verif
