import Verif.Model.Reconfigured
import Verif.Spec.PermanentFactory

/-! Specification: the configuration of an exact calculator after a history of calls. -/
namespace Verif

variable {K R : Type}

/-- Number of calculators made in a history. -/
def rcCreated (ops : List (RcOp K R)) : Nat := ops.countP fun | .new _ _ => true | _ => false

/-- The contents of a configuration object after a history, which is given latest call first: what
was written latest; for the copy made by a constructor, what the original contained at that time. -/
def rcContents (configs : RcRef → ExpConfig K R) : List (RcOp K R) → RcRef → ExpConfig K R
  | [], x => configs x
  | .write r c :: ops, x => if x = r then c else rcContents configs ops x
  | .new _ r :: ops, x =>
    if x = .copy (rcCreated ops) then rcContents configs ops r else rcContents configs ops x
  | .assign _ _ :: ops, x => rcContents configs ops x
  | .weightless _ _ :: ops, x => rcContents configs ops x

/-- The reference a call assigns to the attribute of calculator `k`. -/
def rcAssigned (k : Nat) : RcOp K R → Option RcRef
  | .assign i r => if i = k then some r else none
  | _ => none

/-- The configuration of the calculator made between `pre` and `post`, after both. -/
def rcConfiguration (configs : RcRef → ExpConfig K R) (pre : List (RcOp K R)) (uniform : Bool) (r : RcRef)
    (post : List (RcOp K R)) : ExpConfig K R :=
  rcContents configs (pre ++ .new uniform r :: post).reverse
    (latest (rcAssigned (rcCreated pre)) post (.copy (rcCreated pre)))

/-- The call changes the configuration of calculator `k` while it is the constructor's copy: the copy
is changed, or another object is assigned. -/
def Reconfigures (k : Nat) : RcOp K R → Prop
  | .write r _ => r = .copy k
  | .assign i _ => i = k
  | _ => False

/-- The flag a call gives to `set_weightless` of calculator `k`. -/
def rcFlag (k : Nat) : RcOp K R → Option Bool
  | .weightless i flag => if i = k then some flag else none
  | _ => none

end Verif
