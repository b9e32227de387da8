import Verif.Model.StrategyFactory

/-! What a caller knows about the matrix of a generated strategy. -/
namespace Verif

/-- The matrix set last for the `k`-th strategy. -/
def lastMatrix (k : ℕ) (M : Rows) (ops : List FactoryOp) : Rows :=
  ops.foldl (fun M op => match op with | .setMatrix j M' => if j = k then M' else M | _ => M) M

end Verif
