import Verif.Model.GuanCode

/-! Observations on the Guan-code iteration. -/
namespace Verif

/-- Observation: the vectors `_r_vector` takes while `_update_guan_code` is called until the index
to update reaches the length of the vector (the loops of `compute_permanent` and
`compute_permanents`). -/
def codeTrace : Nat → GuanVars → Py (List (List Int))
  | 0, _ => .error .outOfFuel
  | fuel + 1, v => do
    let v' ← updateGuanCode v
    if v'.index = v'.rVector.length then pure [v.rVector]
    else
      let L ← codeTrace fuel v'
      pure (v.rVector :: L)

/-- Two vectors that differ by one in exactly one entry. -/
def UnitStep (r r' : List Int) : Prop :=
  ∃ i < r.length, ∃ d : Int, (d = 1 ∨ d = -1) ∧ r' = r.set i (r.getD i 0 + d)

end Verif
