import Verif.Py

/-!
Guan-code iteration shared by the permanent calculators
(bs_permanent_calculator_base.py:115-149) and the submatrix permanent calculators
(bs_submatrices_permanent_calculator_base.py:99-133); the two copies of the code are identical
up to the container type (list / numpy array).
-/
namespace Verif

/-- The attributes used by the Guan-code iteration: `_r_vector`, `_code_update_information`,
`_position_limits`, `_index_to_update`, `_last_value_at_index`
(bs_permanent_calculator_base.py:90-97). -/
structure GuanVars where
  rVector : List Int
  codeUpdate : List Int
  limits : List Int
  index : Nat
  last : Int
  deriving DecidableEq, Repr

/-- `_initialize_guan_codes_variables`, bs_permanent_calculator_base.py:115-121 and
bs_submatrices_permanent_calculator_base.py:99-105.  The index and the last value are kept. -/
def initGuanVars (input : List Nat) (v : GuanVars) : GuanVars :=
  { v with
    rVector := List.replicate input.length 0
    codeUpdate := List.replicate input.length 1
    limits := input.map fun (x : Nat) => (x : Int) }

/-- The `while` loop of `_update_guan_code`, bs_permanent_calculator_base.py:131-146
(bs_submatrices_permanent_calculator_base.py:115-130).  `k` is `updated_value_at_index`; the
result is the new `_code_update_information`, the index, and the accepted value (`none` for the
early `return` when the index reaches `len(_r_vector)`).  The index grows in every iteration, so
`len(_r_vector)` iterations are enough; `todo` counts them. -/
def guanLoop (r limits : List Int) : Nat → List Int → Nat → Int → Py (List Int × Nat × Option Int)
  | 0, _, _, _ => .error .outOfFuel
  | todo + 1, u, i, k => do
    let lim ← pyGetN limits i
    if k > lim ∨ k < 0 then
      let ui ← pyGetN u i
      let u' ← pySetN u i (-ui)
      if i + 1 = r.length then
        pure (u', i + 1, none)
      else
        let ri ← pyGetN r (i + 1)
        let uj ← pyGetN u' (i + 1)
        guanLoop r limits todo u' (i + 1) (ri + uj)
    else
      pure (u, i, some k)

/-- `_update_guan_code`, bs_permanent_calculator_base.py:123-149
(bs_submatrices_permanent_calculator_base.py:107-133). -/
def updateGuanCode (v : GuanVars) : Py GuanVars := do
  let r0 ← pyGetN v.rVector 0
  let u0 ← pyGetN v.codeUpdate 0
  let (u, i, k) ← guanLoop v.rVector v.limits v.rVector.length v.codeUpdate 0 (r0 + u0)
  match k with
  | none => pure { v with codeUpdate := u, index := i }
  | some k =>
    let last ← pyGetN v.rVector i
    let r ← pySetN v.rVector i k
    pure { v with rVector := r, codeUpdate := u, index := i, last := last }

end Verif
