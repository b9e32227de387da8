import Verif.Model.Utilities

/-! Multiplicity of lossy inputs in the exact fixed-loss calculator. -/
namespace Verif

/-- `__compute_lossy_input_multiplicity`,
distribution_calculators/bs_distribution_calculator_with_fixed_losses.py:153-169, with
`scipy.special.binom` in exact arithmetic (a negative lower argument is flagged, not computed). -/
def lossyInputMultiplicity (initial lossy : List Nat) : Py Nat :=
  (List.range lossy.length).foldlM
    (fun acc i => do
      let x ← pyGetN initial i
      let y ← pyGetN lossy i
      let d ← natSub x y
      pure (acc * x.choose d))
    1

end Verif
