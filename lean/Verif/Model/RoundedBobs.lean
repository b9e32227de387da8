import Verif.Model.RoundedLosses
import Verif.Model.RoundedUniformBobs

/-!
`nonuniform_losses_approximation_strategy.py` with everything after the constructor in floating-point arithmetic: the
functions of `Bobs.lean`, with the rounded operations in the order of the source.

`Φ.phase` is numpy's `exp(1j * 2 * pi * u)`; products of matrices are computed one term after the other (BLAS may use
another order). `expand` is `prepare_interferometer_matrix_in_expanded_space`, boson_sampling_utilities.py:287-342, as
computed: it consists of a singular value decomposition by LAPACK and products of its factors, and is a parameter.
-/
namespace Verif

variable (R : Rounding) (C : ComplexArith) (Φ : PhaseArith)

/-- `_get_matrix_for_approximate_sampling`, nonuniform_losses_approximation_strategy.py:331-347. -/
noncomputable def bobsMatrixF {m : ℕ} (o : BobsObj m) : Prog (Matrix (Fin m) (Fin m) ℂ) := do
  let Q ← (generateQftR R C Φ o.k m : Py _)
  let us ← randVecR o.k
  let P ← (generatePhasesR Φ o.k m (fun i => us.getD i 0) : Py _)
  match o.initial with
  | some A => pure (matMulR C (matMulR C A P) Q)
  | none => .done (.error .valueError)

/-- The loop body of `_simulate_in_parallel`, nonuniform_losses_approximation_strategy.py:281-294; `set_new_matrix`
(lossy_networks_generalized_cliffords_simulation_strategy.py:85-88) stores the expanded matrix. -/
noncomputable def bobsSampleF {m : ℕ} (expand : Matrix (Fin m) (Fin m) ℂ → Matrix (Fin (m + m)) (Fin (m + m)) ℂ)
    (sub : CalcCfg ℂ → Py (List ℂ)) (fuel : ℕ) (o : BobsObj m) : Prog (List ℕ) := do
  let st ← (if o.k > 0 then do
      let i ← Prog.randBelow o.k
      (pySetN o.state i o.number : Py _)
    else pure o.state : Prog (List ℕ))
  let lossy ← bobsLossyInputR R o.losses o.weights st
  let B ← bobsMatrixF R C Φ o
  let res ← lossyNetSimulateF R C sub (rowsOf (expand B)) fuel lossy 1
  (pyGetN res 0 : Py _)

/-- `simulate`, nonuniform_losses_approximation_strategy.py:210-261: the samples. The loop of `_simulate_in_parallel` and
the concatenation of the lists of the processes, lines 256-259 and 280-296, are `uBobsPool`. -/
noncomputable def bobsSimulateF {m : ℕ} (expand : Matrix (Fin m) (Fin m) ℂ → Matrix (Fin (m + m)) (Fin (m + m)) ℂ)
    (sub : CalcCfg ℂ → Py (List ℂ)) (fuel : ℕ) (o : BobsObj m) (S : List ℕ) (N : ℤ) : Prog (List (List ℕ)) :=
  if N < 1 then pure []
  else do
    let o ← (bobsPrepareR R o S : Py _)
    uBobsPool (bobsSampleF R C Φ expand sub fuel o) (bobsSplit o.threads N.toNat)

end Verif
