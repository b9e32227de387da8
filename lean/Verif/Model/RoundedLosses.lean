import Verif.Model.Rounded

/-!
`nonuniform_losses_approximation_strategy.py` with the losses of the input drawn in floating-point
arithmetic. The transformation of the matrix and the sampler used for the lossy network are those of the
exact model; `losses`, the extracted uniform losses, is a float.
-/
namespace Verif

variable (R : Rounding)

/-- `_compute_binomial_weights`, nonuniform_losses_approximation_strategy.py:146-190. -/
noncomputable def bobsTableR (losses : ℝ) (maxParticles : ℕ) : List (ℕ × List ℝ) :=
  (List.range maxParticles).map fun j => (j + 1, bobsWeightsR R losses (j + 1))

/-- The preparations of `simulate`, nonuniform_losses_approximation_strategy.py:229-241. -/
noncomputable def bobsPrepareR {m : ℕ} (o : BobsObj m) (S : List ℕ) : Py (BobsObj m) := do
  let o := { o with state := S }
  let o ← (List.range o.k).foldlM
    (fun (o : BobsObj m) i => do
      let x ← pyGetN S i
      let st ← pySetN o.state i 0
      pure { o with number := o.number + x, state := st }) o
  let mx ← pyMaxN S
  pure { o with weights := bobsTableR R o.losses (max mx o.number) }

/-- The loop over the modes in `_compute_lossy_input`,
nonuniform_losses_approximation_strategy.py:316-328. A `None` returned by `choice` is reported as
`typeError`, as in `bobsChoice`. -/
noncomputable def bobsLossyModesR (weights : List (ℕ × List ℝ)) : List ℕ → Prog (List ℕ)
  | [] => pure []
  | 0 :: s => do
    let rest ← bobsLossyModesR weights s
    pure (0 :: rest)
  | (a + 1) :: s => do
    let w ← (assocGetPy weights (a + 1) : Py _)
    let x ← bobsChoiceR R (List.range (a + 1 + 1)) w
    match x with
    | none => .done (.error .typeError)
    | some x => do
      let rest ← bobsLossyModesR weights s
      pure (x :: rest)

open Classical in
/-- `_compute_lossy_input`, nonuniform_losses_approximation_strategy.py:298-329. -/
noncomputable def bobsLossyInputR (losses : ℝ) (weights : List (ℕ × List ℝ)) (s : List ℕ) : Prog (List ℕ) :=
  if IsCloseToZero losses then pure s else bobsLossyModesR R weights s

/-- The loop body of `_simulate_in_parallel`, nonuniform_losses_approximation_strategy.py:281-294. -/
noncomputable def bobsSampleR {m : ℕ} (svd : Matrix (Fin m) (Fin m) ℂ → Svd m) (sub : CalcCfg ℂ → Py (List ℂ))
    (fuel : ℕ) (o : BobsObj m) : Prog (List ℕ) := do
  let st ← (if o.k > 0 then do
      let i ← Prog.randBelow o.k
      (pySetN o.state i o.number : Py _)
    else pure o.state : Prog (List ℕ))
  let lossy ← bobsLossyInputR R o.losses o.weights st
  let B ← bobsMatrix o
  let res ← lossyNetSimulate sub (svd B) fuel lossy 1
  (pyGetN res 0 : Py _)

/-- `_simulate_in_parallel`, nonuniform_losses_approximation_strategy.py:263-296. -/
noncomputable def bobsTaskR {m : ℕ} (svd : Matrix (Fin m) (Fin m) ℂ → Svd m) (sub : CalcCfg ℂ → Py (List ℂ))
    (fuel : ℕ) (o : BobsObj m) : ℕ → Prog (List (List ℕ))
  | 0 => pure []
  | n + 1 => do
    let s ← bobsSampleR R svd sub fuel o
    let l ← bobsTaskR svd sub fuel o n
    pure (s :: l)

/-- `p.map(…)` and the concatenation, nonuniform_losses_approximation_strategy.py:256-259. -/
noncomputable def bobsPoolR {m : ℕ} (svd : Matrix (Fin m) (Fin m) ℂ → Svd m) (sub : CalcCfg ℂ → Py (List ℂ))
    (fuel : ℕ) (o : BobsObj m) : List ℕ → Prog (List (List ℕ))
  | [] => pure []
  | n :: ns => do
    let l ← bobsTaskR R svd sub fuel o n
    let ls ← bobsPoolR svd sub fuel o ns
    pure (l ++ ls)

/-- `simulate`, nonuniform_losses_approximation_strategy.py:210-261: the samples. -/
noncomputable def bobsSimulateR {m : ℕ} (svd : Matrix (Fin m) (Fin m) ℂ → Svd m) (sub : CalcCfg ℂ → Py (List ℂ))
    (fuel : ℕ) (o : BobsObj m) (S : List ℕ) (N : ℤ) : Prog (List (List ℕ)) :=
  if N < 1 then pure []
  else do
    let o ← (bobsPrepareR R o S : Py _)
    bobsPoolR R svd sub fuel o (bobsSplit o.threads N.toNat)

end Verif
