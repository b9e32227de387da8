import Verif.Model.SharedCalculator
import Verif.Model.EndToEnd

/-!
The samplers with the permanent calculator as the mutable object it is in the code. In
`Model/Cliffords.lean`, `CliffordsU.lean` and `CliffordsB.lean` the calculator is a matrix and a
function; here every setter call and every `compute_permanent()` acts on an object, which several
samplers and exact calculators may share. `ShWorld` is a heap of such objects.
-/
namespace Verif

/-! ### Programs with draws acting on an object -/

/-- Python code with random draws that acts on an object of type `σ`: it returns or raises, and the
object keeps the changes made before an exception. -/
def ProgS (σ α : Type) : Type := σ → Prog (Py α × σ)

instance (σ : Type) : Monad (ProgS σ) where
  pure a := fun s => .done (.ok (.ok a, s))
  bind m f := fun s => (m s).bind fun x =>
    match x with
    | (.ok a, s') => f a s'
    | (.error e, s') => .done (.ok (.error e, s'))

namespace ProgS

variable {σ α : Type}

/-- Code without draws acting on the object. -/
def ofPyS (m : PyS σ α) : ProgS σ α := fun s => .done (.ok (m s))

/-- Code without draws that does not touch the object. -/
def lift (r : Py α) : ProgS σ α := fun s => .done (.ok (r, s))

/-- `random()` -/
def random : ProgS σ ℝ := fun s => .uniform fun u => .done (.ok (.ok u, s))

/-- `randint(0, n)`, `ValueError` if `n = 0` -/
def randBelow (n : ℕ) : ProgS σ ℕ := fun s =>
  if n = 0 then .done (.ok (.error .valueError, s)) else .randint n fun i => .done (.ok (.ok i, s))

open Classical in
/-- `choice(range(len(p)), p=p)`, `ValueError` unless `p` is a probability vector -/
noncomputable def categorical (p : List ℝ) : ProgS σ ℕ := fun s =>
  if Prog.IsProbVector p then .choice p fun i => .done (.ok (.ok i, s)) else .done (.ok (.error .valueError, s))

/-- `while cond(x): x = body(x)`, giving up with `outOfFuel` after `fuel` iterations. -/
def loop {β : Type} : ℕ → (β → Bool) → (β → ProgS σ β) → β → ProgS σ β
  | 0, _, _, _ => lift (.error .outOfFuel)
  | fuel + 1, cond, body, x =>
    if cond x then do
      let x' ← body x
      loop fuel cond body x'
    else
      pure x

end ProgS

/-! ### The samplers -/

section
variable (gray : ℕ → List ℕ) (fuel : ℕ) (junk : GuanScratch ℂ)

/-- The setters `input_state` and `output_state`, bs_permanent_calculator_base.py:45-59. -/
def PermObj.setStates (input output : List ℕ) : PyS (PermObj ℂ) Unit :=
  fun o => (.ok (), { o with cfg := { o.cfg with input := input, output := output } })

/-- The setter `input_state`, bs_permanent_calculator_base.py:45-51. -/
def PermObj.setInput (input : List ℕ) : PyS (PermObj ℂ) Unit :=
  fun o => (.ok (), { o with cfg := { o.cfg with input := input } })

/-- The getter `matrix`, bs_permanent_calculator_base.py:37-39. -/
def PermObj.getMatrix : PyS (PermObj ℂ) Rows := fun o => (.ok o.cfg.matrix, o)

/-- `_calculate_outputs_probability`, generalized_cliffords_simulation_strategy.py:224-247. -/
noncomputable def outputsProbabilityS (input output : List ℕ) : PyS (PermObj ℂ) ℝ := do
  PermObj.setStates input output
  let x ← PermObj.compute gray fuel junk
  let p := input.foldl (fun (p : ℝ) o => p / (o.factorial : ℝ)) (Complex.normSq x)
  pure (p / (input.sum.factorial : ℝ))

/-- One entry of the pmf, generalized_cliffords_simulation_strategy.py:163-169. -/
noncomputable def pmfEntryS (inputs : List (List ℕ)) (weights : List ℝ) (output : List ℕ) : PyS (PermObj ℂ) ℝ :=
  (List.range inputs.length).foldlM
    (fun (acc : ℝ) i => do
      let st ← PyS.lift (pyGetN inputs i)
      let p ← outputsProbabilityS gray fuel junk st output
      let w ← PyS.lift (pyGetN weights i)
      pure (acc + p * w)) 0

/-- `_calculate_new_layer_of_pmfs`, generalized_cliffords_simulation_strategy.py:136-171 and
mode_assignment_generalized_cliffords_simulation_strategy.py:68-97. -/
noncomputable def newLayerS (v : GccVariant) (o : GccObj) : PyS (PermObj ℂ) GccObj := do
  let inputs := (assocGet o.labeled (v.count o.r + 1)).getD []
  let weights ← PyS.lift (layerWeights o.input inputs)
  let outs := v.next o.input o.r
  let pmf ← outs.mapM fun out => do
    let occ ← PyS.lift (v.occ o.input out)
    pmfEntryS gray fuel junk inputs weights occ
  pure { o with outs := assocSet o.outs o.key outs, pmfs := assocSet o.pmfs o.key pmf }

/-- `_sample_from_latest_pmf`, generalized_cliffords_simulation_strategy.py:249-266. -/
noncomputable def sampleFromLatestPmfS (o : GccObj) : ProgS (PermObj ℂ) GccObj := do
  let pmf ← ProgS.lift (assocGetPy o.pmfs o.key)
  let u ← ProgS.random
  let i := scanIndex (u * pmf.sum) pmf 0
  let _ ← ProgS.lift (pyGetN pmf i)
  let outs ← ProgS.lift (assocGetPy o.outs o.key)
  let r ← ProgS.lift (pyGetN outs i)
  pure { o with r := r, key := r }

/-- The loop body of `_fill_r_sample`, generalized_cliffords_simulation_strategy.py:132-134. -/
noncomputable def fillStepS (v : GccVariant) (o : GccObj) : ProgS (PermObj ℂ) GccObj := do
  let o ← ProgS.ofPyS (if assocGet o.pmfs o.key = none then newLayerS gray fuel junk v o else pure o)
  sampleFromLatestPmfS o

/-- `_fill_r_sample`, generalized_cliffords_simulation_strategy.py:123-134 and
mode_assignment_generalized_cliffords_simulation_strategy.py:55-66. -/
noncomputable def fillRSampleS (v : GccVariant) (o : GccObj) : ProgS (PermObj ℂ) GccObj :=
  ProgS.loop fuel (fun o => decide (v.count o.r < o.input.sum)) (fillStepS gray fuel junk v)
    { o with r := v.start o.input, key := v.start o.input }

/-- The loop of `simulate`, generalized_cliffords_simulation_strategy.py:70-72. -/
noncomputable def simulateLoopS (v : GccVariant) : ℕ → GccObj → ProgS (PermObj ℂ) (List (List ℕ) × GccObj)
  | 0, o => pure ([], o)
  | n + 1, o => do
    let o ← fillRSampleS gray fuel junk v o
    let sample ← ProgS.lift (v.occ o.input o.r)
    let (samples, o) ← simulateLoopS v n o
    pure (sample :: samples, o)

/-- `simulate`, generalized_cliffords_simulation_strategy.py:49-73 and
mode_assignment_generalized_cliffords_simulation_strategy.py:27-53. -/
noncomputable def gccSimulateS (v : GccVariant) (o : GccObj) (S : List ℕ) (N : ℤ) :
    ProgS (PermObj ℂ) (List (List ℕ) × GccObj) :=
  simulateLoopS gray fuel junk v N.toNat { o with input := S, labeled := labeledStates S, pmfs := [] }

/-- `_calculate_new_layer_of_pmfs`,
generalized_cliffords_uniform_losses_simulation_strategy.py:140-173. -/
noncomputable def gccuNewLayerS (o : GccuObj) : PyS (PermObj ℂ) GccuObj := do
  let inputs := (assocGet o.base.labeled (o.base.r.sum + 1)).getD []
  let weights ← PyS.lift (layerWeights o.base.input inputs)
  let outs := gccA.next o.base.input o.base.r
  let res ← outs.foldlM
    (fun (acc : List ℝ × (List ℝ × List ℝ)) out => do
      let p ← pmfEntryS gray fuel junk inputs weights out
      let d ← PyS.lift (recordEntry o.outputs o.binw out p acc.2)
      pure (acc.1 ++ [p], d)) (([] : List ℝ), (o.dist, o.udist))
  pure { o with
    base := { o.base with
      outs := assocSet o.base.outs o.base.key outs, pmfs := assocSet o.base.pmfs o.base.key res.1 }
    dist := res.2.1
    udist := res.2.2 }

/-- The loop over the photons in `_fill_r_sample`,
generalized_cliffords_uniform_losses_simulation_strategy.py:133-138. -/
noncomputable def gccuPhotonsS : ℕ → GccuObj → ProgS (PermObj ℂ) GccuObj
  | 0, o => pure o
  | n + 1, o => do
    let u ← ProgS.random
    if u ≥ o.eta then gccuPhotonsS n o
    else do
      let o ← ProgS.ofPyS (if assocGet o.base.pmfs o.base.key = none then gccuNewLayerS gray fuel junk o else pure o)
      let b ← sampleFromLatestPmfS o.base
      gccuPhotonsS n { o with base := b }

/-- `_fill_r_sample`, generalized_cliffords_uniform_losses_simulation_strategy.py:125-138: the sample
starts with as many modes as the calculator's matrix has rows. -/
noncomputable def gccuFillS (o : GccuObj) : ProgS (PermObj ℂ) GccuObj := do
  let U ← ProgS.ofPyS PermObj.getMatrix
  gccuPhotonsS gray fuel junk o.base.input.sum
    { o with base := { o.base with r := U.map fun _ => 0, key := U.map fun _ => 0 } }

/-- The loop of `simulate`, generalized_cliffords_uniform_losses_simulation_strategy.py:45-50. -/
noncomputable def gccuLoopS : ℕ → GccuObj → ProgS (PermObj ℂ) (List (List ℕ) × GccuObj)
  | 0, o => pure ([], o)
  | n + 1, o => do
    let o ← gccuFillS gray fuel junk o
    let (samples, o') ← gccuLoopS n o
    pure (o.base.r :: samples, o')

/-- `simulate`, generalized_cliffords_uniform_losses_simulation_strategy.py:35-50. -/
noncomputable def gccuSimulateS (o : GccuObj) (S : List ℕ) (N : ℤ) :
    ProgS (PermObj ℂ) (List (List ℕ) × GccuObj) := do
  let o ← ProgS.lift (gccuInitialize fuel o S)
  gccuLoopS gray fuel junk N.toNat o

end

section
variable (sub : CalcCfg ℂ → Py (List ℂ)) (fuel : ℕ)

/-- `_compute_pmf`, generalized_cliffords_b_simulation_strategy.py:69-92: the matrix is read from the
calculator, for the submatrix permanents (lines 73-75) and for the Laplace expansion (line 86), and the
input state is written to it (line 79). -/
noncomputable def gccbPmfS (cur r : List ℕ) : PyS (PermObj ℂ) (List ℝ) := do
  let U ← PermObj.getMatrix
  let perms ← PyS.lift (sub ⟨U, cur, r⟩)
  PermObj.setInput cur
  let pmf ← (List.range r.length).mapM fun m => do
    let permanent ← (List.range cur.length).foldlM
      (fun (acc : ℂ) i => do
        let c ← PyS.lift (pyGetN cur i)
        let p ← PyS.lift (pyGetN perms i)
        let U ← PermObj.getMatrix
        let row ← PyS.lift (pyGetN U m)
        let x ← PyS.lift (pyGetN row i)
        pure (acc + (c : ℂ) * p * x)) 0
    pure (Complex.normSq permanent)
  let total := pmf.sum
  PyS.lift (if total = 0 then .error .valueError else pure (pmf.map fun x => x / total))

/-- `_update_current_input`, generalized_cliffords_b_simulation_strategy.py:102-105. -/
def gccbUpdateInputS (s : GccbState) : ProgS (PermObj ℂ) GccbState := do
  let i ← ProgS.randBelow s.work.length
  let mode ← ProgS.lift (pyGetN s.work i)
  let x ← ProgS.lift (pyGetN s.cur mode)
  let cur ← ProgS.lift (pySetN s.cur mode (x + 1))
  pure { s with cur := cur, work := s.work.eraseIdx i }

/-- `_sample_from_pmf`, generalized_cliffords_b_simulation_strategy.py:107-110. -/
noncomputable def gccbSampleS (m : ℕ) (pmf : List ℝ) (s : GccbState) : ProgS (PermObj ℂ) GccbState := do
  let _ ← ProgS.lift (if pmf.length = m then pure () else .error .valueError : Py Unit)
  let j ← ProgS.categorical pmf
  let x ← ProgS.lift (pyGetN s.r j)
  let r ← ProgS.lift (pySetN s.r j (x + 1))
  pure { s with r := r }

/-- Loop body, generalized_cliffords_b_simulation_strategy.py:98-100. -/
noncomputable def gccbStepS (m : ℕ) (s : GccbState) : ProgS (PermObj ℂ) GccbState := do
  let s ← gccbUpdateInputS s
  let pmf ← ProgS.ofPyS (gccbPmfS sub s.cur s.r)
  gccbSampleS m pmf s

/-- `_fill_r_sample`, generalized_cliffords_b_simulation_strategy.py:94-100 and
generalized_cliffords_b_uniform_losses_simulation_strategy.py:111-121. -/
noncomputable def gccbFillS (S particles : List ℕ) (target : ℕ) : ProgS (PermObj ℂ) GccbState :=
  ProgS.loop fuel (fun s => decide (s.r.sum < target)) (gccbStepS sub S.length)
    { cur := S.map fun _ => 0, work := particles, r := S.map fun _ => 0 }

/-- The loop of `simulate`, generalized_cliffords_b_simulation_strategy.py:62-66. -/
noncomputable def gccbLoopS (S particles : List ℕ) : ℕ → ProgS (PermObj ℂ) (List (List ℕ))
  | 0 => pure []
  | n + 1 => do
    let s ← gccbFillS sub fuel S particles S.sum
    let samples ← gccbLoopS S particles n
    pure (s.r :: samples)

/-- `simulate`, generalized_cliffords_b_simulation_strategy.py:41-67. -/
noncomputable def gccbSimulateS (S : List ℕ) (N : ℤ) : ProgS (PermObj ℂ) (List (List ℕ)) := do
  let particles ← ProgS.lift (modeOccupationToModeAssignment S)
  gccbLoopS sub fuel S particles N.toNat

/-- The loop of `simulate`, generalized_cliffords_b_uniform_losses_simulation_strategy.py:103-108. -/
noncomputable def gccbLossyLoopS (S particles : List ℕ) (weights : List ℝ) : ℕ → ProgS (PermObj ℂ) (List (List ℕ))
  | 0 => pure []
  | n + 1 => do
    let threshold ← ProgS.random
    let s ← gccbFillS sub fuel S particles (scanIndex threshold weights 0)
    let samples ← gccbLossyLoopS S particles weights n
    pure (s.r :: samples)

/-- `simulate`, generalized_cliffords_b_uniform_losses_simulation_strategy.py:87-109. -/
noncomputable def gccbLossySimulateS (eta : ℝ) (S : List ℕ) (N : ℤ) : ProgS (PermObj ℂ) (List (List ℕ)) := do
  let particles ← ProgS.lift (modeOccupationToModeAssignment S)
  gccbLossyLoopS sub fuel S particles (gccbWeights S.sum eta) N.toNat

/-- `LossyNetworksGeneralizedCliffordsSimulationStrategy.simulate`,
lossy_networks_generalized_cliffords_simulation_strategy.py:53-83. -/
noncomputable def lossyNetSimulateS (S : List ℕ) (N : ℤ) : ProgS (PermObj ℂ) (List (List ℕ)) := do
  let samples ← gccbSimulateS sub fuel (S ++ S.map fun _ => 0) N
  ProgS.lift (samples.mapM fun out => trimTo fuel S.length out)

end

/-! ### Objects on a heap -/

/-- The classes of samplers that work with a permanent calculator given to their constructor:
generalized_cliffords_simulation_strategy.py, mode_assignment_generalized_cliffords_simulation_strategy.py,
generalized_cliffords_b_simulation_strategy.py, generalized_cliffords_uniform_losses_simulation_strategy.py,
generalized_cliffords_b_uniform_losses_simulation_strategy.py,
lossy_networks_generalized_cliffords_simulation_strategy.py. -/
inductive SamplerClass where
  | gcc
  | assignment
  | gccb
  | uniform (eta : ℝ)
  | uniformB (eta : ℝ)
  | lossyNet

/-- A sampler object: its class, the reference to its calculator, and the attributes that calls of
`simulate` leave behind (those of version B are set anew by every call). -/
structure SamplerObj where
  cls : SamplerClass
  perm : ℕ
  mem : GccuObj

/-- Permanent calculators and samplers; references are indices. -/
structure ShWorld where
  perms : List (PermObj ℂ)
  samplers : List SamplerObj

/-- Actions of a program. An exact calculator is given by its configuration and the reference to the
permanent calculator it was built with. -/
inductive ShOp where
  /-- a calculator of the type `kind` is built by the factory -/
  | newPerm (kind : ℤ) (cfg : CalcCfg ℂ)
  /-- `calculator.matrix = M` -/
  | setMatrix (p : ℕ) (M : Rows)
  /-- a sampler is built with the calculator `p` -/
  | newSampler (cls : SamplerClass) (p : ℕ)
  /-- `sampler.set_new_matrix(M)` -/
  | setNewMatrix (k : ℕ) (M : Rows)
  /-- `sampler.simulate(S, N)` -/
  | simulate (k : ℕ) (S : List ℕ) (N : ℤ)
  /-- a fixed-loss calculator computes probabilities with the calculator `p` -/
  | fixed (p : ℕ) (c : ExpConfig ℂ ℝ) (outcomes : List (List ℕ))
  /-- a uniform-loss calculator does; its workers start with the copies `copies i` of the calculator -/
  | uniform (p : ℕ) (u : UniformCalc ℂ ℝ) (copies : ℕ → CalcCfg ℂ × GuanScratch ℂ) (outcomes : List (List ℕ))

/-- What an action returns. -/
inductive ShResult where
  | unit (r : Py Unit)
  | samples (r : Py (List (List ℕ)))
  | probabilities (r : Py (List ℝ))

/-- What the actions depend on: the Gray code generator, the permanents of submatrices, the expansion of
lossy networks (`prepare_interferometer_matrix_in_expanded_space`), the hash of tuples, and what aborted
computations leave in the objects. -/
structure ShEnv where
  gray : ℕ → List ℕ
  sub : CalcCfg ℂ → Py (List ℂ)
  expand : Rows → Py Rows
  hash : List ℕ → ℤ
  fuel : ℕ
  junk : GuanScratch ℂ
  junkMem : GccuObj

/-- `simulate` of a sampler acting on its calculator: the samples and the attributes left behind. -/
noncomputable def samplerSimulate (E : ShEnv) (cls : SamplerClass) (mem : GccuObj) (S : List ℕ) (N : ℤ) :
    ProgS (PermObj ℂ) (List (List ℕ) × GccuObj) :=
  match cls with
  | .gcc => do
    let (l, o) ← gccSimulateS E.gray E.fuel E.junk gccA mem.base S N
    pure (l, { mem with base := o })
  | .assignment => do
    let (l, o) ← gccSimulateS E.gray E.fuel E.junk gccAssignment mem.base S N
    pure (l, { mem with base := o })
  | .gccb => do
    let l ← gccbSimulateS E.sub E.fuel S N
    pure (l, mem)
  | .uniform eta => gccuSimulateS E.gray E.fuel E.junk { mem with eta := eta } S N
  | .uniformB eta => do
    let l ← gccbLossySimulateS E.sub E.fuel eta S N
    pure (l, mem)
  | .lossyNet => do
    let l ← lossyNetSimulateS E.sub E.fuel S N
    pure (l, mem)

/-- The matrix a sampler puts into its calculator when it is given `M` by `set_new_matrix`
(generalized_cliffords_simulation_strategy.py:40-47,
lossy_networks_generalized_cliffords_simulation_strategy.py:85-88). -/
def givenMatrix (E : ShEnv) (cls : SamplerClass) (M : Rows) : Py Rows :=
  match cls with
  | .lossyNet => E.expand M
  | _ => .ok M

/-- One action. References that do not exist raise `IndexError`. -/
noncomputable def shStep (E : ShEnv) (w : ShWorld) : ShOp → Prog (ShResult × ShWorld)
  | .newPerm kind cfg =>
    pure (.unit (.ok ()), { w with perms := w.perms ++ [⟨kind, cfg, freshScratch cfg⟩] })
  | .setMatrix p M =>
    match w.perms[p]? with
    | none => pure (.unit (.error .indexError), w)
    | some o => pure (.unit (.ok ()), { w with perms := w.perms.set p { o with cfg := { o.cfg with matrix := M } } })
  -- the constructors; that of lossy networks also sets the calculator's matrix,
  -- lossy_networks_generalized_cliffords_simulation_strategy.py:41-51
  | .newSampler cls p =>
    match w.perms[p]? with
    | none => pure (.unit (.error .indexError), w)
    | some o =>
      match givenMatrix E cls o.cfg.matrix with
      | .error e => pure (.unit (.error e), w)
      | .ok X => pure (.unit (.ok ()),
          { perms := w.perms.set p { o with cfg := { o.cfg with matrix := X } }
            samplers := w.samplers ++ [⟨cls, p, gccuInit 0 false⟩] })
  | .setNewMatrix k M =>
    match w.samplers[k]? with
    | none => pure (.unit (.error .indexError), w)
    | some s =>
      match w.perms[s.perm]? with
      | none => pure (.unit (.error .indexError), w)
      | some o =>
        match givenMatrix E s.cls M with
        | .error e => pure (.unit (.error e), w)
        | .ok X => pure (.unit (.ok ()), { w with perms := w.perms.set s.perm { o with cfg := { o.cfg with matrix := X } } })
  | .simulate k S N =>
    match w.samplers[k]? with
    | none => pure (.samples (.error .indexError), w)
    | some s =>
      match w.perms[s.perm]? with
      | none => pure (.samples (.error .indexError), w)
      | some o => do
        let (r, o') ← samplerSimulate E s.cls s.mem S N o
        let w := { w with perms := w.perms.set s.perm o' }
        match r with
        | .ok (l, mem) => pure (.samples (.ok l), { w with samplers := w.samplers.set k { s with mem := mem } })
        | .error e => pure (.samples (.error e), { w with samplers := w.samplers.set k { s with mem := E.junkMem } })
  | .fixed p c outcomes =>
    match w.perms[p]? with
    | none => pure (.probabilities (.error .indexError), w)
    | some o =>
      let x := fixedLossProbabilitiesS Complex.normSq E.gray E.fuel E.junk E.hash c outcomes o
      pure (.probabilities x.1, { w with perms := w.perms.set p x.2 })
  | .uniform p u copies outcomes =>
    match w.perms[p]? with
    | none => pure (.probabilities (.error .indexError), w)
    | some o =>
      pure (.probabilities (uniformProbabilitiesS Complex.normSq E.gray E.fuel E.junk E.hash u
        (fun i => ⟨o.kind, (copies i).1, (copies i).2⟩) outcomes), w)

/-- The results of a sequence of actions. -/
noncomputable def shRun (E : ShEnv) : ShWorld → List ShOp → Prog (List ShResult)
  | _, [] => pure []
  | w, op :: ops => do
    let (r, w') ← shStep E w op
    let rs ← shRun E w' ops
    pure (r :: rs)

end Verif
