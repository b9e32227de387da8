import Verif.Model.SharedSamplers

/-!
Specification for objects sharing permanent calculators: the only thing that matters about a
calculator is its type and its current matrix, and every call of a sampler is an independent run of
the functional model of its class.
-/
namespace Verif

open Classical in
/-- The results of a program with exceptions as values. -/
noncomputable def Prog.attempt {α : Type} : Prog α → Prog (Py α)
  | .done r => .done (.ok r)
  | .uniform k => .uniform fun u => (k u).attempt
  | .randint n k => if n = 0 then .done (.ok (.error .valueError)) else .randint n fun i => (k i).attempt
  | .choice p k => if IsProbVector p then .choice p fun i => (k i).attempt else .done (.ok (.error .valueError))
  | .shuffle n k => .shuffle n fun l => (k l).attempt

/-- `simulate` of a new sampler whose calculator has type `t` and matrix `U`. -/
noncomputable def samplerLaw (E : ShEnv) (t : ℤ) (U : Rows) : SamplerClass → Strategy
  | .gcc => gccStrategy gccA (factoryPermanent E.gray t E.fuel) U E.fuel gccInit
  | .assignment => gccStrategy gccAssignment (factoryPermanent E.gray t E.fuel) U E.fuel gccInit
  | .gccb => gccbStrategy E.sub U E.fuel
  | .uniform eta => gccuStrategy (factoryPermanent E.gray t E.fuel) U E.fuel (gccuInit eta false)
  | .uniformB eta => gccbLossyStrategy E.sub U E.fuel eta
  | .lossyNet => fun S N => do
    let samples ← gccbSimulate E.sub U E.fuel (S ++ S.map fun _ => 0) N
    (samples.mapM fun out => trimTo E.fuel S.length out : Py _)

/-- The matrix in the calculator of a sampler that was built for, or given, the matrix `M`: the expanded one
for lossy networks, `M` for all others. -/
def heldMatrix (E : ShEnv) : SamplerClass → Rows → Py Rows
  | .gcc, M => .ok M
  | .assignment, M => .ok M
  | .gccb, M => .ok M
  | .uniform _, M => .ok M
  | .uniformB _, M => .ok M
  | .lossyNet, M => E.expand M

/-- The type and the matrix of every calculator; the class of every sampler and its calculator. -/
structure ShState where
  perms : List (ℤ × Rows)
  samplers : List (SamplerClass × ℕ)

/-- The computation of a fixed-loss calculator reaches the point where it sets the matrix of the permanent
calculator: there is an outcome, and a lossy input whose multiplicity can be computed. -/
def SetsMatrix (hash : List ℕ → ℤ) (c : ExpConfig ℂ ℝ) (outcomes : List (List ℕ)) : Prop :=
  outcomes ≠ [] ∧ ∃ l L x, generateLossyNParticleInputStates hash c.initialState c.left = .ok (l :: L) ∧
    lossyInputMultiplicity c.initialState l = .ok x

open Classical in
/-- The state after an action: matrices are written by the setter, by `set_new_matrix` of any sampler with
this calculator, by the constructor of samplers for lossy networks, and by fixed-loss calculators. -/
noncomputable def shNext (E : ShEnv) (a : ShState) : ShOp → ShState
  | .newPerm kind cfg => { a with perms := a.perms ++ [(kind, cfg.matrix)] }
  | .setMatrix p M => { a with perms := a.perms.modify p fun x => (x.1, M) }
  | .newSampler cls p =>
    match a.perms[p]? with
    | none => a
    | some (t, M) =>
      match heldMatrix E cls M with
      | .error _ => a
      | .ok X => { perms := a.perms.set p (t, X), samplers := a.samplers ++ [(cls, p)] }
  | .setNewMatrix k M =>
    match a.samplers[k]? with
    | none => a
    | some (cls, p) =>
      match heldMatrix E cls M with
      | .error _ => a
      | .ok X => { a with perms := a.perms.modify p fun x => (x.1, X) }
  | .simulate _ _ _ => a
  | .fixed p c outcomes =>
    if SetsMatrix E.hash c outcomes then { a with perms := a.perms.modify p fun x => (x.1, c.matrix) } else a
  | .uniform _ _ _ _ => a

/-- The result of an action. -/
noncomputable def shResult (E : ShEnv) (a : ShState) : ShOp → Prog ShResult
  | .newPerm _ _ => pure (.unit (.ok ()))
  | .setMatrix p _ => pure (.unit (if p < a.perms.length then .ok () else .error .indexError))
  | .newSampler cls p =>
    match a.perms[p]? with
    | none => pure (.unit (.error .indexError))
    | some (_, M) => pure (.unit ((heldMatrix E cls M).map fun _ => ()))
  | .setNewMatrix k M =>
    match a.samplers[k]? with
    | none => pure (.unit (.error .indexError))
    | some (cls, p) => pure (.unit (if p < a.perms.length then (heldMatrix E cls M).map fun _ => () else .error .indexError))
  | .simulate k S N =>
    match a.samplers[k]? with
    | none => pure (.samples (.error .indexError))
    | some (cls, p) =>
      match a.perms[p]? with
      | none => pure (.samples (.error .indexError))
      | some (t, U) => do
        let r ← (samplerLaw E t U cls S N).attempt
        pure (.samples r)
  | .fixed p c outcomes =>
    match a.perms[p]? with
    | none => pure (.probabilities (.error .indexError))
    | some (t, _) =>
      pure (.probabilities (fixedLossProbabilities Complex.normSq (factoryPermanent E.gray t E.fuel) E.hash c outcomes))
  | .uniform p u _ outcomes =>
    match a.perms[p]? with
    | none => pure (.probabilities (.error .indexError))
    | some (t, _) =>
      pure (.probabilities (uniformProbabilities Complex.normSq (factoryPermanent E.gray t E.fuel) E.hash u outcomes))

/-- The results of a sequence of actions: every result depends only on the state, and the states do not
depend on the results. -/
noncomputable def shSpec (E : ShEnv) : ShState → List ShOp → Prog (List ShResult)
  | _, [] => pure []
  | a, op :: ops => do
    let r ← shResult E a op
    let rs ← shSpec E (shNext E a op) ops
    pure (r :: rs)

/-- The state after a sequence of actions. -/
noncomputable def shState (E : ShEnv) (a : ShState) (ops : List ShOp) : ShState := ops.foldl (shNext E) a

/-- The type and the matrix of every calculator of a heap; the class of every sampler and its calculator. -/
def ShWorld.view (w : ShWorld) : ShState :=
  ⟨w.perms.map fun o => (o.kind, o.cfg.matrix), w.samplers.map fun s => (s.cls, s.perm)⟩

/-- The action may put another matrix into the calculator `p`: the setter, `set_new_matrix` of a sampler with
this calculator, the constructor of a sampler for lossy networks, a fixed-loss calculator. -/
def Writes (a : ShState) (p : ℕ) : ShOp → Prop
  | .setMatrix q _ => q = p
  | .newSampler .lossyNet q => q = p
  | .setNewMatrix k _ => ∃ cls, a.samplers[k]? = some (cls, p)
  | .fixed q _ _ => q = p
  | _ => False

/-- None of the actions may put another matrix into the calculator `p`. -/
def NoWrites (E : ShEnv) (p : ℕ) : ShState → List ShOp → Prop
  | _, [] => True
  | a, op :: ops => ¬ Writes a p op ∧ NoWrites E p (shNext E a op) ops

/-- Expectation of a function of the result of the last action. -/
noncomputable def lastResult (f : ShResult → ENNReal) : Py (List ShResult) → ENNReal
  | .ok rs => (rs.getLast?.map f).getD 0
  | .error _ => 0

end Verif
