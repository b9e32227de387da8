import Verif.Model.Distributions

/-!
The exact distribution calculators with the permanent calculator as the mutable object it is in the
code: `Model/Distributions.lean` treats it as a function; here every setter call and every
`compute_permanent()` acts on an object that may be shared with other users.
-/
namespace Verif

variable {K R : Type} [Field K] [Field R] [DecidableEq R]

/-- Python code acting on an object of type `σ`: it returns or raises, and the object keeps the
changes made before an exception. -/
def PyS (σ α : Type) : Type := σ → Py α × σ

instance (σ : Type) : Monad (PyS σ) where
  pure a := fun s => (.ok a, s)
  bind m f := fun s =>
    match m s with
    | (.ok a, s') => f a s'
    | (.error e, s') => (.error e, s')

/-- Code that does not touch the object. -/
def PyS.lift {σ α : Type} (x : Py α) : PyS σ α := fun s => (x, s)

/-- A permanent calculator object built by the factory (bs_permanent_calculator_factory.py:80-115):
its type, the attributes set from outside, and the private attributes of the Guan-code based
calculators (bs_permanent_calculator_base.py:22-59,79-106). -/
structure PermObj (K : Type) where
  kind : Int
  cfg : CalcCfg K
  scratch : GuanScratch K

/-- `compute_permanent()` on the object; `junk` is what an aborted computation leaves behind. -/
def PermObj.run (gray : Nat → List Nat) (fuel : Nat) (junk : GuanScratch K) (o : PermObj K) :
    Py K × PermObj K :=
  if o.kind = 1 then (classicPermanent o.cfg, o)
  else if o.kind = 2 then (glynnPermanent gray o.cfg, o)
  else
    match computePermanent (if o.kind = 4 then ryserMethod else chinHuhMethod) fuel o.cfg o.scratch with
    | .ok (p, s) => (.ok p, { o with scratch := s })
    | .error e => (.error e, { o with scratch := junk })

@[inherit_doc PermObj.run]
def PermObj.compute (gray : Nat → List Nat) (fuel : Nat) (junk : GuanScratch K) :
    PyS (PermObj K) K := fun o => o.run gray fuel junk

/-- The setters `matrix`, `input_state`, `output_state` (bs_permanent_calculator_base.py:37-59). -/
def PermObj.setAll (c : CalcCfg K) : PyS (PermObj K) Unit := fun o => (.ok (), { o with cfg := c })

/-- `__compute_probability_of_outcome_state_for_indistinguishable_photons`,
bs_distribution_calculator_with_fixed_losses.py:108-151, acting on the permanent calculator. -/
def probabilityForIndistinguishableS (nsq : K → R) (gray : Nat → List Nat) (fuel : Nat)
    (junk : GuanScratch K) (hash : List Nat → Int) (c : ExpConfig K R) (outcome : List Nat) :
    PyS (PermObj K) R := do
  let lossyInputs ← PyS.lift (generateLossyNParticleInputStates hash c.initialState c.left)
  let (p, lossyInput) ← lossyInputs.foldlM
    (fun (st : R × Option (List Nat)) lossyInput => do
      let mult ← PyS.lift (lossyInputMultiplicity c.initialState lossyInput)
      PermObj.setAll ⟨c.matrix, lossyInput, outcome⟩
      let x ← PermObj.compute gray fuel junk
      let sub ← PyS.lift
        (lossyInput.foldlM (fun (sub : R) (o : Nat) => floatDiv sub (o.factorial : R)) (nsq x))
      pure (st.1 + sub * (mult : R), some lossyInput)) (0, none)
  match lossyInput with
  | none => PyS.lift (.error .nameError)
  | some l => do
    let p ← PyS.lift (floatDiv p ((l.sum.factorial : Nat) : R))
    PyS.lift (floatDiv p ((c.initialNumber.choose c.left : Nat) : R))

/-- `__calculate_probability_of_outcome`,
bs_distribution_calculator_with_fixed_losses.py:84-106. -/
def fixedLossOutcomeS (nsq : K → R) (gray : Nat → List Nat) (fuel : Nat) (junk : GuanScratch K)
    (hash : List Nat → Int) (c : ExpConfig K R) (outcome : List Nat) : PyS (PermObj K) R := do
  let p ← probabilityForIndistinguishableS nsq gray fuel junk hash c outcome
  PyS.lift ((List.range c.modes).foldlM
    (fun (p : R) i => do
      let t ← pyGetN outcome i
      floatDiv p ((t.factorial : Nat) : R))
    (p * ((c.left.factorial : Nat) : R)))

/-- `calculate_probabilities_of_outcomes`,
bs_distribution_calculator_with_fixed_losses.py:65-82. -/
def fixedLossProbabilitiesS (nsq : K → R) (gray : Nat → List Nat) (fuel : Nat)
    (junk : GuanScratch K) (hash : List Nat → Int) (c : ExpConfig K R)
    (outcomes : List (List Nat)) : PyS (PermObj K) (List R) :=
  outcomes.mapM (fixedLossOutcomeS nsq gray fuel junk hash c)

/-- `_calculate_probability_of_outcome`, bs_exact_distribution_with_uniform_losses.py:73-97. -/
def uniformOutcomeS (nsq : K → R) (gray : Nat → List Nat) (fuel : Nat) (junk : GuanScratch K)
    (hash : List Nat → Int) (u : UniformCalc K R) (outcome : List Nat) : PyS (PermObj K) R := do
  let l := outcome.sum
  if l = 0 then
    PyS.lift (pyGetN u.weights 0)
  else
    let n := u.config.initialNumber
    let sub := { u.config with left := l, lost := (n : Int) - l }
    let ps ← fixedLossProbabilitiesS nsq gray fuel junk hash sub [outcome]
    let p ← PyS.lift (pyGetN ps 0)
    let w ← PyS.lift (pyGetN u.weights l)
    pure (p * w)

/-- `calculate_probabilities_of_outcomes`, bs_exact_distribution_with_uniform_losses.py:62-71.
The workers of the pool get copies of the calculator, one per chunk of outcomes; `start i` is the
state of the copy that treats the `i`-th outcome.  The caller's object is not changed. -/
def uniformProbabilitiesS (nsq : K → R) (gray : Nat → List Nat) (fuel : Nat)
    (junk : GuanScratch K) (hash : List Nat → Int) (u : UniformCalc K R) (start : Nat → PermObj K)
    (outcomes : List (List Nat)) : Py (List R) :=
  outcomes.zipIdx.mapM fun p => (uniformOutcomeS nsq gray fuel junk hash u p.1 (start p.2)).1

/-- What may happen to a permanent calculator object shared by several users: a fixed-loss
calculator with configuration `c`, or a uniform-loss calculator `u`, uses it to compute the
probabilities of some outcomes, or somebody else leaves it with other contents. -/
inductive SharedOp (K R : Type) where
  | fixed (c : ExpConfig K R) (outcomes : List (List Nat))
  | uniform (u : UniformCalc K R) (start : Nat → PermObj K) (outcomes : List (List Nat))
  | other (cfg : CalcCfg K) (scratch : GuanScratch K)

/-- The results of the computations of a history. -/
def runShared (nsq : K → R) (gray : Nat → List Nat) (fuel : Nat) (junk : GuanScratch K)
    (hash : List Nat → Int) : List (SharedOp K R) → PermObj K → List (Py (List R))
  | [], _ => []
  | .fixed c outcomes :: ops, o =>
    (fixedLossProbabilitiesS nsq gray fuel junk hash c outcomes o).1 ::
      runShared nsq gray fuel junk hash ops
        (fixedLossProbabilitiesS nsq gray fuel junk hash c outcomes o).2
  | .uniform u start outcomes :: ops, o =>
    uniformProbabilitiesS nsq gray fuel junk hash u start outcomes ::
      runShared nsq gray fuel junk hash ops o
  | .other cfg scratch :: ops, o =>
    runShared nsq gray fuel junk hash ops { o with cfg := cfg, scratch := scratch }

end Verif
