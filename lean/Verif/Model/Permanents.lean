import Verif.Model.GuanCode
import Verif.Model.Utilities
import Mathlib.Algebra.Field.Defs

/-!
Model of the permanent calculators
(`theboss/boson_sampling_utilities/permanent_calculators/*.py`), over an arbitrary field `K` in
place of `complex128` (exact arithmetic).
-/
namespace Verif

variable {K : Type _} [Field K]

/-- Python dictionary read, `KeyError` when absent. -/
def dictGet {V : Type _} (d : List (Nat × V)) (k : Nat) : Py V :=
  match d.find? (fun p => p.1 == k) with
  | none => .error .keyError
  | some p => .ok p.2

/-- Python dictionary write (insertion order kept). -/
def dictSet {V : Type _} (d : List (Nat × V)) (k : Nat) (v : V) : List (Nat × V) :=
  if d.any (fun p => p.1 == k) then d.map fun p => if p.1 == k then (k, v) else p
  else d ++ [(k, v)]

/-- `numpy.nonzero(state)[0]`. -/
def npNonzero (state : List Nat) : List Nat :=
  (List.range state.length).filter fun i => state.getD i 0 != 0

/-- `matrix[i][j]`. -/
def matGet {K : Type _} (m : List (List K)) (i j : Nat) : Py K := do
  let row ← pyGetN m i
  pyGetN row j

/-- The public attributes of a permanent calculator, set by the constructor and the setters:
bs_permanent_calculator_base.py:22-59. -/
structure CalcCfg (K : Type _) where
  matrix : List (List K)
  input : List Nat
  output : List Nat

/-- The private attributes of a Guan-code calculator, bs_permanent_calculator_base.py:89-113. -/
structure GuanScratch (K : Type _) where
  guan : GuanVars
  multiplier : K
  binomials : K
  permanent : K
  sums : List (Nat × K)
  considered : List Nat

/-- `_can_calculation_be_performed`, bs_permanent_calculator_base.py:61-72. -/
def canCalculationBePerformed (c : CalcCfg K) : Py Bool := do
  let row ← pyGetN c.matrix 0
  pure (decide (c.matrix.length = row.length ∧ c.output.length = c.input.length ∧
    c.output.length ≤ row.length))

/-- `_initialize_permanent_computation` of the base class,
bs_permanent_calculator_base.py:103-113. -/
def initBase (c : CalcCfg K) (s : GuanScratch K) : GuanScratch K :=
  { guan := initGuanVars c.input s.guan
    multiplier := 1
    considered := npNonzero c.output
    permanent := 0
    sums := []
    binomials := 1 }

/-- `_update_permanent`, bs_permanent_calculator_base.py:200-209. -/
def updatePermanent (c : CalcCfg K) (s : GuanScratch K) : Py (GuanScratch K) := do
  let factors ← s.considered.mapM (fun j => do
    let w ← dictGet s.sums j
    let t ← pyGetN c.output j
    pure (w ^ t))
  pure { s with permanent := s.permanent + factors.foldl (· * ·) (s.multiplier * s.binomials) }

/-- `_update_binomials_product`, bs_permanent_calculator_base.py:151-164
(bs_submatrices_permanent_calculator_base.py:135-148). -/
def updateBinomials (input : List Nat) (g : GuanVars) (binomials : K) : Py K := do
  let r ← pyGetN g.rVector g.index
  let s ← pyGetN input g.index
  if r > g.last then
    let q ← pyDivInt (((s : Int) - g.last : Int) : K) r
    pure (binomials * q)
  else
    let q ← pyDivInt ((g.last : Int) : K) ((s : Int) - r)
    pure (binomials * q)

/-- What distinguishes the Guan-code calculators: the initialisation and `_update_sums`. -/
structure GuanMethod (K : Type _) where
  init : CalcCfg K → GuanScratch K → Py (GuanScratch K)
  updateSums : CalcCfg K → GuanScratch K → Py (GuanScratch K)

/-- The main loop of `compute_permanent`, bs_permanent_calculator_base.py:185-198. -/
def guanMain (meth : GuanMethod K) (c : CalcCfg K) : Nat → GuanScratch K → Py (GuanScratch K)
  | 0, _ => .error .outOfFuel
  | fuel + 1, s => do
    let rl ← pyGet s.guan.rVector (-1)
    let ll ← pyGet s.guan.limits (-1)
    if rl ≤ ll then
      let g ← updateGuanCode s.guan
      if g.index = g.rVector.length then
        pure { s with guan := g }
      else
        let s := { s with guan := g, multiplier := -s.multiplier }
        let s ← meth.updateSums c s
        let b ← updateBinomials c.input s.guan s.binomials
        let s := { s with binomials := b }
        let s ← updatePermanent c s
        guanMain meth c fuel s
    else
      pure s

/-- `compute_permanent`, bs_permanent_calculator_base.py:166-198: the returned permanent and the
private attributes afterwards. -/
def computePermanent (meth : GuanMethod K) (fuel : Nat) (c : CalcCfg K) (s : GuanScratch K) :
    Py (K × GuanScratch K) := do
  if ← canCalculationBePerformed c then
    let s ← meth.init c s
    let s ← guanMain meth c fuel s
    pure (s.permanent, s)
  else
    .error .attributeError

/-- `RyserPermanentCalculator`, ryser_permanent_calculator.py:45-64. -/
def ryserMethod : GuanMethod K where
  init c s := do
    let s := initBase c s
    let s := { s with multiplier := (-1) ^ c.input.sum }
    let s := { s with sums := s.considered.foldl (fun d j => dictSet d j 0) s.sums }
    updatePermanent c s
  updateSums c s := do
    let sums ← s.sums.mapM (fun p => do
      let r ← pyGetN s.guan.rVector s.guan.index
      let u ← matGet c.matrix p.1 s.guan.index
      pure (p.1, p.2 + ((r - s.guan.last : Int) : K) * u))
    pure { s with sums := sums }

/-- `ChinHuhPermanentCalculator`, chin_huh_permanent_calculator.py:38-59. -/
def chinHuhMethod : GuanMethod K where
  init c s := do
    let s := initBase c s
    let s := { s with multiplier := 1 / 2 ^ c.input.sum }
    let sums ← s.considered.foldlM (fun d i => do
      let w ← (List.range c.input.length).foldlM (fun (acc : K) j => do
        let x ← pyGetN c.input j
        let u ← matGet c.matrix i j
        pure (acc + (x : K) * u)) 0
      pure (dictSet d i w)) s.sums
    updatePermanent c { s with sums := sums }
  updateSums c s := do
    let sums ← s.sums.mapM (fun p => do
      let r ← pyGetN s.guan.rVector s.guan.index
      let u ← matGet c.matrix p.1 s.guan.index
      pure (p.1, p.2 - 2 * ((r - s.guan.last : Int) : K) * u))
    pure { s with sums := sums }

/-- The private attributes of a freshly constructed calculator,
bs_permanent_calculator_base.py:81-101 (attributes that are only declared get junk values). -/
def freshScratch (c : CalcCfg K) : GuanScratch K :=
  { guan :=
      { rVector := List.replicate c.input.length 0
        codeUpdate := List.replicate c.input.length 1
        limits := c.input.map fun (x : Nat) => (x : Int)
        index := 0
        last := 0 }
    multiplier := 1
    binomials := 1
    permanent := 0
    sums := []
    considered := [] }

/-- A fresh Ryser calculator's `compute_permanent()`. -/
def ryserPermanent (fuel : Nat) (c : CalcCfg K) : Py K := do
  let r ← computePermanent ryserMethod fuel c (freshScratch c)
  pure r.1

/-- A fresh Chin–Huh calculator's `compute_permanent()`. -/
def chinHuhPermanent (fuel : Nat) (c : CalcCfg K) : Py K := do
  let r ← computePermanent chinHuhMethod fuel c (freshScratch c)
  pure r.1

/-! ### Glynn -/

/-- One iteration of the Glynn loop, glynn_gray_permanent_calculator.py:60-67. -/
def glynnStep (a : List (List K)) (st : K × List Int × List K × K) (i : Nat) :
    Py (K × List Int × List K × K) := do
  let (mult, delta, sums, perm) := st
  let mult := -mult
  let d ← pyGetN delta i
  let delta ← pySetN delta i (-d)
  let sums ← (List.range sums.length).foldlM (fun (sums : List K) j => do
    let w ← pyGetN sums j
    let d ← pyGetN delta i
    let u ← matGet a i j
    pySetN sums j (w + 2 * (d : K) * u)) sums
  pure (mult, delta, sums, perm + mult * sums.foldl (· * ·) 1)

/-- `GlynnGrayPermanentCalculator.compute_permanent`, glynn_gray_permanent_calculator.py:41-84.
`gray` is `guancodes.GrayCode.get_gray_code_update_indices` (external). -/
def glynnPermanent (gray : Nat → List Nat) (c : CalcCfg K) : Py K := do
  let a ← effectiveScatteringMatrix c.matrix c.input c.output
  if a.length = 0 then
    pure 1
  else
    let delta : List Int := List.replicate a.length 1
    let sums ← (List.range a.length).foldlM (fun (sums : List K) j => do
      let w ← (List.range delta.length).foldlM (fun (acc : K) i => do
        let d ← pyGetN delta i
        let u ← matGet a i j
        pure (acc + (d : K) * u)) 0
      pure (sums ++ [w])) []
    let st ← (gray (a.length - 1)).foldlM (glynnStep a) (1, delta, sums, 1 * sums.foldl (· * ·) 1)
    pure (st.2.2.2 / 2 ^ (a.length - 1))

/-! ### Classic -/

/-- `_permanent_recursive_part`, classic_permanent_calculator.py:49-67.  `rows`, `cols` are
`mtx.shape`; `todo` is `mtx.shape[1] - column`. -/
def classicRec (a : List (List K)) (rows cols : Nat) : Nat → List Nat → K → Py K
  | 0, _, prod => pure prod
  | todo + 1, selected, prod =>
    (List.range rows).foldlM (fun (result : K) row =>
      if row ∈ selected then pure result
      else do
        let u ← matGet a row (cols - (todo + 1))
        let x ← classicRec a rows cols todo (selected ++ [row]) (prod * u)
        pure (result + x)) 0

/-- `ClassicPermanentCalculator.compute_permanent`, classic_permanent_calculator.py:27-47.
`asarray([])` is one-dimensional, so reading `shape[1]` raises `IndexError` when the scattering
matrix is empty. -/
def classicPermanent (c : CalcCfg K) : Py K := do
  if c.input.sum = 0 then
    if c.output.sum = 0 then pure 1 else pure 0
  else
    let a ← effectiveScatteringMatrix c.matrix c.input c.output
    match a with
    | [] => .error .indexError
    | r :: rs => classicRec (r :: rs) (r :: rs).length r.length r.length [] 1

/-! ### Factory -/

/-- `BSPermanentCalculatorFactory.generate_calculator().compute_permanent()`,
bs_permanent_calculator_factory.py:29-54,80-115.  The calculator type is an `IntEnum`
(CLASSIC = 1, GLYNN = 2, CHIN_HUH = 3, RYSER = 4); other keys fall back to Chin–Huh. -/
def factoryPermanent (gray : Nat → List Nat) (calculatorType : Int) (fuel : Nat) (c : CalcCfg K) :
    Py K :=
  if calculatorType = 1 then classicPermanent c
  else if calculatorType = 2 then glynnPermanent gray c
  else if calculatorType = 3 then chinHuhPermanent fuel c
  else if calculatorType = 4 then ryserPermanent fuel c
  else chinHuhPermanent fuel c

/-! ### Histories -/

/-- Calls on one calculator object: the setters (bs_permanent_calculator_base.py:37-59) and
`compute_permanent`.  An aborted `compute_permanent` (exception) leaves the private attributes
half-way updated; `junk` stands for whatever they are then. -/
inductive CalcOp (K : Type _) where
  | setMatrix (m : List (List K))
  | setInput (s : List Nat)
  | setOutput (s : List Nat)
  | compute (junk : GuanScratch K)

/-- Run a history on a calculator object; the results of the `compute_permanent` calls. -/
def runCalc (meth : GuanMethod K) (fuel : Nat) :
    List (CalcOp K) → CalcCfg K → GuanScratch K → List (Py K)
  | [], _, _ => []
  | .setMatrix m :: ops, c, s => runCalc meth fuel ops { c with matrix := m } s
  | .setInput x :: ops, c, s => runCalc meth fuel ops { c with input := x } s
  | .setOutput x :: ops, c, s => runCalc meth fuel ops { c with output := x } s
  | .compute junk :: ops, c, s =>
    match computePermanent meth fuel c s with
    | .ok (p, s') => .ok p :: runCalc meth fuel ops c s'
    | .error e => .error e :: runCalc meth fuel ops c junk

end Verif
