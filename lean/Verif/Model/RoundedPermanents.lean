import Verif.Spec.ComplexFloats
import Verif.Model.Permanents

/-!
The permanent calculators in floating-point arithmetic. Complex numbers are added, subtracted, multiplied and
raised to powers by `A : ComplexArith`; real numbers are rounded by `R : Rounding`. Integers are exact, as
in Python; an integer or a real number in an operation with a complex number is converted first.

The functions are those of `Permanents.lean`, with the rounded operations in the order of the source.
-/
namespace Verif

variable (R : Rounding) (A : ComplexArith)

/-- The private attributes of a Guan-code calculator, bs_permanent_calculator_base.py:89-113, as they are
stored. -/
structure GuanScratchR where
  guan : GuanVars
  multiplier : ℝ
  binomials : ℝ
  permanent : ℂ
  sums : List (ℕ × ℂ)
  considered : List ℕ

/-- `_initialize_permanent_computation` of the base class, bs_permanent_calculator_base.py:103-113, for a
new object. -/
noncomputable def initBaseR (c : CalcCfg ℂ) : GuanScratchR :=
  { guan := initGuanVars c.input (freshScratch c).guan
    multiplier := 1
    considered := npNonzero c.output
    permanent := 0
    sums := []
    binomials := 1 }

/-- `_update_permanent`, bs_permanent_calculator_base.py:200-209. -/
noncomputable def updatePermanentR (c : CalcCfg ℂ) (s : GuanScratchR) : Py GuanScratchR := do
  let factors ← s.considered.mapM (fun j => do
    let w ← dictGet s.sums j
    let t ← pyGetN c.output j
    pure (A.pow w t))
  pure { s with permanent := A.add s.permanent (factors.foldl A.mul (R.rnd (s.multiplier * s.binomials) : ℝ)) }

/-- `_update_binomials_product`, bs_permanent_calculator_base.py:151-164. -/
noncomputable def updateBinomialsR (input : List ℕ) (g : GuanVars) (binomials : ℝ) : Py ℝ := do
  let r ← pyGetN g.rVector g.index
  let s ← pyGetN input g.index
  if r > g.last then
    let q ← pyDivInt (((s : Int) - g.last : Int) : ℝ) r
    pure (R.rnd (binomials * R.rnd q))
  else
    let q ← pyDivInt ((g.last : Int) : ℝ) ((s : Int) - r)
    pure (R.rnd (binomials * R.rnd q))

/-- What distinguishes the Guan-code calculators: the initialisation and `_update_sums`. -/
structure GuanMethodR where
  init : CalcCfg ℂ → Py GuanScratchR
  updateSums : CalcCfg ℂ → GuanScratchR → Py GuanScratchR

/-- The main loop of `compute_permanent`, bs_permanent_calculator_base.py:185-198. -/
noncomputable def guanMainR (meth : GuanMethodR) (c : CalcCfg ℂ) : ℕ → GuanScratchR → Py GuanScratchR
  | 0, _ => .error .outOfFuel
  | fuel + 1, s => do
    let rl ← pyGet s.guan.rVector (-1)
    let ll ← pyGet s.guan.limits (-1)
    if rl ≤ ll then
      let g ← updateGuanCode s.guan
      if g.index = g.rVector.length then
        pure { s with guan := g }
      else
        let s := { s with guan := g, multiplier := -s.multiplier }
        let s ← meth.updateSums c s
        let b ← updateBinomialsR R c.input s.guan s.binomials
        let s := { s with binomials := b }
        let s ← updatePermanentR R A c s
        guanMainR meth c fuel s
    else
      pure s

/-- `compute_permanent`, bs_permanent_calculator_base.py:166-198, of a new object. -/
noncomputable def computePermanentR (meth : GuanMethodR) (fuel : ℕ) (c : CalcCfg ℂ) : Py ℂ := do
  if ← canCalculationBePerformed c then
    let s ← meth.init c
    let s ← guanMainR R A meth c fuel s
    pure s.permanent
  else
    .error .attributeError

/-- `RyserPermanentCalculator`, ryser_permanent_calculator.py:45-64. -/
noncomputable def ryserMethodR : GuanMethodR where
  init c := do
    let s := initBaseR c
    let s := { s with multiplier := (-1) ^ c.input.sum }
    let s := { s with sums := s.considered.foldl (fun d j => dictSet d j 0) s.sums }
    updatePermanentR R A c s
  updateSums c s := do
    let sums ← s.sums.mapM (fun p => do
      let r ← pyGetN s.guan.rVector s.guan.index
      let u ← matGet c.matrix p.1 s.guan.index
      pure (p.1, A.add p.2 (A.mul ((r - s.guan.last : Int) : ℂ) u)))
    pure { s with sums := sums }

/-- `ChinHuhPermanentCalculator`, chin_huh_permanent_calculator.py:38-59. -/
noncomputable def chinHuhMethodR : GuanMethodR where
  init c := do
    let s := initBaseR c
    let s := { s with multiplier := R.rnd (1 / 2 ^ c.input.sum) }
    let sums ← s.considered.foldlM (fun d i => do
      let w ← (List.range c.input.length).foldlM (fun (acc : ℂ) j => do
        let x ← pyGetN c.input j
        let u ← matGet c.matrix i j
        pure (A.add acc (A.mul (x : ℂ) u))) 0
      pure (dictSet d i w)) s.sums
    updatePermanentR R A c { s with sums := sums }
  updateSums c s := do
    let sums ← s.sums.mapM (fun p => do
      let r ← pyGetN s.guan.rVector s.guan.index
      let u ← matGet c.matrix p.1 s.guan.index
      pure (p.1, A.sub p.2 (A.mul ((2 * (r - s.guan.last) : Int) : ℂ) u)))
    pure { s with sums := sums }

/-- A new Ryser calculator's `compute_permanent()`. -/
noncomputable def ryserPermanentR (fuel : ℕ) (c : CalcCfg ℂ) : Py ℂ := computePermanentR R A (ryserMethodR R A) fuel c

/-- A new Chin–Huh calculator's `compute_permanent()`. -/
noncomputable def chinHuhPermanentR (fuel : ℕ) (c : CalcCfg ℂ) : Py ℂ := computePermanentR R A (chinHuhMethodR R A) fuel c

/-! ### Glynn -/

/-- One iteration of the Glynn loop, glynn_gray_permanent_calculator.py:60-67. -/
noncomputable def glynnStepR (a : List (List ℂ)) (st : ℤ × List Int × List ℂ × ℂ) (i : ℕ) :
    Py (ℤ × List Int × List ℂ × ℂ) := do
  let (mult, delta, sums, perm) := st
  let mult := -mult
  let d ← pyGetN delta i
  let delta ← pySetN delta i (-d)
  let sums ← (List.range sums.length).foldlM (fun (sums : List ℂ) j => do
    let w ← pyGetN sums j
    let d ← pyGetN delta i
    let u ← matGet a i j
    pySetN sums j (A.add w (A.mul ((2 * d : Int) : ℂ) u))) sums
  pure (mult, delta, sums, A.add perm (A.mul (mult : ℂ) (sums.foldl A.mul 1)))

/-- `GlynnGrayPermanentCalculator.compute_permanent`, glynn_gray_permanent_calculator.py:41-84. -/
noncomputable def glynnPermanentR (gray : ℕ → List ℕ) (c : CalcCfg ℂ) : Py ℂ := do
  let a ← effectiveScatteringMatrix c.matrix c.input c.output
  if a.length = 0 then
    pure 1
  else
    let delta : List Int := List.replicate a.length 1
    let sums ← (List.range a.length).foldlM (fun (sums : List ℂ) j => do
      let w ← (List.range delta.length).foldlM (fun (acc : ℂ) i => do
        let d ← pyGetN delta i
        let u ← matGet a i j
        pure (A.add acc (A.mul (d : ℂ) u))) 0
      pure (sums ++ [w])) []
    let st ← (gray (a.length - 1)).foldlM (glynnStepR A a) (1, delta, sums, A.mul 1 (sums.foldl A.mul 1))
    pure (A.div st.2.2.2 (2 ^ (a.length - 1)))

/-! ### Classic -/

/-- `_permanent_recursive_part`, classic_permanent_calculator.py:49-67. -/
noncomputable def classicRecR (a : List (List ℂ)) (rows cols : ℕ) : ℕ → List ℕ → ℂ → Py ℂ
  | 0, _, prod => pure prod
  | todo + 1, selected, prod =>
    (List.range rows).foldlM (fun (result : ℂ) row =>
      if row ∈ selected then pure result
      else do
        let u ← matGet a row (cols - (todo + 1))
        let x ← classicRecR a rows cols todo (selected ++ [row]) (A.mul prod u)
        pure (A.add result x)) 0

/-- `ClassicPermanentCalculator.compute_permanent`, classic_permanent_calculator.py:27-47. -/
noncomputable def classicPermanentR (c : CalcCfg ℂ) : Py ℂ := do
  if c.input.sum = 0 then
    if c.output.sum = 0 then pure 1 else pure 0
  else
    let a ← effectiveScatteringMatrix c.matrix c.input c.output
    match a with
    | [] => .error .indexError
    | r :: rs => classicRecR A (r :: rs) (r :: rs).length r.length r.length [] 1

/-! ### Factory -/

/-- `BSPermanentCalculatorFactory.generate_calculator().compute_permanent()`,
bs_permanent_calculator_factory.py:29-54,80-115, for a new calculator. -/
noncomputable def factoryPermanentR (gray : ℕ → List ℕ) (calculatorType : ℤ) (fuel : ℕ) (c : CalcCfg ℂ) : Py ℂ :=
  if calculatorType = 1 then classicPermanentR A c
  else if calculatorType = 2 then glynnPermanentR A gray c
  else if calculatorType = 3 then chinHuhPermanentR R A fuel c
  else if calculatorType = 4 then ryserPermanentR R A fuel c
  else chinHuhPermanentR R A fuel c

/-- `abs(compute_permanent()) ** 2`, generalized_cliffords_simulation_strategy.py:240,
bs_distribution_calculator_with_fixed_losses.py:137. -/
noncomputable def squaredPermanentR (gray : ℕ → List ℕ) (calculatorType : ℤ) (fuel : ℕ) (c : CalcCfg ℂ) : Py ℝ := do
  let x ← factoryPermanentR R A gray calculatorType fuel c
  pure (R.rnd (A.abs x ^ 2))

end Verif
