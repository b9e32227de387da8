import Verif.Model.RoundedPermanents
import Verif.Model.SubmatrixPermanents

/-!
The submatrix permanent calculators in floating-point arithmetic: the functions of `SubmatrixPermanents.lean`,
with the rounded operations in the order of the source.
-/
namespace Verif

variable (R : Rounding) (A : ComplexArith)

/-- The private attributes of a submatrix permanent calculator,
bs_submatrices_permanent_calculator_base.py:86-97, bs_cc_ryser_submatrices_permanent_calculator.py:64-71, as they
are stored. -/
structure SubScratchR where
  guan : GuanVars
  multiplier : ℝ
  binomials : ℝ
  sums : List (ℕ × ℂ)
  considered : List ℕ
  prod : ℂ
  permanents : List ℂ

/-- `_initialize_permanents_computation` of the base class,
bs_submatrices_permanent_calculator_base.py:177-189, for a new object. -/
noncomputable def subInitBaseR (c : CalcCfg ℂ) : SubScratchR :=
  { guan := initGuanVars c.input (freshSubScratch c).guan
    permanents := List.replicate c.input.length 0
    sums := []
    multiplier := (-1) ^ c.output.sum
    considered := npNonzero c.output
    binomials := 1
    prod := 0 }

/-- What distinguishes the two submatrix calculators. -/
structure SubMethodR where
  init : CalcCfg ℂ → Py SubScratchR
  updateSums : CalcCfg ℂ → SubScratchR → Py SubScratchR
  updatePermanents : CalcCfg ℂ → SubScratchR → Py SubScratchR

/-- The main loop of `compute_permanents`, bs_submatrices_permanent_calculator_base.py:162-175. -/
noncomputable def subMainR (meth : SubMethodR) (c : CalcCfg ℂ) : ℕ → SubScratchR → Py SubScratchR
  | 0, _ => .error .outOfFuel
  | fuel + 1, s => do
    let rl ← pyGet s.guan.rVector (-1)
    let ll ← pyGet s.guan.limits (-1)
    if rl ≤ ll then
      let g ← updateGuanCode s.guan
      if g.index = g.rVector.length then
        pure { s with guan := g }
      else
        let s := { s with guan := g, multiplier := -s.multiplier }
        let b ← updateBinomialsR R c.input s.guan s.binomials
        let s := { s with binomials := b }
        let s ← meth.updateSums c s
        let s ← meth.updatePermanents c s
        subMainR meth c fuel s
    else
      pure s

/-- `compute_permanents`, bs_submatrices_permanent_calculator_base.py:150-175, of a new object. -/
noncomputable def computePermanentsR (meth : SubMethodR) (fuel : ℕ) (c : CalcCfg ℂ) : Py (List ℂ) := do
  if c.input.sum = 1 then
    pure (c.input.map fun (v : ℕ) => (v : ℂ))
  else
    let s ← meth.init c
    let s ← subMainR R meth c fuel s
    pure s.permanents

/-- `BSCCRyserSubmatricesPermanentCalculator._update_permanents`,
bs_cc_ryser_submatrices_permanent_calculator.py:103-119: the body of the loop. -/
noncomputable def ryserSubStepR (c : CalcCfg ℂ) (s : SubScratchR) (perms : List ℂ) (i : ℕ) : Py (List ℂ) := do
  let si ← pyGetN c.input i
  let ri ← pyGetN s.guan.rVector i
  if si = 0 ∨ ri = (si : Int) then pure perms
  else
    let q ← pyDivInt (si : ℝ) ((si : Int) - ri)
    let b := R.rnd (s.binomials / R.rnd q)
    let p ← pyGetN perms i
    pySetN perms i (A.add p (A.mul s.prod (b : ℂ)))

/-- `BSCCRyserSubmatricesPermanentCalculator`,
bs_cc_ryser_submatrices_permanent_calculator.py:73-119. -/
noncomputable def ryserSubMethodR : SubMethodR where
  init c := do
    let s := subInitBaseR c
    pure { s with sums := s.considered.foldl (fun d j => dictSet d j 0) s.sums }
  updateSums c s := do
    let (sums, prod) ← s.sums.foldlM (fun (st : List (ℕ × ℂ) × ℂ) p => do
      let r ← pyGetN s.guan.rVector s.guan.index
      let u ← matGet c.matrix p.1 s.guan.index
      let w := A.add p.2 (A.mul ((r - s.guan.last : Int) : ℂ) u)
      let t ← pyGetN c.output p.1
      pure (st.1 ++ [(p.1, w)], A.mul st.2 (A.pow w t))) ([], 1)
    pure { s with sums := sums, prod := A.mul prod (s.multiplier : ℂ) }
  updatePermanents c s := do
    let perms ← (List.range s.permanents.length).foldlM (ryserSubStepR R A c s) s.permanents
    pure { s with permanents := perms }

/-- `BSCCCHSubmatricesPermanentCalculator._update_permanents`,
bs_cc_ch_submatrices_permanent_calculator.py:81-105: the body of the loop. -/
noncomputable def chSubStepR (c : CalcCfg ℂ) (s : SubScratchR) (perms : List ℂ) (i : ℕ) : Py (List ℂ) := do
  let si ← pyGetN c.input i
  let ri ← pyGetN s.guan.rVector i
  if si = 0 ∨ (si : Int) = ri then pure perms
  else
    let updated ← s.considered.foldlM (fun (d : List (ℕ × ℂ)) j => do
      let w ← dictGet s.sums j
      let u ← matGet c.matrix j i
      pure (dictSet d j (A.sub w u))) []
    let q ← pyDivInt (si : ℝ) ((si : Int) - ri)
    let b := R.rnd (s.binomials / R.rnd q)
    let factors ← s.considered.mapM (fun j => do
      let w ← dictGet updated j
      let t ← pyGetN c.output j
      pure (A.pow w t))
    let p ← pyGetN perms i
    pySetN perms i (A.add p (factors.foldl A.mul (R.rnd (s.multiplier * b) : ℝ)))

/-- `_update_permanents` of the Chin–Huh submatrix calculator,
bs_cc_ch_submatrices_permanent_calculator.py:77-105. -/
noncomputable def chSubUpdatePermanentsR (c : CalcCfg ℂ) (s : SubScratchR) : Py SubScratchR := do
  let perms ← (List.range c.input.length).foldlM (chSubStepR R A c s) s.permanents
  pure { s with permanents := perms }

/-- `BSCCCHSubmatricesPermanentCalculator`,
bs_cc_ch_submatrices_permanent_calculator.py:51-105. -/
noncomputable def chSubMethodR : SubMethodR where
  init c := do
    let s := subInitBaseR c
    let s := { s with multiplier := R.rnd (chSubMultiplier c.input.sum) }
    let sums ← s.considered.foldlM (fun d i => do
      let w ← (List.range c.input.length).foldlM (fun (acc : ℂ) j => do
        let x ← pyGetN c.input j
        let u ← matGet c.matrix i j
        pure (A.add acc (A.mul (x : ℂ) u))) 0
      pure (dictSet d i w)) s.sums
    chSubUpdatePermanentsR R A c { s with sums := sums }
  updateSums c s := do
    let sums ← s.sums.mapM (fun p => do
      let r ← pyGetN s.guan.rVector s.guan.index
      let u ← matGet c.matrix p.1 s.guan.index
      pure (p.1, A.sub p.2 (A.mul ((2 * (r - s.guan.last) : Int) : ℂ) u)))
    pure { s with sums := sums }
  updatePermanents := chSubUpdatePermanentsR R A

/-- A new Ryser submatrix calculator's `compute_permanents()`. -/
noncomputable def ryserSubPermanentsR (fuel : ℕ) (c : CalcCfg ℂ) : Py (List ℂ) :=
  computePermanentsR R (ryserSubMethodR R A) fuel c

/-- A new Chin–Huh submatrix calculator's `compute_permanents()`. -/
noncomputable def chSubPermanentsR (fuel : ℕ) (c : CalcCfg ℂ) : Py (List ℂ) :=
  computePermanentsR R (chSubMethodR R A) fuel c

end Verif
