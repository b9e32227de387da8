import Verif.Model.Permanents

/-!
Model of the submatrix permanent calculators
(`theboss/boson_sampling_utilities/permanent_calculators/bs_submatrices_permanent_calculator_base.py`,
`bs_cc_ryser_submatrices_permanent_calculator.py`, `bs_cc_ch_submatrices_permanent_calculator.py`).
-/
namespace Verif

variable {K : Type _} [Field K]

/-- The private attributes of a submatrix permanent calculator,
bs_submatrices_permanent_calculator_base.py:86-97, bs_cc_ryser_submatrices_permanent_calculator.py:64-71. -/
structure SubScratch (K : Type _) where
  guan : GuanVars
  multiplier : K
  binomials : K
  sums : List (Nat × K)
  considered : List Nat
  prod : K
  permanents : List K

/-- `_initialize_permanents_computation` of the base class,
bs_submatrices_permanent_calculator_base.py:177-189. -/
def subInitBase (c : CalcCfg K) (s : SubScratch K) : SubScratch K :=
  { guan := initGuanVars c.input s.guan
    permanents := List.replicate c.input.length 0
    sums := []
    multiplier := (-1) ^ c.output.sum
    considered := npNonzero c.output
    binomials := 1
    prod := s.prod }

/-- What distinguishes the two submatrix calculators. -/
structure SubMethod (K : Type _) where
  init : CalcCfg K → SubScratch K → Py (SubScratch K)
  updateSums : CalcCfg K → SubScratch K → Py (SubScratch K)
  updatePermanents : CalcCfg K → SubScratch K → Py (SubScratch K)

/-- The main loop of `compute_permanents`, bs_submatrices_permanent_calculator_base.py:162-175. -/
def subMain (meth : SubMethod K) (c : CalcCfg K) : Nat → SubScratch K → Py (SubScratch K)
  | 0, _ => .error .outOfFuel
  | fuel + 1, s => do
    let rl ← pyGet s.guan.rVector (-1)
    let ll ← pyGet s.guan.limits (-1)
    if rl ≤ ll then
      let g ← updateGuanCode s.guan
      if g.index = g.rVector.length then
        pure { s with guan := g }
      else
        let s := { s with guan := g, multiplier := -s.multiplier }
        let b ← updateBinomials c.input s.guan s.binomials
        let s := { s with binomials := b }
        let s ← meth.updateSums c s
        let s ← meth.updatePermanents c s
        subMain meth c fuel s
    else
      pure s

/-- `compute_permanents`, bs_submatrices_permanent_calculator_base.py:150-175. -/
def computePermanents (meth : SubMethod K) (fuel : Nat) (c : CalcCfg K) (s : SubScratch K) :
    Py (List K × SubScratch K) := do
  if c.input.sum = 1 then
    pure (c.input.map fun (v : Nat) => (v : K), s)
  else
    let s ← meth.init c s
    let s ← subMain meth c fuel s
    pure (s.permanents, s)

/-- `BSCCRyserSubmatricesPermanentCalculator._update_permanents`,
bs_cc_ryser_submatrices_permanent_calculator.py:103-119: the body of the loop. -/
def ryserSubStep (c : CalcCfg K) (s : SubScratch K) (perms : List K) (i : Nat) : Py (List K) := do
  let si ← pyGetN c.input i
  let ri ← pyGetN s.guan.rVector i
  if si = 0 ∨ ri = (si : Int) then pure perms
  else
    let q ← pyDivInt (si : K) ((si : Int) - ri)
    let p ← pyGetN perms i
    pySetN perms i (p + s.prod * (s.binomials / q))

/-- `BSCCRyserSubmatricesPermanentCalculator`,
bs_cc_ryser_submatrices_permanent_calculator.py:73-119. -/
def ryserSubMethod : SubMethod K where
  init c s := do
    let s := subInitBase c s
    pure { s with sums := s.considered.foldl (fun d j => dictSet d j 0) s.sums }
  updateSums c s := do
    let (sums, prod) ← s.sums.foldlM (fun (st : List (Nat × K) × K) p => do
      let r ← pyGetN s.guan.rVector s.guan.index
      let u ← matGet c.matrix p.1 s.guan.index
      let w := p.2 + ((r - s.guan.last : Int) : K) * u
      let t ← pyGetN c.output p.1
      pure (st.1 ++ [(p.1, w)], st.2 * w ^ t)) ([], 1)
    pure { s with sums := sums, prod := prod * s.multiplier }
  updatePermanents c s := do
    let perms ← (List.range s.permanents.length).foldlM (ryserSubStep c s) s.permanents
    pure { s with permanents := perms }

/-- `BSCCCHSubmatricesPermanentCalculator._update_permanents`,
bs_cc_ch_submatrices_permanent_calculator.py:81-105: the body of the loop. -/
def chSubStep (c : CalcCfg K) (s : SubScratch K) (perms : List K) (i : Nat) : Py (List K) := do
  let si ← pyGetN c.input i
  let ri ← pyGetN s.guan.rVector i
  if si = 0 ∨ (si : Int) = ri then pure perms
  else
    let updated ← s.considered.foldlM (fun (d : List (Nat × K)) j => do
      let w ← dictGet s.sums j
      let u ← matGet c.matrix j i
      pure (dictSet d j (w - u))) []
    let q ← pyDivInt (si : K) ((si : Int) - ri)
    let factors ← s.considered.mapM (fun j => do
      let w ← dictGet updated j
      let t ← pyGetN c.output j
      pure (w ^ t))
    let p ← pyGetN perms i
    pySetN perms i (p + factors.foldl (· * ·) (s.multiplier * (s.binomials / q)))

/-- `_update_permanents` of the Chin–Huh submatrix calculator,
bs_cc_ch_submatrices_permanent_calculator.py:77-105. -/
def chSubUpdatePermanents (c : CalcCfg K) (s : SubScratch K) : Py (SubScratch K) := do
  let perms ← (List.range c.input.length).foldlM (chSubStep c s) s.permanents
  pure { s with permanents := perms }

/-- `1 / pow(2, sum(input_state) - 1)`, bs_cc_ch_submatrices_permanent_calculator.py:57
(for the vacuum `pow(2, -1)` is `0.5`). -/
def chSubMultiplier (n : Nat) : K := 1 / (2 : K) ^ ((n : Int) - 1)

/-- `BSCCCHSubmatricesPermanentCalculator`,
bs_cc_ch_submatrices_permanent_calculator.py:51-105. -/
def chSubMethod : SubMethod K where
  init c s := do
    let s := subInitBase c s
    let s := { s with multiplier := chSubMultiplier c.input.sum }
    let sums ← s.considered.foldlM (fun d i => do
      let w ← (List.range c.input.length).foldlM (fun (acc : K) j => do
        let x ← pyGetN c.input j
        let u ← matGet c.matrix i j
        pure (acc + (x : K) * u)) 0
      pure (dictSet d i w)) s.sums
    chSubUpdatePermanents c { s with sums := sums }
  updateSums c s := do
    let sums ← s.sums.mapM (fun p => do
      let r ← pyGetN s.guan.rVector s.guan.index
      let u ← matGet c.matrix p.1 s.guan.index
      pure (p.1, p.2 - 2 * ((r - s.guan.last : Int) : K) * u))
    pure { s with sums := sums }
  updatePermanents := chSubUpdatePermanents

/-- The private attributes right after construction,
bs_submatrices_permanent_calculator_base.py:77-97 (attributes without a value get junk ones). -/
def freshSubScratch (c : CalcCfg K) : SubScratch K :=
  { guan := { rVector := [], codeUpdate := [], limits := [], index := 0, last := 0 }
    multiplier := 1
    binomials := 1
    sums := []
    considered := npNonzero c.output
    prod := 0
    permanents := [] }

/-- A fresh Ryser submatrix calculator's `compute_permanents()`. -/
def ryserSubPermanents (fuel : Nat) (c : CalcCfg K) : Py (List K) := do
  let r ← computePermanents ryserSubMethod fuel c (freshSubScratch c)
  pure r.1

/-- A fresh Chin–Huh submatrix calculator's `compute_permanents()`. -/
def chSubPermanents (fuel : Nat) (c : CalcCfg K) : Py (List K) := do
  let r ← computePermanents chSubMethod fuel c (freshSubScratch c)
  pure r.1

end Verif
