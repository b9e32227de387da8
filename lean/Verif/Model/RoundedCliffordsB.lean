import Verif.Model.Rounded
import Verif.Model.RoundedSubmatrix

/-!
Version B of the generalized Clifford & Clifford samplers in floating-point arithmetic: the functions of
`CliffordsB.lean`, with the rounded operations in the order of the source, and `numpy.random.choice`.

`sub` stands for `BSCCRyserSubmatricesPermanentCalculator(matrix, input, output).compute_permanents()`.
-/
namespace Verif

variable (R : Rounding) (A : ComplexArith)

/-! ### `numpy.random.choice` -/

/-- The loop of `kahan_sum` in numpy (`numpy/random/mtrand.pyx`): `y = darr[i] - c; t = sum + y; c = (t - sum) - y;
sum = t`. -/
noncomputable def kahanLoop : List ℝ → ℝ → ℝ → ℝ
  | [], s, _ => s
  | x :: xs, s, c =>
    let y := R.rnd (x - c)
    let t := R.rnd (s + y)
    kahanLoop xs t (R.rnd (R.rnd (t - s) - y))

/-- `kahan_sum(p)` for a nonempty array. -/
noncomputable def kahanSum : List ℝ → ℝ
  | [] => 0
  | x :: xs => kahanLoop R xs x 0

/-- `p.cumsum()`, from the sum `cur` of the entries before. -/
noncomputable def cumsumR : List ℝ → ℝ → List ℝ
  | [], _ => []
  | x :: xs, cur => R.rnd (cur + x) :: cumsumR xs (R.rnd (cur + x))

open Classical in
/-- `cdf.searchsorted(u, side="right")` for a nondecreasing `cdf`: the number of entries that are at most `u`. -/
noncomputable def searchRight (u : ℝ) : List ℝ → ℕ
  | [] => 0
  | c :: cs => if c ≤ u then searchRight u cs + 1 else 0

open Classical in
/-- The checks `choice(range(m), p=p)` makes of its arguments: `ValueError` for `m = 0`, for a wrong number of
probabilities, for negative ones and if their sum differs from 1 by more than `sqrt(eps) = 2 ^ -26`. -/
noncomputable def npChoiceCheck (m : ℕ) (p : List ℝ) : Py Unit := do
  if m = 0 then .error .valueError else
  if p.length ≠ m then .error .valueError else
  if ∃ x ∈ p, x < 0 then .error .valueError else
  if |R.rnd (kahanSum R p - 1)| > 1 / 2 ^ 26 then .error .valueError else pure ()

/-- `cdf = p.cumsum(); cdf /= cdf[-1]`. -/
noncomputable def npCdf (p : List ℝ) : List ℝ := (cumsumR R p 0).map fun c => R.rnd (c / sumR R p)

/-- `numpy.random.choice(range(m), p=p)` for floats: one value of `random_sample()` is searched in the distribution
function. -/
noncomputable def npChoiceR (m : ℕ) (p : List ℝ) : Prog ℕ := do
  let _ ← (npChoiceCheck R m p : Py _)
  let u ← randomR
  pure (searchRight u (npCdf R p))

/-! ### Version B -/

/-- One entry of the pmf, generalized_cliffords_b_simulation_strategy.py:83-89. -/
noncomputable def gccbEntryR (U : List (List ℂ)) (cur : List ℕ) (perms : List ℂ) (m : ℕ) : Py ℝ := do
  let permanent ← (List.range cur.length).foldlM
    (fun (acc : ℂ) i => do
      let c ← pyGetN cur i
      let p ← pyGetN perms i
      let row ← pyGetN U m
      let x ← pyGetN row i
      pure (A.add acc (A.mul (A.mul (c : ℂ) p) x))) 0
  pure (R.rnd (A.abs permanent ^ 2))

/-- `_compute_pmf`, generalized_cliffords_b_simulation_strategy.py:69-92. When the total is 0 the quotients are `nan`,
which `numpy.random.choice` rejects with `ValueError`. -/
noncomputable def gccbPmfR (sub : CalcCfg ℂ → Py (List ℂ)) (U : List (List ℂ)) (cur r : List ℕ) : Py (List ℝ) := do
  let perms ← sub ⟨U, cur, r⟩
  let pmf ← (List.range r.length).mapM (gccbEntryR R A U cur perms)
  let total := sumR R pmf
  if total = 0 then .error .valueError else pure (pmf.map fun x => R.rnd (x / total))

/-- `_sample_from_pmf`, generalized_cliffords_b_simulation_strategy.py:107-110; `m` is `len(self.input_state)`. -/
noncomputable def gccbSampleR (m : ℕ) (pmf : List ℝ) (s : GccbState) : Prog GccbState := do
  let j ← npChoiceR R m pmf
  let x ← (pyGetN s.r j : Py _)
  let r ← (pySetN s.r j (x + 1) : Py _)
  pure { s with r := r }

/-- Loop body, generalized_cliffords_b_simulation_strategy.py:98-100. -/
noncomputable def gccbStepR (sub : CalcCfg ℂ → Py (List ℂ)) (U : List (List ℂ)) (m : ℕ) (s : GccbState) :
    Prog GccbState := do
  let s ← gccbUpdateInput s
  let pmf ← (gccbPmfR R A sub U s.cur s.r : Py _)
  gccbSampleR R m pmf s

/-- `_fill_r_sample`, generalized_cliffords_b_simulation_strategy.py:94-100 with
`target = number_of_input_photons`, and generalized_cliffords_b_uniform_losses_simulation_strategy.py:111-121 with
`target = _number_of_particles_in_sample`; together with the resets of lines 63-64 resp. 105-106. -/
noncomputable def gccbFillR (sub : CalcCfg ℂ → Py (List ℂ)) (U : List (List ℂ)) (fuel : ℕ) (S particles : List ℕ)
    (target : ℕ) : Prog GccbState :=
  Prog.loop fuel (fun s => decide (s.r.sum < target)) (gccbStepR R A sub U S.length)
    { cur := S.map fun _ => 0, work := particles, r := S.map fun _ => 0 }

/-- The loop of `simulate`, generalized_cliffords_b_simulation_strategy.py:62-66. -/
noncomputable def gccbLoopR (sub : CalcCfg ℂ → Py (List ℂ)) (U : List (List ℂ)) (fuel : ℕ) (S particles : List ℕ) :
    ℕ → Prog (List (List ℕ))
  | 0 => pure []
  | n + 1 => do
    let s ← gccbFillR R A sub U fuel S particles S.sum
    let samples ← gccbLoopR sub U fuel S particles n
    pure (s.r :: samples)

/-- `simulate`, generalized_cliffords_b_simulation_strategy.py:41-67. -/
noncomputable def gccbSimulateF (sub : CalcCfg ℂ → Py (List ℂ)) (U : List (List ℂ)) (fuel : ℕ) (S : List ℕ) (N : ℤ) :
    Prog (List (List ℕ)) := do
  let particles ← (modeOccupationToModeAssignment S : Py _)
  gccbLoopR R A sub U fuel S particles N.toNat

/-- The loop of `simulate`, generalized_cliffords_b_uniform_losses_simulation_strategy.py:103-108. -/
noncomputable def gccbLossyLoopF (sub : CalcCfg ℂ → Py (List ℂ)) (U : List (List ℂ)) (fuel : ℕ)
    (S particles : List ℕ) (weights : List ℝ) : ℕ → Prog (List (List ℕ))
  | 0 => pure []
  | n + 1 => do
    let left ← gccbParticlesLeftR R weights
    let s ← gccbFillR R A sub U fuel S particles left
    let samples ← gccbLossyLoopF sub U fuel S particles weights n
    pure (s.r :: samples)

/-- `simulate`, generalized_cliffords_b_uniform_losses_simulation_strategy.py:87-109. -/
noncomputable def gccbLossySimulateF (sub : CalcCfg ℂ → Py (List ℂ)) (U : List (List ℂ)) (fuel : ℕ) (eta : ℝ)
    (S : List ℕ) (N : ℤ) : Prog (List (List ℕ)) := do
  let particles ← (modeOccupationToModeAssignment S : Py _)
  gccbLossyLoopF R A sub U fuel S particles (gccbWeightsR R S.sum eta) N.toNat

/-- `LossyNetworksGeneralizedCliffordsSimulationStrategy(calculator).simulate`,
lossy_networks_generalized_cliffords_simulation_strategy.py:41-83; `U` is the expanded matrix as it is stored. -/
noncomputable def lossyNetSimulateF (sub : CalcCfg ℂ → Py (List ℂ)) (U : List (List ℂ)) (fuel : ℕ) (S : List ℕ) (N : ℤ) :
    Prog (List (List ℕ)) := do
  let expandedState := S ++ S.map fun _ => 0
  let samples ← gccbSimulateF R A sub U fuel expandedState N
  (samples.mapM fun out => trimTo fuel S.length out : Py _)

end Verif
