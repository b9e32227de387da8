import Verif.Model.Cliffords
import Verif.Model.SubmatrixPermanents
import Verif.Model.Networks

/-!
Model of version B of the generalized Clifford & Clifford samplers
(`generalized_cliffords_b_simulation_strategy.py`,
`generalized_cliffords_b_uniform_losses_simulation_strategy.py` and
`lossy_networks_generalized_cliffords_simulation_strategy.py`).

`sub` stands for `BSCCRyserSubmatricesPermanentCalculator(matrix, input, output).compute_permanents()`,
which the code constructs afresh in every step.
-/
namespace Verif

/-- The attributes that change while one sample is drawn
(generalized_cliffords_b_simulation_strategy.py:36-39, 95): `_current_input`,
`_working_input_state`, `r_sample`. -/
structure GccbState where
  cur : List ℕ
  work : List ℕ
  r : List ℕ

/-- `_compute_pmf`, generalized_cliffords_b_simulation_strategy.py:69-92.  When the total is 0 the
quotients are `nan`, which `numpy.random.choice` rejects with `ValueError`; nothing observable
happens in between. -/
noncomputable def gccbPmf (sub : CalcCfg ℂ → Py (List ℂ)) (U : List (List ℂ)) (cur r : List ℕ) :
    Py (List ℝ) := do
  let perms ← sub ⟨U, cur, r⟩
  let pmf ← (List.range r.length).mapM fun m => do
    let permanent ← (List.range cur.length).foldlM
      (fun (acc : ℂ) i => do
        let c ← pyGetN cur i
        let p ← pyGetN perms i
        let row ← pyGetN U m
        let x ← pyGetN row i
        pure (acc + (c : ℂ) * p * x)) 0
    (pure (Complex.normSq permanent) : Py ℝ)
  let total := pmf.sum
  if total = 0 then .error .valueError else pure (pmf.map fun x => x / total)

/-- `_update_current_input`, generalized_cliffords_b_simulation_strategy.py:102-105. -/
def gccbUpdateInput (s : GccbState) : Prog GccbState := do
  let i ← Prog.randBelow s.work.length
  let mode ← (pyGetN s.work i : Py _)
  let x ← (pyGetN s.cur mode : Py _)
  let cur ← (pySetN s.cur mode (x + 1) : Py _)
  pure { s with cur := cur, work := s.work.eraseIdx i }

/-- `_sample_from_pmf`, generalized_cliffords_b_simulation_strategy.py:107-110; `m` is
`len(self.input_state)`, and `choice` raises `ValueError` when `p` has another length. -/
noncomputable def gccbSample (m : ℕ) (pmf : List ℝ) (s : GccbState) : Prog GccbState := do
  let _ ← ((if pmf.length = m then pure () else .error .valueError : Py Unit) : Py _)
  let j ← Prog.categorical pmf
  let x ← (pyGetN s.r j : Py _)
  let r ← (pySetN s.r j (x + 1) : Py _)
  pure { s with r := r }

/-- Loop body, generalized_cliffords_b_simulation_strategy.py:98-100. -/
noncomputable def gccbStep (sub : CalcCfg ℂ → Py (List ℂ)) (U : List (List ℂ)) (m : ℕ)
    (s : GccbState) : Prog GccbState := do
  let s ← gccbUpdateInput s
  let pmf ← (gccbPmf sub U s.cur s.r : Py _)
  gccbSample m pmf s

/-- `_fill_r_sample`, generalized_cliffords_b_simulation_strategy.py:94-100 with
`target = number_of_input_photons`, and
generalized_cliffords_b_uniform_losses_simulation_strategy.py:111-121 with
`target = _number_of_particles_in_sample`; together with the resets of lines 63-64 resp. 105-106. -/
noncomputable def gccbFill (sub : CalcCfg ℂ → Py (List ℂ)) (U : List (List ℂ)) (fuel : ℕ)
    (S particles : List ℕ) (target : ℕ) : Prog GccbState :=
  Prog.loop fuel (fun s => decide (s.r.sum < target)) (gccbStep sub U S.length)
    { cur := S.map fun _ => 0, work := particles, r := S.map fun _ => 0 }

/-- The loop of `simulate`, generalized_cliffords_b_simulation_strategy.py:62-66 (every iteration
appends one sample; all attributes read by an iteration are set in it). -/
noncomputable def gccbLoop (sub : CalcCfg ℂ → Py (List ℂ)) (U : List (List ℂ)) (fuel : ℕ)
    (S particles : List ℕ) : ℕ → Prog (List (List ℕ))
  | 0 => pure []
  | n + 1 => do
    let s ← gccbFill sub U fuel S particles S.sum
    let samples ← gccbLoop sub U fuel S particles n
    pure (s.r :: samples)

/-- `simulate`, generalized_cliffords_b_simulation_strategy.py:41-67. -/
noncomputable def gccbSimulate (sub : CalcCfg ℂ → Py (List ℂ)) (U : List (List ℂ)) (fuel : ℕ)
    (S : List ℕ) (N : ℤ) : Prog (List (List ℕ)) := do
  let particles ← (modeOccupationToModeAssignment S : Py _)
  gccbLoop sub U fuel S particles N.toNat

/-- `_compute_particle_numbers_probabilities`,
generalized_cliffords_b_uniform_losses_simulation_strategy.py:50-65. -/
noncomputable def gccbWeights (n : ℕ) (eta : ℝ) : List ℝ :=
  (List.range (n + 1)).map fun l => (n.choose l : ℝ) * eta ^ l * (1 - eta) ^ (n - l)

/-- `_get_number_of_particles_left`,
generalized_cliffords_b_uniform_losses_simulation_strategy.py:67-85. -/
noncomputable def gccbParticlesLeft (weights : List ℝ) : Prog ℕ := do
  let threshold ← Prog.random
  pure (scanIndex threshold weights 0)

/-- The loop of `simulate`, generalized_cliffords_b_uniform_losses_simulation_strategy.py:103-108. -/
noncomputable def gccbLossyLoop (sub : CalcCfg ℂ → Py (List ℂ)) (U : List (List ℂ)) (fuel : ℕ)
    (S particles : List ℕ) (weights : List ℝ) : ℕ → Prog (List (List ℕ))
  | 0 => pure []
  | n + 1 => do
    let left ← gccbParticlesLeft weights
    let s ← gccbFill sub U fuel S particles left
    let samples ← gccbLossyLoop sub U fuel S particles weights n
    pure (s.r :: samples)

/-- `simulate`, generalized_cliffords_b_uniform_losses_simulation_strategy.py:87-109; the attributes set by `__init__`
(38-48), other than the transmissivity, are set anew. -/
noncomputable def gccbLossySimulate (sub : CalcCfg ℂ → Py (List ℂ)) (U : List (List ℂ)) (fuel : ℕ)
    (eta : ℝ) (S : List ℕ) (N : ℤ) : Prog (List (List ℕ)) := do
  let particles ← (modeOccupationToModeAssignment S : Py _)
  gccbLossyLoop sub U fuel S particles (gccbWeights S.sum eta) N.toNat

/-- The rows of an array. -/
noncomputable def rowsOf {a b : ℕ} (A : Matrix (Fin a) (Fin b) ℂ) : List (List ℂ) :=
  List.ofFn fun i => List.ofFn fun j => A i j

/-- `LossyNetworksGeneralizedCliffordsSimulationStrategy(calculator).simulate`,
lossy_networks_generalized_cliffords_simulation_strategy.py:41-83; `d` is the decomposition of the
matrix of the calculator given to the constructor or of the last matrix given to `set_new_matrix`
(lines 85-88). -/
noncomputable def lossyNetSimulate {m : ℕ} (sub : CalcCfg ℂ → Py (List ℂ)) (d : Svd m) (fuel : ℕ)
    (S : List ℕ) (N : ℤ) : Prog (List (List ℕ)) := do
  let expandedState := S ++ S.map fun _ => 0
  let samples ← gccbSimulate sub (rowsOf (expandedMatrix d)) fuel expandedState N
  (samples.mapM fun out => trimTo fuel S.length out : Py _)

end Verif
