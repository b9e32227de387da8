import Verif.Model.Distributions
import Verif.Model.Bobs

/-!
Model of `bs_appriximated_distribution_from_separable_states_calculator.py`.

The code reads attributes that nothing in the project sets: `_approximated_modes_number` and
`_modes_transmissivity` of the calculator, its `configuration` (the constructor sets `_configuration`) and
`approximated_modes_number` of the configuration. They are optional values here, so that the methods can
also be studied on objects on which a subclass or the caller has set them. `svd` is an external routine
and a parameter. The number of modes of the configuration is the size of its matrix. Arithmetic is exact.
-/
namespace Verif

/-- Reading an attribute. -/
def attr {α : Type _} : Option α → Py α
  | some a => .ok a
  | none => .error .attributeError

/-- The parts of `BosonSamplingExperimentConfiguration` (bs_distribution_calculator_interface.py:11-27)
that are read, and the attribute `approximated_modes_number`, which the class does not have. -/
structure ApproxCfg (m : ℕ) where
  matrix : Matrix (Fin m) (Fin m) ℂ
  initialState : List ℕ
  initialNumber : ℕ
  left : ℤ
  approximatedModes : Option ℕ := none

/-- The attributes of the calculator,
bs_appriximated_distribution_from_separable_states_calculator.py:38-44 and 51-53, 97-98. -/
structure ApproxObj (m : ℕ) where
  config : Option (ApproxCfg m) := none
  publicConfig : Option (ApproxCfg m) := none
  approximatedModes : Option ℕ := none
  transmissivity : Option ℝ := none
  initialMatrix : Option (Matrix (Fin (m + m)) (Fin (m + m)) ℂ) := none
  initialState : Option (List ℕ) := none
  matricesNumber : Option ℕ := none

variable {m : ℕ}

/-- `_prepare_initial_matrix`, bs_appriximated_distribution_from_separable_states_calculator.py:46-61.
The right-hand side of the assignment in lines 50-52 is evaluated before the slice. -/
noncomputable def approxInitialMatrix (svd : Matrix (Fin m) (Fin m) ℂ → Svd m) (o : ApproxObj m) :
    Py (Matrix (Fin (m + m)) (Fin (m + m)) ℂ) := do
  let c ← attr o.config
  if m = 0 then .error .indexError
  let t ← attr o.transmissivity
  let x ← (floatDiv 1 (Real.sqrt t) : Py ℝ)
  let k ← attr o.approximatedModes
  let R : Matrix (Fin m) (Fin m) ℂ := Matrix.diagonal fun i => if i.1 < k then ((x : ℝ) : ℂ) else 1
  pure (expandedMatrix (svd (c.matrix * R)))

/-- `zeros(2 * m, dtype=int)` with `[:m] = state`: a state with another number of modes does not fit,
except that a single number is repeated. -/
def zeroExtend (m : ℕ) (state : List ℕ) : Py (List ℕ) :=
  if state.length = m then .ok (state ++ List.replicate m 0)
  else match state with
    | [x] => .ok (List.replicate m x ++ List.replicate m 0)
    | _ => .error .valueError

/-- `_prepare_initial_state`, bs_appriximated_distribution_from_separable_states_calculator.py:63-91. -/
def approxInitialState (o : ApproxObj m) : Py (List ℕ) := do
  let c ← attr o.config
  let state ← zeroExtend m c.initialState
  let k ← attr c.approximatedModes
  let (state, number) ← (List.range (k - 1)).foldlM (fun (st : List ℕ × ℕ) i => do
    let x ← pyGetN st.1 i
    let state ← pySetN st.1 i 0
    pure (state, st.2 + x)) (state, 0)
  pySet state ((k : ℤ) - 1) number

/-- `__init__`, bs_appriximated_distribution_from_separable_states_calculator.py:33-44, on an object that
may already have attributes. -/
noncomputable def approxInit (svd : Matrix (Fin m) (Fin m) ℂ → Svd m) (o : ApproxObj m) (c : ApproxCfg m) :
    Py (ApproxObj m) := do
  let o := { o with config := some c }
  let A ← approxInitialMatrix svd o
  let o := { o with initialMatrix := some A }
  let st ← approxInitialState o
  let o := { o with initialState := some st }
  pure { o with matricesNumber := some 100 }

/-- `_generate_effective_matrix`,
bs_appriximated_distribution_from_separable_states_calculator.py:118-131. -/
noncomputable def approxMatrix (o : ApproxObj m) : Prog (Matrix (Fin (m + m)) (Fin (m + m)) ℂ) := do
  let c ← (attr o.config : Py _)
  let k ← (attr c.approximatedModes : Py _)
  let Q ← (generateQft k (m + m) : Py _)
  let us ← randVec k
  let P ← (generatePhases k (m + m) (fun i => us.getD i 0) : Py _)
  let A ← (attr o.initialMatrix : Py _)
  pure (Q * P * A)

/-- `_get_2m_outcomes_corresponding_to_the_outcome`,
bs_appriximated_distribution_from_separable_states_calculator.py:163-182. -/
def approxOutcomes (fuel : ℕ) (o : ApproxObj m) (outcome : List ℕ) : Py (List (List ℕ)) := do
  let c ← attr o.config
  let possible ← generatePossibleStates fuel ((c.initialNumber : ℤ) - (outcome.sum : ℤ)) m
  pure (possible.map fun e => outcome ++ e)

/-- `_calculate_probability_of_outcome`,
bs_appriximated_distribution_from_separable_states_calculator.py:133-161. -/
noncomputable def approxOutcome (perm : CalcCfg ℂ → Py ℂ) (hash : List ℕ → ℤ) (fuel : ℕ) (o : ApproxObj m)
    (outcome : List ℕ) (B : Matrix (Fin (m + m)) (Fin (m + m)) ℂ) : Py ℝ := do
  let considered ← approxOutcomes fuel o outcome
  let c ← attr o.config
  let st ← attr o.initialState
  let sub : ExpConfig ℂ ℝ := ⟨rowsOf B, st, c.initialNumber, 2 * m, 0, c.initialNumber, 1⟩
  let ps ← (fixedLossProbabilities Complex.normSq perm hash sub considered : Py (List ℝ))
  pure ps.sum

/-- The loop of `calculate_probabilities_of_outcomes`,
bs_appriximated_distribution_from_separable_states_calculator.py:109-114, for `n` matrices. -/
noncomputable def approxLoop (perm : CalcCfg ℂ → Py ℂ) (hash : List ℕ → ℤ) (fuel : ℕ) (o : ApproxObj m)
    (outcomes : List (List ℕ)) : ℕ → Prog (List ℝ)
  | 0 => pure []
  | n + 1 => do
    let B ← approxMatrix o
    let ps ← (outcomes.mapM (fun T => approxOutcome perm hash fuel o T B) : Py _)
    let rest ← approxLoop perm hash fuel o outcomes n
    pure (ps ++ rest)

/-- `calculate_probabilities_of_outcomes`,
bs_appriximated_distribution_from_separable_states_calculator.py:103-116. -/
noncomputable def approxProbabilities (perm : CalcCfg ℂ → Py ℂ) (hash : List ℕ → ℤ) (fuel : ℕ) (o : ApproxObj m)
    (outcomes : List (List ℕ)) : Prog (List ℝ) := do
  let n ← (attr o.matricesNumber : Py _)
  approxLoop perm hash fuel o outcomes n

/-- `calculate_distribution`, bs_appriximated_distribution_from_separable_states_calculator.py:93-101. -/
noncomputable def approxDistribution (perm : CalcCfg ℂ → Py ℂ) (hash : List ℕ → ℤ) (fuel : ℕ) (o : ApproxObj m) :
    Prog (List ℝ) := do
  let c ← (attr o.publicConfig : Py _)
  let outcomes ← (generatePossibleStates fuel c.left m : Py _)
  approxProbabilities perm hash fuel o outcomes

/-- `get_outcomes_in_proper_order`,
bs_appriximated_distribution_from_separable_states_calculator.py:184-192. -/
def approxOrder (fuel : ℕ) (o : ApproxObj m) : Py (List (List ℕ)) := do
  let c ← attr o.config
  generatePossibleStates fuel c.left m

end Verif
