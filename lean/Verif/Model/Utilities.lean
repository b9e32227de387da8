import Verif.Py
import Mathlib.Data.Nat.Choose.Basic
import Mathlib.Data.Nat.Factorial.Basic

/-!
Model of `theboss/boson_sampling_utilities/boson_sampling_utilities.py`
(states, state generation, counting, effective scattering matrix).

Conventions: a mode occupation is a `List Nat` (occupations are non-negative Python ints), a
mode assignment is a `List Int` where the code indexes with it (so that negative modes are
covered) and a `List Nat` where the code produces it.  Tuples and lists are both `List`.
-/
namespace Verif

/-- Python's `max` of a sequence: `ValueError` on an empty one. -/
def pyMax : List Int → Py Int
  | [] => .error .valueError
  | a :: l => .ok (l.foldl max a)

/-- Loop body of boson_sampling_utilities.py:55-56, `modes_occupation[particles_mode] += 1`. -/
def incAt (occ : List Nat) (mode : Int) : Py (List Nat) := do
  let v ← pyGet occ mode
  pySet occ mode (v + 1)

/-- `mode_assignment_to_mode_occupation`, boson_sampling_utilities.py:34-58. -/
def modeAssignmentToModeOccupation (asg : List Int) (observed : Int := 0) : Py (List Nat) := do
  let m ← if observed = 0 then (do let x ← pyMax asg; pure (x + 1)) else pure observed
  asg.foldlM incAt (List.replicate m.toNat 0)

/-- `mode_occupation_to_mode_assignment`, boson_sampling_utilities.py:61-78. -/
def modeOccupationToModeAssignment (occ : List Nat) : Py (List Nat) :=
  (List.range occ.length).foldlM
    (fun acc i => do
      let c ← pyGetN occ i
      pure ((List.range c).foldl (fun a _ => a ++ [i]) acc))
    []

/-- Inner loop of `_generate_possible_n_particle_states`,
boson_sampling_utilities.py:139-141 (`k` may go negative: Python indexing). -/
def findK (fuel : Nat) (last : List Nat) (modes : Nat) : Py Int :=
  pyWhile fuel
    (fun k : Int => do let v ← pyGet last (k - 1); pure (v == 0))
    (fun k => pure (k - 1))
    ((modes : Int) - 1)

/-- Loop body of `_generate_possible_n_particle_states`, boson_sampling_utilities.py:139-149:
the state appended after `last`. -/
def nextState (fuel n modes : Nat) (last : List Nat) : Py (List Nat) := do
  let k ← findK fuel last modes
  let v ← pyGet last (k - 1)
  let v' ← natSub v 1
  let state ← pySet last (k - 1) v'
  let state ← (pyRange k state.length).foldlM (fun (s : List Nat) i => pySet s i 0) state
  let d ← natSub n state.sum
  pySet state k d

/-- The outer loop of `_generate_possible_n_particle_states`,
boson_sampling_utilities.py:137-151. -/
def statesLoop (fuel n modes : Nat) (states : List (List Nat)) : Py (List (List Nat)) :=
  pyWhile fuel
    (fun sts : List (List Nat) => do
      let last ← pyGet sts (-1)
      let v ← pyGet last ((modes : Int) - 1)
      pure (decide (v < n)))
    (fun sts => do
      let last ← pyGet sts (-1)
      let s ← nextState fuel n modes last
      pure (sts ++ [s]))
    states

/-- `sorted(l, reverse=True)` on tuples of ints (lexicographic order). -/
def sortedReverse (l : List (List Nat)) : List (List Nat) :=
  l.mergeSort (fun a b => decide (b ≤ a))

/-- `_generate_possible_n_particle_states`, boson_sampling_utilities.py:117-155. -/
def generatePossibleNParticleStates (fuel n modes : Nat) : Py (List (List Nat)) := do
  let state ← pySet (List.replicate modes 0) 0 n
  let states ← statesLoop fuel n modes [state]
  pure (sortedReverse states)

/-- `generate_possible_states`, boson_sampling_utilities.py:81-114. -/
def generatePossibleStates (fuel : Nat) (n m : Int) (losses : Bool := false) :
    Py (List (List Nat)) :=
  if n < 0 ∨ m < 1 then pure []
  else if n = 0 then pure [List.replicate m.toNat 0]
  else
    let start := if losses then 0 else n.toNat
    (List.range' start (n.toNat + 1 - start)).foldlM
      (fun states p => do
        let l ← generatePossibleNParticleStates fuel p m.toNat
        pure (states ++ l))
      []

/-- `itertools.combinations(l, k)` (external; documented lexicographic order). -/
def itCombinations {α : Type _} : List α → Nat → List (List α)
  | _, 0 => [[]]
  | [], _ + 1 => []
  | a :: l, k + 1 => (itCombinations l k).map (a :: ·) ++ itCombinations l (k + 1)

/-- `generate_lossy_n_particle_input_states`, boson_sampling_utilities.py:158-203.
`hash` is Python's hash of int tuples (external).  A negative number of particles left makes
`itertools.combinations` raise `ValueError`. -/
def generateLossyNParticleInputStates (hash : List Nat → Int) (initial : List Nat) (left : Int) :
    Py (List (List Nat)) := do
  let x0 ← (List.range initial.length).foldlM
    (fun (acc : List Nat) i => do
      let c ← pyGetN initial i
      pure (acc ++ List.replicate c i))
    []
  if initial.sum = 0 then
    pure [initial]
  else if left < 0 then
    .error .valueError
  else
    let r ← (itCombinations (List.range initial.sum) left.toNat).foldlM
      (fun (acc : List (List Nat) × List Int) comb => do
        let asg ← comb.mapM (fun el => pyGetN x0 el)
        let occ ← modeAssignmentToModeOccupation (asg.map fun (a : Nat) => (a : Int)) initial.length
        let h := hash occ
        if h ∈ acc.2 then pure acc
        else pure (acc.1 ++ [occ], acc.2 ++ [h]))
      ([], [])
    pure r.1

/-- `bosonic_space_dimension`, boson_sampling_utilities.py:206-237, with
`scipy.special.binom` and `round` in exact arithmetic; `n + m - 1` is non-negative for `m ≥ 1`. -/
def bosonicSpaceDimension (n m : Nat) (losses : Bool := false) : Nat :=
  let dimension := (n + m - 1).choose n
  if !losses then dimension
  else (List.range n).foldl (fun d i => d + (i + m - 1).choose i) dimension

/-- The generator `_partitions`, boson_sampling_utilities.py:363-379; fuel bounds the recursion
depth (Python recurses without a bound of its own). -/
def partitionsGen : Nat → Nat → Nat → Py (List (List Nat))
  | 0, _, _ => .error .outOfFuel
  | fuel + 1, n, lo =>
    (List.range' lo (n / 2 + 1 - lo)).foldlM
      (fun acc i => do
        let ps ← partitionsGen fuel (n - i) i
        pure (acc ++ ps.map (i :: ·)))
      [[n]]

/-- `while len(state_types[i]) < modes_number: state_types[i].append(0)`,
boson_sampling_utilities.py:397-398. -/
def padZeros (m : Nat) (l : List Nat) : List Nat :=
  if l.length < m then padZeros m (l ++ [0]) else l
termination_by m - l.length
decreasing_by simp; omega

/-- `generate_state_types`, boson_sampling_utilities.py:345-400. -/
def generateStateTypes (fuel m n : Nat) (losses : Bool := false) : Py (List (List Nat)) := do
  let all ← partitionsGen fuel n 1
  let all ← (if losses then
      (List.range n).foldlM
        (fun acc i => do
          let ps ← partitionsGen fuel i 1
          pure (acc ++ ps))
        all
    else pure all : Py (List (List Nat)))
  let types := all.foldl
    (fun acc p => if p.length > m then acc
      else acc ++ [p.mergeSort (fun a b => decide (b ≤ a))])
    []
  pure (types.map (padZeros m))

/-- `compute_number_of_k_element_integer_partitions_of_n`, boson_sampling_utilities.py:478-502. -/
def kPartitions (k n : Int) : Int :=
  if k = 1 then 1
  else if k > n ∨ n = 0 ∨ k < 1 then 0
  else kPartitions k (n - k) + kPartitions (k - 1) (n - 1)
termination_by n.toNat
decreasing_by all_goals omega

/-- `compute_number_of_state_types`, boson_sampling_utilities.py:403-441. -/
def computeNumberOfStateTypes (m n : Nat) (losses : Bool := false) : Int :=
  let base := (List.range' 1 m).foldl (fun (acc : Int) (k : Nat) => acc + kPartitions k n) 0
  if !losses then base
  else (List.range n).foldl
    (fun (acc : Int) (p : Nat) =>
      (List.range' 1 m).foldl (fun (acc : Int) (k : Nat) => acc + kPartitions k p) acc)
    base

/-- `compute_number_of_states_of_given_type`, boson_sampling_utilities.py:444-475, in exact
arithmetic.  `vals` is the iteration order of `set(state_type)`, which Python leaves open.
The float `type_count` (lines 465-468) is computed and dropped. -/
def computeNumberOfStatesOfGivenType (vals : List Nat) (stateType : List Nat) : Nat :=
  let counts := vals.map fun v => stateType.count v
  counts.foldl (fun acc c => acc / c.factorial) stateType.length.factorial

/-- `numpy.transpose` of a list of equally long rows; ragged rows raise `ValueError`
(external). -/
def npTranspose {K : Type _} (a : List (List K)) : Py (List (List K)) :=
  match a with
  | [] => pure []
  | r :: rs =>
    if rs.all (fun x => x.length == r.length) then
      (List.range r.length).mapM (fun j => (r :: rs).mapM (fun row => pyGetN row j))
    else .error .valueError

/-- One repetition loop of `EffectiveScatteringMatrixCalculator.calculate`
(boson_sampling_utilities.py:612-615 and 621-624):
`for i in range(len(state)): out += [rows[i]] * int(state[i])`. -/
def repeatRows {K : Type _} (rows : List (List K)) (state : List Nat) : Py (List (List K)) :=
  (List.range state.length).foldlM
    (fun acc i => do
      let row ← pyGetN rows i
      let c ← pyGetN state i
      pure (acc ++ List.replicate c row))
    []

/-- `EffectiveScatteringMatrixCalculator.calculate`, boson_sampling_utilities.py:595-626. -/
def effectiveScatteringMatrix {K : Type _} (matrix : List (List K)) (input output : List Nat) :
    Py (List (List K)) := do
  if input.sum = 0 ∨ output.sum = 0 then
    pure []
  else
    let t ← npTranspose matrix
    let helper ← repeatRows t input
    let helper ← npTranspose helper
    repeatRows helper output

end Verif
