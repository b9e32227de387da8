import Verif.Proofs.SharedCalculator
import Verif.Props.Distributions

/-! C75: exact calculators sharing one permanent calculator object. -/
namespace Verif

variable {K R : Type} [Field K] [Field R] [DecidableEq R]

/-- Specification: the results when every computation has a permanent calculator of its own, fresh
for every permanent. -/
def sharedSpec (nsq : K → R) (perm : CalcCfg K → Py K) (hash : List Nat → Int) :
    List (SharedOp K R) → List (Py (List R))
  | [] => []
  | .fixed c outcomes :: ops =>
    fixedLossProbabilities nsq perm hash c outcomes :: sharedSpec nsq perm hash ops
  | .uniform u _ outcomes :: ops =>
    uniformProbabilities nsq perm hash u outcomes :: sharedSpec nsq perm hash ops
  | .other _ _ :: ops => sharedSpec nsq perm hash ops

/-- C75: whatever happens to a shared permanent calculator — computations of several fixed-loss
and uniform-loss calculators in any order, failing ones included, other users changing its
attributes in between, worker processes of a pool starting from any copies of it — every
computation returns (or raises) what it would with fresh permanent calculators of the same type. -/
theorem C75_shared (nsq : K → R) (gray : Nat → List Nat) (fuel : Nat) (junk : GuanScratch K)
    (hash : List Nat → Int) (ops : List (SharedOp K R)) (o : PermObj K)
    (hstart : ∀ u start outcomes, SharedOp.uniform u start outcomes ∈ ops →
      ∀ i, (start i).kind = o.kind) :
    runShared nsq gray fuel junk hash ops o
      = sharedSpec nsq (factoryPermanent gray o.kind fuel) hash ops := by
  obtain ⟨t, ht⟩ : ∃ t, o.kind = t := ⟨_, rfl⟩
  rw [ht] at hstart ⊢
  induction ops generalizing o with
  | nil => rfl
  | cons op ops ih =>
    have hs : ∀ u start outcomes, SharedOp.uniform u start outcomes ∈ ops →
        ∀ i, (start i).kind = t := fun u s l h => hstart u s l (by simp [h])
    cases op with
    | fixed c outcomes =>
      obtain ⟨h1, h2⟩ := sim_fixed gray fuel junk nsq hash t c outcomes o ht
      rw [runShared, sharedSpec, h1, ih _ hs h2]
    | uniform u start outcomes =>
      rw [runShared, sharedSpec, uniform_pool gray fuel junk nsq hash t u start
        (hstart u start outcomes (by simp)), ih _ hs ht]
    | other cfg scratch =>
      rw [runShared, sharedSpec, ih _ hs (by exact ht)]

/-- C75: hence in such a history a fixed-loss computation for outcomes with `k` particles returns
the probabilities of C22. -/
theorem C75_probabilities (gray : Nat → List Nat) (hgray : ∀ n, IsGrayCode n (gray n)) (fuel : Nat)
    (junk : GuanScratch ℂ) (hash : List Nat → Int) (pre : List (SharedOp ℂ ℝ)) (o : PermObj ℂ)
    (hstart : ∀ u start outcomes, SharedOp.uniform u start outcomes ∈ pre →
      ∀ i, (start i).kind = o.kind)
    (U : List (List ℂ)) (S : List ℕ) (k : ℕ) (eta : ℝ) (outcomes : List (List ℕ))
    (hU : ∀ r ∈ U, r.length = U.length) (hle : S.length ≤ U.length)
    (hS : S ≠ []) (hk : k ≤ S.sum) (hT : ∀ T ∈ outcomes, S.length = T.length ∧ T.sum = k)
    (hf : (S.map (· + 1)).prod ≤ fuel)
    (hinj : ∀ a b : List Nat, StateLE a S → a.sum = k → StateLE b S → b.sum = k →
      hash a = hash b → a = b) :
    (runShared Complex.normSq gray fuel junk hash (pre ++ [.fixed (expConfig U S k eta) outcomes])
      o).getLast? = some (.ok (outcomes.map (fixedLossProb U S k))) := by
  rw [C75_shared _ _ _ _ _ _ _ (fun u s l h => hstart u s l (by simpa using h))]
  have hsplit : ∀ (perm : CalcCfg ℂ → Py ℂ) (a b : List (SharedOp ℂ ℝ)),
      sharedSpec Complex.normSq perm hash (a ++ b)
        = sharedSpec Complex.normSq perm hash a ++ sharedSpec Complex.normSq perm hash b := by
    intro perm a b
    induction a with
    | nil => rfl
    | cons op a ih => cases op <;> simp [sharedSpec, ih]
  rw [hsplit]
  have : fixedLossProbabilities Complex.normSq (factoryPermanent gray o.kind fuel) hash
      (expConfig U S k eta) outcomes = .ok (outcomes.map (fixedLossProb U S k)) :=
    mapM_ok _ _ _ fun T h => (C22_probability gray hgray o.kind hash U S T k eta hU (hT T h).1 hle hS
      hk (hT T h).2 fuel hf hinj).1
  simp [sharedSpec, this]

/-- Three users of one Ryser calculator: a failing computation (an outcome of the wrong length)
in between does not matter. -/
example : runShared (fun x : ℚ => x ^ 2) reflectedGray 12 (freshScratch ⟨[], [7], []⟩)
      (fun l => (l.getD 0 0 : Int) + 10 * (l.getD 1 0 : Int))
      [.fixed (expConfig [[3 / 5, 4 / 5], [4 / 5, -3 / 5]] [2, 0] 1 1) [[1, 0], [0, 1]],
        .fixed (expConfig [[1, 0], [0, 1]] [1, 0] 1 1) [[1]],
        .other ⟨[], [3], [1]⟩ (freshScratch ⟨[], [3], []⟩),
        .fixed (expConfig [[3 / 5, 4 / 5], [4 / 5, -3 / 5]] [2, 0] 1 1) [[1, 0]]]
      ⟨4, ⟨[], [], []⟩, freshScratch ⟨[], [], []⟩⟩
    = [.ok [9 / 25, 16 / 25], .error .attributeError, .ok [9 / 25]] := by decide +kernel

end Verif
