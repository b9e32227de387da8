import Verif.Proofs.Reconfigured
import Verif.Props.Distributions

/-! C101: exact calculators and changes of configurations. -/
namespace Verif

variable {K R : Type} [Field K] [Field R] [DecidableEq R]

/-- C101: a calculator works on the configuration as it was when the calculator was made, whatever
happens later to the configuration object it was given, to other configurations and to other
calculators. Only `set_weightless` on the calculator itself matters. -/
theorem C101_copied (nsq : K → R) (perm : CalcCfg K → Py K) (hash : List Nat → Int) (fuel : Nat)
    (configs : RcRef → ExpConfig K R) (pre post : List (RcOp K R)) (uniform : Bool) (r : RcRef)
    (hp : ∀ op ∈ post, ¬ Reconfigures (rcCreated pre) op) (chunks : List (List (List Nat))) :
    let c := rcContents configs pre.reverse r
    let s := rcRun ⟨configs, []⟩ (pre ++ .new uniform r :: post)
    let flags := post.filterMap (rcFlag (rcCreated pre))
    rcProbabilities nsq perm hash s (rcCreated pre) chunks
      = some (if uniform then
          uniformProbabilities nsq perm hash (flags.foldl setWeightless (uniformCalc c)) chunks.flatten
        else fixedLossProbabilities nsq perm hash c chunks.flatten) ∧
    rcOutcomes fuel s (rcCreated pre)
      = some (if uniform then uniformOutcomes fuel c else fixedLossOutcomes fuel c) := by
  intro c s flags
  obtain ⟨h1, h2⟩ := rc_new configs pre uniform r
  have hs : s = rcRun (rcStep (rcRun ⟨configs, []⟩ pre) (.new uniform r)) post := by
    simp only [s, rcRun_append, rcRun_cons]
  cases uniform with
  | true =>
    obtain ⟨u, hu, h3, h4, h5⟩ := rc_own _ post _ _ _ h1 hp
    rw [← hs] at h3 h4
    have hu' : u = flags.foldl setWeightless (uniformCalc c) := by rw [hu, h2]; rfl
    simp only [rcProbabilities, rcOutcomes, h3, Option.map_some, if_true, h4, h2, rc_chunks]
    refine ⟨?_, rfl⟩
    congr 2
    rw [← hu', ← h2, ← h5]
  | false =>
    obtain ⟨w, b, h3⟩ := rc_calc _ post _ _ h1
    rw [← hs] at h3
    have hl : latest (rcAssigned (rcCreated pre)) post (.copy (rcCreated pre)) = .copy (rcCreated pre) :=
      rc_latest_own _ _ hp
    rw [show (RcCalc.mk false (.copy (rcCreated pre)) (if false = true then initializeWeights
      (rcContents configs pre.reverse r) else []) false).configuration = .copy (rcCreated pre) from rfl, hl] at h3
    have h4 : s.configs (.copy (rcCreated pre)) = c := by
      rw [hs, rc_own_contents _ post _ (by
        rw [rcStep, rcNew]; simp [RcState.put, rc_length]) hp, h2]
    simp only [rcProbabilities, rcOutcomes, h3, Option.map_some, h4]
    simp

/-- C101: a fixed-loss calculator computes with its current configuration. -/
theorem C101_fixed (nsq : K → R) (perm : CalcCfg K → Py K) (hash : List Nat → Int) (fuel : Nat)
    (configs : RcRef → ExpConfig K R) (pre post : List (RcOp K R)) (r : RcRef)
    (chunks : List (List (List Nat))) :
    let c := rcConfiguration configs pre false r post
    let s := rcRun ⟨configs, []⟩ (pre ++ .new false r :: post)
    rcProbabilities nsq perm hash s (rcCreated pre) chunks
      = some (fixedLossProbabilities nsq perm hash c chunks.flatten) ∧
    rcOutcomes fuel s (rcCreated pre) = some (fixedLossOutcomes fuel c) := by
  intro c s
  obtain ⟨h1, -⟩ := rc_new configs pre false r
  have hs : s = rcRun (rcStep (rcRun ⟨configs, []⟩ pre) (.new false r)) post := by
    simp only [s, rcRun_append, rcRun_cons]
  obtain ⟨w, b, h3⟩ := rc_calc _ post _ _ h1
  rw [← hs] at h3
  have hc := rc_contents configs (pre ++ .new false r :: post)
    (latest (rcAssigned (rcCreated pre)) post (.copy (rcCreated pre)))
  simp only [rcProbabilities, rcOutcomes, h3, Option.map_some]
  simp [s, hc, c, rcConfiguration]

/-- C101: a uniform-loss calculator whose weights were computed latest by the constructor or by
`set_weightless(False)` between `p₁` and `p₂` uses its current configuration with the weights of the
configuration it had then. -/
theorem C101_uniform (nsq : K → R) (perm : CalcCfg K → Py K) (hash : List Nat → Int) (fuel : Nat)
    (configs : RcRef → ExpConfig K R) (pre p₁ p₂ : List (RcOp K R)) (r : RcRef)
    (h₁ : p₁ = [] ∨ ∃ q, p₁ = q ++ [.weightless (rcCreated pre) false])
    (h₂ : ∀ op ∈ p₂, rcFlag (rcCreated pre) op = none) (chunks : List (List (List Nat))) :
    let then_ := rcConfiguration configs pre true r p₁
    let now := rcConfiguration configs pre true r (p₁ ++ p₂)
    let s := rcRun ⟨configs, []⟩ (pre ++ .new true r :: (p₁ ++ p₂))
    rcProbabilities nsq perm hash s (rcCreated pre) chunks
      = some (uniformProbabilities nsq perm hash
          { config := now, weights := initializeWeights then_, weightless := false } chunks.flatten) ∧
    rcOutcomes fuel s (rcCreated pre) = some (uniformOutcomes fuel now) := by
  intro then_ now s
  obtain ⟨h, h'⟩ := rc_new configs pre true r
  have hs1 : ∀ q, rcRun ⟨configs, []⟩ (pre ++ .new true r :: q)
      = rcRun (rcStep (rcRun ⟨configs, []⟩ pre) (.new true r)) q := by
    intro q; simp only [rcRun_append, rcRun_cons]
  have hk : (rcRun (⟨configs, []⟩ : RcState K R) (pre ++ .new true r :: p₁)).calculators[rcCreated pre]?
      = some ⟨true, latest (rcAssigned (rcCreated pre)) p₁ (.copy (rcCreated pre)),
          initializeWeights then_, false⟩ := by
    rw [hs1]
    rcases h₁ with rfl | ⟨q, rfl⟩
    · rw [rcRun, List.foldl_nil, h]
      simp only [if_true, latest, List.foldl_nil, then_, rcConfiguration]
      have e := rc_contents configs (pre ++ [RcOp.new true r]) (.copy (rcCreated pre))
      rw [hs1, rcRun, List.foldl_nil, h'] at e
      rw [e]
    · obtain ⟨w, b, h3⟩ := rc_calc _ q _ _ h
      rw [rcRun_snoc, rc_calc_step _ _ _ h3]
      simp only [rcCalcStep, if_true, rcSetWeightless, Bool.not_false, latest_append]
      simp only [latest_cons, rcAssigned, Option.getD_none, then_, rcConfiguration, latest_append]
      rw [← rc_contents, hs1, rcRun_snoc]
      rfl
  have hr : s = rcRun (rcRun ⟨configs, []⟩ (pre ++ .new true r :: p₁)) p₂ := by
    rw [← rcRun_append]; simp [s]
  have h3 := rc_weights _ p₂ _ _ hk h₂
  rw [← hr] at h3
  have hc := rc_contents configs (pre ++ .new true r :: (p₁ ++ p₂))
    (latest (rcAssigned (rcCreated pre)) p₂ (latest (rcAssigned (rcCreated pre)) p₁ (.copy (rcCreated pre))))
  have hn : s.configs (latest (rcAssigned (rcCreated pre)) p₂
      (latest (rcAssigned (rcCreated pre)) p₁ (.copy (rcCreated pre)))) = now := by
    rw [hc]; simp only [now, rcConfiguration, latest_append]
  simp only [rcProbabilities, rcOutcomes, h3, Option.map_some, hn, if_true, rc_chunks, and_self]

/-- C101: hence it computes what a fresh calculator of its current configuration does, as long as the
number of particles and the transmissivity are still those the weights were computed for. Missing:
other changes of the configuration (`C101_fails`). -/
theorem C101_uniform_partial (nsq : K → R) (perm : CalcCfg K → Py K) (hash : List Nat → Int) (fuel : Nat)
    (configs : RcRef → ExpConfig K R) (pre p₁ p₂ : List (RcOp K R)) (r : RcRef)
    (h₁ : p₁ = [] ∨ ∃ q, p₁ = q ++ [.weightless (rcCreated pre) false])
    (h₂ : ∀ op ∈ p₂, rcFlag (rcCreated pre) op = none) (chunks : List (List (List Nat)))
    (hn : (rcConfiguration configs pre true r (p₁ ++ p₂)).initialNumber
      = (rcConfiguration configs pre true r p₁).initialNumber)
    (he : (rcConfiguration configs pre true r (p₁ ++ p₂)).eta = (rcConfiguration configs pre true r p₁).eta) :
    rcProbabilities nsq perm hash (rcRun ⟨configs, []⟩ (pre ++ .new true r :: (p₁ ++ p₂))) (rcCreated pre) chunks
      = some (uniformProbabilities nsq perm hash
          (uniformCalc (rcConfiguration configs pre true r (p₁ ++ p₂))) chunks.flatten) := by
  rw [(C101_uniform nsq perm hash fuel configs pre p₁ p₂ r h₁ h₂ chunks).1]
  have : initializeWeights (rcConfiguration configs pre true r p₁)
      = initializeWeights (rcConfiguration configs pre true r (p₁ ++ p₂)) := by
    unfold initializeWeights
    rw [hn, he]
  rw [this]
  rfl

/-- One particle in one mode. -/
def rcOne (eta : ℚ) : ExpConfig ℚ ℚ := expConfig [[1]] [1] 1 eta

/-- Two particles in one mode. -/
def rcTwo (eta : ℚ) : ExpConfig ℚ ℚ := expConfig [[1]] [2] 2 eta

/-- C101: the property is false without the two conditions. If the transmissivity of the
configuration is set to 1/2, the particle is still never lost; if another particle is added, the
outcome with both raises `IndexError`. After `set_weightless(False)` both are right. -/
theorem C101_fails :
    let perm := factoryPermanent reflectedGray 4 9
    let hash := fun l : List Nat => (l.getD 0 0 : Int)
    let s := fun ops => rcRun (⟨fun _ => rcOne 1, []⟩ : RcState ℚ ℚ) (.new true (.user 0) :: ops)
    let p := fun ops T => rcProbabilities (fun x => x ^ 2) perm hash (s ops) 0 [[T]]
    (p [.write (.copy 0) (rcOne (1 / 2))] [1] = some (.ok [1]) ∧
      uniformProbabilities (fun x => x ^ 2) perm hash (uniformCalc (rcOne (1 / 2))) [[1]] = .ok [1 / 2] ∧
      p [.write (.copy 0) (rcOne (1 / 2)), .weightless 0 false] [1] = some (.ok [1 / 2])) ∧
    (p [.write (.copy 0) (rcTwo 1)] [2] = some (.error .indexError) ∧
      uniformProbabilities (fun x => x ^ 2) perm hash (uniformCalc (rcTwo 1)) [[2]] = .ok [1] ∧
      p [.write (.copy 0) (rcTwo 1), .weightless 0 false] [2] = some (.ok [1])) := by
  decide +kernel

/-- Two calculators of one configuration object, which is changed after the first; the second is
given another configuration later. -/
def rcExample : List (RcOp ℚ ℚ) :=
  [.new true (.user 0), .write (.user 0) (rcTwo 1), .new false (.user 0), .weightless 0 true,
    .assign 1 (.user 1), .write (.user 1) (rcOne 1)]

example : ∀ op ∈ rcExample.drop 1, ¬ Reconfigures 0 op := by
  intro op h
  simp only [rcExample, List.drop_succ_cons, List.drop_zero, List.mem_cons, List.not_mem_nil, or_false] at h
  rcases h with rfl | rfl | rfl | rfl | rfl <;> simp [Reconfigures]
example : rcContents (fun _ => rcOne (1 / 2)) [] (.user 0) = rcOne (1 / 2) := rfl
example : rcConfiguration (fun _ => rcOne (1 / 2)) (rcExample.take 2) false (.user 0) (rcExample.drop 3)
    = rcOne 1 := rfl
example : rcConfiguration (fun _ => rcOne (1 / 2)) (rcExample.take 2) false (.user 0) [.weightless 0 true]
    = rcTwo 1 := rfl

end Verif
