import Verif.Proofs.MismatchDist
import Verif.Props.Distributions

/-! C74: outcomes whose particle number cannot occur. -/
namespace Verif

open Finset

theorem mismatchedProb_zero (amp : List ℕ → ℂ) (S : List ℕ) (k : ℕ) (T : List ℕ)
    (h : ∀ A ∈ powersetCard k (univ : Finset (Particle S)), amp (stateOf A) = 0) :
    mismatchedProb amp S k T = 0 := by
  unfold mismatchedProb
  rw [sum_eq_zero fun A hA => by rw [h A hA]; simp, zero_div]

/-- C74 for outcomes with fewer particles than are left: the fixed-loss calculator reports
probability 0, with every permanent calculator but Glynn's, and with the classic one unless the
outcome is the vacuum.  Missing (because false, see `C74_fails`, `C74_glynn_fails`): Glynn's
calculator, the classic one on the vacuum, and outcomes with more particles. -/
theorem C74_fewer_partial (gray : Nat → List Nat) (t : Int) (ht : t ≠ 2)
    (hash : List Nat → Int) (U : List (List ℂ)) (S T : List ℕ) (k : ℕ) (eta : ℝ)
    (hU : ∀ r ∈ U, r.length = U.length) (hlen : S.length = T.length) (hle : S.length ≤ U.length)
    (hS : S ≠ []) (hk : k ≤ S.sum) (hT : T.sum < k) (ht1 : t = 1 → T.sum ≠ 0) (fuel : ℕ)
    (hf : (S.map (· + 1)).prod ≤ fuel)
    (hinj : ∀ a b : List Nat, StateLE a S → a.sum = k → StateLE b S → b.sum = k →
      hash a = hash b → a = b) :
    fixedLossOutcome Complex.normSq (factoryPermanent gray t fuel) hash (expConfig U S k eta) T
      = .ok 0 := by
  rw [fixedLossOutcome_any (fun _ => 0) (factoryPermanent gray t fuel) hash (expConfig U S k eta) T
    (fun l hl hs => ?_) rfl hlen hk hinj, mismatchedProb_zero _ _ _ _ (fun _ _ => rfl)]
  have h1 : l.length = S.length := hl.length_eq
  have h2 : l.sum = k := hs
  have hf' := (prod_succ_mono hl).trans hf
  have hl0 : l ≠ [] := by rintro rfl; exact hS (List.length_eq_zero_iff.mp h1.symm)
  have hz : ∀ P : (Fin T.sum → Fin l.sum) → Prop, ∀ _ : DecidablePred P,
      (∀ f, P f → Function.Surjective f) → assignmentSum U l T P = 0 := by
    intro P _ hP
    unfold assignmentSum
    refine sum_eq_zero fun f hf => ?_
    have := Fintype.card_le_of_surjective f (hP f (mem_filter.mp hf).2)
    simp only [Fintype.card_fin] at this
    omega
  have e3 := chinHuhPermanent_any (U := U) (S := l) (T := T) ⟨hU, by omega, by omega, hl0⟩ fuel hf'
  have e4 := ryserPermanent_any (U := U) (S := l) (T := T) ⟨hU, by omega, by omega, hl0⟩ fuel hf'
  rw [hz _ _ fun _ h => h] at e4
  rw [hz _ _ fun f h => (card_fibre_ne_zero f).mp fun b => (h b).pos.ne'] at e3
  unfold factoryPermanent
  split_ifs with c1
  · refine (classicPermanent_any (U := U) (S := l) (T := T) U.length hU (by omega) (by omega)
      (by omega) (ht1 c1)).trans ?_
    congr 1
    unfold embeddingSum
    refine sum_eq_zero fun g hg => ?_
    have := Fintype.card_le_of_injective g (mem_filter.mp hg).2
    simp only [Fintype.card_fin] at this
    omega
  · exact e3
  · exact e4
  · exact e3

/-- C74, what is returned for any particle number of the outcome, with the Ryser calculator (the
factory's default type 4) and with Chin and Huh's (3): the fixed-loss formula with the sums of C71
instead of the permanents. -/
theorem C74_any (gray : Nat → List Nat) (hash : List Nat → Int) (U : List (List ℂ)) (S T : List ℕ)
    (k : ℕ) (eta : ℝ) (hU : ∀ r ∈ U, r.length = U.length) (hlen : S.length = T.length)
    (hle : S.length ≤ U.length) (hS : S ≠ []) (hk : k ≤ S.sum) (fuel : ℕ)
    (hf : (S.map (· + 1)).prod ≤ fuel)
    (hinj : ∀ a b : List Nat, StateLE a S → a.sum = k → StateLE b S → b.sum = k →
      hash a = hash b → a = b) :
    fixedLossOutcome Complex.normSq (factoryPermanent gray 4 fuel) hash (expConfig U S k eta) T
      = .ok (mismatchedProb (fun l => assignmentSum U l T Function.Surjective) S k T) ∧
    fixedLossOutcome Complex.normSq (factoryPermanent gray 3 fuel) hash (expConfig U S k eta) T
      = .ok (mismatchedProb (fun l => assignmentSum U l T OddFibres) S k T) := by
  constructor <;> refine fixedLossOutcome_any _ _ hash (expConfig U S k eta) T
    (fun l hl hs => ?_) rfl hlen hk hinj
  · have h1 : l.length = S.length := hl.length_eq
    have hl0 : l ≠ [] := by rintro rfl; exact hS (List.length_eq_zero_iff.mp h1.symm)
    exact ryserPermanent_any (U := U) (S := l) (T := T) ⟨hU, by omega, by omega, hl0⟩ fuel
      ((prod_succ_mono hl).trans hf)
  · have h1 : l.length = S.length := hl.length_eq
    have hl0 : l ≠ [] := by rintro rfl; exact hS (List.length_eq_zero_iff.mp h1.symm)
    exact chinHuhPermanent_any (U := U) (S := l) (T := T) ⟨hU, by omega, by omega, hl0⟩ fuel
      ((prod_succ_mono hl).trans hf)

/-- C74, uniform losses: an outcome with more particles than the input raises (the loop variable
of the empty loop over lossy inputs is read). -/
theorem C74_uniform_raises (gray : Nat → List Nat) (t : Int) (hash : List Nat → Int)
    (U : List (List ℂ)) (S T : List ℕ) (k : ℕ) (eta : ℝ) (fuel : ℕ) (hS : S.sum ≠ 0)
    (hT : S.sum < T.sum) :
    uniformOutcome Complex.normSq (factoryPermanent gray t fuel) hash
        (uniformCalc (expConfig U S k eta)) T = .error .nameError := by
  have hc : itCombinations (particles S) T.sum = [] := by
    apply List.eq_nil_of_length_eq_zero
    rw [itCombinations_length, particlesFrom_length, Nat.choose_eq_zero_of_lt hT]
  have hL : generateLossyNParticleInputStates hash S T.sum = .ok [] := by
    rw [generateLossy_ok hash S T.sum hS, hc]; rfl
  unfold uniformOutcome
  simp only [uniformCalc]
  rw [if_neg (by omega)]
  simp only [fixedLossProbabilities, List.mapM_cons, fixedLossOutcome,
    probabilityForIndistinguishable, expConfig]
  rw [hL]
  rfl

/-- Finding: one particle enters the identity network in mode 0 and none is lost; the fixed-loss
calculator with the default (Ryser) permanent calculator reports probability 1/2 for two particles
in mode 0. -/
theorem C74_fails :
    fixedLossOutcome (fun x : ℚ => x ^ 2) (factoryPermanent reflectedGray 4 2)
      (fun l => (l.getD 0 0 : Int)) (expConfig [[1, 0], [0, 1]] [1, 0] 1 (1 : ℚ)) [2, 0]
      = .ok (1 / 2) := by decide +kernel

/-- Finding: Glynn's calculator gives probability 1 to the vacuum though a particle is left. -/
theorem C74_glynn_fails :
    fixedLossOutcome (fun x : ℚ => x ^ 2) (factoryPermanent reflectedGray 2 2)
      (fun l => (l.getD 0 0 : Int)) (expConfig [[1, 0], [0, 1]] [1, 0] 1 (1 : ℚ)) [0, 0]
      = .ok 1 := by decide +kernel

/-- A non-trivial case of `C74_fewer_partial`: two of three particles left, one observed. -/
example : fixedLossOutcome (fun x : ℚ => x ^ 2) (factoryPermanent reflectedGray 4 12)
      (fun l => (l.getD 0 0 : Int) + 10 * (l.getD 1 0 : Int))
      (expConfig [[3 / 5, 4 / 5], [4 / 5, -3 / 5]] [2, 1] 2 (1 : ℚ)) [1, 0] = .ok 0 := by
  decide +kernel

end Verif
