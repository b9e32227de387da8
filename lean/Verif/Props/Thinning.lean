import Verif.Proofs.Thinning
import Verif.Proofs.ReflectedGray
import Verif.Proofs.Statistics
import Verif.Props.Distributions

/-!
C81: losing particles after the interferometer is losing them before it. `keepProb`, `thinProb` and
`expLossAll` are defined in `Spec/Thinning.lean`.
-/
namespace Verif

open Finset
open scoped ENNReal

/-- The result of a sampler after every particle of the samples has survived with probability `eta`. -/
noncomputable def afterLoss (eta : ℝ) (f : Py (List (List ℕ)) → ℝ≥0∞) : Py (List (List ℕ)) → ℝ≥0∞
  | .ok l => expLossAll eta l fun l' => f (.ok l')
  | .error e => f (.error e)

section
variable (gray : Nat → List Nat) (hgray : ∀ n, IsGrayCode n (gray n)) (t : Int) (hash : List Nat → Int)
variable {U : List (List ℂ)} {S : List ℕ}
include hgray

/-- C81, fixed losses: keeping `k` random particles of the outcomes of the distribution computed for
`l` particles left gives the probabilities computed for `k` particles left. -/
theorem C81_fixed (h : Interferometer U S) (T : List ℕ) (hT : T.length = S.length) (l : ℕ) (hk : T.sum ≤ l) (hl : l ≤ S.sum)
    (eta : ℝ)
    (hinj : ∀ a b : List Nat, StateLE a S → StateLE b S → a.sum = b.sum → hash a = hash b → a = b) :
    ∃ outcomes dist F, ∀ fuel ≥ F,
      fixedLossOutcomes fuel (expConfig U S l eta) = .ok outcomes ∧
      fixedLossDistribution Complex.normSq (factoryPermanent gray t fuel) hash fuel (expConfig U S l eta) = .ok dist ∧
      fixedLossOutcome Complex.normSq (factoryPermanent gray t fuel) hash (expConfig U S T.sum eta) T
        = .ok (List.zipWith (fun T' p => p * keepProb T' T.sum T) outcomes dist).sum := by
  obtain ⟨outcomes, F, hF⟩ := C23_distribution gray hgray t hash U S l eta h.square h.len h.ne h.ortho hl
    fun a b h1 h2 h3 h4 => hinj a b h1 h3 (h2.trans h4.symm)
  refine ⟨outcomes, _, F + (S.map (· + 1)).prod, fun fuel hf => ⟨(hF fuel (by omega)).1, (hF fuel (by omega)).2.1, ?_⟩⟩
  obtain ⟨-, -, h1, h2, -⟩ := hF fuel (by omega)
  rw [(C22_probability gray hgray t hash U S T T.sum eta h.square hT.symm h.len.le h.ne (hk.trans hl) rfl fuel (by omega)
    fun a b h1 h2 h3 h4 => hinj a b h1 h3 (h2.trans h4.symm)).1, ← fixedLoss_thinned h.used l hl T hT hk]
  congr 1
  rw [List.zipWith_map_right, List.zipWith_self, ← List.sum_toFinset _ h1]
  refine sum_congr ?_ fun _ _ => rfl
  ext T'
  rw [mem_statesFin, List.mem_toFinset, h2]

/-- C81, uniform losses: thinning the distribution computed for transmissivity `x` with transmissivity
`y` gives the probabilities computed for transmissivity `x * y`. -/
theorem C81_uniform (h : Interferometer U S) (T : List ℕ) (hT : T.length = S.length) (hs : T.sum ≤ S.sum) (k k' : ℕ)
    (x y : ℝ) (hx0 : 0 ≤ x) (hx1 : x ≤ 1)
    (hinj : ∀ a b : List Nat, StateLE a S → StateLE b S → a.sum = b.sum → hash a = hash b → a = b) :
    ∃ outcomes dist F, ∀ fuel ≥ F,
      uniformOutcomes fuel (expConfig U S k x) = .ok outcomes ∧
      uniformDistribution Complex.normSq (factoryPermanent gray t fuel) hash fuel (uniformCalc (expConfig U S k x))
        = .ok dist ∧
      uniformOutcome Complex.normSq (factoryPermanent gray t fuel) hash (uniformCalc (expConfig U S k' (x * y))) T
        = .ok (List.zipWith (fun T' p => p * thinProb y T' T) outcomes dist).sum := by
  obtain ⟨outcomes, dist, F, hF, rfl, h1, h2, -⟩ := C24_distribution gray hgray t hash U S k x hx0 hx1 h.square h.len h.ne
    h.ortho hinj
  refine ⟨outcomes, _, F + (S.map (· + 1)).prod, fun fuel hf => ⟨(hF fuel (by omega)).1, (hF fuel (by omega)).2, ?_⟩⟩
  rw [C24_probability gray hgray t hash U S T k' (x * y) h.square hT.symm h.len.le h.ne hs fuel (by omega)
    fun a b h1 h2 h3 h4 => hinj a b h1 h3 (h2.trans h4.symm)]
  congr 1
  change uniformLossProb U S (x * y) T = _
  rw [← uniformLoss_thinned h.used x y T hT, List.zipWith_map_right, List.zipWith_self, ← List.sum_toFinset _ h1]
  refine sum_congr ?_ fun _ _ => rfl
  ext T'
  rw [mem_statesUpTo, List.mem_toFinset, h2]

/-- C81, samplers: the samples of each of the exact samplers after losses with transmissivity `y` have
the joint law of the samples of the uniform-loss samplers with transmissivity `y`; the samples of a
uniform-loss sampler with transmissivity `x` after these losses have the joint law of the samples of
the uniform-loss samplers with transmissivity `x * y`. -/
theorem C81_samplers (h : Interferometer U S) (N : ℕ) (o : GccObj) (x y : ℝ) (hx0 : 0 ≤ x) (hx1 : x ≤ 1) (hy0 : 0 ≤ y)
    (hy1 : y ≤ 1) (ox oy oxy : GccuObj) (hox : ox.eta = x) (hoy : oy.eta = y) (hoxy : oxy.eta = x * y) :
    ∃ F, ∀ fuel ≥ F, ∀ f : Py (List (List ℕ)) → ℝ≥0∞,
    let A := factoryPermanent gray t fuel
    let B := ryserSubPermanents fuel
    (gccStrategy gccA A U fuel o S N).wp (afterLoss y f) = (gccuStrategy A U fuel oy S N).wp f ∧
      (gccStrategy gccAssignment A U fuel o S N).wp (afterLoss y f) = (gccuStrategy A U fuel oy S N).wp f ∧
      (gccbStrategy B U fuel S N).wp (afterLoss y f) = (gccbLossyStrategy B U fuel y S N).wp f ∧
      (gccuStrategy A U fuel ox S N).wp (afterLoss y f) = (gccuStrategy A U fuel oxy S N).wp f ∧
      (gccbLossyStrategy B U fuel x S N).wp (afterLoss y f) = (gccbLossyStrategy B U fuel (x * y) S N).wp f := by
  obtain ⟨k, hk⟩ : ∃ k, S.length = k + 1 := ⟨S.length - 1, by have := List.length_pos_of_ne_nil h.ne; omega⟩
  refine ⟨genFuel k S.sum + (S.map (· + 1)).prod, fun fuel hf f => ?_⟩
  have hf1 : (S.map (· + 1)).prod ≤ fuel := by omega
  have hxy0 : 0 ≤ x * y := mul_nonneg hx0 hy0
  have hxy1 : x * y ≤ 1 := mul_le_one₀ hx1 hy0 hy1
  refine ⟨?_, ?_, ?_, ?_, ?_⟩
  · rw [gccStrategy_wp gray hgray t (okA _) h fuel hf1, gccuStrategy_wp gray hgray t h hy0 hy1 oy hoy k hk fuel hf]
    exact expIid_expLossAll (fun g => boson_expLoss h.used hy0 hy1 g) N _
  · rw [gccStrategy_wp gray hgray t (okAssignment _ h.ne) h fuel hf1,
      gccuStrategy_wp gray hgray t h hy0 hy1 oy hoy k hk fuel hf]
    exact expIid_expLossAll (fun g => boson_expLoss h.used hy0 hy1 g) N _
  · rw [gccbStrategy_wp h fuel hf1, gccbLossyStrategy_wp h hy0 hy1 fuel hf1]
    exact expIid_expLossAll (fun g => boson_expLoss h.used hy0 hy1 g) N _
  · rw [gccuStrategy_wp gray hgray t h hx0 hx1 ox hox k hk fuel hf,
      gccuStrategy_wp gray hgray t h hxy0 hxy1 oxy hoxy k hk fuel hf]
    exact expIid_expLossAll (fun g => uniformLoss_expLoss h.used hx0 hx1 hy0 hy1 g) N _
  · rw [gccbLossyStrategy_wp h hx0 hx1 fuel hf1, gccbLossyStrategy_wp h hxy0 hxy1 fuel hf1]
    exact expIid_expLossAll (fun g => uniformLoss_expLoss h.used hx0 hx1 hy0 hy1 g) N _

end

/-- A concrete case: one of two particles is kept. -/
example : keepProb [1, 1] 1 [1, 0] = 1 / 2 ∧ keepProb [2, 0] 1 [1, 0] = 1 ∧ keepProb [0, 2] 1 [1, 0] = 0 := by
  refine ⟨(keepProb_eq [1, 1] [1, 0] rfl).trans ?_, (keepProb_eq [2, 0] [1, 0] rfl).trans ?_,
    (keepProb_eq [0, 2] [1, 0] rfl).trans ?_⟩ <;> simp [Nat.choose]

/-- A concrete case: two particles enter the rotation, half of the outcomes' particles are lost. -/
example (gray : Nat → List Nat) (hgray : ∀ n, IsGrayCode n (gray n)) (T : List ℕ) (hT : T = [1, 0] ∨ T = [0, 1]) :
    ∃ outcomes dist F, ∀ fuel ≥ F,
      fixedLossOutcomes fuel (expConfig [[3 / 5, 4 / 5], [4 / 5, -3 / 5]] [1, 1] 2 (1 / 2)) = .ok outcomes ∧
      fixedLossDistribution Complex.normSq (factoryPermanent gray 3 fuel)
        (fun l => (l.getD 0 0 : Int) + 10 * (l.getD 1 0 : Int)) fuel
        (expConfig [[3 / 5, 4 / 5], [4 / 5, -3 / 5]] [1, 1] 2 (1 / 2)) = .ok dist ∧
      fixedLossOutcome Complex.normSq (factoryPermanent gray 3 fuel)
        (fun l => (l.getD 0 0 : Int) + 10 * (l.getD 1 0 : Int))
        (expConfig [[3 / 5, 4 / 5], [4 / 5, -3 / 5]] [1, 1] T.sum (1 / 2)) T
          = .ok (List.zipWith (fun T' p => p * keepProb T' T.sum T) outcomes dist).sum := by
  refine C81_fixed gray hgray 3 _ (rotation_interferometer [1, 1] rfl) T ?_ 2 ?_ (by decide) _ ?_
  · rcases hT with rfl | rfl <;> rfl
  · rcases hT with rfl | rfl <;> decide
  · intro a b ha hb _ h
    have ha := ha.length_eq
    have hb := hb.length_eq
    obtain ⟨x, y, rfl⟩ := List.length_eq_two.mp ha
    obtain ⟨z, w, rfl⟩ := List.length_eq_two.mp hb
    simp at h ⊢
    simp at *
    omega

end Verif
