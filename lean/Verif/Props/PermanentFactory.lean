import Verif.Proofs.PermanentFactory
import Verif.Props.Permanents

/-! C72: the permanent calculator factory and its calculators as objects. -/
namespace Verif

variable {K : Type} [Field K]

/-- C72: in every history of calls on the factory, on the calculators it has generated and of
in-place changes of the arrays, `compute_permanent` of a generated calculator returns (or raises)
what a fresh calculator of the factory's type does on the matrix and states this calculator sees:
its own latest references, else those the factory had at the time of generation.  Neither later
calls on the factory nor calls on other calculators nor earlier computations matter. -/
theorem C72_isolated (gray : Nat → List Nat) (fuel : Nat) (h : PfHeap K) (f : PfFactory)
    (pre post : List (PfOp K)) (junk : GuanScratch K) :
    (pfStep gray fuel (pfRun gray fuel ⟨h, f, []⟩ (pre ++ .generate :: post))
        (.on (generated pre) (.compute junk))).2
      = some (factoryPermanent gray f.calculatorType fuel (calcSees h f pre post)) := by
  have hm : ∀ r, (pfRun gray fuel ⟨h, f, []⟩ (pre ++ .generate :: post)).heap.matrices r
      = matrixAfter h (pre ++ .generate :: post) r := fun r => pf_matrices gray fuel r _ _
  have hst : ∀ r, (pfRun gray fuel ⟨h, f, []⟩ (pre ++ .generate :: post)).heap.state r
      = stateAfter h (pre ++ .generate :: post) r := by
    rintro (_ | r)
    · rfl
    · exact pf_states gray fuel r _ _
  have hf := pf_factory gray fuel pre ⟨h, f, []⟩
  have hl := pf_length gray fuel pre ⟨h, f, []⟩
  generalize hs : pfRun gray fuel ⟨h, f, []⟩ pre = s at hf hl
  have hr : pfRun gray fuel ⟨h, f, []⟩ (pre ++ .generate :: post)
      = pfRun gray fuel (pfStep gray fuel s .generate).1 post := by
    rw [pfRun_append, hs, pfRun_cons]
  have hk : (pfStep gray fuel s .generate).1.calculators[generated pre]?
      = some (s.factory.generate s.heap) := by
    simp only [pfStep]
    rw [List.getElem?_append_right (by simp [hl])]
    simp [hl]
  obtain ⟨x, hx⟩ := pf_calc gray fuel (generated pre) post _ _ hk
  rw [← hr] at hx
  generalize pfRun gray fuel ⟨h, f, []⟩ (pre ++ .generate :: post) = t at hm hst hx
  simp only [pfStep, hx, PfCalc.step]
  rw [pfCompute gray fuel t.heap _ f.calculatorType junk (by simp [PfFactory.generate, hf])]
  simp only [PfCalc.cfg, hm, hst, calcSees, PfFactory.generate, hf]

/-- C72: hence, whatever the type and the history, if the matrix the calculator sees is square,
the states fit and hold equally many particles, the permanent of the scattering matrix is
returned. -/
theorem C72_permanent [CharZero K] (gray : Nat → List Nat) (hgray : ∀ n, IsGrayCode n (gray n))
    (fuel : Nat) (h : PfHeap K) (f : PfFactory) (pre post : List (PfOp K)) (junk : GuanScratch K)
    (U : List (List K)) (S T : List Nat) (hc : calcSees h f pre post = ⟨U, S, T⟩)
    (hU : ∀ r ∈ U, r.length = U.length) (hlen : S.length = T.length) (hle : S.length ≤ U.length)
    (hS : S ≠ []) (hn : S.sum = T.sum) (hf : (S.map (· + 1)).prod ≤ fuel) :
    (pfStep gray fuel (pfRun gray fuel ⟨h, f, []⟩ (pre ++ .generate :: post))
        (.on (generated pre) (.compute junk))).2 = some (.ok (scatteringPermanent U S T)) := by
  rw [C72_isolated, hc, C17_interchangeable gray hgray U S T hU hlen hle hS hn fuel hf]

/-- A history with two calculators of the same factory: the second one is generated after a new
output state was set; the first gets a new input of its own; the shared matrix is overwritten. -/
def pfExample (junk : GuanScratch ℚ) : List (PfOp ℚ) :=
  [.generate, .on 0 (.compute junk), .setOutput (some 1), .generate, .on 1 (.compute junk),
    .on 0 (.setInput 1), .writeMatrix 0 [[2, 0], [0, 5]], .setMatrix 7]

/-- The objects of the example. -/
def pfExampleHeap : PfHeap ℚ :=
  ⟨fun _ => [[1, 2], [3, 4]], fun r => if r = 0 then [1, 1] else [2, 0]⟩

example (junk : GuanScratch ℚ) : calcSees pfExampleHeap ⟨0, some 0, some 0, 4⟩ []
    ((pfExample junk).drop 1) = ⟨[[2, 0], [0, 5]], [2, 0], [1, 1]⟩ := rfl
example (junk : GuanScratch ℚ) : calcSees pfExampleHeap ⟨0, some 0, some 0, 4⟩
    ((pfExample junk).take 3) ((pfExample junk).drop 4) = ⟨[[2, 0], [0, 5]], [1, 1], [2, 0]⟩ := rfl
example : (pfStep reflectedGray 9 (pfRun reflectedGray 9 ⟨pfExampleHeap, ⟨0, some 0, some 0, 4⟩, []⟩
      [.generate, .on 0 (.compute (freshScratch ⟨[], [], []⟩)), .setOutput (some 1), .generate])
    (.on 1 (.compute (freshScratch ⟨[], [], []⟩)))).2 = some (.ok 4) := by decide +kernel

end Verif
