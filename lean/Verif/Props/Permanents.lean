import Verif.Proofs.PermFinal

/-! C12–C19: the permanent calculators. -/
namespace Verif

variable {K : Type} [Field K]

/-! ### C12 -/

/-- C12: the code iteration terminates and visits a sequence of vectors that starts at 0, changes
one entry by one per step, and lists every vector `0 ≤ r ≤ S` exactly once — whatever the index
and the last value stored in the object were. -/
theorem C12_trace (S : List Nat) (hS : S ≠ []) (v : GuanVars) :
    ∃ L, (∀ fuel, (S.map (· + 1)).prod ≤ fuel → codeTrace fuel (initGuanVars S v) = .ok L) ∧
      L.head? = some (List.replicate S.length 0) ∧ L.IsChain UnitStep ∧ L.Nodup ∧
      ∀ r, r ∈ L ↔ List.Forall₂ (fun (x : Int) (s : Nat) => 0 ≤ x ∧ x ≤ s) r S := by
  obtain ⟨L, hL, hp, hl⟩ := visits_init S
  refine ⟨L, fun fuel hf => ?_, ?_, ?_, ?_, ?_⟩
  · refine codeTrace_visits hL ?_ (by simp) (by simp) _ _ fuel (by omega)
    simpa using hS
  · obtain ⟨L', rfl⟩ := hL.head; rfl
  · exact chain_visits hL (by simp) (by simp)
  · exact hp.nodup_iff.mpr (nodup_ibox S)
  · intro r; rw [hp.mem_iff, mem_ibox]

/-- C12: `compute_permanent` of the Ryser and of the Chin–Huh calculator terminates and returns
the sum of the addends of Ryser's, resp. Chin and Huh's, formula over the visited vectors, for
every configuration passing the guard. -/
theorem C12_addends [CharZero K] (U : List (List K)) (S T : List Nat)
    (hU : ∀ r ∈ U, r.length = U.length) (hlen : S.length = T.length) (hle : S.length ≤ U.length)
    (hS : S ≠ []) (v : GuanVars) (fuel : Nat) (hf : (S.map (· + 1)).prod ≤ fuel) :
    ∃ L, codeTrace fuel (initGuanVars S v) = .ok L ∧
      ryserPermanent fuel ⟨U, S, T⟩ = .ok (L.map (ryserAddend U S T)).sum ∧
      chinHuhPermanent fuel ⟨U, S, T⟩ = .ok (L.map (chinHuhAddend U S T)).sum := by
  have h : Fits U S T := ⟨hU, hlen, hle, hS⟩
  obtain ⟨L, hL, hp, hl⟩ := visits_init S
  refine ⟨L, codeTrace_visits hL (by simpa using hS) (by simp) (by simp) _ _ fuel (by omega), ?_, ?_⟩
  · obtain ⟨s', e⟩ := ryser_compute h (freshScratch _) hL fuel (by omega)
    rw [ryserPermanent, e]; rfl
  · obtain ⟨s', e⟩ := chinHuh_compute h (freshScratch _) hL fuel (by omega)
    rw [chinHuhPermanent, e]; rfl

example : codeTrace 6 (initGuanVars [1, 2] ⟨[], [], [], 7, 9⟩)
    = .ok [[0, 0], [1, 0], [1, 1], [0, 1], [0, 2], [1, 2]] := by decide

/-! ### C13 -/

/-- C13: the Ryser calculator returns the permanent of the scattering matrix. -/
theorem C13_ryser [CharZero K] (U : List (List K)) (S T : List Nat)
    (hU : ∀ r ∈ U, r.length = U.length) (hlen : S.length = T.length) (hle : S.length ≤ U.length)
    (hS : S ≠ []) (hn : S.sum = T.sum) (fuel : Nat) (hf : (S.map (· + 1)).prod ≤ fuel) :
    ryserPermanent fuel ⟨U, S, T⟩ = .ok (scatteringPermanent U S T) :=
  ryserPermanent_ok ⟨hU, hlen, hle, hS⟩ hn fuel hf

/-- The permanent in the specification is the permanent of the matrix the effective scattering
matrix calculator returns (used by C13–C16). -/
theorem C13_scattering (U : List (List K)) (S T : List Nat) (c : Nat)
    (hc : ∀ r ∈ U, r.length = c) (hS : S.length ≤ c) (hT : T.length ≤ U.length)
    (hn : S.sum = T.sum) (h0 : T.sum ≠ 0) :
    ∃ E, effectiveScatteringMatrix U S T = .ok E ∧
      scatteringPermanent U S T
        = Matrix.permanent (Matrix.of fun (a b : Fin T.sum) => mget E a b) := by
  refine ⟨_, effectiveScatteringMatrix_ok U S T c hc hS hT (by omega) h0, ?_⟩
  unfold scatteringPermanent
  congr 1
  ext a b
  simp only [Matrix.of_apply]
  rw [mget_scatter _ _ _ a.2 (by rw [hn]; exact b.2)]

/-- C13–C17: the permanent of the vacuum is 1. -/
theorem C13_vacuum (U : List (List K)) (S T : List Nat) (h : T.sum = 0) :
    scatteringPermanent U S T = 1 := scatteringPermanent_vacuum U S T h

example : ryserPermanent 12 ⟨[[1, 2, 3], [4, 5, 6], [7, 8, (9 : ℚ)]], [2, 0, 1], [1, 1, 1]⟩
    = .ok (2 * (1 * 4 * 9 + 1 * 7 * 6 + 4 * 7 * 3)) := by decide +kernel

/-! ### C14 -/

/-- C14: the Chin–Huh calculator returns the permanent of the scattering matrix. -/
theorem C14_chinHuh [CharZero K] (U : List (List K)) (S T : List Nat)
    (hU : ∀ r ∈ U, r.length = U.length) (hlen : S.length = T.length) (hle : S.length ≤ U.length)
    (hS : S ≠ []) (hn : S.sum = T.sum) (fuel : Nat) (hf : (S.map (· + 1)).prod ≤ fuel) :
    chinHuhPermanent fuel ⟨U, S, T⟩ = .ok (scatteringPermanent U S T) :=
  chinHuhPermanent_ok ⟨hU, hlen, hle, hS⟩ hn fuel hf

example : chinHuhPermanent 12 ⟨[[1, 2, 3], [4, 5, 6], [7, 8, (9 : ℚ)]], [2, 0, 1], [1, 1, 1]⟩
    = .ok (2 * (1 * 4 * 9 + 1 * 7 * 6 + 4 * 7 * 3)) := by decide +kernel

/-! ### C15 -/

/-- C15: the Glynn calculator returns the permanent of the scattering matrix, for every Gray-code
index generator. -/
theorem C15_glynn [CharZero K] (gray : Nat → List Nat) (hgray : ∀ n, IsGrayCode n (gray n))
    (U : List (List K)) (S T : List Nat) (c : Nat) (hU : ∀ r ∈ U, r.length = c)
    (hS : S.length ≤ c) (hT : T.length ≤ U.length) (hn : S.sum = T.sum) :
    glynnPermanent gray ⟨U, S, T⟩ = .ok (scatteringPermanent U S T) :=
  glynnPermanent_ok gray hgray c hU hS hT hn

/-- The hypothesis of `C15_glynn` is satisfiable: the reflected binary code is a Gray code. -/
theorem C15_reflected (n : Nat) : IsGrayCode n (reflectedGray n) := reflectedGray_isGrayCode n

example : glynnPermanent reflectedGray
    ⟨[[1, 2, 3], [4, 5, 6], [7, 8, (9 : ℚ)]], [2, 0, 1], [1, 1, 1]⟩
    = .ok (2 * (1 * 4 * 9 + 1 * 7 * 6 + 4 * 7 * 3)) := by decide +kernel

/-! ### C16 -/

/-- C16: the classic calculator returns the permanent of the scattering matrix. -/
theorem C16_classic (U : List (List K)) (S T : List Nat) (c : Nat) (hU : ∀ r ∈ U, r.length = c)
    (hS : S.length ≤ c) (hT : T.length ≤ U.length) (hn : S.sum = T.sum) :
    classicPermanent ⟨U, S, T⟩ = .ok (scatteringPermanent U S T) :=
  classicPermanent_ok c hU hS hT hn

example : classicPermanent ⟨[[1, 2, 3], [4, 5, 6], [7, 8, (9 : ℚ)]], [2, 0, 1], [1, 1, 1]⟩
    = .ok (2 * (1 * 4 * 9 + 1 * 7 * 6 + 4 * 7 * 3)) := by decide +kernel

/-! ### C17 -/

/-- C17: whatever the calculator type given to the factory (known or unknown), the calculator
built returns the permanent of the scattering matrix; hence all types agree. -/
theorem C17_interchangeable [CharZero K] (gray : Nat → List Nat)
    (hgray : ∀ n, IsGrayCode n (gray n)) (U : List (List K)) (S T : List Nat)
    (hU : ∀ r ∈ U, r.length = U.length) (hlen : S.length = T.length) (hle : S.length ≤ U.length)
    (hS : S ≠ []) (hn : S.sum = T.sum) (fuel : Nat) (hf : (S.map (· + 1)).prod ≤ fuel)
    (calculatorType : Int) :
    factoryPermanent gray calculatorType fuel ⟨U, S, T⟩ = .ok (scatteringPermanent U S T) := by
  unfold factoryPermanent
  have h1 := C16_classic U S T U.length hU hle (by omega) hn
  have h2 := C15_glynn gray hgray U S T U.length hU hle (by omega) hn
  have h3 := C14_chinHuh U S T hU hlen hle hS hn fuel hf
  have h4 := C13_ryser U S T hU hlen hle hS hn fuel hf
  split_ifs <;> assumption

/-- C17: an unknown type behaves as Chin–Huh (type 3), on every configuration. -/
theorem C17_unknown (gray : Nat → List Nat) (fuel : Nat) (c : CalcCfg K) (t : Int)
    (h : t ≠ 1 ∧ t ≠ 2 ∧ t ≠ 3 ∧ t ≠ 4) :
    factoryPermanent gray t fuel c = factoryPermanent gray 3 fuel c := by
  simp [factoryPermanent, h]

example : [0, 1, 2, 3, 4, 5].map (fun (t : Int) => factoryPermanent reflectedGray t 6
      ⟨[[1, 2], [3, (4 : ℚ)]], [1, 2], [2, 1]⟩)
    = List.replicate 6 (.ok 56) := by decide +kernel

/-! ### C18 -/

/-- C18: on a non-empty rectangular matrix and states of at least one mode, `AttributeError` is
raised exactly when the matrix is not square, the states differ in length, or are longer than the
matrix; and otherwise a value is returned. -/
theorem C18_shape [CharZero K] (U : List (List K)) (S T : List Nat) (c : Nat) (hU0 : U ≠ [])
    (hU : ∀ r ∈ U, r.length = c) (hS : S ≠ []) (fuel : Nat) (hf : (S.map (· + 1)).prod ≤ fuel) :
    (U.length ≠ c ∨ S.length ≠ T.length ∨ U.length < S.length →
      ryserPermanent fuel ⟨U, S, T⟩ = .error .attributeError ∧
      chinHuhPermanent fuel ⟨U, S, T⟩ = .error .attributeError) ∧
    (¬ (U.length ≠ c ∨ S.length ≠ T.length ∨ U.length < S.length) →
      (∃ x, ryserPermanent fuel ⟨U, S, T⟩ = .ok x) ∧
      ∃ x, chinHuhPermanent fuel ⟨U, S, T⟩ = .ok x) := by
  have hp := List.length_pos_of_ne_nil hU0
  constructor
  · intro h
    have hc := hU _ (List.getElem_mem hp)
    have : canCalculationBePerformed ⟨U, S, T⟩ = .ok false := by
      unfold canCalculationBePerformed
      simp only [pyGetN_ok hp, ok_bind]
      rw [decide_eq_false (by omega)]
      rfl
    constructor
    · rw [ryserPermanent, computePermanent, this]; rfl
    · rw [chinHuhPermanent, computePermanent, this]; rfl
  · intro h
    push Not at h
    obtain ⟨h1, h2, h3⟩ := h
    obtain ⟨L, -, h4, h5⟩ := C12_addends U S T (by rw [h1]; exact hU) h2 h3 hS ⟨[], [], [], 0, 0⟩ fuel hf
    exact ⟨⟨_, h4⟩, ⟨_, h5⟩⟩

/-- C18, the remaining shapes: an empty matrix and states without modes give an `IndexError`. -/
theorem C18_degenerate (U : List (List K)) (S T : List Nat) (fuel : Nat) :
    (U = [] → ryserPermanent fuel ⟨U, S, T⟩ = .error .indexError ∧
      chinHuhPermanent fuel ⟨U, S, T⟩ = .error .indexError) ∧
    (U ≠ [] → (∀ r ∈ U, r.length = U.length) → S = [] → T = [] → 0 < fuel →
      ryserPermanent fuel ⟨U, S, T⟩ = .error .indexError ∧
      chinHuhPermanent fuel ⟨U, S, T⟩ = .error .indexError) := by
  constructor
  · rintro rfl
    exact ⟨rfl, rfl⟩
  · rintro h1 h2 rfl rfl hf
    obtain ⟨fuel, rfl⟩ : ∃ k, fuel = k + 1 := ⟨fuel - 1, by omega⟩
    have hp := List.length_pos_of_ne_nil h1
    have hc := h2 _ (List.getElem_mem hp)
    have : canCalculationBePerformed (⟨U, [], []⟩ : CalcCfg K) = .ok true := by
      unfold canCalculationBePerformed
      simp only [pyGetN_ok hp, ok_bind]
      rw [decide_eq_true (by simp [hc])]
      rfl
    constructor
    · rw [ryserPermanent, computePermanent, this]; rfl
    · rw [chinHuhPermanent, computePermanent, this]; rfl

/-- C18 for fewer output than input particles: the amplitude is 0.  Missing (because false, see
`C18_more_particles_false`): the case of more output than input particles. -/
theorem C18_mismatch_partial [CharZero K] (U : List (List K)) (S T : List Nat)
    (hU : ∀ r ∈ U, r.length = U.length) (hlen : S.length = T.length) (hle : S.length ≤ U.length)
    (hS : S ≠ []) (hn : T.sum < S.sum) (fuel : Nat) (hf : (S.map (· + 1)).prod ≤ fuel) :
    ryserPermanent fuel ⟨U, S, T⟩ = .ok 0 ∧ chinHuhPermanent fuel ⟨U, S, T⟩ = .ok 0 := by
  have h : Fits U S T := ⟨hU, hlen, hle, hS⟩
  obtain ⟨L, hL, hp, hl⟩ := visits_init S
  constructor
  · obtain ⟨s', e⟩ := ryser_compute h (freshScratch _) hL fuel (by omega)
    rw [ryserPermanent, e, ← gterm_ryser, ryser_zero hn L hp]; rfl
  · obtain ⟨s', e⟩ := chinHuh_compute h (freshScratch _) hL fuel (by omega)
    rw [chinHuhPermanent, e, ← gterm_chinHuh, chinHuh_zero hn L hp]; rfl

/-- Finding: with more output than input particles both calculators return a non-zero value on a
configuration passing the guard, so the claim "amplitude 0 on particle-number mismatch" fails. -/
theorem C18_more_particles_false :
    ∃ (U : List (List ℚ)) (S T : List Nat), (∀ r ∈ U, r.length = U.length) ∧ S.length = T.length ∧
      S.length ≤ U.length ∧ S ≠ [] ∧ S.sum < T.sum ∧
      ∀ fuel, (S.map (· + 1)).prod ≤ fuel →
        ryserPermanent fuel ⟨U, S, T⟩ = .ok 1 ∧ chinHuhPermanent fuel ⟨U, S, T⟩ = .ok 1 := by
  refine ⟨[[1, 0], [0, 1]], [1, 0], [3, 0], by simp, rfl, by simp, by simp, by simp, fun fuel hf => ?_⟩
  obtain ⟨L, h1, h2, h3⟩ := C12_addends [[1, 0], [0, (1 : ℚ)]] [1, 0] [3, 0] (by simp) rfl (by simp) (by simp)
    ⟨[], [], [], 0, 0⟩ fuel hf
  obtain ⟨fuel, rfl⟩ : ∃ k, fuel = k + 2 := ⟨fuel - 2, by simp at hf; omega⟩
  have : codeTrace (fuel + 2) (initGuanVars [1, 0] ⟨[], [], [], 0, 0⟩) = .ok [[0, 0], [1, 0]] := by rfl
  rw [this, Except.ok.injEq] at h1
  subst h1
  exact ⟨h2.trans (by decide +kernel), h3.trans (by decide +kernel)⟩

example : ryserPermanent 9 ⟨[[1, 2], [3, (4 : ℚ)]], [2, 1], [1, 1]⟩ = .ok 0 := by decide +kernel
example : ryserPermanent 9 ⟨[[1, 2], [3, (4 : ℚ)]], [2, 1], [1, 1, 1]⟩ = .error .attributeError := by
  decide +kernel

/-! ### C19 -/

/-- Specification: the results of a history when every `compute_permanent` is done by a fresh
calculator constructed with the current matrix and states. -/
def runFresh (f : CalcCfg K → Py K) : List (CalcOp K) → CalcCfg K → List (Py K)
  | [], _ => []
  | .setMatrix m :: ops, c => runFresh f ops { c with matrix := m }
  | .setInput x :: ops, c => runFresh f ops { c with input := x }
  | .setOutput x :: ops, c => runFresh f ops { c with output := x }
  | .compute _ :: ops, c => f c :: runFresh f ops c

theorem runCalc_fresh (meth : GuanMethod K)
    (hinit : ∀ c s s', meth.init c s = (meth.init c s').map (withIL s.guan.index s.guan.last))
    (fuel : Nat) (ops : List (CalcOp K)) (c : CalcCfg K) (s : GuanScratch K) :
    runCalc meth fuel ops c s
      = runFresh (fun c => (computePermanent meth fuel c (freshScratch c)).map Prod.fst) ops c := by
  induction ops generalizing c s with
  | nil => rfl
  | cons op ops ih =>
    cases op with
    | setMatrix m => exact ih _ _
    | setInput x => exact ih _ _
    | setOutput x => exact ih _ _
    | compute junk =>
      rw [runCalc, runFresh, ← compute_no_state meth hinit fuel c s (freshScratch c)]
      cases h : computePermanent meth fuel c s with
      | ok p => simp only [ih]; rfl
      | error e => simp only [ih]; rfl

theorem map_fst_eq {A B : Type} (x : Py (A × B)) : x.map Prod.fst = x >>= fun r => pure r.1 := by
  cases x <;> rfl

/-- C19: for every history of setter and compute calls on a Ryser or Chin–Huh calculator —
whatever private state it starts in and whatever a failing computation leaves behind — each
result or error equals that of a fresh calculator with the current matrix and states. -/
theorem C19_no_state (fuel : Nat) (ops : List (CalcOp K)) (c : CalcCfg K) (s : GuanScratch K) :
    runCalc ryserMethod fuel ops c s = runFresh (ryserPermanent fuel) ops c ∧
    runCalc chinHuhMethod fuel ops c s = runFresh (chinHuhPermanent fuel) ops c := by
  rw [runCalc_fresh _ ryser_init_withIL, runCalc_fresh _ chinHuh_init_withIL]
  simp only [map_fst_eq]
  exact ⟨rfl, rfl⟩

example : runCalc ryserMethod 20
    [.compute (freshScratch ⟨[], [], []⟩), .setOutput [0, 2], .compute (freshScratch ⟨[], [], []⟩),
      .setInput [3], .compute (freshScratch ⟨[], [], []⟩), .setMatrix [[(5 : ℚ)]],
      .setOutput [3], .compute (freshScratch ⟨[], [], []⟩)]
    ⟨[[1, 2], [3, 4]], [1, 1], [1, 1]⟩ (freshScratch ⟨[[1, 2], [3, 4]], [1, 1], [1, 1]⟩)
    = [.ok 10, .ok 24, .error .attributeError, .ok 750] := by decide +kernel

end Verif
