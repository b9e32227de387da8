import Verif.Proofs.Mismatch

/-! C71: what the permanent calculators return when the states hold different numbers of
particles. -/
namespace Verif

variable {K : Type} [Field K]

/-- C71: for states of any particle numbers the Ryser calculator returns the sum over the maps
assigning output particles to input particles that reach every input particle. -/
theorem C71_ryser [CharZero K] (U : List (List K)) (S T : List Nat)
    (hU : ∀ r ∈ U, r.length = U.length) (hlen : S.length = T.length) (hle : S.length ≤ U.length)
    (hS : S ≠ []) (fuel : Nat) (hf : (S.map (· + 1)).prod ≤ fuel) :
    ryserPermanent fuel ⟨U, S, T⟩ = .ok (assignmentSum U S T Function.Surjective) :=
  ryserPermanent_any ⟨hU, hlen, hle, hS⟩ fuel hf

/-- C71: the Chin–Huh calculator returns the sum over the maps that reach every input particle an
odd number of times. -/
theorem C71_chinHuh [CharZero K] (U : List (List K)) (S T : List Nat)
    (hU : ∀ r ∈ U, r.length = U.length) (hlen : S.length = T.length) (hle : S.length ≤ U.length)
    (hS : S ≠ []) (fuel : Nat) (hf : (S.map (· + 1)).prod ≤ fuel) :
    chinHuhPermanent fuel ⟨U, S, T⟩ = .ok (assignmentSum U S T OddFibres) :=
  chinHuhPermanent_any ⟨hU, hlen, hle, hS⟩ fuel hf

/-- C71: with at least as many input as output particles the Glynn calculator returns the
permanent of the output particles and the first `T.sum` input particles (the specification's
matrix is indexed by the output particles): surplus input particles are ignored. -/
theorem C71_glynn_surplus [CharZero K] (gray : Nat → List Nat) (hgray : ∀ n, IsGrayCode n (gray n))
    (U : List (List K)) (S T : List Nat) (c : Nat) (hU : ∀ r ∈ U, r.length = c)
    (hS : S.length ≤ c) (hT : T.length ≤ U.length) (hn : T.sum ≤ S.sum) :
    glynnPermanent gray ⟨U, S, T⟩ = .ok (scatteringPermanent U S T) :=
  glynnPermanent_more gray hgray c hU hS hT hn

/-- C71: with fewer, but some, input particles the Glynn calculator raises `IndexError`. -/
theorem C71_glynn_deficit (gray : Nat → List Nat) (U : List (List K)) (S T : List Nat) (c : Nat)
    (hU : ∀ r ∈ U, r.length = c) (hS : S.length ≤ c) (hT : T.length ≤ U.length) (h0 : S.sum ≠ 0)
    (hn : S.sum < T.sum) :
    glynnPermanent gray ⟨U, S, T⟩ = .error .indexError :=
  glynnPermanent_fewer gray c hU hS hT h0 hn

/-- C71: with no input particle or no output particle the Glynn calculator returns 1. -/
theorem C71_glynn_vacuum (gray : Nat → List Nat) (U : List (List K)) (S T : List Nat)
    (h : S.sum = 0 ∨ T.sum = 0) : glynnPermanent gray ⟨U, S, T⟩ = .ok 1 := by
  simp [glynnPermanent, effectiveScatteringMatrix, h, pure_eq_ok, ok_bind]

/-- C71: with particles on both sides the classic calculator returns the sum over the injective
maps from the input to the output particles. -/
theorem C71_classic (U : List (List K)) (S T : List Nat) (c : Nat) (hU : ∀ r ∈ U, r.length = c)
    (hS : S.length ≤ c) (hT : T.length ≤ U.length) (hS0 : S.sum ≠ 0) (hT0 : T.sum ≠ 0) :
    classicPermanent ⟨U, S, T⟩ = .ok (embeddingSum U S T) :=
  classicPermanent_any c hU hS hT hS0 hT0

/-- C71: with no input particles the classic calculator returns 1 if there is no output particle
either, else 0; with input but no output particles it raises `IndexError`. -/
theorem C71_classic_vacuum (U : List (List K)) (S T : List Nat) :
    (S.sum = 0 → classicPermanent ⟨U, S, T⟩ = .ok (if T.sum = 0 then 1 else 0)) ∧
    (S.sum ≠ 0 → T.sum = 0 → classicPermanent ⟨U, S, T⟩ = .error .indexError) := by
  constructor
  · intro h
    simp only [classicPermanent, if_pos h]
    split_ifs <;> rfl
  · intro h1 h2
    simp [classicPermanent, effectiveScatteringMatrix, h1, h2, pure_eq_ok, ok_bind]

/-- C71, consequence: with fewer output than input particles the classic calculator agrees with
Ryser's and Chin and Huh's on 0, if there is an output particle. -/
theorem C71_classic_surplus (U : List (List K)) (S T : List Nat) (c : Nat)
    (hU : ∀ r ∈ U, r.length = c) (hS : S.length ≤ c) (hT : T.length ≤ U.length) (hT0 : T.sum ≠ 0)
    (hn : T.sum < S.sum) : classicPermanent ⟨U, S, T⟩ = .ok 0 := by
  rw [C71_classic U S T c hU hS hT (by omega) hT0]
  congr 1
  unfold embeddingSum
  refine Finset.sum_eq_zero fun g hg => ?_
  have := Fintype.card_le_of_injective g (Finset.mem_filter.mp hg).2
  simp only [Fintype.card_fin] at this
  omega

/-- Finding: one particle in, two out — the four calculators give four different answers. -/
theorem C71_disagree (gray : Nat → List Nat) :
    ryserPermanent 2 ⟨[[3, 0], [0, (1 : ℚ)]], [1, 0], [2, 0]⟩ = .ok 9 ∧
    chinHuhPermanent 2 ⟨[[3, 0], [0, (1 : ℚ)]], [1, 0], [2, 0]⟩ = .ok 0 ∧
    glynnPermanent gray ⟨[[3, 0], [0, (1 : ℚ)]], [1, 0], [2, 0]⟩ = .error .indexError ∧
    classicPermanent ⟨[[3, 0], [0, (1 : ℚ)]], [1, 0], [2, 0]⟩ = .ok 6 :=
  ⟨by decide +kernel, by decide +kernel,
    C71_glynn_deficit gray _ _ _ 2 (by simp) (by simp) (by simp) (by simp) (by simp),
    by decide +kernel⟩

/-- Finding: two particles in, one out — Glynn's calculator returns a non-zero amplitude. -/
theorem C71_glynn_nonzero :
    glynnPermanent reflectedGray ⟨[[3, 5], [7, (1 : ℚ)]], [1, 1], [1, 0]⟩ = .ok 3 := by
  decide +kernel

/-! Non-trivial cases of the hypotheses: three output particles, two input particles; the number
of surjections is 6, of injections 6. -/
example : assignmentSum [[1, 2], [3, (4 : ℚ)]] [1, 1] [2, 1] Function.Surjective
    = 2 * 2 * 3 + 2 * 1 * 3 + 1 * 2 * 3 + 1 * 1 * 4 + 1 * 2 * 4 + 2 * 1 * 4 :=
  Except.ok.inj ((C71_ryser [[1, 2], [3, (4 : ℚ)]] [1, 1] [2, 1] (by simp) rfl (by simp) (by simp) 4
    (by decide)).symm.trans (by decide +kernel))
example : assignmentSum [[1, 2], [3, (4 : ℚ)]] [1, 0] [2, 1] OddFibres = 3 :=
  Except.ok.inj ((C71_chinHuh [[1, 2], [3, (4 : ℚ)]] [1, 0] [2, 1] (by simp) rfl (by simp) (by simp) 4
    (by decide)).symm.trans (by decide +kernel))
example : embeddingSum [[1, 2], [3, (4 : ℚ)]] [1, 1] [2, 1]
    = 1 * 2 + 1 * 4 + 1 * 2 + 1 * 4 + 3 * 2 + 3 * 2 :=
  Except.ok.inj ((C71_classic [[1, 2], [3, (4 : ℚ)]] [1, 1] [2, 1] 2 (by simp) (by simp) (by simp)
    (by decide) (by decide)).symm.trans (by decide +kernel))

end Verif
