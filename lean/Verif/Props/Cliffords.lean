import Verif.Proofs.CliffordsU

/-! C26–C33: the generalized Clifford & Clifford samplers. -/
namespace Verif

open Finset
open scoped ENNReal

/-- `U` is an `m × m` matrix with orthonormal columns and `S` an input state of `m ≥ 1` modes. -/
structure Interferometer (U : List (List ℂ)) (S : List ℕ) : Prop where
  square : ∀ r ∈ U, r.length = U.length
  len : S.length = U.length
  ne : S ≠ []
  ortho : Orthonormal U S.length S.length

theorem Interferometer.used {U : List (List ℂ)} {S : List ℕ} (h : Interferometer U S) :
    UsedOrtho (colOf U) S.length S :=
  ⟨S.length, orthoCols_of U h.ortho, fun x hx => by have := particlesFrom_range hx; omega⟩

theorem factory_permOn (gray : Nat → List Nat) (hgray : ∀ n, IsGrayCode n (gray n)) (t : Int)
    (U : List (List ℂ)) (S : List ℕ) (hU : ∀ r ∈ U, r.length = U.length) (hle : S.length ≤ U.length) (hS : S ≠ [])
    (fuel : ℕ) (hf : (S.map (· + 1)).prod ≤ fuel) : PermOn (factoryPermanent gray t fuel) U S :=
  fun l T h1 h2 h3 => factory_perm gray hgray t U S T hU h2.symm hle hS fuel hf l h1 h3

theorem ryser_subPermOn (U : List (List ℂ)) (S : List ℕ) (n : ℕ) (hU : ∀ r ∈ U, r.length = n)
    (hle : S.length ≤ U.length) (hn : S.length ≤ n) (hS : S ≠ []) (fuel : ℕ) (hf : (S.map (· + 1)).prod ≤ fuel) :
    SubPermOn (ryserSubPermanents fuel) U S := by
  intro l T h1 h2 h3
  have hll := h1.length_eq
  obtain ⟨s', hs⟩ := ryserSub_ok (K := ℂ) (U := U) (S := l) (T := T) (n := n)
    ⟨hU, by omega, by omega, by rintro rfl; exact hS (List.length_eq_zero_iff.mp hll.symm)⟩ h3
    (freshSubScratch ⟨U, l, T⟩) fuel ((prod_succ_mono h1).trans hf)
  unfold ryserSubPermanents
  rw [hs]
  rfl

theorem Interferometer.bok {U : List (List ℂ)} {S : List ℕ} (h : Interferometer U S) (fuel : ℕ)
    (hf : (S.map (· + 1)).prod ≤ fuel) : BOk (ryserSubPermanents fuel) U S U.length :=
  ⟨ryser_subPermOn U S U.length h.square h.len.le h.len.le h.ne fuel hf, h.square, h.len.le, h.len.le, h.used⟩

/-- A real rotation meets the hypotheses used below. -/
theorem rotation_interferometer (S : List ℕ) (hS : S.length = 2) :
    Interferometer [[3 / 5, 4 / 5], [4 / 5, -3 / 5]] S where
  square := by simp
  len := hS
  ne := by rintro rfl; simp at hS
  ortho := by
    rw [hS]
    intro a ha b hb
    have ha' : a = 0 ∨ a = 1 := by omega
    have hb' : b = 0 ∨ b = 1 := by omega
    rcases ha' with rfl | rfl <;> rcases hb' with rfl | rfl <;>
      simp [sum_range_succ, mget, Complex.conj_ofNat, Complex.ext_iff] <;> norm_num

/-- One particle in each mode of the rotation comes out the same way with probability `(7/25)²`. -/
theorem rotation_prob : bosonProb [[3 / 5, 4 / 5], [4 / 5, -3 / 5]] [1, 1] [1, 1] = 49 / 625 := by
  have hp : scatteringPermanent [[3 / 5, 4 / 5], [4 / 5, -3 / 5]] [1, 1] [1, 1] = (7 / 25 : ℂ) := by
    change Matrix.permanent (Matrix.of fun (a b : Fin 2) =>
      mget [[(3 / 5 : ℂ), 4 / 5], [4 / 5, -3 / 5]] ([0, 1].getD a 0) ([0, 1].getD b 0)) = _
    rw [Matrix.permanent, Fintype.sum_equiv (Equiv.Perm.decomposeFin (n := 1)) _
      (fun p => ∏ i, Matrix.of (fun (a b : Fin 2) =>
        mget [[(3 / 5 : ℂ), 4 / 5], [4 / 5, -3 / 5]] ([0, 1].getD a 0) ([0, 1].getD b 0))
          (Equiv.Perm.decomposeFin.symm p i) i) (fun σ => by simp)]
    rw [Fintype.sum_prod_type]
    simp [Fin.sum_univ_two, Fin.prod_univ_two, mget, Matrix.of_apply]
    norm_num
  rw [bosonProb, hp]
  have : (7 / 25 : ℂ) = ((7 / 25 : ℝ) : ℂ) := by push_cast; rfl
  rw [this, Complex.normSq_ofReal]
  simp [factProd]
  norm_num

section

variable (gray : Nat → List Nat) (hgray : ∀ n, IsGrayCode n (gray n)) (t : Int)
include hgray

open Classical in
theorem gcc_joint {v : GccVariant} {S : List ℕ} (V : VariantOK v S) {U : List (List ℂ)} (h : Interferometer U S)
    (fuel : ℕ) (hf : (S.map (· + 1)).prod ≤ fuel) (o : GccObj) (l : List (List ℕ))
    (hl : ∀ T ∈ l, T.length = S.length ∧ T.sum = S.sum) :
    (gccSimulate v (factoryPermanent gray t fuel) U fuel o S l.length).prob
      (fun r => ∃ o', r = .ok (l, o')) = (l.map fun T => ENNReal.ofReal (bosonProb U S T)).prod := by
  have hp := factory_permOn gray hgray t U S h.square h.len.le h.ne fuel hf
  unfold Prog.prob
  rw [simulate_wp V hp h.used fuel (lt_of_lt_of_le (sum_lt_prod_succ S) hf) _ (fun l' => if l' = l then 1 else 0) _
    (by
      intro l' o'
      by_cases e : l' = l
      · subst e; simp
      · simp [e])]
  rw [Int.toNat_natCast]
  exact expIid_indicator _ _ l fun T hT => (mem_statesFin _ _ T).mpr (hl T hT)

open Classical in
theorem gcc_marginal {v : GccVariant} {S : List ℕ} (V : VariantOK v S) {U : List (List ℂ)} (h : Interferometer U S)
    (fuel : ℕ) (hf : (S.map (· + 1)).prod ≤ fuel) (o : GccObj) (N : ℤ) (i : ℕ) (hi : i < N.toNat) (T : List ℕ)
    (hT : T.length = S.length) (hs : T.sum = S.sum) :
    (gccSimulate v (factoryPermanent gray t fuel) U fuel o S N).prob
      (fun r => ∃ l o', r = .ok (l, o') ∧ l[i]? = some T) = ENNReal.ofReal (bosonProb U S T) := by
  have hp := factory_permOn gray hgray t U S h.square h.len.le h.ne fuel hf
  unfold Prog.prob
  rw [simulate_wp V hp h.used fuel (lt_of_lt_of_le (sum_lt_prod_succ S) hf) _
    (fun l' => if l'[i]? = some T then 1 else 0) _ (by
      intro l' o'
      by_cases e : l'[i]? = some T
      · rw [if_pos e, if_pos ⟨l', o', rfl, e⟩]
      · rw [if_neg e, if_neg]
        rintro ⟨l'', o'', h1, h2⟩
        injection h1 with h1
        injection h1 with h1 h3
        subst h1
        exact e h2)]
  exact expIid_marginal (boson_total' (h.bok fuel hf)) _ _ hi T ((mem_statesFin _ _ T).mpr ⟨hT, hs⟩)

/-- C26: in a call `simulate(S, N)` of the generalized Clifford & Clifford sampler, whatever calls
the object has seen before (`o`), each of the `N` samples equals the state `T` with probability
`|Perm(U_{S,T})|² / (∏ S! ∏ T!)`. -/
theorem C26_sample {U : List (List ℂ)} {S : List ℕ} (h : Interferometer U S) (fuel : ℕ)
    (hf : (S.map (· + 1)).prod ≤ fuel) (o : GccObj) (N : ℤ) (i : ℕ) (hi : i < N.toNat) (T : List ℕ)
    (hT : T.length = S.length) (hs : T.sum = S.sum) :
    (gccSimulate gccA (factoryPermanent gray t fuel) U fuel o S N).prob
      (fun r => ∃ l o', r = .ok (l, o') ∧ l[i]? = some T) = ENNReal.ofReal (bosonProb U S T) :=
  gcc_marginal gray hgray t (okA S) h fuel hf o N i hi T hT hs

/-- A concrete case: the second of three samples. -/
example : (gccSimulate gccA (factoryPermanent gray t 4) [[3 / 5, 4 / 5], [4 / 5, -3 / 5]] 4 gccInit [1, 1] 3).prob
    (fun r => ∃ l o', r = .ok (l, o') ∧ l[1]? = some [1, 1]) = ENNReal.ofReal (49 / 625) := by
  rw [C26_sample gray hgray t (rotation_interferometer [1, 1] rfl) 4 (by decide) gccInit 3 1 (by decide) [1, 1] rfl rfl,
    rotation_prob]

/-- C27: the same for the sampler working with mode assignments. -/
theorem C27_sample {U : List (List ℂ)} {S : List ℕ} (h : Interferometer U S) (fuel : ℕ)
    (hf : (S.map (· + 1)).prod ≤ fuel) (o : GccObj) (N : ℤ) (i : ℕ) (hi : i < N.toNat) (T : List ℕ)
    (hT : T.length = S.length) (hs : T.sum = S.sum) :
    (gccSimulate gccAssignment (factoryPermanent gray t fuel) U fuel o S N).prob
      (fun r => ∃ l o', r = .ok (l, o') ∧ l[i]? = some T) = ENNReal.ofReal (bosonProb U S T) :=
  gcc_marginal gray hgray t (okAssignment S h.ne) h fuel hf o N i hi T hT hs

/-- A concrete case. -/
example : (gccSimulate gccAssignment (factoryPermanent gray t 4) [[3 / 5, 4 / 5], [4 / 5, -3 / 5]] 4 gccInit
      [1, 1] 3).prob
    (fun r => ∃ l o', r = .ok (l, o') ∧ l[1]? = some [1, 1]) = ENNReal.ofReal (49 / 625) := by
  rw [C27_sample gray hgray t (rotation_interferometer [1, 1] rfl) 4 (by decide) gccInit 3 1 (by decide) [1, 1] rfl rfl,
    rotation_prob]

end

open Classical in
/-- C28: in a call `simulate(S, N)` of version B, which constructs Ryser submatrix calculators, each
of the `N` samples equals the state `T` with probability `|Perm(U_{S,T})|² / (∏ S! ∏ T!)`. -/
theorem C28_sample {U : List (List ℂ)} {S : List ℕ} (h : Interferometer U S) (fuel : ℕ)
    (hf : (S.map (· + 1)).prod ≤ fuel) (N : ℤ) (i : ℕ) (hi : i < N.toNat) (T : List ℕ)
    (hT : T.length = S.length) (hs : T.sum = S.sum) :
    (gccbSimulate (ryserSubPermanents fuel) U fuel S N).prob
      (fun r => ∃ l, r = .ok l ∧ l[i]? = some T) = ENNReal.ofReal (bosonProb U S T) := by
  unfold Prog.prob
  rw [gccbSimulate_eq, gccbLoop_wp (h.bok fuel hf) fuel (lt_of_lt_of_le (sum_lt_prod_succ S) hf)]
  simp only [Except.ok.injEq, exists_eq_left']
  exact expIid_marginal (boson_total' (h.bok fuel hf)) _ _ hi T ((mem_statesFin _ _ T).mpr ⟨hT, hs⟩)

/-- A concrete case. -/
example : (gccbSimulate (ryserSubPermanents 4) [[3 / 5, 4 / 5], [4 / 5, -3 / 5]] 4 [1, 1] 3).prob
    (fun r => ∃ l, r = .ok l ∧ l[1]? = some [1, 1]) = ENNReal.ofReal (49 / 625) := by
  rw [C28_sample (rotation_interferometer [1, 1] rfl) 4 (by decide) 3 1 (by decide) [1, 1] rfl rfl, rotation_prob]

/-! ### Shape of the samples -/

/-- What `simulate(S, N)` has to return. -/
def GoodSamples (S : List ℕ) (N : ℤ) (l : List (List ℕ)) : Prop :=
  l.length = N.toNat ∧ ∀ T ∈ l, T.length = S.length ∧ T.sum = S.sum

section

variable (gray : Nat → List Nat) (hgray : ∀ n, IsGrayCode n (gray n)) (t : Int)
include hgray

/-- C29 (occupations): for every square matrix that is at least as large as the input, every run
ends, and it ends with an exception or with `N` samples of the right shape. -/
theorem C29_gcc {U : List (List ℂ)} {S : List ℕ} (hU : ∀ r ∈ U, r.length = U.length) (hle : S.length ≤ U.length)
    (hS : S ≠ []) (fuel : ℕ) (hf : (S.map (· + 1)).prod ≤ fuel) (o : GccObj) (N : ℤ)
    (r : Py (List (List ℕ) × GccObj))
    (hr : (gccSimulate gccA (factoryPermanent gray t fuel) U fuel o S N).Runs r) :
    (∃ l o', r = .ok (l, o') ∧ GoodSamples S N l) ∨ ∃ e, r = .error e ∧ e ≠ .outOfFuel := by
  rcases gccSimulate_all (okA S) (factory_permOn gray hgray t U S hU hle hS fuel hf).ends fuel
    (lt_of_lt_of_le (sum_lt_prod_succ S) hf) N o r hr with ⟨⟨l, o'⟩, h1, h2⟩ | h
  · exact .inl ⟨l, o', h1, h2⟩
  · exact .inr h

/-- C29 (assignments). -/
theorem C29_gccAssignment {U : List (List ℂ)} {S : List ℕ} (hU : ∀ r ∈ U, r.length = U.length)
    (hle : S.length ≤ U.length) (hS : S ≠ []) (fuel : ℕ) (hf : (S.map (· + 1)).prod ≤ fuel) (o : GccObj) (N : ℤ)
    (r : Py (List (List ℕ) × GccObj))
    (hr : (gccSimulate gccAssignment (factoryPermanent gray t fuel) U fuel o S N).Runs r) :
    (∃ l o', r = .ok (l, o') ∧ GoodSamples S N l) ∨ ∃ e, r = .error e ∧ e ≠ .outOfFuel := by
  rcases gccSimulate_all (okAssignment S hS) (factory_permOn gray hgray t U S hU hle hS fuel hf).ends fuel
    (lt_of_lt_of_le (sum_lt_prod_succ S) hf) N o r hr with ⟨⟨l, o'⟩, h1, h2⟩ | h
  · exact .inl ⟨l, o', h1, h2⟩
  · exact .inr h

/-- C29: no run of the two samplers raises when the columns are orthonormal. -/
theorem C29_gcc_total {U : List (List ℂ)} {S : List ℕ} (h : Interferometer U S) (fuel : ℕ)
    (hf : (S.map (· + 1)).prod ≤ fuel) (o : GccObj) (N : ℤ) (r : Py (List (List ℕ) × GccObj))
    (hr : (gccSimulate gccA (factoryPermanent gray t fuel) U fuel o S N).Runs r ∨
      (gccSimulate gccAssignment (factoryPermanent gray t fuel) U fuel o S N).Runs r) :
    ∃ l o', r = .ok (l, o') ∧ GoodSamples S N l := by
  have hp := factory_permOn gray hgray t U S h.square h.len.le h.ne fuel hf
  have hs := lt_of_lt_of_le (sum_lt_prod_succ S) hf
  rcases hr with hr | hr
  · rcases gccSimulate_live (okA S) hp h.used fuel hs N o r hr with ⟨⟨l, o'⟩, h1, h2⟩ | ⟨_, _, h⟩
    · exact ⟨l, o', h1, h2⟩
    · exact h.elim
  · rcases gccSimulate_live (okAssignment S h.ne) hp h.used fuel hs N o r hr with ⟨⟨l, o'⟩, h1, h2⟩ | ⟨_, _, h⟩
    · exact ⟨l, o', h1, h2⟩
    · exact h.elim

end

/-- C29 (version B): for every rectangular matrix that is at least as large as the input, every run
ends, and it ends with an exception or with `N` samples of the right shape. -/
theorem C29_gccb {U : List (List ℂ)} {S : List ℕ} {n : ℕ} (hU : ∀ r ∈ U, r.length = n) (hle : S.length ≤ U.length)
    (hn : S.length ≤ n) (hS : S ≠ []) (fuel : ℕ) (hf : (S.map (· + 1)).prod ≤ fuel) (N : ℤ)
    (r : Py (List (List ℕ))) (hr : (gccbSimulate (ryserSubPermanents fuel) U fuel S N).Runs r) :
    (∃ l, r = .ok l ∧ GoodSamples S N l) ∨ ∃ e, r = .error e ∧ e ≠ .outOfFuel := by
  rw [gccbSimulate_eq] at hr
  exact gccbLoop_all fuel N.toNat (gccbFill_all (ryser_subPermOn U S n hU hle hn hS fuel hf).ends S.sum fuel
    (lt_of_lt_of_le (sum_lt_prod_succ S) hf)) r hr

/-- C29: no run of version B raises when the columns are orthonormal. -/
theorem C29_gccb_total {U : List (List ℂ)} {S : List ℕ} (h : Interferometer U S) (fuel : ℕ)
    (hf : (S.map (· + 1)).prod ≤ fuel) (N : ℤ) (r : Py (List (List ℕ)))
    (hr : (gccbSimulate (ryserSubPermanents fuel) U fuel S N).Runs r) : ∃ l, r = .ok l ∧ GoodSamples S N l := by
  rw [gccbSimulate_eq] at hr
  rcases gccbLoop_all fuel N.toNat (gccbFill_live (h.bok fuel hf) S.sum fuel le_rfl
    (lt_of_lt_of_le (sum_lt_prod_succ S) hf)) r hr with h | ⟨_, _, h⟩
  · exact h
  · exact h.elim

/-- A concrete case: a run for a matrix whose columns are not orthonormal. -/
example (r : Py (List (List ℕ))) (hr : (gccbSimulate (ryserSubPermanents 12) [[1, 2], [0, 1]] 12 [2, 3] 5).Runs r) :
    (∃ l, r = .ok l ∧ GoodSamples [2, 3] 5 l) ∨ ∃ e, r = .error e ∧ e ≠ .outOfFuel :=
  C29_gccb (n := 2) (by simp) (by decide) (by decide) (by decide) 12 (by decide) 5 r hr

section

variable (gray : Nat → List Nat) (hgray : ∀ n, IsGrayCode n (gray n)) (t : Int)
include hgray

/-- C30: the probability that `simulate(S, N)` returns the list of samples `l` is the product of
the single-sample probabilities, whatever calls the object has seen before; both for the sampler
with occupations and for the one with assignments. -/
theorem C30_joint {U : List (List ℂ)} {S : List ℕ} (h : Interferometer U S) (fuel : ℕ)
    (hf : (S.map (· + 1)).prod ≤ fuel) (o : GccObj) (l : List (List ℕ))
    (hl : ∀ T ∈ l, T.length = S.length ∧ T.sum = S.sum) :
    (gccSimulate gccA (factoryPermanent gray t fuel) U fuel o S l.length).prob (fun r => ∃ o', r = .ok (l, o'))
        = (l.map fun T => ENNReal.ofReal (bosonProb U S T)).prod ∧
      (gccSimulate gccAssignment (factoryPermanent gray t fuel) U fuel o S l.length).prob
        (fun r => ∃ o', r = .ok (l, o')) = (l.map fun T => ENNReal.ofReal (bosonProb U S T)).prod :=
  ⟨gcc_joint gray hgray t (okA S) h fuel hf o l hl, gcc_joint gray hgray t (okAssignment S h.ne) h fuel hf o l hl⟩

/-- A concrete case: twice the same outcome. -/
example : (gccSimulate gccA (factoryPermanent gray t 4) [[3 / 5, 4 / 5], [4 / 5, -3 / 5]] 4 gccInit [1, 1] 2).prob
    (fun r => ∃ o', r = .ok ([[1, 1], [1, 1]], o')) = ENNReal.ofReal (49 / 625) * ENNReal.ofReal (49 / 625) := by
  have := (C30_joint gray hgray t (rotation_interferometer [1, 1] rfl) 4 (by decide) gccInit [[1, 1], [1, 1]]
    (by simp)).1
  rw [List.map_cons, List.map_cons, List.map_nil, List.prod_cons, List.prod_cons, List.prod_nil, mul_one,
    rotation_prob] at this
  exact this

open Classical in
/-- C31: in a call `simulate(S, N)` of the sampler with uniform losses of transmissivity `η`, each
sample equals the state `T` with `l ≤ n` particles with probability `binom(n,l) η^l (1-η)^(n-l)`
times the fixed-loss probability of `T`. -/
theorem C31_sample {U : List (List ℂ)} {S : List ℕ} (h : Interferometer U S) (eta : ℝ) (h0 : 0 ≤ eta) (h1 : eta ≤ 1)
    (o : GccuObj) (ho : o.eta = eta) :
    ∃ F, ∀ fuel ≥ F, ∀ (N : ℤ) (i : ℕ), i < N.toNat → ∀ T : List ℕ, T.length = S.length → T.sum ≤ S.sum →
      (gccuSimulate (factoryPermanent gray t fuel) U fuel o S N).prob
        (fun r => ∃ l o', r = .ok (l, o') ∧ l[i]? = some T)
        = ENNReal.ofReal (binomialWeight S.sum T.sum eta * fixedLossProb U S T.sum T) := by
  obtain ⟨m, hm⟩ : ∃ m, S.length = m + 1 := ⟨S.length - 1, by have := List.length_pos_of_ne_nil h.ne; omega⟩
  refine ⟨genFuel m S.sum + (S.map (· + 1)).prod, fun fuel hfuel N i hi T hT hs => ?_⟩
  have hp := factory_permOn gray hgray t U S h.square h.len.le h.ne fuel (by omega)
  obtain ⟨o', e1, e2⟩ := gccuInitialize_ok U S m hm fuel (by omega) o
  unfold Prog.prob gccuSimulate
  rw [e1, ho] at *
  simp only [Prog.lift_def, Prog.bind_eq, Prog.done_ok_bind]
  rw [gccuLoop_wp hp h.used h.len.symm h0 h1 N.toNat (fun l' => if l'[i]? = some T then 1 else 0) _ (by
      intro l' o'
      by_cases e : l'[i]? = some T
      · rw [if_pos e, if_pos ⟨l', o', rfl, e⟩]
      · rw [if_neg e, if_neg]
        rintro ⟨l'', o'', h1, h2⟩
        injection h1 with h1
        injection h1 with h1 h3
        subst h1
        exact e h2) o' e2]
  exact expIid_marginal (uniformLoss_total (h.bok fuel (by omega)) h0 h1) _ _ hi T
    ((mem_statesUpTo _ _ T).mpr ⟨hT, hs⟩)

/-- A concrete case: both particles survive with probability `1/4`. -/
example : ∃ F, ∀ fuel ≥ F, (gccuSimulate (factoryPermanent gray t fuel) [[3 / 5, 4 / 5], [4 / 5, -3 / 5]] fuel
      (gccuInit (1 / 2) false) [1, 1] 1).prob (fun r => ∃ l o', r = .ok (l, o') ∧ l[0]? = some [1, 1])
    = ENNReal.ofReal (1 / 4 * (49 / 625)) := by
  obtain ⟨F, hF⟩ := C31_sample gray hgray t (rotation_interferometer [1, 1] rfl) (1 / 2) (by norm_num) (by norm_num)
    (gccuInit (1 / 2) false) rfl
  refine ⟨F, fun fuel hf => ?_⟩
  have e : fixedLossProb [[3 / 5, 4 / 5], [4 / 5, -3 / 5]] [1, 1] 2 [1, 1] = 49 / 625 := by
    rw [← rotation_prob]; exact fixedLossProb_full _ [1, 1] [1, 1]
  rw [hF fuel hf 1 0 (by decide) [1, 1] rfl (by decide)]
  simp only [List.sum_cons, List.sum_nil, Nat.reduceAdd, e, binomialWeight]
  norm_num

/-- C31: every run ends; if it does not raise it returns `N` samples with `len(S)` modes and at
most as many particles as the input. -/
theorem C31_shape {U : List (List ℂ)} {S : List ℕ} (hU : ∀ r ∈ U, r.length = U.length)
    (hle : S.length = U.length) (hS : S ≠ []) (o : GccuObj) :
    ∃ F, ∀ fuel ≥ F, ∀ (N : ℤ) (r : Py (List (List ℕ) × GccuObj)),
      (gccuSimulate (factoryPermanent gray t fuel) U fuel o S N).Runs r →
      (∃ l o', r = .ok (l, o') ∧ l.length = N.toNat ∧ ∀ T ∈ l, T.length = S.length ∧ T.sum ≤ S.sum) ∨
        ∃ e, r = .error e ∧ e ≠ .outOfFuel := by
  obtain ⟨m, hm⟩ : ∃ m, S.length = m + 1 := ⟨S.length - 1, by have := List.length_pos_of_ne_nil hS; omega⟩
  refine ⟨genFuel m S.sum + (S.map (· + 1)).prod, fun fuel hfuel N r hr => ?_⟩
  have hp := factory_permOn gray hgray t U S hU hle.le hS fuel (by omega)
  obtain ⟨o', e1, e2⟩ := gccuInitialize_ok U S m hm fuel (by omega) o
  unfold gccuSimulate at hr
  rw [e1] at hr
  rcases gccuLoop_all hp hle.symm N.toNat o' e2 r hr with ⟨⟨l, o''⟩, h1, h2⟩ | h
  · exact .inl ⟨l, o'', h1, h2⟩
  · exact .inr h

open Classical in
/-- C33: whatever the draws, if `compute_distribution_up_to_accuracy` returns, the `i`-th entry of
the list is the placeholder (`0`, or `-1` if missing values are marked) or the exact uniform-loss
probability of the `i`-th state of `generate_possible_states(n, m, losses=True)`, and the entries
add up to the accuracy asked for, up to the tolerance of `isclose`; the matrix need not have
orthonormal columns. -/
theorem C33_distribution {U : List (List ℂ)} {S : List ℕ} (hU : ∀ r ∈ U, r.length = U.length)
    (hle : S.length = U.length) (hS : S ≠ []) (o : GccuObj) (accuracy : ℝ) :
    ∃ states F, ∀ fuel ≥ F,
      generatePossibleStates fuel S.sum S.length true = .ok states ∧
      ∀ dist o', (gccuDistribution (factoryPermanent gray t fuel) U fuel o S accuracy).Runs (.ok (dist, o')) →
        accuracy - 1e-8 ≤ dist.sum ∧ dist.length = states.length ∧ ∀ i, (h : i < states.length) →
          dist.getD i 0 = (if o.missing then -1 else 0) ∨
          dist.getD i 0 = binomialWeight S.sum (states[i]).sum o.eta * fixedLossProb U S (states[i]).sum states[i] := by
  obtain ⟨m, hm⟩ : ∃ m, S.length = m + 1 := ⟨S.length - 1, by have := List.length_pos_of_ne_nil hS; omega⟩
  refine ⟨allStates m S.sum true, genFuel m S.sum + (S.map (· + 1)).prod, fun fuel hfuel => ⟨?_, ?_⟩⟩
  · rw [hm]; exact generatePossibleStates_ok fuel S.sum m true (by omega)
  · intro dist o' hr
    have hp := factory_permOn gray hgray t U S hU hle.le hS fuel (by omega)
    obtain ⟨o1, e1, e2⟩ := gccuInitialize_ok U S m hm fuel (by omega) o
    unfold gccuDistribution at hr
    rw [e1] at hr
    have hsum : ∀ s : ℝ, decide (¬ IsCloseToZero (max (accuracy - s) 0)) = false → accuracy - 1e-8 ≤ s := by
      intro s hs
      rw [decide_eq_false_iff_not, not_not, IsCloseToZero, abs_of_nonneg (le_max_right _ _)] at hs
      have := (le_max_left _ _).trans hs
      linarith
    have := Prog.all_bind (gccuRepeat_all hp hle.symm
      (fun o => decide (¬ IsCloseToZero (max (accuracy - o.dist.sum) 0))) fuel o1 e2) (J := fun x =>
      accuracy - 1e-8 ≤ x.1.sum ∧ x.1.length = (allStates m S.sum true).length ∧ ∀ i, (h : i < (allStates m S.sum true).length) →
          x.1.getD i 0 = (if o.missing then -1 else 0) ∨ x.1.getD i 0 = uniformLossProb U S o.eta (allStates m S.sum true)[i])
      (fun o2 h2 => Prog.all_done_ok (a := (o2.dist, o2)) ⟨hsum o2.dist.sum h2.2, h2.1.dist.len1, h2.1.dist.val1⟩) _ hr
    rcases this with ⟨a, h1, h2⟩ | ⟨e, h1, -⟩
    · injection h1 with h1; subst h1; exact h2
    · cases h1

/-- A concrete case: a call that returns at once, because the vacuum is likely enough. -/
example : ∃ fuel dist o', (gccuDistribution (factoryPermanent gray t fuel) [[3 / 5, 4 / 5], [4 / 5, -3 / 5]] fuel
    (gccuInit (1 / 2) false) [1, 1] (1 / 4)).Runs (.ok (dist, o')) ∧ dist.getD 0 0 = 1 / 4 := by
  have hg := generatePossibleStates_ok (genFuel 1 2 + 1) 2 1 true (by omega)
  have hs : allStates 1 2 true = [0, 0] :: (allStates 1 2 true).tail := by
    have h0 : stDesc 1 0 = [[0, 0]] := stDesc_zero 1
    simp [allStates, List.range_succ_eq_map, h0]
  have e1 : gccuInitialize (genFuel 1 2 + 1) (gccuInit (1 / 2) false) [1, 1] = .ok
      { gccuInit (1 / 2) false with
        base := { gccInit with input := [1, 1], labeled := labeledStates [1, 1], pmfs := [] }
        outputs := allStates 1 2 true
        dist := (1 / 4) :: (allStates 1 2 true).tail.map fun _ => 0
        udist := (allStates 1 2 true).map fun _ => 0
        binw := gccuWeights 2 (1 / 2) } := by
    unfold gccuInitialize
    simp only [List.sum_cons, List.sum_nil, List.length_cons, List.length_nil]
    change (generatePossibleStates _ ((2 : ℕ) : Int) ((1 + 1 : ℕ) : Int) true >>= _) = _
    rw [hg, ok_bind, hs]
    have hw : 0 < (gccuWeights 2 (1 / 2)).length := by simp [gccuWeights]
    change (pyGetN (gccuWeights 2 (1 / 2)) 0 >>= _) = _
    rw [pyGetN_ok hw, ok_bind]
    have hv : (gccuWeights 2 (1 / 2))[0] = 1 / 4 := by simp [gccuWeights]; norm_num
    rw [hv]
    rfl
  refine ⟨genFuel 1 2 + 1, (1 / 4) :: (allStates 1 2 true).tail.map (fun _ => 0), { gccuInit (1 / 2) false with
        base := { gccInit with input := [1, 1], labeled := labeledStates [1, 1], pmfs := [] }
        outputs := allStates 1 2 true
        dist := (1 / 4) :: (allStates 1 2 true).tail.map fun _ => 0
        udist := (allStates 1 2 true).map fun _ => 0
        binw := gccuWeights 2 (1 / 2) }, ?_, ?_⟩
  · unfold gccuDistribution
    rw [e1]
    simp only [Prog.lift_def, Prog.bind_eq, Prog.done_ok_bind]
    rw [Prog.loop_succ, if_neg]
    · rfl
    · simp [IsCloseToZero]; norm_num
  · simp

open Classical in
/-- C33 for `compute_unweighted_distribution_up_to_accuracy`: there is at least one
particle, the entries are placeholders or fixed-loss probabilities, and their sum divided by the number
of particles is the accuracy asked for or more, up to the tolerance of `isclose`. -/
theorem C33_unweighted {U : List (List ℂ)} {S : List ℕ} (hU : ∀ r ∈ U, r.length = U.length)
    (hle : S.length = U.length) (hS : S ≠ []) (o : GccuObj) (accuracy : ℝ) :
    ∃ states F, ∀ fuel ≥ F,
      generatePossibleStates fuel S.sum S.length true = .ok states ∧
      ∀ dist o', (gccuUnweighted (factoryPermanent gray t fuel) U fuel o S accuracy).Runs (.ok (dist, o')) →
        S.sum ≠ 0 ∧ accuracy - 1e-8 ≤ dist.sum / S.sum ∧ dist.length = states.length ∧ ∀ i, (h : i < states.length) →
          dist.getD i 0 = (if o.missing then -1 else 0) ∨
          dist.getD i 0 = fixedLossProb U S (states[i]).sum states[i] := by
  obtain ⟨m, hm⟩ : ∃ m, S.length = m + 1 := ⟨S.length - 1, by have := List.length_pos_of_ne_nil hS; omega⟩
  refine ⟨allStates m S.sum true, genFuel m S.sum + (S.map (· + 1)).prod, fun fuel hfuel => ⟨?_, ?_⟩⟩
  · rw [hm]; exact generatePossibleStates_ok fuel S.sum m true (by omega)
  · intro dist o' hr
    have hp := factory_permOn gray hgray t U S hU hle.le hS fuel (by omega)
    obtain ⟨o1, e1, e2⟩ := gccuInitialize_ok U S m hm fuel (by omega) o
    unfold gccuUnweighted at hr
    rw [e1] at hr
    by_cases hn : S.sum = 0
    · rw [if_pos hn] at hr
      cases hr
    · rw [if_neg hn] at hr
      have hsum : ∀ s : ℝ, decide (¬ IsCloseToZero (max (accuracy - s) 0)) = false → accuracy - 1e-8 ≤ s := by
        intro s hs
        rw [decide_eq_false_iff_not, not_not, IsCloseToZero, abs_of_nonneg (le_max_right _ _)] at hs
        have := (le_max_left _ _).trans hs
        linarith
      have := Prog.all_bind (gccuRepeat_all hp hle.symm
        (fun o => decide (¬ IsCloseToZero (max (accuracy - o.udist.sum / (S.sum : ℝ)) 0))) fuel o1 e2) (J := fun x =>
        S.sum ≠ 0 ∧ accuracy - 1e-8 ≤ x.1.sum / S.sum ∧ x.1.length = (allStates m S.sum true).length ∧ ∀ i, (h : i < (allStates m S.sum true).length) →
            x.1.getD i 0 = (if o.missing then -1 else 0) ∨
            x.1.getD i 0 = fixedLossProb U S ((allStates m S.sum true)[i]).sum (allStates m S.sum true)[i])
        (fun o2 h2 => Prog.all_done_ok (a := (o2.udist, o2)) ⟨hn, hsum _ h2.2, h2.1.dist.len2, h2.1.dist.val2⟩) _ hr
      rcases this with ⟨a, h1, h2⟩ | ⟨e, h1, -⟩
      · injection h1 with h1; subst h1; exact h2
      · cases h1

end

open Classical in
/-- C32: in a call `simulate(S, N)` of version B with uniform losses of transmissivity `η`, each
sample equals the state `T` with `l ≤ n` particles with probability `binom(n,l) η^l (1-η)^(n-l)`
times the fixed-loss probability of `T`. -/
theorem C32_sample {U : List (List ℂ)} {S : List ℕ} (h : Interferometer U S) (eta : ℝ) (h0 : 0 ≤ eta) (h1 : eta ≤ 1)
    (fuel : ℕ) (hf : (S.map (· + 1)).prod ≤ fuel) (N : ℤ) (i : ℕ) (hi : i < N.toNat) (T : List ℕ)
    (hT : T.length = S.length) (hs : T.sum ≤ S.sum) :
    (gccbLossySimulate (ryserSubPermanents fuel) U fuel eta S N).prob
      (fun r => ∃ l, r = .ok l ∧ l[i]? = some T)
      = ENNReal.ofReal (binomialWeight S.sum T.sum eta * fixedLossProb U S T.sum T) := by
  unfold Prog.prob
  rw [gccbLossySimulate_eq, gccbLossyLoop_wp (h.bok fuel hf) fuel (lt_of_lt_of_le (sum_lt_prod_succ S) hf) h0 h1]
  simp only [Except.ok.injEq, exists_eq_left']
  exact expIid_marginal (uniformLoss_total (h.bok fuel hf) h0 h1) _ _ hi T ((mem_statesUpTo _ _ T).mpr ⟨hT, hs⟩)

/-- C32: no run raises; every run returns `N` samples with `len(S)` modes and at most as many
particles as the input. -/
theorem C32_shape {U : List (List ℂ)} {S : List ℕ} (h : Interferometer U S) (eta : ℝ)
    (fuel : ℕ) (hf : (S.map (· + 1)).prod ≤ fuel) (N : ℤ) (r : Py (List (List ℕ)))
    (hr : (gccbLossySimulate (ryserSubPermanents fuel) U fuel eta S N).Runs r) :
    ∃ l, r = .ok l ∧ l.length = N.toNat ∧ ∀ T ∈ l, T.length = S.length ∧ T.sum ≤ S.sum := by
  have hs := lt_of_lt_of_le (sum_lt_prod_succ S) hf
  rw [gccbLossySimulate_eq] at hr
  rcases gccbLossyLoop_all fuel N.toNat S.sum (fun u hu0 hu1 => by
      have := (scanIndex_lt (gccbWeights S.sum eta) u 0 hu0 (by rw [gccbWeights_sum]; linarith)).1
      rw [gccbWeights_length] at this
      omega)
    (fun t ht => gccbFill_live (h.bok fuel hf) t fuel ht (by omega)) r hr with h | ⟨_, _, h⟩
  · exact h
  · exact h.elim

/-- A concrete case: both particles survive with probability `1/4`. -/
example : (gccbLossySimulate (ryserSubPermanents 4) [[3 / 5, 4 / 5], [4 / 5, -3 / 5]] 4 (1 / 2) [1, 1] 3).prob
    (fun r => ∃ l, r = .ok l ∧ l[1]? = some [1, 1]) = ENNReal.ofReal (1 / 4 * (49 / 625)) := by
  have e : fixedLossProb [[3 / 5, 4 / 5], [4 / 5, -3 / 5]] [1, 1] 2 [1, 1] = 49 / 625 := by
    rw [← rotation_prob]; exact fixedLossProb_full _ [1, 1] [1, 1]
  rw [C32_sample (rotation_interferometer [1, 1] rfl) (1 / 2) (by norm_num) (by norm_num) 4 (by decide) 3 1
    (by decide) [1, 1] rfl (by decide)]
  simp only [List.sum_cons, List.sum_nil, Nat.reduceAdd, e, binomialWeight]
  norm_num

end Verif
