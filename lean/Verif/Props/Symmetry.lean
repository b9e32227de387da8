import Verif.Proofs.Symmetry
import Verif.Proofs.ReflectedGray
import Verif.Proofs.Statistics
import Verif.Props.Distributions

/-!
C78–C80: symmetries of the experiment that the exact calculators and the exact samplers respect.
Relabelled modes, phases, conjugated and reversed interferometers are defined in `Spec/Symmetry.lean`.
-/
namespace Verif

open Finset
open scoped ENNReal

section
variable {m : ℕ} {U U' : List (List ℂ)} {S : List ℕ}

theorem expIid_map {𝒯 𝒯' : Finset (List ℕ)} {p p' : List ℕ → ℝ≥0∞} (φ ψ : List ℕ → List ℕ)
    (h1 : ∀ T ∈ 𝒯', φ T ∈ 𝒯) (h2 : ∀ T ∈ 𝒯, ψ T ∈ 𝒯') (h3 : ∀ T ∈ 𝒯', ψ (φ T) = T) (h4 : ∀ T ∈ 𝒯, φ (ψ T) = T)
    (hp : ∀ T ∈ 𝒯', p' T = p (φ T)) (n : ℕ) (g : List (List ℕ) → ℝ≥0∞) :
    expIid 𝒯' p' n (fun l => g (l.map φ)) = expIid 𝒯 p n g := by
  induction n generalizing g with
  | zero => rfl
  | succ n ih =>
    rw [expIid, expIid]
    refine sum_bij' (fun T _ => φ T) (fun T _ => ψ T) h1 h2 h3 h4 fun T hT => ?_
    rw [hp T hT, ← ih fun l => g (φ T :: l)]
    rfl

theorem Relabelled.interferometer {σ τ : Equiv.Perm (Fin m)} {a b : Fin m → ℂ} (hr : Relabelled σ τ a b U U')
    (h : Interferometer U S) (hS : S.length = m) (hU' : U'.length = m) (hsq : ∀ r ∈ U', r.length = m) :
    Interferometer U' S ∧ Interferometer U (moved τ S) :=
  ⟨⟨fun r hr => by rw [hsq r hr, hU'], by rw [hS, hU'], h.ne, by
      rw [hS]; exact orthonormal_relabelled hr (by have := h.ortho; rwa [hS] at this)⟩,
    ⟨h.square, by rw [moved_length, ← hS, h.len], fun e => by
      have := congrArg List.length e
      rw [moved_length, ← hS] at this
      exact h.ne (List.length_eq_zero_iff.mp this), by
      rw [moved_length, ← hS]; exact h.ortho⟩⟩

theorem moved_prod (τ : Equiv.Perm (Fin m)) (hS : S.length = m) : ((moved τ S).map (· + 1)).prod = (S.map (· + 1)).prod :=
  ((moved_perm τ S hS).map _).prod_eq

/-- The law of a sampler with the single-sample law `p` on the states `𝒯`. -/
def SamplesFrom (P : Prog (List (List ℕ))) (𝒯 : Finset (List ℕ)) (p : List ℕ → ℝ) (N : ℕ) : Prop :=
  ∀ f : Py (List (List ℕ)) → ℝ≥0∞, P.wp f = expIid 𝒯 (fun T => ENNReal.ofReal (p T)) N fun l => f (.ok l)

theorem SamplesFrom.map {P P' : Prog (List (List ℕ))} {𝒯 𝒯' : Finset (List ℕ)} {p p' : List ℕ → ℝ} {N : ℕ}
    (h : SamplesFrom P 𝒯 p N) (h' : SamplesFrom P' 𝒯' p' N) (φ ψ : List ℕ → List ℕ)
    (h1 : ∀ T ∈ 𝒯', φ T ∈ 𝒯) (h2 : ∀ T ∈ 𝒯, ψ T ∈ 𝒯') (h3 : ∀ T ∈ 𝒯', ψ (φ T) = T) (h4 : ∀ T ∈ 𝒯, φ (ψ T) = T)
    (hp : ∀ T ∈ 𝒯', p' T = p (φ T)) (Q : List (List ℕ) → Prop) :
    P'.prob (fun r => ∃ l, r = .ok l ∧ Q (l.map φ)) = P.prob (fun r => ∃ l, r = .ok l ∧ Q l) := by
  classical
  unfold Prog.prob
  rw [h, h']
  simp only [Except.ok.injEq, exists_eq_left']
  exact expIid_map φ ψ h1 h2 h3 h4 (fun T hT => by rw [hp T hT]) N fun l => if Q l then 1 else 0

theorem moved_states (σ : Equiv.Perm (Fin m)) (k : ℕ) :
    (∀ T ∈ statesFin m k, moved σ T ∈ statesFin m k) ∧ (∀ T ∈ statesFin m k, moved σ.symm T ∈ statesFin m k) ∧
      (∀ T ∈ statesFin m k, moved σ.symm (moved σ T) = T) ∧ ∀ T ∈ statesFin m k, moved σ (moved σ.symm T) = T := by
  simp only [mem_statesFin]
  exact ⟨fun T h => ⟨moved_length _ _, by rw [moved_sum _ _ h.1, h.2]⟩,
    fun T h => ⟨moved_length _ _, by rw [moved_sum _ _ h.1, h.2]⟩,
    fun T h => moved_symm _ _ h.1, fun T h => moved_symm' _ _ h.1⟩

theorem moved_statesUpTo (σ : Equiv.Perm (Fin m)) (k : ℕ) :
    (∀ T ∈ statesUpTo m k, moved σ T ∈ statesUpTo m k) ∧ (∀ T ∈ statesUpTo m k, moved σ.symm T ∈ statesUpTo m k) ∧
      (∀ T ∈ statesUpTo m k, moved σ.symm (moved σ T) = T) ∧ ∀ T ∈ statesUpTo m k, moved σ (moved σ.symm T) = T := by
  simp only [mem_statesUpTo]
  exact ⟨fun T h => ⟨moved_length _ _, by rw [moved_sum _ _ h.1]; exact h.2⟩,
    fun T h => ⟨moved_length _ _, by rw [moved_sum _ _ h.1]; exact h.2⟩,
    fun T h => moved_symm _ _ h.1, fun T h => moved_symm' _ _ h.1⟩

theorem uniformLossProb_relabelled {σ τ : Equiv.Perm (Fin m)} {a b : Fin m → ℂ} (hr : Relabelled σ τ a b U U')
    (hS : S.length = m) (eta : ℝ) (T : List ℕ) (hT : T.length = m) :
    uniformLossProb U' S eta T = uniformLossProb U (moved τ S) eta (moved σ T) := by
  unfold uniformLossProb
  rw [moved_sum τ S hS, moved_sum σ T hT, fixedLossProb_relabelled hr S T _ hS hT rfl]

theorem moved_one (T : List ℕ) (hT : T.length = m) : moved (1 : Equiv.Perm (Fin m)) T = T := getD_ofFn_self T hT

/-! ### C79 -/

section
variable (gray : Nat → List Nat) (hgray : ∀ n, IsGrayCode n (gray n)) (t : Int) (hash : List Nat → Int)
include hgray

/-- C79, exact calculators: for the relabelled interferometer the probability of `T` is the one the
original interferometer gives to the relabelled outcome on the relabelled input, both for a fixed
number of particles left and for uniform losses. The interferometer may be any square matrix. -/
theorem C79_calculators {σ τ : Equiv.Perm (Fin m)} {a b : Fin m → ℂ} (hr : Relabelled σ τ a b U U')
    (hU : U.length = m) (hsq : ∀ r ∈ U, r.length = m) (hU' : U'.length = m) (hsq' : ∀ r ∈ U', r.length = m)
    (hS : S.length = m) (hm : 0 < m) (T : List ℕ) (hT : T.length = m) (hs : T.sum ≤ S.sum) (k : ℕ) (eta : ℝ) (fuel : ℕ)
    (hf : (S.map (· + 1)).prod ≤ fuel)
    (hinj : ∀ a b : List Nat, a.length = m → b.length = m → a.sum = b.sum → hash a = hash b → a = b) :
    fixedLossOutcome Complex.normSq (factoryPermanent gray t fuel) hash (expConfig U' S T.sum eta) T
        = fixedLossOutcome Complex.normSq (factoryPermanent gray t fuel) hash
            (expConfig U (moved τ S) T.sum eta) (moved σ T) ∧
      uniformOutcome Complex.normSq (factoryPermanent gray t fuel) hash (uniformCalc (expConfig U' S k eta)) T
        = uniformOutcome Complex.normSq (factoryPermanent gray t fuel) hash
            (uniformCalc (expConfig U (moved τ S) k eta)) (moved σ T) := by
  have hne : S ≠ [] := by rintro rfl; simp at hS; omega
  have hne' : moved τ S ≠ [] := fun e => by
    have := congrArg List.length e
    rw [moved_length, List.length_nil] at this
    omega
  have hi : ∀ S' : List ℕ, S'.length = m → ∀ c a b : List ℕ, StateLE a S' → a.sum = c.sum → StateLE b S' → b.sum = c.sum →
      hash a = hash b → a = b := fun S' hS' c a b h1 h2 h3 h4 =>
    hinj a b (h1.length_eq.trans hS') (h3.length_eq.trans hS') (h2.trans h4.symm)
  constructor
  · rw [(C22_probability gray hgray t hash U' S T T.sum eta (by rw [hU']; exact hsq') (by omega) (by omega) hne hs rfl
      fuel hf (hi S hS T)).1, (C22_probability gray hgray t hash U (moved τ S) (moved σ T) T.sum eta (by rw [hU]; exact hsq)
      (by rw [moved_length, moved_length]) (by rw [moved_length, hU]) hne' (by rw [moved_sum _ _ hS]; exact hs)
      (moved_sum _ _ hT) fuel (by rw [moved_prod _ hS]; exact hf) (hi _ (moved_length _ _) T)).1,
      fixedLossProb_relabelled hr S T _ hS hT rfl]
  · rw [C24_probability gray hgray t hash U' S T k eta (by rw [hU']; exact hsq') (by omega) (by omega) hne hs
      fuel hf (hi S hS T), C24_probability gray hgray t hash U (moved τ S) (moved σ T) k eta (by rw [hU]; exact hsq)
      (by rw [moved_length, moved_length]) (by rw [moved_length, hU]) hne'
      (by rw [moved_sum _ _ hS, moved_sum _ _ hT]; exact hs) fuel (by rw [moved_prod _ hS]; exact hf)
      (hi _ (moved_length _ _) _), moved_sum _ _ hS, moved_sum _ _ hT,
      fixedLossProb_relabelled hr S T _ hS hT rfl]

/-- C79, samplers: whatever the objects have done before, the samples drawn through the relabelled
interferometer have, after relabelling, the same joint law as those drawn through the original one
from the relabelled input; for both samplers of version A, for version B and for both samplers with
uniform losses. -/
theorem C79_samplers {σ τ : Equiv.Perm (Fin m)} {a b : Fin m → ℂ} (hr : Relabelled σ τ a b U U')
    (h : Interferometer U S) (hU' : U'.length = m) (hsq' : ∀ r ∈ U', r.length = m)
    (hS : S.length = m) (N : ℕ) (o o' : GccObj) (eta : ℝ) (h0 : 0 ≤ eta) (h1 : eta ≤ 1) (ou ou' : GccuObj)
    (ho : ou.eta = eta) (ho' : ou'.eta = eta) : ∃ F, ∀ fuel ≥ F, ∀ Q : List (List ℕ) → Prop,
    let A := factoryPermanent gray t fuel
    let B := ryserSubPermanents fuel
    (gccStrategy gccA A U' fuel o' S N).prob (fun r => ∃ l, r = .ok l ∧ Q (l.map (moved σ)))
        = (gccStrategy gccA A U fuel o (moved τ S) N).prob (fun r => ∃ l, r = .ok l ∧ Q l) ∧
      (gccStrategy gccAssignment A U' fuel o' S N).prob (fun r => ∃ l, r = .ok l ∧ Q (l.map (moved σ)))
        = (gccStrategy gccAssignment A U fuel o (moved τ S) N).prob (fun r => ∃ l, r = .ok l ∧ Q l) ∧
      (gccbStrategy B U' fuel S N).prob (fun r => ∃ l, r = .ok l ∧ Q (l.map (moved σ)))
        = (gccbStrategy B U fuel (moved τ S) N).prob (fun r => ∃ l, r = .ok l ∧ Q l) ∧
      (gccuStrategy A U' fuel ou' S N).prob (fun r => ∃ l, r = .ok l ∧ Q (l.map (moved σ)))
        = (gccuStrategy A U fuel ou (moved τ S) N).prob (fun r => ∃ l, r = .ok l ∧ Q l) ∧
      (gccbLossyStrategy B U' fuel eta S N).prob (fun r => ∃ l, r = .ok l ∧ Q (l.map (moved σ)))
        = (gccbLossyStrategy B U fuel eta (moved τ S) N).prob (fun r => ∃ l, r = .ok l ∧ Q l) := by
  obtain ⟨i1, i2⟩ := hr.interferometer h hS hU' hsq'
  obtain ⟨k, hk⟩ : ∃ k, S.length = k + 1 := ⟨S.length - 1, by have := List.length_pos_of_ne_nil h.ne; omega⟩
  have hk' : (moved τ S).length = k + 1 := by rw [moved_length]; omega
  refine ⟨genFuel k S.sum + (S.map (· + 1)).prod, fun fuel hf Q => ?_⟩
  have hf1 : (S.map (· + 1)).prod ≤ fuel := by omega
  have hf2 : ((moved τ S).map (· + 1)).prod ≤ fuel := by rw [moved_prod _ hS]; exact hf1
  have hf3 : genFuel k (moved τ S).sum + ((moved τ S).map (· + 1)).prod ≤ fuel := by
    rw [moved_prod _ hS, moved_sum _ _ hS]; exact hf
  obtain ⟨a1, a2, a3, a4⟩ := moved_states σ S.sum
  obtain ⟨b1, b2, b3, b4⟩ := moved_statesUpTo σ S.sum
  have hb : ∀ T ∈ statesFin m S.sum, bosonProb U' S T = bosonProb U (moved τ S) (moved σ T) := fun T hT => by
    rw [mem_statesFin] at hT
    exact bosonProb_relabelled hr S T hS hT.1 hT.2.symm
  have hu : ∀ T ∈ statesUpTo m S.sum, uniformLossProb U' S eta T = uniformLossProb U (moved τ S) eta (moved σ T) :=
    fun T hT => by
      rw [mem_statesUpTo] at hT
      exact uniformLossProb_relabelled hr hS eta T hT.1
  have e1 : statesFin S.length S.sum = statesFin m S.sum := by rw [hS]
  have e2 : statesFin (moved τ S).length (moved τ S).sum = statesFin m S.sum := by rw [moved_length, moved_sum _ _ hS]
  have e3 : statesUpTo S.length S.sum = statesUpTo m S.sum := by rw [hS]
  have e4 : statesUpTo (moved τ S).length (moved τ S).sum = statesUpTo m S.sum := by rw [moved_length, moved_sum _ _ hS]
  refine ⟨?_, ?_, ?_, ?_, ?_⟩
  · exact SamplesFrom.map (fun f => by rw [gccStrategy_wp gray hgray t (okA _) i2 fuel hf2, e2])
      (fun f => by rw [gccStrategy_wp gray hgray t (okA _) i1 fuel hf1, e1]) _ _ a1 a2 a3 a4 hb Q
  · exact SamplesFrom.map (fun f => by rw [gccStrategy_wp gray hgray t (okAssignment _ i2.ne) i2 fuel hf2, e2])
      (fun f => by rw [gccStrategy_wp gray hgray t (okAssignment _ i1.ne) i1 fuel hf1, e1]) _ _ a1 a2 a3 a4 hb Q
  · exact SamplesFrom.map (fun f => by rw [gccbStrategy_wp i2 fuel hf2, e2])
      (fun f => by rw [gccbStrategy_wp i1 fuel hf1, e1]) _ _ a1 a2 a3 a4 hb Q
  · exact SamplesFrom.map (fun f => by rw [gccuStrategy_wp gray hgray t i2 h0 h1 ou ho k hk' fuel hf3, e4])
      (fun f => by rw [gccuStrategy_wp gray hgray t i1 h0 h1 ou' ho' k hk fuel hf, e3]) _ _ b1 b2 b3 b4 hu Q
  · exact SamplesFrom.map (fun f => by rw [gccbLossyStrategy_wp i2 h0 h1 fuel hf2, e4])
      (fun f => by rw [gccbLossyStrategy_wp i1 h0 h1 fuel hf1, e3]) _ _ b1 b2 b3 b4 hu Q

end

/-- A concrete case: the modes of the rotation are swapped at the output; the particle entering mode 0
leaves through the other mode. -/
example (gray : Nat → List Nat) (hgray : ∀ n, IsGrayCode n (gray n)) (eta : ℝ) :
    fixedLossOutcome Complex.normSq (factoryPermanent gray 3 9) (fun l => (l.getD 0 0 : Int) + 10 * (l.getD 1 0 : Int))
        (expConfig [[4 / 5, -3 / 5], [3 / 5, 4 / 5]] [1, 0] 1 eta) [0, 1]
      = fixedLossOutcome Complex.normSq (factoryPermanent gray 3 9)
          (fun l => (l.getD 0 0 : Int) + 10 * (l.getD 1 0 : Int))
          (expConfig [[3 / 5, 4 / 5], [4 / 5, -3 / 5]] [1, 0] 1 eta) [1, 0] := by
  have hr : Relabelled (m := 2) (Equiv.swap 0 1) 1 1 1 [[3 / 5, 4 / 5], [4 / 5, -3 / 5]]
      [[4 / 5, -3 / 5], [3 / 5, 4 / 5]] := by
    refine ⟨fun i j => ?_, by simp, by simp⟩
    fin_cases i <;> fin_cases j <;> simp [mget]
  exact (C79_calculators gray hgray 3 _ hr (S := [1, 0]) rfl (by simp) rfl (by simp) rfl (by norm_num) [0, 1] rfl
    (by decide) 1 eta 9 (by decide) (by
      intro a b ha hb _ h
      obtain ⟨x, y, rfl⟩ := List.length_eq_two.mp ha
      obtain ⟨z, w, rfl⟩ := List.length_eq_two.mp hb
      simp at h ⊢
      simp at *
      omega)).1

/-! ### C78 -/

/-- `U'` is `U` with phases at the inputs and outputs, or the complex conjugate of `U`. -/
def SameModuli (m : ℕ) (U U' : List (List ℂ)) : Prop :=
  (∃ a b : Fin m → ℂ, Relabelled 1 1 a b U U') ∨ Conjugated m U U'

theorem SameModuli.bosonProb (h : SameModuli m U U') (L T : List ℕ) (hL : L.length = m) (hT : T.length = m)
    (hs : L.sum = T.sum) : Verif.bosonProb U' L T = Verif.bosonProb U L T := by
  rcases h with ⟨a, b, h⟩ | h
  · rw [bosonProb_relabelled h L T hL hT hs, moved_one _ hL, moved_one _ hT]
  · exact bosonProb_conjugated h L T hL hT hs

theorem SameModuli.fixedLossProb (h : SameModuli m U U') (hS : S.length = m) (T : List ℕ) (hT : T.length = m) :
    Verif.fixedLossProb U' S T.sum T = Verif.fixedLossProb U S T.sum T :=
  fixedLossProb_congr S _ T rfl fun L hL hs => h.bosonProb L T (hL.trans hS) hT hs

theorem SameModuli.interferometer (hr : SameModuli m U U') (h : Interferometer U S) (hS : S.length = m)
    (hU' : U'.length = m) (hsq : ∀ r ∈ U', r.length = m) : Interferometer U' S := by
  refine ⟨fun r hr => by rw [hsq r hr, hU'], by rw [hS, hU'], h.ne, ?_⟩
  have ho := h.ortho
  rw [hS] at ho ⊢
  rcases hr with ⟨a, b, hr⟩ | hr
  · exact orthonormal_relabelled hr ho
  · exact orthonormal_conjugated hr ho

section
variable (gray : Nat → List Nat) (hgray : ∀ n, IsGrayCode n (gray n)) (t : Int) (hash : List Nat → Int)
include hgray

/-- C78, exact calculators: phases at the inputs and outputs and complex conjugation of the
interferometer do not change any probability; the interferometer may be any square matrix, and the two
experiments may use permanent calculators of different types. -/
theorem C78_calculators (hr : SameModuli m U U')
    (hU : U.length = m) (hsq : ∀ r ∈ U, r.length = m) (hU' : U'.length = m) (hsq' : ∀ r ∈ U', r.length = m)
    (hS : S.length = m) (hm : 0 < m) (t' : Int) (T : List ℕ) (hT : T.length = m) (hs : T.sum ≤ S.sum) (k : ℕ) (eta : ℝ)
    (fuel : ℕ) (hf : (S.map (· + 1)).prod ≤ fuel)
    (hinj : ∀ a b : List Nat, StateLE a S → StateLE b S → a.sum = b.sum → hash a = hash b → a = b) :
    fixedLossOutcome Complex.normSq (factoryPermanent gray t' fuel) hash (expConfig U' S T.sum eta) T
        = fixedLossOutcome Complex.normSq (factoryPermanent gray t fuel) hash (expConfig U S T.sum eta) T ∧
      uniformOutcome Complex.normSq (factoryPermanent gray t' fuel) hash (uniformCalc (expConfig U' S k eta)) T
        = uniformOutcome Complex.normSq (factoryPermanent gray t fuel) hash (uniformCalc (expConfig U S k eta)) T := by
  have hne : S ≠ [] := by rintro rfl; simp at hS; omega
  have hi : ∀ a b : List ℕ, StateLE a S → a.sum = T.sum → StateLE b S → b.sum = T.sum → hash a = hash b → a = b :=
    fun a b h1 h2 h3 h4 => hinj a b h1 h3 (h2.trans h4.symm)
  constructor
  · rw [(C22_probability gray hgray t' hash U' S T T.sum eta (by rw [hU']; exact hsq') (by omega) (by omega) hne hs rfl
      fuel hf hi).1, (C22_probability gray hgray t hash U S T T.sum eta (by rw [hU]; exact hsq) (by omega) (by omega) hne
      hs rfl fuel hf hi).1, hr.fixedLossProb hS T hT]
  · rw [C24_probability gray hgray t' hash U' S T k eta (by rw [hU']; exact hsq') (by omega) (by omega) hne hs
      fuel hf hi, C24_probability gray hgray t hash U S T k eta (by rw [hU]; exact hsq) (by omega) (by omega) hne
      hs fuel hf hi, hr.fixedLossProb hS T hT]

/-- C78, samplers: nor do they change the joint law of the samples, for both samplers of version A, for
version B and for both samplers with uniform losses, whatever the objects have done before. -/
theorem C78_samplers (hr : SameModuli m U U')
    (h : Interferometer U S) (hU' : U'.length = m) (hsq' : ∀ r ∈ U', r.length = m)
    (hS : S.length = m) (N : ℕ) (o o' : GccObj) (eta : ℝ) (h0 : 0 ≤ eta) (h1 : eta ≤ 1) (ou ou' : GccuObj)
    (ho : ou.eta = eta) (ho' : ou'.eta = eta) : ∃ F, ∀ fuel ≥ F, ∀ Q : List (List ℕ) → Prop,
    let A := factoryPermanent gray t fuel
    let B := ryserSubPermanents fuel
    let q := fun r : Py (List (List ℕ)) => ∃ l, r = .ok l ∧ Q l
    (gccStrategy gccA A U' fuel o' S N).prob q = (gccStrategy gccA A U fuel o S N).prob q ∧
      (gccStrategy gccAssignment A U' fuel o' S N).prob q = (gccStrategy gccAssignment A U fuel o S N).prob q ∧
      (gccbStrategy B U' fuel S N).prob q = (gccbStrategy B U fuel S N).prob q ∧
      (gccuStrategy A U' fuel ou' S N).prob q = (gccuStrategy A U fuel ou S N).prob q ∧
      (gccbLossyStrategy B U' fuel eta S N).prob q = (gccbLossyStrategy B U fuel eta S N).prob q := by
  have i1 := hr.interferometer h hS hU' hsq'
  obtain ⟨k, hk⟩ : ∃ k, S.length = k + 1 := ⟨S.length - 1, by have := List.length_pos_of_ne_nil h.ne; omega⟩
  refine ⟨genFuel k S.sum + (S.map (· + 1)).prod, fun fuel hf Q => ?_⟩
  have hf1 : (S.map (· + 1)).prod ≤ fuel := by omega
  have hb : ∀ T ∈ statesFin S.length S.sum, bosonProb U' S T = bosonProb U S (id T) := fun T hT => by
    rw [mem_statesFin, hS] at hT
    exact hr.bosonProb S T hS hT.1 hT.2.symm
  have hu : ∀ T ∈ statesUpTo S.length S.sum, uniformLossProb U' S eta T = uniformLossProb U S eta (id T) :=
    fun T hT => by
      rw [mem_statesUpTo, hS] at hT
      unfold uniformLossProb
      rw [hr.fixedLossProb hS T hT.1]
      rfl
  have hid : ∀ l : List (List ℕ), Q l = Q (l.map id) := fun l => by rw [List.map_id]
  simp only
  have hq : (fun r : Py (List (List ℕ)) => ∃ l, r = .ok l ∧ Q l) = fun r => ∃ l, r = .ok l ∧ Q (l.map id) := by
    simp only [List.map_id]
  refine ⟨?_, ?_, ?_, ?_, ?_⟩ <;> conv_lhs => rw [hq]
  · exact SamplesFrom.map (fun f => by rw [gccStrategy_wp gray hgray t (okA _) h fuel hf1])
      (fun f => by rw [gccStrategy_wp gray hgray t (okA _) i1 fuel hf1]) id id (fun _ h => h) (fun _ h => h)
      (fun _ _ => rfl) (fun _ _ => rfl) hb Q
  · exact SamplesFrom.map (fun f => by rw [gccStrategy_wp gray hgray t (okAssignment _ h.ne) h fuel hf1])
      (fun f => by rw [gccStrategy_wp gray hgray t (okAssignment _ h.ne) i1 fuel hf1]) id id (fun _ h => h) (fun _ h => h)
      (fun _ _ => rfl) (fun _ _ => rfl) hb Q
  · exact SamplesFrom.map (fun f => by rw [gccbStrategy_wp h fuel hf1])
      (fun f => by rw [gccbStrategy_wp i1 fuel hf1]) id id (fun _ h => h) (fun _ h => h)
      (fun _ _ => rfl) (fun _ _ => rfl) hb Q
  · exact SamplesFrom.map (fun f => by rw [gccuStrategy_wp gray hgray t h h0 h1 ou ho k hk fuel hf])
      (fun f => by rw [gccuStrategy_wp gray hgray t i1 h0 h1 ou' ho' k hk fuel hf]) id id (fun _ h => h) (fun _ h => h)
      (fun _ _ => rfl) (fun _ _ => rfl) hu Q
  · exact SamplesFrom.map (fun f => by rw [gccbLossyStrategy_wp h h0 h1 fuel hf1])
      (fun f => by rw [gccbLossyStrategy_wp i1 h0 h1 fuel hf1]) id id (fun _ h => h) (fun _ h => h)
      (fun _ _ => rfl) (fun _ _ => rfl) hu Q

/-! ### C80 -/

omit hgray in
theorem stateLE_sum_eq {a S : List ℕ} (h : StateLE a S) (hs : a.sum = S.sum) : a = S := by
  induction h with
  | nil => rfl
  | @cons x y l1 l2 hxy hl ih =>
    have : l1.sum ≤ l2.sum := List.Forall₂.sum_le_sum hl
    simp only [List.sum_cons] at hs
    rw [ih (by omega), show x = y by omega]

/-- C80, exact calculator: without losses the probability to go from `S` to `T` through `U` is the
probability to go from `T` to `S` through the conjugate transpose of `U`. -/
theorem C80_calculator (hr : Reversed m U U')
    (hU : U.length = m) (hsq : ∀ r ∈ U, r.length = m) (hU' : U'.length = m) (hsq' : ∀ r ∈ U', r.length = m)
    (hS : S.length = m) (hm : 0 < m) (T : List ℕ) (hT : T.length = m) (hs : T.sum = S.sum) (eta : ℝ)
    (fuel : ℕ) (hf : (S.map (· + 1)).prod ≤ fuel) (hf' : (T.map (· + 1)).prod ≤ fuel) :
    fixedLossOutcome Complex.normSq (factoryPermanent gray t fuel) hash (expConfig U' T T.sum eta) S
      = fixedLossOutcome Complex.normSq (factoryPermanent gray t fuel) hash (expConfig U S S.sum eta) T := by
  have hne : S ≠ [] := by rintro rfl; simp at hS; omega
  have hne' : T ≠ [] := by rintro rfl; simp at hT; omega
  have hi : ∀ S a b : List ℕ, StateLE a S → a.sum = S.sum → StateLE b S → b.sum = S.sum → hash a = hash b → a = b :=
    fun S a b h1 h2 h3 h4 _ => by rw [stateLE_sum_eq h1 h2, stateLE_sum_eq h3 h4]
  rw [(C22_probability gray hgray t hash U' T S T.sum eta (by rw [hU']; exact hsq') (by omega) (by omega) hne' le_rfl
      hs.symm fuel hf' (hi T)).1, (C22_probability gray hgray t hash U S T S.sum eta (by rw [hU]; exact hsq) (by omega)
      (by omega) hne le_rfl hs fuel hf (hi S)).1, fixedLossProb_full, fixedLossProb_full,
      bosonProb_reversed hr S T hS hT hs.symm]

/-- C80, samplers: each sample drawn from `S` through `U` equals `T` with the probability with which each
sample drawn from `T` through the conjugate transpose of `U` equals `S`. -/
theorem C80_samplers (hr : Reversed m U U') (h : Interferometer U S) (hU' : U'.length = m)
    (hsq' : ∀ r ∈ U', r.length = m) (hS : S.length = m) (T : List ℕ) (hT : T.length = m) (hs : T.sum = S.sum)
    (fuel : ℕ) (hf : (S.map (· + 1)).prod ≤ fuel) (hf' : (T.map (· + 1)).prod ≤ fuel) (N : ℤ) (i : ℕ) (hi : i < N.toNat)
    (o o' : GccObj) :
    let A := factoryPermanent gray t fuel
    let B := ryserSubPermanents fuel
    (gccSimulate gccA A U' fuel o' T N).prob (fun r => ∃ l o', r = .ok (l, o') ∧ l[i]? = some S)
        = (gccSimulate gccA A U fuel o S N).prob (fun r => ∃ l o', r = .ok (l, o') ∧ l[i]? = some T) ∧
      (gccSimulate gccAssignment A U' fuel o' T N).prob (fun r => ∃ l o', r = .ok (l, o') ∧ l[i]? = some S)
        = (gccSimulate gccAssignment A U fuel o S N).prob (fun r => ∃ l o', r = .ok (l, o') ∧ l[i]? = some T) ∧
      (gccbSimulate B U' fuel T N).prob (fun r => ∃ l, r = .ok l ∧ l[i]? = some S)
        = (gccbSimulate B U fuel S N).prob (fun r => ∃ l, r = .ok l ∧ l[i]? = some T) := by
  have hne' : T ≠ [] := by
    rintro rfl
    have := List.length_pos_of_ne_nil h.ne
    simp at hT
    omega
  have i1 : Interferometer U' T := ⟨fun r hr => by rw [hsq' r hr, hU'], by rw [hT, hU'], hne', by
    have ho := h.ortho
    rw [hS] at ho
    rw [hT]
    exact orthonormal_reversed hr ho⟩
  have e := bosonProb_reversed hr S T hS hT hs.symm
  refine ⟨?_, ?_, ?_⟩
  · rw [C26_sample gray hgray t i1 fuel hf' o' N i hi S (by omega) hs.symm,
      C26_sample gray hgray t h fuel hf o N i hi T (by omega) hs, e]
  · rw [C27_sample gray hgray t i1 fuel hf' o' N i hi S (by omega) hs.symm,
      C27_sample gray hgray t h fuel hf o N i hi T (by omega) hs, e]
  · rw [C28_sample i1 fuel hf' N i hi S (by omega) hs.symm, C28_sample h fuel hf N i hi T (by omega) hs, e]

end

/-- A matrix with orthonormal columns that is neither real nor symmetric. -/
noncomputable def phaseRotation : List (List ℂ) := [[3 / 5, 4 / 5], [4 / 5 * Complex.I, -3 / 5 * Complex.I]]

/-- Concrete cases of the hypotheses of C78 and C80: the rotation with a phase `i` at the second output,
its complex conjugate and its conjugate transpose. -/
example : SameModuli 2 [[3 / 5, 4 / 5], [4 / 5, -3 / 5]] phaseRotation ∧
    SameModuli 2 phaseRotation [[3 / 5, 4 / 5], [-(4 / 5 * Complex.I), 3 / 5 * Complex.I]] ∧
    Reversed 2 phaseRotation [[3 / 5, -(4 / 5 * Complex.I)], [4 / 5, 3 / 5 * Complex.I]] := by
  refine ⟨.inl ⟨fun i => if i = 0 then 1 else Complex.I, 1, ⟨fun i j => ?_, fun i => ?_, by simp⟩⟩, .inr ?_, ?_⟩
  · fin_cases i <;> fin_cases j <;> simp [mget, phaseRotation, mul_comm]
  · split_ifs <;> simp
  all_goals
    intro i hi j hj
    have hi' : i = 0 ∨ i = 1 := by omega
    have hj' : j = 0 ∨ j = 1 := by omega
    rcases hi' with rfl | rfl <;> rcases hj' with rfl | rfl <;>
      (simp [mget, phaseRotation, Complex.conj_ofNat]; try ring)

/-- A concrete case of C78: the phase at the output does not change the law of the samples. -/
example (S : List ℕ) (hS : S.length = 2) (N : ℕ) : ∃ F, ∀ fuel ≥ F, ∀ Q : List (List ℕ) → Prop,
    (gccbStrategy (ryserSubPermanents fuel) phaseRotation fuel S N).prob (fun r => ∃ l, r = .ok l ∧ Q l)
      = (gccbStrategy (ryserSubPermanents fuel) [[3 / 5, 4 / 5], [4 / 5, -3 / 5]] fuel S N).prob
          (fun r => ∃ l, r = .ok l ∧ Q l) := by
  have hr : SameModuli 2 [[3 / 5, 4 / 5], [4 / 5, -3 / 5]] phaseRotation := by
    refine .inl ⟨fun i => if i = 0 then 1 else Complex.I, 1, ⟨fun i j => ?_, fun i => ?_, by simp⟩⟩
    · fin_cases i <;> fin_cases j <;> simp [mget, phaseRotation, mul_comm]
    · split_ifs <;> simp
  obtain ⟨F, hF⟩ := C78_samplers reflectedGray reflectedGray_isGrayCode 3 hr (rotation_interferometer S hS) rfl
    (by simp [phaseRotation]) hS N gccInit gccInit 1 zero_le_one le_rfl (gccuInit 1 false) (gccuInit 1 false) rfl rfl
  exact ⟨F, fun fuel hf Q => (hF fuel hf Q).2.2.1⟩

end

end Verif
