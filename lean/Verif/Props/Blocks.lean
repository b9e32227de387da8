import Verif.Proofs.BlockNetworks
import Verif.Props.Permanents
import Mathlib.Logic.Encodable.Basic
import Mathlib.Logic.Equiv.List

/-!
C105: experiments side by side. When an interferometer consists of two interferometers between which nothing passes
(`SideBySide`, `Spec/Blocks.lean`), every permanent and every probability is the product of those of the two parts, and
the samplers observe the two parts independently of each other, each with the law it has alone.
-/
namespace Verif

open Finset
open scoped ENNReal

theorem SamplesFrom.sure {P : Prog (List (List ℕ))} {𝒯 : Finset (List ℕ)} {p : List ℕ → ℝ} {N : ℕ}
    (h : SamplesFrom P 𝒯 p N) : P.prob (fun r => ∃ l, r = .ok l ∧ True) = 1 := by
  classical
  unfold Prog.prob
  rw [h]
  simp only [Except.ok.injEq, exists_eq_left', if_true]
  rw [← h fun _ => 1, Prog.wp_const]

section
variable {a b : ℕ} {A B U : List (List ℂ)} {S S' : List ℕ}
variable (gray : Nat → List Nat) (hgray : ∀ n, IsGrayCode n (gray n)) (t : Int) (hash : List Nat → Int)

section
include hgray

/-- C105, permanents: every calculator of the factory returns for `U` the product of what the calculators return for the
two parts when each part keeps its particles, and 0 when particles would have to pass from one part to the other. -/
theorem C105_permanent (h : SideBySide a b A B U) (hA : A.length = a) (hB : B.length = b) (hU : U.length = a + b)
    (hsA : ∀ r ∈ A, r.length = a) (hsB : ∀ r ∈ B, r.length = b) (hsU : ∀ r ∈ U, r.length = a + b)
    (T T' : List ℕ) (hS : S.length = a) (hS' : S'.length = b) (hT : T.length = a) (hT' : T'.length = b)
    (ha : 0 < a) (hb : 0 < b) (hs : (S ++ S').sum = (T ++ T').sum) (t₁ t₂ : Int) (fuel : ℕ)
    (hf : ((S ++ S').map (· + 1)).prod ≤ fuel) :
    (S.sum = T.sum → ∃ x y, factoryPermanent gray t₁ fuel ⟨A, S, T⟩ = .ok x ∧ factoryPermanent gray t₂ fuel ⟨B, S', T'⟩ = .ok y ∧
        factoryPermanent gray t fuel ⟨U, S ++ S', T ++ T'⟩ = .ok (x * y)) ∧
      (S.sum ≠ T.sum → factoryPermanent gray t fuel ⟨U, S ++ S', T ++ T'⟩ = .ok 0) := by
  have hne : S ≠ [] := by rintro rfl; simp at hS; omega
  have hne' : S' ≠ [] := by rintro rfl; simp at hS'; omega
  have hp : ∀ L : List ℕ, 0 < (L.map (· + 1)).prod := fun L => List.prod_pos (by simp)
  have hp1 := hp S
  have hp2 := hp S'
  have hpp : ((S ++ S').map (· + 1)).prod = (S.map (· + 1)).prod * (S'.map (· + 1)).prod := by simp
  have f1 : (S.map (· + 1)).prod ≤ fuel := by rw [hpp] at hf; nlinarith
  have f2 : (S'.map (· + 1)).prod ≤ fuel := by rw [hpp] at hf; nlinarith
  have e := C17_interchangeable gray hgray U (S ++ S') (T ++ T') (by rw [hU]; exact hsU) (by simp [hS, hS', hT, hT'])
    (by simp [hS, hS', hU]) (by simp [hne]) hs fuel hf t
  constructor
  · intro h1
    have h2 : S'.sum = T'.sum := by simp only [List.sum_append] at hs; omega
    refine ⟨_, _, C17_interchangeable gray hgray A S T (by rw [hA]; exact hsA) (by omega) (by omega) hne h1 fuel f1 t₁,
      C17_interchangeable gray hgray B S' T' (by rw [hB]; exact hsB) (by omega) (by omega) hne' h2 fuel f2 t₂, ?_⟩
    rw [e, h.permanent S S' T T' hS hS' hT hT' h1 h2]
  · intro h1
    rw [e, h.permanent_zero S S' T T' hS hS' hT hT' h1 hs]

/-- C105, exact calculators: with uniform losses the probability of an outcome is the product of the probabilities of its
two parts. With a fixed number of particles left, this number is shared between the parts as in drawing particles without
replacement; without losses the factor is 1. -/
theorem C105_calculators (h : SideBySide a b A B U) (hA : A.length = a) (hB : B.length = b) (hU : U.length = a + b)
    (hsA : ∀ r ∈ A, r.length = a) (hsB : ∀ r ∈ B, r.length = b) (hsU : ∀ r ∈ U, r.length = a + b)
    (T T' : List ℕ) (hS : S.length = a) (hS' : S'.length = b) (hT : T.length = a) (hT' : T'.length = b)
    (ha : 0 < a) (hb : 0 < b) (hs : T.sum ≤ S.sum) (hs' : T'.sum ≤ S'.sum) (t₁ t₂ : Int) (k k₁ k₂ : ℕ) (eta : ℝ) (fuel : ℕ)
    (hf : ((S ++ S').map (· + 1)).prod ≤ fuel)
    (hinj : ∀ x y : List Nat, x.length = y.length → x.sum = y.sum → hash x = hash y → x = y) :
    (∃ x y, uniformOutcome Complex.normSq (factoryPermanent gray t₁ fuel) hash (uniformCalc (expConfig A S k₁ eta)) T = .ok x ∧
        uniformOutcome Complex.normSq (factoryPermanent gray t₂ fuel) hash (uniformCalc (expConfig B S' k₂ eta)) T' = .ok y ∧
        uniformOutcome Complex.normSq (factoryPermanent gray t fuel) hash (uniformCalc (expConfig U (S ++ S') k eta)) (T ++ T')
          = .ok (x * y)) ∧
      ∃ x y, fixedLossOutcome Complex.normSq (factoryPermanent gray t₁ fuel) hash (expConfig A S T.sum eta) T = .ok x ∧
        fixedLossOutcome Complex.normSq (factoryPermanent gray t₂ fuel) hash (expConfig B S' T'.sum eta) T' = .ok y ∧
        fixedLossOutcome Complex.normSq (factoryPermanent gray t fuel) hash (expConfig U (S ++ S') (T.sum + T'.sum) eta) (T ++ T')
          = .ok ((S.sum.choose T.sum * S'.sum.choose T'.sum : ℕ) / ((S.sum + S'.sum).choose (T.sum + T'.sum) : ℕ) * (x * y)) := by
  have hne : S ≠ [] := by rintro rfl; simp at hS; omega
  have hne' : S' ≠ [] := by rintro rfl; simp at hS'; omega
  have hp : ∀ L : List ℕ, 0 < (L.map (· + 1)).prod := fun L => List.prod_pos (by simp)
  have hp1 := hp S
  have hp2 := hp S'
  have hpp : ((S ++ S').map (· + 1)).prod = (S.map (· + 1)).prod * (S'.map (· + 1)).prod := by simp
  have f1 : (S.map (· + 1)).prod ≤ fuel := by rw [hpp] at hf; nlinarith
  have f2 : (S'.map (· + 1)).prod ≤ fuel := by rw [hpp] at hf; nlinarith
  have hi : ∀ (S T x y : List ℕ), StateLE x S → x.sum = T.sum → StateLE y S → y.sum = T.sum → hash x = hash y → x = y :=
    fun S T x y h1 h2 h3 h4 => hinj x y (h1.length_eq.trans h3.length_eq.symm) (h2.trans h4.symm)
  have hss : (T ++ T').sum ≤ (S ++ S').sum := by simp only [List.sum_append]; omega
  constructor
  · refine ⟨_, _, C24_probability gray hgray t₁ hash A S T k₁ eta (by rw [hA]; exact hsA) (by omega) (by omega) hne hs fuel f1 (hi S T),
      C24_probability gray hgray t₂ hash B S' T' k₂ eta (by rw [hB]; exact hsB) (by omega) (by omega) hne' hs' fuel f2 (hi S' T'), ?_⟩
    rw [C24_probability gray hgray t hash U (S ++ S') (T ++ T') k eta (by rw [hU]; exact hsU) (by simp [hS, hS', hT, hT'])
      (by simp [hS, hS', hU]) (by simp [hne]) hss fuel hf (hi _ _)]
    exact congrArg Except.ok (h.uniform eta S S' T T' hS hS' hT hT')
  · refine ⟨_, _, (C22_probability gray hgray t₁ hash A S T T.sum eta (by rw [hA]; exact hsA) (by omega) (by omega) hne hs rfl fuel
        f1 (hi S T)).1,
      (C22_probability gray hgray t₂ hash B S' T' T'.sum eta (by rw [hB]; exact hsB) (by omega) (by omega) hne' hs' rfl fuel
        f2 (hi S' T')).1, ?_⟩
    rw [(C22_probability gray hgray t hash U (S ++ S') (T ++ T') (T.sum + T'.sum) eta (by rw [hU]; exact hsU)
      (by simp [hS, hS', hT, hT']) (by simp [hS, hS', hU]) (by simp [hne]) (by rw [List.sum_append]; omega)
      (List.sum_append) fuel hf (fun x y h1 h2 h3 h4 => hi (S ++ S') (T ++ T') x y h1 (by rw [h2, List.sum_append]) h3
        (by rw [h4, List.sum_append]))).1]
    have hc := h.correlation S S' T T' hS hS' hT hT'
    rw [correlation_eq _ _ _ hs, correlation_eq _ _ _ hs', correlation_eq _ _ _ hss, List.sum_append, List.sum_append] at hc
    have hpos : ((S.sum + S'.sum).choose (T.sum + T'.sum) : ℝ) ≠ 0 := by
      exact_mod_cast (Nat.choose_pos (by omega)).ne'
    congr 1
    push_cast
    rw [div_mul_eq_mul_div, eq_div_iff hpos, mul_comm, hc]
    ring

/-- C105, samplers: whatever the objects have done before, any event of the first parts of the samples and any event of
the second parts happen together with the product of the probabilities they have for the two parts alone; for both
samplers of version A, for version B and for both samplers with uniform losses. -/
theorem C105_samplers (h : SideBySide a b A B U) (hA : Interferometer A S) (hB : Interferometer B S')
    (hS : S.length = a) (hS' : S'.length = b) (hU : U.length = a + b) (hsU : ∀ r ∈ U, r.length = a + b)
    (N : ℕ) (o o₁ o₂ : GccObj) (eta : ℝ) (h0 : 0 ≤ eta) (h1 : eta ≤ 1) (ou ou₁ ou₂ : GccuObj)
    (ho : ou.eta = eta) (ho₁ : ou₁.eta = eta) (ho₂ : ou₂.eta = eta) : ∃ F, ∀ fuel ≥ F, ∀ Q₁ Q₂ : List (List ℕ) → Prop,
    let P := factoryPermanent gray t fuel
    let R := ryserSubPermanents fuel
    let q := fun r : Py (List (List ℕ)) => ∃ l, r = .ok l ∧ Q₁ (l.map fun T => T.take a) ∧ Q₂ (l.map fun T => T.drop a)
    let q₁ := fun r : Py (List (List ℕ)) => ∃ l, r = .ok l ∧ Q₁ l
    let q₂ := fun r : Py (List (List ℕ)) => ∃ l, r = .ok l ∧ Q₂ l
    (gccStrategy gccA P U fuel o (S ++ S') N).prob q
        = (gccStrategy gccA P A fuel o₁ S N).prob q₁ * (gccStrategy gccA P B fuel o₂ S' N).prob q₂ ∧
      (gccStrategy gccAssignment P U fuel o (S ++ S') N).prob q
        = (gccStrategy gccAssignment P A fuel o₁ S N).prob q₁ * (gccStrategy gccAssignment P B fuel o₂ S' N).prob q₂ ∧
      (gccbStrategy R U fuel (S ++ S') N).prob q
        = (gccbStrategy R A fuel S N).prob q₁ * (gccbStrategy R B fuel S' N).prob q₂ ∧
      (gccuStrategy P U fuel ou (S ++ S') N).prob q
        = (gccuStrategy P A fuel ou₁ S N).prob q₁ * (gccuStrategy P B fuel ou₂ S' N).prob q₂ ∧
      (gccbLossyStrategy R U fuel eta (S ++ S') N).prob q
        = (gccbLossyStrategy R A fuel eta S N).prob q₁ * (gccbLossyStrategy R B fuel eta S' N).prob q₂ := by
  have hI := h.interferometer hA hB hS hS' hU hsU
  have pos : ∀ L : List ℕ, L ≠ [] → ∃ k, L.length = k + 1 := fun L hL =>
    ⟨L.length - 1, by have := List.length_pos_of_ne_nil hL; omega⟩
  obtain ⟨k, hk⟩ := pos _ hI.ne
  obtain ⟨k₁, hk₁⟩ := pos _ hA.ne
  obtain ⟨k₂, hk₂⟩ := pos _ hB.ne
  refine ⟨(genFuel k (S ++ S').sum + ((S ++ S').map (· + 1)).prod) + (genFuel k₁ S.sum + (S.map (· + 1)).prod)
    + (genFuel k₂ S'.sum + (S'.map (· + 1)).prod), fun fuel hf Q₁ Q₂ => ?_⟩
  refine ⟨?_, ?_, ?_, ?_, ?_⟩
  · exact h.boson_samples hS hS' (fun f => gccStrategy_wp gray hgray t (okA _) hI fuel (by omega) o N f)
      (fun f => gccStrategy_wp gray hgray t (okA _) hA fuel (by omega) o₁ N f)
      (fun f => gccStrategy_wp gray hgray t (okA _) hB fuel (by omega) o₂ N f) Q₁ Q₂
  · exact h.boson_samples hS hS' (fun f => gccStrategy_wp gray hgray t (okAssignment _ hI.ne) hI fuel (by omega) o N f)
      (fun f => gccStrategy_wp gray hgray t (okAssignment _ hA.ne) hA fuel (by omega) o₁ N f)
      (fun f => gccStrategy_wp gray hgray t (okAssignment _ hB.ne) hB fuel (by omega) o₂ N f) Q₁ Q₂
  · exact h.boson_samples hS hS' (fun f => gccbStrategy_wp hI fuel (by omega) N f)
      (fun f => gccbStrategy_wp hA fuel (by omega) N f) (fun f => gccbStrategy_wp hB fuel (by omega) N f) Q₁ Q₂
  · exact lossy_samples hS hS' (fun T T' hT hT' => h.uniform eta S S' T T' hS hS' hT hT')
      (uniformLossProb_zero A S eta) (uniformLossProb_zero B S' eta) (uniformLossProb_nonneg A S h0 h1)
      (fun f => gccuStrategy_wp gray hgray t hI h0 h1 ou ho k hk fuel (by omega) N f)
      (fun f => gccuStrategy_wp gray hgray t hA h0 h1 ou₁ ho₁ k₁ hk₁ fuel (by omega) N f)
      (fun f => gccuStrategy_wp gray hgray t hB h0 h1 ou₂ ho₂ k₂ hk₂ fuel (by omega) N f) Q₁ Q₂
  · exact lossy_samples hS hS' (fun T T' hT hT' => h.uniform eta S S' T T' hS hS' hT hT')
      (uniformLossProb_zero A S eta) (uniformLossProb_zero B S' eta) (uniformLossProb_nonneg A S h0 h1)
      (fun f => gccbLossyStrategy_wp hI h0 h1 fuel (by omega) N f)
      (fun f => gccbLossyStrategy_wp hA h0 h1 fuel (by omega) N f)
      (fun f => gccbLossyStrategy_wp hB h0 h1 fuel (by omega) N f) Q₁ Q₂

end

/-- C105, lossy networks: the same holds for the sampler for lossy networks, whatever decompositions of the three matrices
are used. -/
theorem C105_networks {M : Matrix (Fin (a + b)) (Fin (a + b)) ℂ} {MA : Matrix (Fin a) (Fin a) ℂ}
    {MB : Matrix (Fin b) (Fin b) ℂ} (h : SideBySide a b (rowsOf MA) (rowsOf MB) (rowsOf M))
    {d : Svd (a + b)} {dA : Svd a} {dB : Svd b} (hd : IsSvd M d) (hA : IsSvd MA dA) (hB : IsSvd MB dB)
    (h1 : ∀ i, d.s i ≤ 1) (hA1 : ∀ i, dA.s i ≤ 1) (hB1 : ∀ i, dB.s i ≤ 1) (ha : 0 < a) (hb : 0 < b)
    (hS : S.length = a) (hS' : S'.length = b) (N : ℕ) (fuel : ℕ) (hf : ((S ++ S').map (· + 1)).prod ≤ fuel) (hf' : a + b < fuel)
    (Q₁ Q₂ : List (List ℕ) → Prop) :
    (lossyNetSimulate (ryserSubPermanents fuel) d fuel (S ++ S') N).prob
        (fun r => ∃ l, r = .ok l ∧ Q₁ (l.map fun T => T.take a) ∧ Q₂ (l.map fun T => T.drop a))
      = (lossyNetSimulate (ryserSubPermanents fuel) dA fuel S N).prob (fun r => ∃ l, r = .ok l ∧ Q₁ l)
        * (lossyNetSimulate (ryserSubPermanents fuel) dB fuel S' N).prob (fun r => ∃ l, r = .ok l ∧ Q₂ l) := by
  have hp : ∀ L : List ℕ, 0 < (L.map (· + 1)).prod := fun L => List.prod_pos (by simp)
  have hp1 := hp S
  have hp2 := hp S'
  have hpp : ((S ++ S').map (· + 1)).prod = (S.map (· + 1)).prod * (S'.map (· + 1)).prod := by simp
  have f1 : (S.map (· + 1)).prod ≤ fuel := by rw [hpp] at hf; nlinarith
  have f2 : (S'.map (· + 1)).prod ≤ fuel := by rw [hpp] at hf; nlinarith
  exact lossy_samples hS hS' (fun T T' hT hT' => h.lossy (expanded_isDilation hA hA1) (expanded_isDilation hB hB1)
      (expanded_isDilation hd h1) S S' T T' hS hS' hT hT')
    (lossyProb_eq_zero _ _ S) (lossyProb_eq_zero _ _ S') (lossyProb_nonneg _ _ S)
    (lossyNet_samples M d hd h1 (S ++ S') (by simp [hS, hS']) (by omega) fuel hf hf' N)
    (lossyNet_samples MA dA hA hA1 S hS ha fuel f1 (by omega) N)
    (lossyNet_samples MB dB hB hB1 S' hS' hb fuel f2 (by omega) N) Q₁ Q₂

include hgray in
/-- C105, one part alone: what happens in the first modes does not depend on the modes added to the experiment, on the
particles in them or on their interferometer. -/
theorem C105_marginal (h : SideBySide a b A B U) (hA : Interferometer A S) (hB : Interferometer B S')
    (hS : S.length = a) (hS' : S'.length = b) (hU : U.length = a + b) (hsU : ∀ r ∈ U, r.length = a + b)
    (N : ℕ) (o o₁ : GccObj) (eta : ℝ) (h0 : 0 ≤ eta) (h1 : eta ≤ 1) (ou ou₁ : GccuObj)
    (ho : ou.eta = eta) (ho₁ : ou₁.eta = eta) : ∃ F, ∀ fuel ≥ F, ∀ Q : List (List ℕ) → Prop,
    let P := factoryPermanent gray t fuel
    let R := ryserSubPermanents fuel
    let q := fun r : Py (List (List ℕ)) => ∃ l, r = .ok l ∧ Q (l.map fun T => T.take a)
    let q₁ := fun r : Py (List (List ℕ)) => ∃ l, r = .ok l ∧ Q l
    (gccStrategy gccA P U fuel o (S ++ S') N).prob q = (gccStrategy gccA P A fuel o₁ S N).prob q₁ ∧
      (gccStrategy gccAssignment P U fuel o (S ++ S') N).prob q = (gccStrategy gccAssignment P A fuel o₁ S N).prob q₁ ∧
      (gccbStrategy R U fuel (S ++ S') N).prob q = (gccbStrategy R A fuel S N).prob q₁ ∧
      (gccuStrategy P U fuel ou (S ++ S') N).prob q = (gccuStrategy P A fuel ou₁ S N).prob q₁ ∧
      (gccbLossyStrategy R U fuel eta (S ++ S') N).prob q = (gccbLossyStrategy R A fuel eta S N).prob q₁ := by
  obtain ⟨F, hF⟩ := C105_samplers gray hgray t h hA hB hS hS' hU hsU N o o₁ o₁ eta h0 h1 ou ou₁ ou₁ ho ho₁ ho₁
  obtain ⟨k₂, hk₂⟩ : ∃ k, S'.length = k + 1 := ⟨S'.length - 1, by have := List.length_pos_of_ne_nil hB.ne; omega⟩
  refine ⟨F + (genFuel k₂ S'.sum + (S'.map (· + 1)).prod), fun fuel hf Q => ?_⟩
  have := hF fuel (by omega) Q fun _ => True
  simp only [and_true] at this
  obtain ⟨e1, e2, e3, e4, e5⟩ := this
  have one : ∀ {P : Prog (List (List ℕ))} {𝒯 : Finset (List ℕ)} {p : List ℕ → ℝ}, SamplesFrom P 𝒯 p N →
      P.prob (fun r => ∃ l, r = .ok l) = 1 := fun h => by
    have := h.sure
    simpa only [and_true] using this
  refine ⟨?_, ?_, ?_, ?_, ?_⟩
  · rw [e1, one (fun f => gccStrategy_wp gray hgray t (okA _) hB fuel (by omega) o₁ N f), mul_one]
  · rw [e2, one (fun f => gccStrategy_wp gray hgray t (okAssignment _ hB.ne) hB fuel (by omega) o₁ N f), mul_one]
  · rw [e3, one (fun f => gccbStrategy_wp hB fuel (by omega) N f), mul_one]
  · rw [e4, one (fun f => gccuStrategy_wp gray hgray t hB h0 h1 ou₁ ho₁ k₂ hk₂ fuel (by omega) N f), mul_one]
  · rw [e5, one (fun f => gccbLossyStrategy_wp hB h0 h1 fuel (by omega) N f), mul_one]

end

/-- A concrete case: the rotation next to one more mode. -/
noncomputable def rotationAndMode : List (List ℂ) := [[3 / 5, 4 / 5, 0], [4 / 5, -3 / 5, 0], [0, 0, 1]]

theorem rotationAndMode_sideBySide :
    SideBySide 2 1 [[3 / 5, 4 / 5], [4 / 5, -3 / 5]] [[1]] rotationAndMode := by
  refine ⟨fun i hi j hj => ?_, fun i hi j hj => ?_, fun i hi j hj => ?_, fun i hi j hj => ?_⟩ <;>
    interval_cases i <;> interval_cases j <;> simp [mget, rotationAndMode]

theorem one_interferometer (n : ℕ) : Interferometer [[1]] [n] where
  square := by simp
  len := rfl
  ne := by simp
  ortho := by
    intro x hx y hy
    simp at hx hy
    subst hx; subst hy
    simp [mget]

/-- A concrete case of C105: version B never sends the particle of the third mode into the rotation, and the particles of
the rotation are observed as if the third mode were not there. -/
example (N n : ℕ) : ∃ F, ∀ fuel ≥ F, ∀ Q : List (List ℕ) → Prop,
    (gccbStrategy (ryserSubPermanents fuel) rotationAndMode fuel [1, 1, n] N).prob
        (fun r => ∃ l, r = .ok l ∧ Q (l.map fun T => T.take 2))
      = (gccbStrategy (ryserSubPermanents fuel) [[3 / 5, 4 / 5], [4 / 5, -3 / 5]] fuel [1, 1] N).prob
          (fun r => ∃ l, r = .ok l ∧ Q l) := by
  obtain ⟨F, hF⟩ := C105_marginal reflectedGray reflectedGray_isGrayCode 3 rotationAndMode_sideBySide
    (rotation_interferometer [1, 1] rfl) (one_interferometer n) rfl rfl rfl (by simp [rotationAndMode]) N gccInit gccInit 1
    zero_le_one le_rfl (gccuInit 1 false) (gccuInit 1 false) rfl rfl
  exact ⟨F, fun fuel hf Q => (hF fuel hf Q).2.2.1⟩

/-- A concrete case of C105 for the calculators: two particles in the rotation, one of which is lost, and three in the
third mode, all of which are left. -/
example (eta : ℝ) : ∃ x y,
    uniformOutcome Complex.normSq (factoryPermanent reflectedGray 3 16) (fun l => (Encodable.encode l : ℤ))
        (uniformCalc (expConfig [[3 / 5, 4 / 5], [4 / 5, -3 / 5]] [1, 1] 2 eta)) [1, 0] = .ok x ∧
      uniformOutcome Complex.normSq (factoryPermanent reflectedGray 3 16) (fun l => (Encodable.encode l : ℤ))
        (uniformCalc (expConfig [[1]] [3] 3 eta)) [3] = .ok y ∧
      uniformOutcome Complex.normSq (factoryPermanent reflectedGray 3 16) (fun l => (Encodable.encode l : ℤ))
        (uniformCalc (expConfig rotationAndMode [1, 1, 3] 5 eta)) [1, 0, 3] = .ok (x * y) :=
  (C105_calculators reflectedGray reflectedGray_isGrayCode 3 _ rotationAndMode_sideBySide rfl rfl rfl (by simp) (by simp)
    (by simp [rotationAndMode]) [1, 0] [3] (S := [1, 1]) (S' := [3]) rfl rfl rfl rfl (by norm_num) (by norm_num) (by decide)
    (by decide) 3 3 5 2 3 eta 16 (by decide) fun x y _ _ h => by
      simp only [Nat.cast_inj] at h
      exact Encodable.encode_injective h).1

/-- A concrete case of C105: two networks with one mode each, of transmission 1/4 and 1. -/
example : SideBySide 1 1 (rowsOf !![(1 / 2 : ℂ)]) (rowsOf !![1]) (rowsOf !![1 / 2, 0; 0, 1]) := by
  refine ⟨fun i hi j hj => ?_, fun i hi j hj => ?_, fun i hi j hj => ?_, fun i hi j hj => ?_⟩ <;>
    interval_cases i <;> interval_cases j <;> simp [mget, rowsOf]

end Verif
