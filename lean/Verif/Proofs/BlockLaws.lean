import Verif.Proofs.Blocks
import Verif.Proofs.SampleMeans

/-! Helper lemmas: the joint laws of the samples of two interferometers side by side. -/
namespace Verif

open Finset
open scoped ENNReal

theorem sum_append_states {M : Type*} [AddCommMonoid M] {𝒯 𝒯₁ 𝒯₂ : Finset (List ℕ)} {a : ℕ} (h1 : ∀ T ∈ 𝒯₁, T.length = a)
    (hsub : ∀ T ∈ 𝒯₁, ∀ T' ∈ 𝒯₂, T ++ T' ∈ 𝒯) (F : List ℕ → M)
    (hF : ∀ T ∈ 𝒯, (∀ T₁ ∈ 𝒯₁, ∀ T₂ ∈ 𝒯₂, T ≠ T₁ ++ T₂) → F T = 0) :
    ∑ T ∈ 𝒯, F T = ∑ T₁ ∈ 𝒯₁, ∑ T₂ ∈ 𝒯₂, F (T₁ ++ T₂) := by
  have hinj : Set.InjOn (fun p : List ℕ × List ℕ => p.1 ++ p.2) (𝒯₁ ×ˢ 𝒯₂ : Finset _) := by
    intro p hp q hq h
    have hp := mem_product.mp (mem_coe.mp hp)
    have hq := mem_product.mp (mem_coe.mp hq)
    have := List.append_inj h (by rw [h1 _ hp.1, h1 _ hq.1])
    exact Prod.ext this.1 this.2
  rw [← sum_product', ← sum_image (f := F) hinj]
  symm
  refine sum_subset ?_ fun T hT hT' => hF T hT fun T₁ h₁ T₂ h₂ e => hT' ?_
  · intro T hT
    obtain ⟨p, hp, rfl⟩ := mem_image.mp hT
    have hp := mem_product.mp hp
    exact hsub _ hp.1 _ hp.2
  · exact mem_image.mpr ⟨(T₁, T₂), mem_product.mpr ⟨h₁, h₂⟩, e.symm⟩

theorem expIid_mul_left {𝒯 : Finset (List ℕ)} {p : List ℕ → ℝ≥0∞} (n : ℕ) (k : ℝ≥0∞) (g : List (List ℕ) → ℝ≥0∞) :
    expIid 𝒯 p n (fun l => k * g l) = k * expIid 𝒯 p n g := by
  induction n generalizing g with
  | zero => rfl
  | succ n ih =>
    rw [expIid, expIid, mul_sum]
    refine sum_congr rfl fun T _ => ?_
    rw [ih]
    ring

theorem expIid_sum_swap {ι : Type*} (s : Finset ι) {𝒯 : Finset (List ℕ)} {p : List ℕ → ℝ≥0∞} (n : ℕ)
    (g : ι → List (List ℕ) → ℝ≥0∞) : expIid 𝒯 p n (fun l => ∑ i ∈ s, g i l) = ∑ i ∈ s, expIid 𝒯 p n (g i) := by
  induction n generalizing g with
  | zero => rfl
  | succ n ih =>
    simp only [expIid]
    rw [sum_comm]
    refine sum_congr rfl fun T _ => ?_
    rw [ih, mul_sum]

theorem expIid_append {𝒯 𝒯₁ 𝒯₂ : Finset (List ℕ)} {p p₁ p₂ : List ℕ → ℝ≥0∞} {a : ℕ} (h1 : ∀ T ∈ 𝒯₁, T.length = a)
    (hsub : ∀ T ∈ 𝒯₁, ∀ T' ∈ 𝒯₂, T ++ T' ∈ 𝒯) (hp : ∀ T ∈ 𝒯₁, ∀ T' ∈ 𝒯₂, p (T ++ T') = p₁ T * p₂ T')
    (h0 : ∀ T ∈ 𝒯, (∀ T₁ ∈ 𝒯₁, ∀ T₂ ∈ 𝒯₂, T ≠ T₁ ++ T₂) → p T = 0) (n : ℕ)
    (F : List (List ℕ) → List (List ℕ) → ℝ≥0∞) :
    expIid 𝒯 p n (fun l => F (l.map fun T => T.take a) (l.map fun T => T.drop a))
      = expIid 𝒯₁ p₁ n fun l => expIid 𝒯₂ p₂ n fun l' => F l l' := by
  induction n generalizing F with
  | zero => rfl
  | succ n ih =>
    rw [expIid, expIid, sum_append_states h1 hsub _ fun T hT h => by rw [h0 T hT h, zero_mul]]
    refine sum_congr rfl fun T₁ hT₁ => ?_
    simp only [expIid]
    rw [expIid_sum_swap, mul_sum]
    refine sum_congr rfl fun T₂ hT₂ => ?_
    rw [hp T₁ hT₁ T₂ hT₂, expIid_mul_left, mul_assoc]
    congr 2
    rw [← ih fun l l' => F (T₁ :: l) (T₂ :: l')]
    simp [h1 T₁ hT₁]

theorem SamplesFrom.append {P P₁ P₂ : Prog (List (List ℕ))} {𝒯 𝒯₁ 𝒯₂ : Finset (List ℕ)} {p p₁ p₂ : List ℕ → ℝ} {N : ℕ}
    (h : SamplesFrom P 𝒯 p N) (h₁ : SamplesFrom P₁ 𝒯₁ p₁ N) (h₂ : SamplesFrom P₂ 𝒯₂ p₂ N) {a : ℕ}
    (hl : ∀ T ∈ 𝒯₁, T.length = a) (hsub : ∀ T ∈ 𝒯₁, ∀ T' ∈ 𝒯₂, T ++ T' ∈ 𝒯) (hn : ∀ T ∈ 𝒯₁, 0 ≤ p₁ T)
    (hp : ∀ T ∈ 𝒯₁, ∀ T' ∈ 𝒯₂, p (T ++ T') = p₁ T * p₂ T')
    (h0 : ∀ T ∈ 𝒯, (∀ T₁ ∈ 𝒯₁, ∀ T₂ ∈ 𝒯₂, T ≠ T₁ ++ T₂) → p T = 0) (Q₁ Q₂ : List (List ℕ) → Prop) :
    P.prob (fun r => ∃ l, r = .ok l ∧ Q₁ (l.map fun T => T.take a) ∧ Q₂ (l.map fun T => T.drop a))
      = P₁.prob (fun r => ∃ l, r = .ok l ∧ Q₁ l) * P₂.prob (fun r => ∃ l, r = .ok l ∧ Q₂ l) := by
  classical
  unfold Prog.prob
  rw [h, h₁, h₂]
  simp only [Except.ok.injEq, exists_eq_left']
  rw [mul_comm, ← expIid_mul_left]
  rw [show (fun l : List (List ℕ) => if Q₁ (l.map fun T => T.take a) ∧ Q₂ (l.map fun T => T.drop a) then (1 : ℝ≥0∞) else 0)
      = fun l => (fun l l' : List (List ℕ) => (if Q₁ l then (1 : ℝ≥0∞) else 0) * if Q₂ l' then 1 else 0)
        (l.map fun T => T.take a) (l.map fun T => T.drop a) from funext fun l => by
          by_cases h1 : Q₁ (l.map fun T => T.take a) <;> by_cases h2 : Q₂ (l.map fun T => T.drop a) <;> simp [h1, h2]]
  refine (expIid_append (p := fun T => ENNReal.ofReal (p T)) (p₁ := fun T => ENNReal.ofReal (p₁ T))
    (p₂ := fun T => ENNReal.ofReal (p₂ T)) hl hsub (fun T hT T' hT' => by rw [hp T hT T' hT', ENNReal.ofReal_mul (hn T hT)])
    (fun T hT h => by rw [h0 T hT h, ENNReal.ofReal_zero]) N
    fun l l' => (if Q₁ l then (1 : ℝ≥0∞) else 0) * if Q₂ l' then 1 else 0).trans ?_
  congr 1
  funext l
  rw [expIid_mul_left, mul_comm]

section
variable {a b : ℕ} {A B U : List (List ℂ)} {S S' : List ℕ}

theorem SideBySide.orthonormal (h : SideBySide a b A B U) (hA : Orthonormal A a a) (hB : Orthonormal B b b) :
    Orthonormal U (a + b) (a + b) := by
  intro x hx y hy
  rw [sum_range_add (fun r => (starRingEnd ℂ) (mget U r x) * mget U r y)]
  by_cases hxa : x < a <;> by_cases hya : y < a
  · rw [← hA x hxa y hya, sum_eq_zero (s := range b) fun r hr => by
      rw [h.down r (mem_range.mp hr) x hxa, map_zero, zero_mul], add_zero]
    exact sum_congr rfl fun r hr => by rw [h.first r (mem_range.mp hr) x hxa, h.first r (mem_range.mp hr) y hya]
  · obtain ⟨y, rfl⟩ : ∃ z, y = a + z := ⟨y - a, by omega⟩
    rw [if_neg (by omega), sum_eq_zero fun r hr => by
      rw [h.up r (mem_range.mp hr) y (by omega), mul_zero], sum_eq_zero fun r hr => by
      rw [h.down r (mem_range.mp hr) x hxa, map_zero, zero_mul], add_zero]
  · obtain ⟨x, rfl⟩ : ∃ z, x = a + z := ⟨x - a, by omega⟩
    rw [if_neg (by omega), sum_eq_zero fun r hr => by
      rw [h.up r (mem_range.mp hr) x (by omega), map_zero, zero_mul], sum_eq_zero fun r hr => by
      rw [h.down r (mem_range.mp hr) y hya, mul_zero], add_zero]
  · obtain ⟨x, rfl⟩ : ∃ z, x = a + z := ⟨x - a, by omega⟩
    obtain ⟨y, rfl⟩ : ∃ z, y = a + z := ⟨y - a, by omega⟩
    have := hB x (by omega) y (by omega)
    rw [show (if a + x = a + y then (1 : ℂ) else 0) = if x = y then 1 else 0 by simp, ← this,
      sum_eq_zero (s := range a) fun r hr => by rw [h.up r (mem_range.mp hr) y (by omega), mul_zero], zero_add]
    exact sum_congr rfl fun r hr => by
      rw [h.second r (mem_range.mp hr) x (by omega), h.second r (mem_range.mp hr) y (by omega)]

theorem SideBySide.interferometer (h : SideBySide a b A B U) (hA : Interferometer A S) (hB : Interferometer B S')
    (hS : S.length = a) (hS' : S'.length = b) (hU : U.length = a + b) (hsq : ∀ r ∈ U, r.length = a + b) :
    Interferometer U (S ++ S') := by
  refine ⟨fun r hr => by rw [hsq r hr, hU], by simp [hS, hS', hU], by simp [hA.ne], ?_⟩
  rw [List.length_append, hS, hS']
  refine h.orthonormal ?_ ?_
  · have := hA.ortho; rwa [hS] at this
  · have := hB.ortho; rwa [hS'] at this

theorem bosonProb0_of_eq {U : List (List ℂ)} {S T : List ℕ} (h : S.sum = T.sum) : bosonProb0 U S T = Verif.bosonProb U S T := by
  unfold bosonProb0; rw [if_pos h]

theorem bosonProb0_of_ne {U : List (List ℂ)} {S T : List ℕ} (h : ¬ S.sum = T.sum) : bosonProb0 U S T = 0 := by
  unfold bosonProb0; rw [if_neg h]

/-- The lossless law. -/
theorem SideBySide.boson_samples (h : SideBySide a b A B U) (hS : S.length = a) (hS' : S'.length = b)
    {P P₁ P₂ : Prog (List (List ℕ))} {N : ℕ} (hP : SamplesFrom P (statesFin (S ++ S').length (S ++ S').sum) (Verif.bosonProb U (S ++ S')) N)
    (h₁ : SamplesFrom P₁ (statesFin S.length S.sum) (Verif.bosonProb A S) N)
    (h₂ : SamplesFrom P₂ (statesFin S'.length S'.sum) (Verif.bosonProb B S') N) (Q₁ Q₂ : List (List ℕ) → Prop) :
    P.prob (fun r => ∃ l, r = .ok l ∧ Q₁ (l.map fun T => T.take a) ∧ Q₂ (l.map fun T => T.drop a))
      = P₁.prob (fun r => ∃ l, r = .ok l ∧ Q₁ l) * P₂.prob (fun r => ∃ l, r = .ok l ∧ Q₂ l) := by
  refine hP.append h₁ h₂ ?_ ?_ (fun T _ => bosonProb_nonneg _ _ _) ?_ ?_ Q₁ Q₂ <;> simp only [mem_statesFin]
  · intro T hT; omega
  · intro T hT T' hT'; simp [hT, hT']
  · intro T hT T' hT'
    have := h.bosonProb S S' T T' hS hS' (by omega) (by omega)
    rwa [bosonProb0_of_eq (by simp [hT, hT']), bosonProb0_of_eq (by simp [hT]), bosonProb0_of_eq (by simp [hT'])] at this
  · intro T hT hne
    have l1 : (T.take a).length = a := by simp at hT ⊢; omega
    have l2 : (T.drop a).length = b := by simp at hT ⊢; omega
    have := h.bosonProb S S' (T.take a) (T.drop a) hS hS' l1 l2
    rw [List.take_append_drop, bosonProb0_of_eq hT.2.symm] at this
    rw [this]
    by_cases e1 : S.sum = (T.take a).sum
    · by_cases e2 : S'.sum = (T.drop a).sum
      · exact absurd (List.take_append_drop a T).symm (hne _ ⟨by omega, e1.symm⟩ _ ⟨by omega, e2.symm⟩)
      · rw [bosonProb0_of_ne e2, mul_zero]
    · rw [bosonProb0_of_ne e1, zero_mul]

theorem uniformLossProb_correlation (U : List (List ℂ)) (S : List ℕ) (eta : ℝ) (T : List ℕ) (hs : T.sum ≤ S.sum) :
    uniformLossProb U S eta T = eta ^ T.sum * (1 - eta) ^ (S.sum - T.sum) * Verif.correlation U S T := by
  unfold uniformLossProb binomialWeight
  rw [correlation_eq _ _ _ hs]
  ring

theorem uniformLossProb_zero (U : List (List ℂ)) (S : List ℕ) (eta : ℝ) (T : List ℕ) (hs : S.sum < T.sum) :
    uniformLossProb U S eta T = 0 := by
  unfold uniformLossProb binomialWeight
  rw [Nat.choose_eq_zero_of_lt hs]
  simp

theorem SideBySide.uniform (h : SideBySide a b A B U) (eta : ℝ) (S S' T T' : List ℕ) (hS : S.length = a) (hS' : S'.length = b)
    (hT : T.length = a) (hT' : T'.length = b) :
    uniformLossProb U (S ++ S') eta (T ++ T') = uniformLossProb A S eta T * uniformLossProb B S' eta T' := by
  have hc := h.correlation S S' T T' hS hS' hT hT'
  by_cases h1 : T.sum ≤ S.sum
  · by_cases h2 : T'.sum ≤ S'.sum
    · rw [uniformLossProb_correlation _ _ _ _ h1, uniformLossProb_correlation _ _ _ _ h2, uniformLossProb_correlation _ _ _ _ (by
        simp; omega), hc, List.sum_append, List.sum_append,
        show S.sum + S'.sum - (T.sum + T'.sum) = (S.sum - T.sum) + (S'.sum - T'.sum) by omega, pow_add, pow_add]
      ring
    · rw [uniformLossProb_zero B _ _ _ (by omega), mul_zero]
      by_cases h3 : (T ++ T').sum ≤ (S ++ S').sum
      · rw [uniformLossProb_correlation _ _ _ _ h3, hc, correlation_zero B _ _ (by omega), mul_zero, mul_zero]
      · exact uniformLossProb_zero _ _ _ _ (by omega)
  · rw [uniformLossProb_zero A _ _ _ (by omega), zero_mul]
    by_cases h3 : (T ++ T').sum ≤ (S ++ S').sum
    · rw [uniformLossProb_correlation _ _ _ _ h3, hc, correlation_zero A _ _ (by omega), zero_mul, mul_zero]
    · exact uniformLossProb_zero _ _ _ _ (by omega)

/-- Any law on at most the particles of the input that factorises. -/
theorem lossy_samples {q q₁ q₂ : List ℕ → ℝ} (hS : S.length = a) (hS' : S'.length = b)
    (hq : ∀ T T' : List ℕ, T.length = a → T'.length = b → q (T ++ T') = q₁ T * q₂ T')
    (hz₁ : ∀ T : List ℕ, S.sum < T.sum → q₁ T = 0) (hz₂ : ∀ T : List ℕ, S'.sum < T.sum → q₂ T = 0)
    (hn : ∀ T, 0 ≤ q₁ T)
    {P P₁ P₂ : Prog (List (List ℕ))} {N : ℕ} (hP : SamplesFrom P (statesUpTo (S ++ S').length (S ++ S').sum) q N)
    (h₁ : SamplesFrom P₁ (statesUpTo S.length S.sum) q₁ N)
    (h₂ : SamplesFrom P₂ (statesUpTo S'.length S'.sum) q₂ N) (Q₁ Q₂ : List (List ℕ) → Prop) :
    P.prob (fun r => ∃ l, r = .ok l ∧ Q₁ (l.map fun T => T.take a) ∧ Q₂ (l.map fun T => T.drop a))
      = P₁.prob (fun r => ∃ l, r = .ok l ∧ Q₁ l) * P₂.prob (fun r => ∃ l, r = .ok l ∧ Q₂ l) := by
  refine hP.append h₁ h₂ ?_ ?_ (fun T _ => hn _) ?_ ?_ Q₁ Q₂ <;> simp only [mem_statesUpTo]
  · intro T hT; omega
  · intro T hT T' hT'; simp [hT, hT']; omega
  · intro T hT T' hT'
    exact hq T T' (by omega) (by omega)
  · intro T hT hne
    have l1 : (T.take a).length = a := by simp at hT ⊢; omega
    have l2 : (T.drop a).length = b := by simp at hT ⊢; omega
    rw [← List.take_append_drop a T, hq _ _ l1 l2]
    by_cases e1 : (T.take a).sum ≤ S.sum
    · by_cases e2 : (T.drop a).sum ≤ S'.sum
      · exact absurd (List.take_append_drop a T).symm (hne _ ⟨by omega, e1⟩ _ ⟨by omega, e2⟩)
      · rw [hz₂ _ (by omega), mul_zero]
    · rw [hz₁ _ (by omega), zero_mul]

end

end Verif
