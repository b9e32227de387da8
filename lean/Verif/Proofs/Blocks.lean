import Verif.Spec.Blocks
import Verif.Proofs.Correlations
import Verif.Props.Symmetry

/-! Helper lemmas: permanents, probabilities and laws of two interferometers side by side. -/
namespace Verif

open Finset
open scoped ENNReal

theorem picks_append {α : Type*} (l l' : List α) :
    picks (l ++ l') = ((picks l).map fun p => (p.1, p.2 ++ l')) ++ (picks l').map fun p => (p.1, l ++ p.2) := by
  induction l with
  | nil => simp [picks]
  | cons a l ih => simp [picks, ih, Function.comp_def]

theorem amp_zero_col (c : ℕ → ℕ → ℂ) (rs cs : List ℕ) (x : ℕ) (hx : x ∈ cs) (h : ∀ r ∈ rs, c x r = 0) :
    amp c rs cs = 0 := by
  induction rs generalizing cs with
  | nil =>
    cases cs with
    | nil => simp at hx
    | cons y cs => rfl
  | cons r rs ih =>
    rw [amp_cons]
    refine List.sum_eq_zero fun v hv => ?_
    obtain ⟨p, hp, rfl⟩ := List.mem_map.mp hv
    have : x ∈ p.1 :: p.2 := (picks_perm hp).mem_iff.mpr hx
    rcases List.mem_cons.mp this with rfl | h'
    · rw [h r (by simp), zero_mul]
    · rw [ih p.2 h' fun r hr => h r (by simp [hr]), mul_zero]

/-- Permanents of block-diagonal matrices. -/
theorem amp_append (c : ℕ → ℕ → ℂ) (rs rs' cs cs' : List ℕ) (h1 : ∀ r ∈ rs, ∀ x ∈ cs', c x r = 0)
    (h2 : ∀ r ∈ rs', ∀ x ∈ cs, c x r = 0) : amp c (rs ++ rs') (cs ++ cs') = amp c rs cs * amp c rs' cs' := by
  induction rs generalizing cs with
  | nil =>
    cases cs with
    | nil => simp [amp, lperm]
    | cons x cs =>
      rw [List.nil_append, amp_zero_col c rs' _ x (by simp) fun r hr => h2 r hr x (by simp)]
      simp [amp, lperm]
  | cons r rs ih =>
    rw [List.cons_append, amp_cons, amp_cons, picks_append, List.map_append, List.sum_append, List.map_map, List.map_map]
    have e2 : ((picks cs').map ((fun p : ℕ × List ℕ => c p.1 r * amp c (rs ++ rs') p.2) ∘ fun p => (p.1, cs ++ p.2))).sum = 0 := by
      refine List.sum_eq_zero fun v hv => ?_
      obtain ⟨p, hp, rfl⟩ := List.mem_map.mp hv
      simp only [Function.comp]
      rw [h1 r (by simp) p.1 (mem_of_picks hp).1, zero_mul]
    rw [e2, add_zero, ← List.sum_map_mul_right]
    congr 1
    refine List.map_congr_left fun p hp => ?_
    simp only [Function.comp]
    rw [ih p.2 (fun r hr x hx => h1 r (by simp [hr]) x hx) fun r hr x hx => h2 r hr x ((mem_of_picks hp).2 x hx)]
    ring

theorem amp_shift (c c' : ℕ → ℕ → ℂ) (a : ℕ) (rs cs : List ℕ) (h : ∀ i ∈ rs, ∀ j ∈ cs, c (a + j) (a + i) = c' j i) :
    amp c (rs.map (a + ·)) (cs.map (a + ·)) = amp c' rs cs := by
  induction rs generalizing cs with
  | nil => cases cs <;> simp [amp, lperm]
  | cons r rs ih =>
    rw [List.map_cons, amp_cons, amp_cons, picks_map, List.map_map]
    congr 1
    refine List.map_congr_left fun p hp => ?_
    simp only [Function.comp]
    rw [h r (by simp) p.1 (mem_of_picks hp).1, ih p.2 fun i hi j hj => h i (by simp [hi]) j ((mem_of_picks hp).2 j hj)]

theorem amp_length (c : ℕ → ℕ → ℂ) (rs cs : List ℕ) (h : rs.length ≠ cs.length) : amp c rs cs = 0 := by
  induction rs generalizing cs with
  | nil =>
    cases cs with
    | nil => simp at h
    | cons y cs => rfl
  | cons r rs ih =>
    rw [amp_cons]
    refine List.sum_eq_zero fun v hv => ?_
    obtain ⟨p, hp, rfl⟩ := List.mem_map.mp hv
    have := (picks_perm hp).length_eq
    rw [ih p.2 (by simp at h this; omega), mul_zero]

section
variable {a b : ℕ} {A B U : List (List ℂ)}

/-- The probability of `T`, zero when the number of particles is not that of `S`. -/
noncomputable def bosonProb0 (U : List (List ℂ)) (S T : List ℕ) : ℝ := if S.sum = T.sum then bosonProb U S T else 0

theorem SideBySide.amp (h : SideBySide a b A B U) (S S' T T' : List ℕ) (hS : S.length = a) (hS' : S'.length = b)
    (hT : T.length = a) (hT' : T'.length = b) :
    Verif.amp (colOf U) (particles (T ++ T')) (particles (S ++ S'))
      = Verif.amp (colOf A) (particles T) (particles S) * Verif.amp (colOf B) (particles T') (particles S') := by
  rw [show particles (T ++ T') = particles T ++ (particles T').map (a + ·) by
      unfold particles; rw [particlesFrom_append, particlesFrom_shift (0 + T.length), hT, zero_add],
    show particles (S ++ S') = particles S ++ (particles S').map (a + ·) by
      unfold particles; rw [particlesFrom_append, particlesFrom_shift (0 + S.length), hS, zero_add],
    amp_append, amp_shift _ (colOf B), amp_block (colOf A)]
  · intro i hi j hj
    have := particlesFrom_range hi
    have := particlesFrom_range hj
    exact h.first i (by omega) j (by omega)
  · intro i hi j hj
    have := particlesFrom_range hi
    have := particlesFrom_range hj
    exact h.second i (by omega) j (by omega)
  · intro r hr x hx
    obtain ⟨j, hj, rfl⟩ := List.mem_map.mp hx
    have := particlesFrom_range hr
    have := particlesFrom_range hj
    exact h.up r (by omega) j (by omega)
  · intro r hr x hx
    obtain ⟨j, hj, rfl⟩ := List.mem_map.mp hr
    have := particlesFrom_range hx
    have := particlesFrom_range hj
    exact h.down j (by omega) x (by omega)

theorem SideBySide.permanent (h : SideBySide a b A B U) (S S' T T' : List ℕ) (hS : S.length = a) (hS' : S'.length = b)
    (hT : T.length = a) (hT' : T'.length = b) (h1 : S.sum = T.sum) (h2 : S'.sum = T'.sum) :
    scatteringPermanent U (S ++ S') (T ++ T') = scatteringPermanent A S T * scatteringPermanent B S' T' := by
  have := h.amp S S' T T' hS hS' hT hT'
  unfold Verif.amp at this
  rwa [lperm_scattering U _ _ (by simp [h1, h2]), lperm_scattering A _ _ h1, lperm_scattering B _ _ h2] at this

theorem SideBySide.permanent_zero (h : SideBySide a b A B U) (S S' T T' : List ℕ) (hS : S.length = a) (hS' : S'.length = b)
    (hT : T.length = a) (hT' : T'.length = b) (h1 : S.sum ≠ T.sum) (h2 : (S ++ S').sum = (T ++ T').sum) :
    scatteringPermanent U (S ++ S') (T ++ T') = 0 := by
  have := h.amp S S' T T' hS hS' hT hT'
  rw [amp_length (colOf A) _ _ (by
    rw [show (particles T).length = T.sum from particlesFrom_length 0 T,
      show (particles S).length = S.sum from particlesFrom_length 0 S]; omega), zero_mul] at this
  unfold Verif.amp at this
  rwa [lperm_scattering U _ _ h2] at this

theorem SideBySide.bosonProb (h : SideBySide a b A B U) (S S' T T' : List ℕ) (hS : S.length = a) (hS' : S'.length = b)
    (hT : T.length = a) (hT' : T'.length = b) :
    bosonProb0 U (S ++ S') (T ++ T') = bosonProb0 A S T * bosonProb0 B S' T' := by
  have key := h.amp S S' T T' hS hS' hT hT'
  have hl : ∀ L : List ℕ, (particles L).length = L.sum := fun L => particlesFrom_length 0 L
  unfold bosonProb0
  by_cases h1 : S.sum = T.sum
  · by_cases h2 : S'.sum = T'.sum
    · have h3 : (S ++ S').sum = (T ++ T').sum := by simp [h1, h2]
      rw [if_pos h1, if_pos h2, if_pos h3, bosonProb_eq_phi _ _ _ h1, bosonProb_eq_phi _ _ _ h2, bosonProb_eq_phi _ _ _ h3]
      unfold phi
      rw [key, map_mul, multFact_particles, multFact_particles, multFact_particles, factProd_append, factProd_append]
      push_cast
      ring
    · have h3 : ¬ (S ++ S').sum = (T ++ T').sum := by simp [h1, h2]
      rw [if_neg h2, if_neg h3, mul_zero]
  · rw [if_neg h1, zero_mul]
    by_cases h3 : (S ++ S').sum = (T ++ T').sum
    · rw [if_pos h3, bosonProb_eq_phi _ _ _ h3]
      unfold phi
      rw [key, amp_length (colOf A) _ _ (by rw [hl, hl]; omega)]
      simp
    · rw [if_neg h3]

theorem lowerStates_append (S S' : List ℕ) :
    lowerStates (S ++ S') = (lowerStates S).flatMap fun L => (lowerStates S').map fun L' => L ++ L' := by
  induction S with
  | nil => simp [lowerStates]
  | cons x S ih => simp [lowerStates, ih, List.flatMap_assoc, List.map_flatMap, List.flatMap_map, Function.comp_def]

theorem correlation_list (U : List (List ℂ)) (S R : List ℕ) :
    correlation U S R = ((lowerStates S).map fun l => ((List.zipWith Nat.choose S l).prod : ℝ) * bosonProb0 U l R).sum := by
  rw [correlation_states, ← List.sum_toFinset _ (lowerStates_nodup S), sum_filter]
  refine sum_congr rfl fun l _ => ?_
  unfold bosonProb0
  split_ifs <;> simp

theorem SideBySide.correlation (h : SideBySide a b A B U) (S S' T T' : List ℕ) (hS : S.length = a) (hS' : S'.length = b)
    (hT : T.length = a) (hT' : T'.length = b) :
    Verif.correlation U (S ++ S') (T ++ T') = Verif.correlation A S T * Verif.correlation B S' T' := by
  rw [correlation_list, correlation_list, correlation_list, lowerStates_append, List.map_flatMap, sum_flatMap',
    ← List.sum_map_mul_right]
  congr 1
  refine List.map_congr_left fun L hL => ?_
  rw [← List.sum_map_mul_left, List.map_map]
  congr 1
  refine List.map_congr_left fun L' hL' => ?_
  have l1 := ((mem_lowerStates _ _).mp hL).length_eq
  have l2 := ((mem_lowerStates _ _).mp hL').length_eq
  simp only [Function.comp]
  rw [h.bosonProb L L' T T' (l1.trans hS) (l2.trans hS') hT hT', List.zipWith_append l1.symm, List.prod_append]
  push_cast
  ring

end

end Verif
