import Verif.Proofs.BlockLaws
import Verif.Props.LossyNetworks

/-! Helper lemmas: two lossy networks side by side. -/
namespace Verif

open Finset
open scoped ENNReal

theorem expIid_fibers {𝒯 𝒯' : Finset (List ℕ)} {p p' : List ℕ → ℝ≥0∞} (φ : List ℕ → List ℕ) (h : ∀ T ∈ 𝒯, φ T ∈ 𝒯')
    (hp : ∀ T' ∈ 𝒯', p' T' = ∑ T ∈ 𝒯 with φ T = T', p T) (n : ℕ) (g : List (List ℕ) → ℝ≥0∞) :
    expIid 𝒯 p n (fun l => g (l.map φ)) = expIid 𝒯' p' n g := by
  induction n generalizing g with
  | zero => rfl
  | succ n ih =>
    rw [expIid, expIid, ← sum_fiberwise_of_maps_to h]
    refine sum_congr rfl fun T' hT' => ?_
    rw [hp T' hT', sum_mul]
    refine sum_congr rfl fun T hT => ?_
    have e : φ T = T' := (mem_filter.mp hT).2
    rw [← ih]
    simp only [List.map_cons, e]

/-- The joint law of the samples of a lossy network. -/
theorem lossyNet_samples {m : ℕ} (M : Matrix (Fin m) (Fin m) ℂ) (d : Svd m) (h : IsSvd M d) (h1 : ∀ i, d.s i ≤ 1)
    (S : List ℕ) (hS : S.length = m) (hm : 0 < m) (fuel : ℕ) (hf : (S.map (· + 1)).prod ≤ fuel) (hf' : m < fuel) (N : ℕ) :
    SamplesFrom (lossyNetSimulate (ryserSubPermanents fuel) d fuel S N) (statesUpTo S.length S.sum)
      (lossyProb (rowsOf (expandedMatrix d)) m S) N := by
  intro f
  rw [lossyNet_wp M d h h1 S hS hm fuel hf hf']
  refine expIid_fibers (fun T => T.take m) ?_ ?_ N fun l => f (.ok l)
  · intro T hT
    rw [mem_statesFin] at hT
    rw [mem_statesUpTo]
    have := congrArg List.sum (List.take_append_drop m T)
    rw [List.sum_append] at this
    refine ⟨by simp [hT, hS], by omega⟩
  · intro T hT
    rw [mem_statesUpTo, hS] at hT
    rw [sum_filter, lossyProb_eq_states _ _ _ _ hT.2, ENNReal.ofReal_sum_of_nonneg fun E _ => bosonProb_nonneg _ _ _]
    have := sum_take T hT.1 hT.2 (fun T => ENNReal.ofReal (bosonProb (rowsOf (expandedMatrix d)) (S ++ S.map fun _ => 0) T))
      (fun T' => if T'.take m = T then 1 else 0) fun _ => rfl
    simp only [mul_ite, mul_one, mul_zero] at this
    rw [this]
    refine sum_congr rfl fun E hE => ?_
    rw [mem_statesFin] at hE
    rw [show (S.map fun _ => 0) = List.replicate m 0 by rw [← hS]; simp, bosonProb_zeros _ _ _ _ (by rw [List.sum_append]; omega)]

theorem lossyProb_eq_upTo (W : List (List ℂ)) (b : ℕ) (S T : List ℕ) (K : ℕ) (hK : S.sum ≤ K) :
    lossyProb W b S T = ∑ E ∈ statesUpTo b K, bosonProb0 W S (T ++ E) := by
  by_cases hs : T.sum ≤ S.sum
  · rw [lossyProb_eq_states _ _ _ _ hs]
    have hsub : statesFin b (S.sum - T.sum) ⊆ statesUpTo b K := fun E hE => by
      rw [mem_statesFin] at hE
      rw [mem_statesUpTo]
      omega
    rw [← sum_subset hsub]
    · refine sum_congr rfl fun E hE => ?_
      rw [mem_statesFin] at hE
      rw [bosonProb0_of_eq (by rw [List.sum_append]; omega)]
    · intro E hE hE'
      rw [mem_statesUpTo] at hE
      rw [mem_statesFin] at hE'
      exact bosonProb0_of_ne (by rw [List.sum_append]; omega)
  · rw [lossyProb_eq_zero _ _ _ _ (by omega), sum_eq_zero]
    intro E _
    exact bosonProb0_of_ne (by rw [List.sum_append]; omega)

theorem amp_map (c c' : ℕ → ℕ → ℂ) (f g : ℕ → ℕ) (rs cs : List ℕ) (h : ∀ i ∈ rs, ∀ j ∈ cs, c (g j) (f i) = c' j i) :
    amp c (rs.map f) (cs.map g) = amp c' rs cs := by
  induction rs generalizing cs with
  | nil => cases cs <;> simp [amp, lperm]
  | cons r rs ih =>
    rw [List.map_cons, amp_cons, amp_cons, picks_map, List.map_map]
    congr 1
    refine List.map_congr_left fun p hp => ?_
    simp only [Function.comp]
    rw [h r (by simp) p.1 (mem_of_picks hp).1, ih p.2 fun i hi j hj => h i (by simp [hi]) j ((mem_of_picks hp).2 j hj)]

section
variable {a b x y : ℕ} {A B U V W : List (List ℂ)}

/-- The rows of the first network in the common one: the environment comes after the modes of both. -/
def firstRow (a b i : ℕ) : ℕ := if i < a then i else b + i

/-- The rows of the second network in the common one. -/
def secondRow (a b x i : ℕ) : ℕ := if i < b then a + i else a + x + i

/-- The common dilation of two networks with the dilations `V` and `W` and `x` and `y` environment modes. -/
noncomputable def jointDilation (a b x y : ℕ) (V W : List (List ℂ)) : List (List ℂ) :=
  rowsOf (Matrix.of fun (i : Fin (a + b + (x + y))) (j : Fin (a + b)) =>
    if (j : ℕ) < a then
      if (i : ℕ) < a then mget V i j else if (i : ℕ) < a + b then 0
      else if (i : ℕ) < a + b + x then mget V (i - b) j else 0
    else
      if (i : ℕ) < a then 0 else if (i : ℕ) < a + b then mget W (i - a) (j - a)
      else if (i : ℕ) < a + b + x then 0 else mget W (i - (a + x)) (j - a))

theorem joint_ff (V W : List (List ℂ)) (i j : ℕ) (hi : i < a + x) (hj : j < a) :
    mget (jointDilation a b x y V W) (firstRow a b i) j = mget V i j := by
  unfold jointDilation firstRow
  split_ifs with h
  · rw [mget_rowsOf _ _ _ (by omega) (by omega)]
    simp [h, hj]
  · rw [mget_rowsOf _ _ _ (by omega) (by omega)]
    simp [hj, show ¬ b + i < a by omega, show ¬ b + i < a + b by omega, show b + i < a + b + x by omega]

theorem joint_ss (V W : List (List ℂ)) (i j : ℕ) (hi : i < b + y) (hj : j < b) :
    mget (jointDilation a b x y V W) (secondRow a b x i) (a + j) = mget W i j := by
  unfold jointDilation secondRow
  split_ifs with h
  · rw [mget_rowsOf _ _ _ (by omega) (by omega)]
    simp [h]
  · rw [mget_rowsOf _ _ _ (by omega) (by omega)]
    simp [show ¬ a + x + i < a by omega, show ¬ a + x + i < a + b by omega, show ¬ a + x + i < a + b + x by omega]

theorem joint_fs (V W : List (List ℂ)) (i j : ℕ) (hi : i < a + x) (hj : j < b) :
    mget (jointDilation a b x y V W) (firstRow a b i) (a + j) = 0 := by
  unfold jointDilation firstRow
  split_ifs with h
  · rw [mget_rowsOf _ _ _ (by omega) (by omega)]
    simp [h]
  · rw [mget_rowsOf _ _ _ (by omega) (by omega)]
    simp [show ¬ b + i < a by omega, show ¬ b + i < a + b by omega, show b + i < a + b + x by omega]

theorem joint_sf (V W : List (List ℂ)) (i j : ℕ) (hi : i < b + y) (hj : j < a) :
    mget (jointDilation a b x y V W) (secondRow a b x i) j = 0 := by
  unfold jointDilation secondRow
  split_ifs with h
  · rw [mget_rowsOf _ _ _ (by omega) (by omega)]
    simp [h, hj]
  · rw [mget_rowsOf _ _ _ (by omega) (by omega)]
    simp [hj, show ¬ a + x + i < a by omega, show ¬ a + x + i < a + b by omega, show ¬ a + x + i < a + b + x by omega]

theorem sum_rows (F : ℕ → ℂ) : ∑ r ∈ range (a + b + (x + y)), F r
    = ∑ r ∈ range (a + x), F (firstRow a b r) + ∑ r ∈ range (b + y), F (secondRow a b x r) := by
  rw [sum_range_add F, sum_range_add F, sum_range_add (fun k => F (a + b + k)), sum_range_add (fun r => F (firstRow a b r)),
    sum_range_add (fun r => F (secondRow a b x r))]
  have e1 : ∑ r ∈ range a, F (firstRow a b r) = ∑ r ∈ range a, F r :=
    sum_congr rfl fun r hr => by rw [firstRow, if_pos (mem_range.mp hr)]
  have e2 : ∑ r ∈ range x, F (firstRow a b (a + r)) = ∑ r ∈ range x, F (a + b + r) :=
    sum_congr rfl fun r hr => by rw [firstRow, if_neg (by omega)]; congr 1; omega
  have e3 : ∑ r ∈ range b, F (secondRow a b x r) = ∑ r ∈ range b, F (a + r) :=
    sum_congr rfl fun r hr => by rw [secondRow, if_pos (mem_range.mp hr)]
  have e4 : ∑ r ∈ range y, F (secondRow a b x (b + r)) = ∑ r ∈ range y, F (a + b + (x + r)) :=
    sum_congr rfl fun r hr => by rw [secondRow, if_neg (by omega)]; congr 1; omega
  rw [e1, e2, e3, e4]
  ring

theorem SideBySide.dilation (h : SideBySide a b A B U) (hV : IsDilation A V a x) (hW : IsDilation B W b y) :
    IsDilation U (jointDilation a b x y V W) (a + b) (x + y) := by
  constructor
  · intro i hi j hj
    by_cases hia : i < a
    · have ei : i = firstRow a b i := by rw [firstRow, if_pos hia]
      by_cases hja : j < a
      · rw [ei, joint_ff V W i j (by omega) hja, ← ei, hV.embeds i hia j hja, h.first i hia j hja]
      · obtain ⟨j, rfl⟩ : ∃ z, j = a + z := ⟨j - a, by omega⟩
        rw [ei, joint_fs V W i j (by omega) (by omega), ← ei, h.up i hia j (by omega)]
    · obtain ⟨i, rfl⟩ : ∃ z, i = a + z := ⟨i - a, by omega⟩
      have ei : a + i = secondRow a b x i := by rw [secondRow, if_pos (by omega)]
      by_cases hja : j < a
      · rw [ei, joint_sf V W i j (by omega) hja, ← ei, h.down i (by omega) j hja]
      · obtain ⟨j, rfl⟩ : ∃ z, j = a + z := ⟨j - a, by omega⟩
        rw [ei, joint_ss V W i j (by omega) (by omega), ← ei, hW.embeds i (by omega) j (by omega),
          h.second i (by omega) j (by omega)]
  · intro u hu v hv
    rw [sum_rows (fun r => (starRingEnd ℂ) (mget (jointDilation a b x y V W) r u) * mget (jointDilation a b x y V W) r v)]
    by_cases hua : u < a <;> by_cases hva : v < a
    · rw [← hV.isometric u hua v hva, sum_eq_zero (s := range (b + y)) fun r hr => by
        rw [joint_sf V W r u (mem_range.mp hr) hua, map_zero, zero_mul], add_zero]
      exact sum_congr rfl fun r hr => by rw [joint_ff V W r u (mem_range.mp hr) hua, joint_ff V W r v (mem_range.mp hr) hva]
    · obtain ⟨v, rfl⟩ : ∃ z, v = a + z := ⟨v - a, by omega⟩
      rw [if_neg (by omega), sum_eq_zero fun r hr => by
        rw [joint_fs V W r v (mem_range.mp hr) (by omega), mul_zero], sum_eq_zero fun r hr => by
        rw [joint_sf V W r u (mem_range.mp hr) hua, map_zero, zero_mul], add_zero]
    · obtain ⟨u, rfl⟩ : ∃ z, u = a + z := ⟨u - a, by omega⟩
      rw [if_neg (by omega), sum_eq_zero fun r hr => by
        rw [joint_fs V W r u (mem_range.mp hr) (by omega), map_zero, zero_mul], sum_eq_zero fun r hr => by
        rw [joint_sf V W r v (mem_range.mp hr) hva, mul_zero], add_zero]
    · obtain ⟨u, rfl⟩ : ∃ z, u = a + z := ⟨u - a, by omega⟩
      obtain ⟨v, rfl⟩ : ∃ z, v = a + z := ⟨v - a, by omega⟩
      rw [show (if a + u = a + v then (1 : ℂ) else 0) = if u = v then 1 else 0 by simp,
        ← hW.isometric u (by omega) v (by omega),
        sum_eq_zero (s := range (a + x)) fun r hr => by rw [joint_fs V W r v (mem_range.mp hr) (by omega), mul_zero], zero_add]
      exact sum_congr rfl fun r hr => by
        rw [joint_ss V W r u (mem_range.mp hr) (by omega), joint_ss V W r v (mem_range.mp hr) (by omega)]

theorem joint_boson (V W : List (List ℂ)) (S S' T T' E E' : List ℕ) (hS : S.length = a) (hS' : S'.length = b)
    (hT : T.length = a) (hT' : T'.length = b) (hE : E.length = x) (hE' : E'.length = y) :
    bosonProb0 (jointDilation a b x y V W) (S ++ S') (T ++ T' ++ (E ++ E'))
      = bosonProb0 V S (T ++ E) * bosonProb0 W S' (T' ++ E') := by
  have pa : ∀ X Y : List ℕ, particles (X ++ Y) = particles X ++ (particles Y).map (X.length + ·) := fun X Y => by
    unfold particles; rw [particlesFrom_append, particlesFrom_shift (0 + X.length), zero_add]
  have pT : (particles (T ++ T' ++ (E ++ E'))).Perm
      ((particles (T ++ E)).map (firstRow a b) ++ (particles (T' ++ E')).map (secondRow a b x)) := by
    have e1 : (particles T).map (firstRow a b) = particles T := by
      conv_rhs => rw [← List.map_id (particles T)]
      refine List.map_congr_left fun i hi => ?_
      have := particlesFrom_range hi
      rw [firstRow, if_pos (by omega)]
      rfl
    have e3 : (particles T').map (secondRow a b x) = (particles T').map (a + ·) := by
      refine List.map_congr_left fun i hi => ?_
      have := particlesFrom_range hi
      rw [secondRow, if_pos (by omega)]
    have e2 : ((particles E).map (a + ·)).map (firstRow a b) = (particles E).map (a + b + ·) := by
      rw [List.map_map]
      refine List.map_congr_left fun i hi => ?_
      simp only [Function.comp]
      rw [firstRow, if_neg (by omega)]
      omega
    have e4 : ((particles E').map (b + ·)).map (secondRow a b x) = ((particles E').map (x + ·)).map (a + b + ·) := by
      rw [List.map_map, List.map_map]
      refine List.map_congr_left fun i hi => ?_
      simp only [Function.comp]
      rw [secondRow, if_neg (by omega)]
      omega
    rw [pa (T ++ T'), pa T T', pa E E', pa T E, pa T' E', List.map_append, List.map_append, List.map_append,
      List.length_append, hT, hT', hE, e1, e2, e3, e4, List.append_assoc, List.append_assoc]
    refine List.Perm.append_left _ ?_
    rw [← List.append_assoc, ← List.append_assoc]
    exact List.Perm.append_right _ List.perm_append_comm
  have key : amp (colOf (jointDilation a b x y V W)) (particles (T ++ T' ++ (E ++ E'))) (particles (S ++ S'))
      = amp (colOf V) (particles (T ++ E)) (particles S) * amp (colOf W) (particles (T' ++ E')) (particles S') := by
    rw [amp_perm_rows _ _ pT, pa S S', hS, amp_append]
    · congr 1
      · have := amp_map (colOf (jointDilation a b x y V W)) (colOf V) (firstRow a b) id (particles (T ++ E)) (particles S)
          fun i hi j hj => by
            have := particlesFrom_range hi
            have := particlesFrom_range hj
            simp only [List.length_append] at *
            exact joint_ff V W i j (by omega) (by omega)
        rwa [List.map_id] at this
      · refine amp_map _ _ _ _ _ _ fun i hi j hj => ?_
        have := particlesFrom_range hi
        have := particlesFrom_range hj
        simp only [List.length_append] at *
        exact joint_ss V W i j (by omega) (by omega)
    · intro r hr z hz
      obtain ⟨i, hi, rfl⟩ := List.mem_map.mp hr
      obtain ⟨j, hj, rfl⟩ := List.mem_map.mp hz
      have := particlesFrom_range hi
      have := particlesFrom_range hj
      simp only [List.length_append] at *
      exact joint_fs V W i j (by omega) (by omega)
    · intro r hr j hj
      obtain ⟨i, hi, rfl⟩ := List.mem_map.mp hr
      have := particlesFrom_range hi
      have := particlesFrom_range hj
      simp only [List.length_append] at *
      exact joint_sf V W i j (by omega) (by omega)
  have hl : ∀ L : List ℕ, (particles L).length = L.sum := fun L => particlesFrom_length 0 L
  have fp : factProd (T ++ T' ++ (E ++ E')) = factProd (T ++ E) * factProd (T' ++ E') := by
    simp only [factProd_append]; ring
  have sp : (T ++ T' ++ (E ++ E')).sum = (T ++ E).sum + (T' ++ E').sum := by
    simp only [List.sum_append]; ring
  have ss : (S ++ S').sum = S.sum + S'.sum := List.sum_append
  unfold bosonProb0
  by_cases h1 : S.sum = (T ++ E).sum
  · by_cases h2 : S'.sum = (T' ++ E').sum
    · have h3 : (S ++ S').sum = (T ++ T' ++ (E ++ E')).sum := by omega
      rw [if_pos h1, if_pos h2, if_pos h3, bosonProb_eq_phi _ _ _ h1, bosonProb_eq_phi _ _ _ h2, bosonProb_eq_phi _ _ _ h3]
      unfold phi
      rw [key, map_mul, multFact_particles, multFact_particles, multFact_particles, factProd_append, fp]
      push_cast
      ring
    · rw [if_neg h2, if_neg (by omega), mul_zero]
  · rw [if_neg h1, zero_mul]
    by_cases h3 : (S ++ S').sum = (T ++ T' ++ (E ++ E')).sum
    · rw [if_pos h3, bosonProb_eq_phi _ _ _ h3]
      unfold phi
      rw [key, amp_length (colOf V) _ _ (by rw [hl, hl]; omega)]
      simp
    · rw [if_neg h3]

/-- Lossy networks side by side. -/
theorem SideBySide.lossy (h : SideBySide a b A B U) (hV : IsDilation A V a x) (hW : IsDilation B W b y) {R : List (List ℂ)}
    {z : ℕ} (hR : IsDilation U R (a + b) z) (S S' T T' : List ℕ) (hS : S.length = a) (hS' : S'.length = b)
    (hT : T.length = a) (hT' : T'.length = b) :
    lossyProb R z (S ++ S') (T ++ T') = lossyProb V x S T * lossyProb W y S' T' := by
  have hj := h.dilation hV hW
  have main : lossyProb (jointDilation a b x y V W) (x + y) (S ++ S') (T ++ T') = lossyProb V x S T * lossyProb W y S' T' := by
    rw [lossyProb_eq_upTo _ _ _ _ _ le_rfl, lossyProb_eq_upTo V x S T _ le_rfl, lossyProb_eq_upTo W y S' T' _ le_rfl,
      sum_mul_sum, sum_append_states (𝒯₁ := statesUpTo x S.sum) (𝒯₂ := statesUpTo y S'.sum) (a := x)]
    · refine sum_congr rfl fun E hE => sum_congr rfl fun E' hE' => ?_
      rw [mem_statesUpTo] at hE hE'
      exact joint_boson V W S S' T T' E E' hS hS' hT hT' hE.1 hE'.1
    · exact fun E hE => ((mem_statesUpTo _ _ _).mp hE).1
    · intro E hE E' hE'
      rw [mem_statesUpTo] at *
      simp only [List.length_append, List.sum_append]
      omega
    · intro E hE hne
      rw [mem_statesUpTo] at hE
      have l1 : (E.take x).length = x := by simp; omega
      have l2 : (E.drop x).length = y := by simp; omega
      have := joint_boson V W S S' T T' (E.take x) (E.drop x) hS hS' hT hT' l1 l2
      rw [List.take_append_drop] at this
      rw [this]
      by_cases e1 : S.sum = (T ++ E.take x).sum
      · by_cases e2 : S'.sum = (T' ++ E.drop x).sum
        · rw [List.sum_append] at e1 e2
          exact absurd (List.take_append_drop x E).symm (hne _ ((mem_statesUpTo _ _ _).mpr ⟨l1, by omega⟩) _
            ((mem_statesUpTo _ _ _).mpr ⟨l2, by omega⟩))
        · rw [bosonProb0_of_ne e2, mul_zero]
      · rw [bosonProb0_of_ne e1, zero_mul]
  by_cases hs : (T ++ T').sum ≤ (S ++ S').sum
  · rw [← main]
    exact lossyProb_indep hR hj _ _ (fun u hu => by
      have := particlesFrom_range hu
      simp only [List.length_append] at this
      omega) (by simp [hT, hT']) hs
  · rw [lossyProb_eq_zero _ _ _ _ (by omega), ← main, lossyProb_eq_zero _ _ _ _ (by omega)]

theorem lossyProb_nonneg (W : List (List ℂ)) (b : ℕ) (S T : List ℕ) : 0 ≤ lossyProb W b S T :=
  sum_nonneg fun _ _ => bosonProb_nonneg _ _ _

end

end Verif
