import Verif.Proofs.Bobs

/-! Helper lemmas: one sample of the sampler for non-uniform losses. -/
namespace Verif

open Finset
open scoped ENNReal

theorem generateQft_eq (k m : ℕ) (h : k ≤ m) :
    generateQft k m = .ok (dftMatrix k m) ∧ dftMatrix k m ∈ Matrix.unitaryGroup (Fin m) ℂ := by
  obtain ⟨Q, h1, h2, h3, h4⟩ := C47_block k m h
  have : Q = dftMatrix k m := by
    ext i j
    rw [dftMatrix, Matrix.of_apply]
    by_cases hij : (i : ℕ) < k ∧ (j : ℕ) < k
    · rw [if_pos hij, h3 i j hij.1 hij.2, (C47_qft k).1]
    · rw [if_neg hij, h4 i j (by omega)]
  rw [← this]
  exact ⟨h1, h2⟩

theorem generatePhases_eq (k m : ℕ) (h : k ≤ m) (us : Fin k → ℝ) :
    generatePhases k m us = .ok (phaseMatrix k m us) ∧ phaseMatrix k m us ∈ Matrix.unitaryGroup (Fin m) ℂ := by
  obtain ⟨P, h1, h2, h3, h4, h5⟩ := C48_phases k m h us
  have : P = phaseMatrix k m us := by
    ext i j
    rw [phaseMatrix, Matrix.diagonal_apply]
    by_cases hij : i = j
    · subst hij
      rw [if_pos rfl]
      by_cases hi : (i : ℕ) < k
      · rw [dif_pos hi, (h5 i hi).1]
      · rw [dif_neg hi, h4 i (by omega)]
    · rw [if_neg hij, h3 i j hij]
  rw [← this]
  exact ⟨h1, h2⟩

theorem bobsMatrix_eq {m : ℕ} (o : BobsObj m) (A : Matrix (Fin m) (Fin m) ℂ) (hA : o.initial = some A) (hk : o.k ≤ m) :
    bobsMatrix o = (randVec o.k).bind fun us =>
      .done (.ok (A * phaseMatrix o.k m (fun i => us.getD i 0) * dftMatrix o.k m)) := by
  unfold bobsMatrix
  rw [(generateQft_eq o.k m hk).1]
  simp only [Prog.lift_def, Prog.bind_eq, Prog.done_ok_bind, (generatePhases_eq o.k m hk _).1, hA, Prog.pure_eq]

theorem bobsMatrix_wp {m : ℕ} (o : BobsObj m) (A : Matrix (Fin m) (Fin m) ℂ) (hA : o.initial = some A) (hk : o.k ≤ m)
    (f : Py (Matrix (Fin m) (Fin m) ℂ) → ℝ≥0∞) :
    (bobsMatrix o).wp f = expUniform o.k fun us => f (.ok (A * phaseMatrix o.k m us * dftMatrix o.k m)) := by
  rw [bobsMatrix_eq o A hA hk, Prog.wp_bind, randVec_wp]
  refine expUniform_congr _ _ _ fun us => ?_
  rw [Prog.post, Prog.wp]
  congr 5
  funext i
  simp

theorem bobsMatrix_all {m : ℕ} (o : BobsObj m) (A : Matrix (Fin m) (Fin m) ℂ) (hA : o.initial = some A) (hk : o.k ≤ m) :
    (bobsMatrix o).All (fun B => ∃ us, B = A * phaseMatrix o.k m us * dftMatrix o.k m) fun _ => False := by
  rw [bobsMatrix_eq o A hA hk]
  exact Prog.all_bind (randVec_all o.k) fun us _ => Prog.all_done_ok ⟨_, rfl⟩

/-- One sample of the lossy network sampler. -/
noncomputable def lossyOne {m : ℕ} (d : Svd m) (fuel : ℕ) (S : List ℕ) : Prog (List ℕ) :=
  (lossyNetSimulate (ryserSubPermanents fuel) d fuel S 1).bind fun res => .done (pyGetN res 0)

theorem lossyOne_all {m : ℕ} {M : Matrix (Fin m) (Fin m) ℂ} {d : Svd m} (h : IsSvd M d) (h1 : ∀ i, d.s i ≤ 1)
    (S : List ℕ) (hS : S.length = m) (hm : 0 < m) (fuel : ℕ) (hf : (S.map (· + 1)).prod ≤ fuel) (hf' : m < fuel) :
    (lossyOne d fuel S).All (fun T => T.length = m ∧ T.sum ≤ S.sum) fun _ => False := by
  refine Prog.all_bind (I := fun l => l.length = 1 ∧ ∀ T ∈ l, T.length = m ∧ T.sum ≤ S.sum) (fun r hr => ?_) ?_
  · exact .inl (C35_shape M d h h1 S hS hm fuel hf hf' 1 r hr)
  · rintro l ⟨h2, h3⟩
    obtain ⟨T, rfl⟩ := List.length_eq_one_iff.mp h2
    exact Prog.all_done_ok (h3 T (by simp))

open Classical in
theorem lossyOne_prob {m : ℕ} {M : Matrix (Fin m) (Fin m) ℂ} {d : Svd m} (h : IsSvd M d) (h1 : ∀ i, d.s i ≤ 1)
    {W : List (List ℂ)} {b : ℕ} (hW : IsDilation (rowsOf M) W m b)
    (S : List ℕ) (hS : S.length = m) (hm : 0 < m) (fuel : ℕ) (hf : (S.map (· + 1)).prod ≤ fuel) (hf' : m < fuel)
    (T : List ℕ) (hT : T.length = m) :
    (lossyOne d fuel S).prob (fun r => r = .ok T) = ENNReal.ofReal (lossyProb W b S T) := by
  have := C35_dilation M d h h1 W b hW S hS hm fuel hf hf' 1 0 (by decide) T hT
  rw [← this]
  unfold Prog.prob
  rw [lossyOne, Prog.wp_bind]
  refine Prog.wp_congr _ _ _ fun r hr => ?_
  obtain ⟨l, rfl, h2, -⟩ := C35_shape M d h h1 S hS hm fuel hf hf' 1 r hr
  obtain ⟨T', rfl⟩ := List.length_eq_one_iff.mp h2
  simp [Prog.post, Prog.wp, pyGetN]

/-- The random placement of the particles of the approximated modes. -/
noncomputable def bobsSymm {m : ℕ} (o : BobsObj m) : Prog (List ℕ) :=
  if o.k > 0 then do
    let i ← Prog.randBelow o.k
    (pySetN o.state i o.number : Py _)
  else pure o.state

theorem bobsSample_eq {m : ℕ} (svd : Matrix (Fin m) (Fin m) ℂ → Svd m) (fuel : ℕ) (o : BobsObj m) :
    bobsSample svd (ryserSubPermanents fuel) fuel o
      = (bobsSymm o).bind fun st => (bobsLossyInput o.losses o.weights st).bind fun lossy =>
          (bobsMatrix o).bind fun B => lossyOne (svd B) fuel lossy := rfl

/-- The states one of which is drawn. -/
def bobsStates {m : ℕ} (o : BobsObj m) : List (List ℕ) :=
  if o.k = 0 then [o.state] else (List.range o.k).map fun j => o.state.set j o.number

theorem bobsSymm_wp {m : ℕ} (o : BobsObj m) (hk : o.k ≤ o.state.length) (f : Py (List ℕ) → ℝ≥0∞) :
    (bobsSymm o).wp f = ((bobsStates o).map fun st => f (.ok st)).sum / (bobsStates o).length := by
  unfold bobsSymm bobsStates
  by_cases h : o.k = 0
  · rw [if_neg (by omega), if_pos h]
    simp [Prog.wp]
  · rw [if_pos (by omega), if_neg h]
    simp only [Prog.randBelow, Prog.bind_eq, Prog.bind, Prog.pure_eq, Prog.lift_def, Prog.wp, if_neg h, List.length_map,
      List.length_range, List.map_map]
    congr 1
    rw [← List.sum_toFinset _ List.nodup_range]
    have : (List.range o.k).toFinset = range o.k := by ext; simp
    rw [this]
    refine sum_congr rfl fun i hi => ?_
    rw [pySetN_ok (by have := mem_range.mp hi; omega)]
    rfl

theorem bobsSymm_all {m : ℕ} (o : BobsObj m) (hk : o.k ≤ o.state.length) :
    (bobsSymm o).All (fun st => st ∈ bobsStates o) fun _ => False := by
  unfold bobsSymm bobsStates
  by_cases h : o.k = 0
  · rw [if_neg (by omega), if_pos h]
    exact Prog.all_done_ok (by simp)
  · rw [if_pos (by omega), if_neg h]
    refine Prog.all_randint (fun h0 => absurd h0 h) fun i hi => ?_
    simp only [Prog.pure_eq, Prog.lift_def]
    rw [Prog.done_ok_bind, pySetN_ok (by omega)]
    exact Prog.all_done_ok (List.mem_map.mpr ⟨i, by simpa using hi, rfl⟩)

open Classical in
/-- The losses as they are applied: those numpy takes for zero are dropped. -/
noncomputable def appliedLosses (losses : ℝ) : ℝ := if |losses| ≤ 1e-8 then 0 else losses

theorem bobsLossyInput_wp {losses : ℝ} (h0 : 0 ≤ losses) (h1 : losses ≤ 1) (mx : ℕ) (s : List ℕ) (hs : ∀ x ∈ s, x ≤ mx)
    (f : Py (List ℕ) → ℝ≥0∞) :
    (bobsLossyInput losses (bobsWeights losses mx) s).wp f
      = expLoss (1 - appliedLosses losses) s fun L => f (.ok L) := by
  unfold bobsLossyInput appliedLosses IsCloseToZero
  split_ifs with h
  · rw [sub_zero, expLoss_one]; rfl
  · exact bobsLossyModes_wp h0 h1 mx s hs f

theorem modeLe_refl (s : List ℕ) : ModeLe s s := List.forall₂_same.mpr fun _ _ => le_rfl

theorem bobsLossyInput_all {losses : ℝ} (mx : ℕ) (s : List ℕ) (hs : ∀ x ∈ s, x ≤ mx) :
    (bobsLossyInput losses (bobsWeights losses mx) s).All (fun L => ModeLe L s) fun _ => False := by
  unfold bobsLossyInput
  split_ifs with h
  · exact Prog.all_done_ok (modeLe_refl s)
  · exact bobsLossyModes_all mx s hs

theorem ModeLe.le_of_mem {L s : List ℕ} (h : ModeLe L s) {mx : ℕ} (hs : ∀ x ∈ s, x ≤ mx) : ∀ x ∈ L, x ≤ mx := by
  induction h with
  | nil => simp
  | cons h _ ih =>
    intro x hx
    rcases List.mem_cons.mp hx with rfl | hx
    · exact h.trans (hs _ (by simp))
    · exact ih (fun y hy => hs y (by simp [hy])) x hx

theorem ModeLe.sum_le {L s : List ℕ} (h : ModeLe L s) : L.sum ≤ s.sum := by
  induction h with
  | nil => simp
  | cons h _ ih => simp only [List.sum_cons]; omega

theorem prod_le_pow (L : List ℕ) (mx : ℕ) (h : ∀ x ∈ L, x ≤ mx) : (L.map (· + 1)).prod ≤ (mx + 1) ^ L.length := by
  induction L with
  | nil => simp
  | cons a L ih =>
    rw [List.map_cons, List.prod_cons, List.length_cons, pow_succ, mul_comm]
    exact Nat.mul_le_mul (ih fun x hx => h x (by simp [hx])) (by have := h a (by simp); omega)

/-- An object with prepared attributes. -/
structure BobsReady {m : ℕ} (o : BobsObj m) (A : Matrix (Fin m) (Fin m) ℂ) (mx : ℕ) : Prop where
  pos : 0 < m
  kle : o.k ≤ m
  initial : o.initial = some A
  contraction : ∃ d, IsSvd A d ∧ ∀ i, d.s i ≤ 1
  weights : o.weights = bobsWeights o.losses mx
  len : o.state.length = m
  state_le : ∀ x ∈ o.state, x ≤ mx
  number_le : o.number ≤ mx
  loss0 : 0 ≤ o.losses
  loss1 : o.losses ≤ 1

theorem mem_set_le (l : List ℕ) (j v mx : ℕ) (h : ∀ x ∈ l, x ≤ mx) (hv : v ≤ mx) : ∀ x ∈ l.set j v, x ≤ mx := by
  intro x hx
  rcases List.mem_or_eq_of_mem_set hx with h1 | h1
  · exact h x h1
  · exact h1 ▸ hv

section

variable {m : ℕ} {o : BobsObj m} {A : Matrix (Fin m) (Fin m) ℂ} {mx : ℕ}

theorem BobsReady.states (h : BobsReady o A mx) {st : List ℕ} (hst : st ∈ bobsStates o) :
    st.length = m ∧ ∀ x ∈ st, x ≤ mx := by
  unfold bobsStates at hst
  split_ifs at hst with h0
  · rw [List.mem_singleton] at hst
    subst hst
    exact ⟨h.len, h.state_le⟩
  · obtain ⟨j, -, rfl⟩ := List.mem_map.mp hst
    exact ⟨by rw [List.length_set, h.len], mem_set_le _ _ _ _ h.state_le h.number_le⟩

theorem BobsReady.le_one (h : BobsReady o A mx) (us : Fin o.k → ℝ) (d : Svd m)
    (hd : IsSvd (A * phaseMatrix o.k m us * dftMatrix o.k m) d) (i : Fin m) : d.s i ≤ 1 := by
  obtain ⟨d', h1, h2⟩ := h.contraction
  exact network_le_one h1 h2 (generatePhases_eq _ _ h.kle us).2 (generateQft_eq _ _ h.kle).2 d hd i

theorem bobsSample_all (h : BobsReady o A mx) (svd : Matrix (Fin m) (Fin m) ℂ → Svd m) (hsvd : ∀ B, IsSvd B (svd B))
    (fuel : ℕ) (hf : (mx + 1) ^ m ≤ fuel) (hf' : m < fuel) :
    (bobsSample svd (ryserSubPermanents fuel) fuel o).All
      (fun T => T.length = m ∧ ∃ st ∈ bobsStates o, T.sum ≤ st.sum) fun _ => False := by
  rw [bobsSample_eq]
  refine Prog.all_bind (bobsSymm_all o (by rw [h.len]; exact h.kle)) fun st hst => ?_
  obtain ⟨h1, h2⟩ := h.states hst
  rw [h.weights]
  refine Prog.all_bind (bobsLossyInput_all mx st h2) fun L hL => ?_
  refine Prog.all_bind (bobsMatrix_all o A h.initial h.kle) fun B hB => ?_
  obtain ⟨us, rfl⟩ := hB
  have hlen : L.length = m := by rw [hL.length_eq, h1]
  refine Prog.all_mono (lossyOne_all (hsvd _) (h.le_one us _ (hsvd _)) L hlen h.pos fuel ?_ hf') ?_ fun _ h => h
  · refine (prod_le_pow L mx (hL.le_of_mem h2)).trans ?_
    rw [hlen]; exact hf
  · rintro T ⟨h3, h4⟩
    exact ⟨h3, st, hst, h4.trans hL.sum_le⟩

open Classical in
theorem bobsSample_prob (h : BobsReady o A mx) (svd : Matrix (Fin m) (Fin m) ℂ → Svd m) (hsvd : ∀ B, IsSvd B (svd B))
    (fuel : ℕ) (hf : (mx + 1) ^ m ≤ fuel) (hf' : m < fuel) (W : (Fin o.k → ℝ) → List (List ℂ)) (b : ℕ)
    (hW : ∀ us, IsDilation (rowsOf (A * phaseMatrix o.k m us * dftMatrix o.k m)) (W us) m b) (T : List ℕ)
    (hT : T.length = m) :
    (bobsSample svd (ryserSubPermanents fuel) fuel o).prob (fun r => r = .ok T)
      = ((bobsStates o).map fun st => expLoss (1 - appliedLosses o.losses) st fun L =>
          expUniform o.k fun us => ENNReal.ofReal (lossyProb (W us) b L T)).sum / (bobsStates o).length := by
  unfold Prog.prob
  rw [bobsSample_eq, Prog.wp_bind, bobsSymm_wp o (by rw [h.len]; exact h.kle)]
  congr 2
  refine List.map_congr_left fun st hst => ?_
  obtain ⟨h1, h2⟩ := h.states hst
  rw [Prog.post, Prog.wp_bind, h.weights, bobsLossyInput_wp h.loss0 h.loss1 mx st h2]
  refine expLoss_congr _ _ _ _ fun L hL => ?_
  rw [Prog.post, Prog.wp_bind, bobsMatrix_wp o A h.initial h.kle]
  refine expUniform_congr _ _ _ fun us => ?_
  have hlen : L.length = m := by rw [hL.length_eq, h1]
  rw [Prog.post]
  refine lossyOne_prob (hsvd _) (h.le_one us _ (hsvd _)) (hW us) L hlen h.pos fuel ?_ hf' T hT
  refine (prod_le_pow L mx (hL.le_of_mem h2)).trans ?_
  rw [hlen]; exact hf

end

end Verif
