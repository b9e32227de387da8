import Verif.Model.RoundedBobs
import Verif.Spec.RoundedBobs
import Verif.Proofs.RoundedUniformBobsRuns
import Verif.Props.RoundedLosses
import Verif.Props.NetworkStatistics

/-! Helper lemmas: the sampler for non-uniform losses in floating-point arithmetic. -/
namespace Verif

open Finset Prog Matrix
open scoped ENNReal

variable (R : Rounding) (C : ComplexArith) (Φ : PhaseArith) {m : ℕ}

/-! ### Networks that lose particles -/

theorem contraction_entry {B : Matrix (Fin m) (Fin m) ℂ} {d : Svd m} (h : IsSvd B d) (h1 : ∀ i, d.s i ≤ 1) (i j : Fin m) :
    ‖B i j‖ ≤ 1 := by
  have := expanded_entries h h1 i j
  rw [(expanded_isDilation h h1).embeds i i.2 j j.2, mget_rowsOf _ _ _ i.2 j.2] at this
  exact this

/-- The sampler of version B with the columns of a dilation. -/
noncomputable def dilationSimulate (W : Matrix (Fin (m + m)) (Fin (m + m)) ℂ) (fuel : ℕ) (S : List ℕ) (N : ℤ) :
    Prog (List (List ℕ)) :=
  (gccbSimulate (ryserSubPermanents fuel) (rowsOf W) fuel (S ++ S.map fun _ => 0) N).bind fun samples =>
    .done (samples.mapM fun out => trimTo fuel S.length out)

section

variable {B : Matrix (Fin m) (Fin m) ℂ} {W : Matrix (Fin (m + m)) (Fin (m + m)) ℂ} (hW : IsDilation (rowsOf B) (rowsOf W) m m)
  {S : List ℕ} (hS : S.length = m) (hm : 0 < m) (fuel : ℕ) (hf : (S.map (· + 1)).prod ≤ fuel)
include hW hS hm hf

theorem dilation_bok : BOk (ryserSubPermanents fuel) (rowsOf W) (S ++ S.map fun _ => 0) (m + m) := by
  have hlen : (S ++ S.map fun _ => 0).length = m + m := by rw [expanded_len, hS]
  have hrows : ∀ r ∈ rowsOf W, r.length = m + m := by
    intro r hr
    obtain ⟨i, rfl⟩ := List.mem_ofFn.mp hr
    simp
  have hl : (rowsOf W).length = m + m := by simp [rowsOf]
  refine ⟨ryser_subPermOn _ _ (m + m) hrows (by omega) (by omega) ?_ fuel (by rw [expanded_prod]; exact hf), hrows,
    by omega, by omega, ?_⟩
  · intro h0; rw [h0] at hlen; simp at hlen; omega
  · rw [hlen]
    refine ⟨m, orthoCols_of _ hW.isometric, ?_⟩
    intro x hx
    by_contra hlt
    have hc : 0 < (particles (S ++ S.map fun _ => 0)).count x := List.count_pos_iff.mpr hx
    rw [count_particles, List.getD_eq_getElem?_getD, List.getElem?_append_right (by omega), List.getElem?_map] at hc
    cases hq : S[x - S.length]? <;> rw [hq] at hc <;> simp at hc

theorem dilation_samples (hf' : m < fuel) (N : ℕ) :
    SamplesFrom (dilationSimulate W fuel S N) (statesUpTo S.length S.sum) (lossyProb (rowsOf W) m S) N := by
  intro f
  have hB := dilation_bok hW hS hm fuel hf
  have e : (dilationSimulate W fuel S N).wp f
      = expIid (statesFin (m + m) S.sum) (fun T => ENNReal.ofReal
          (bosonProb (rowsOf W) (S ++ S.map fun _ => 0) T)) N
        fun l' => f (.ok (l'.map fun T => T.take m)) := by
    unfold dilationSimulate
    rw [Prog.wp_bind, gccbSimulate_eq, gccbLoop_wp hB fuel (by
      rw [expanded_sum]; exact lt_of_lt_of_le (sum_lt_prod_succ S) hf), expanded_sum, expanded_len, hS]
    refine expIid_congr _ _ _ fun l' hl' hl'' => ?_
    simp only [Prog.post]
    rw [mapM_trim fuel m hf' l' fun T hT => ((mem_statesFin _ _ T).mp (hl'' T hT)).1]
    rfl
  rw [e]
  refine expIid_fibers (fun T => T.take m) ?_ ?_ N fun l => f (.ok l)
  · intro T hT
    rw [mem_statesFin] at hT
    rw [mem_statesUpTo]
    have := congrArg List.sum (List.take_append_drop m T)
    rw [List.sum_append] at this
    refine ⟨by simp [hT, hS], by omega⟩
  · intro T hT
    rw [mem_statesUpTo, hS] at hT
    rw [sum_filter, lossyProb_eq_states _ _ _ _ hT.2, ENNReal.ofReal_sum_of_nonneg fun E _ => bosonProb_nonneg _ _ _]
    have := sum_take T hT.1 hT.2 (fun T => ENNReal.ofReal (bosonProb (rowsOf W) (S ++ S.map fun _ => 0) T))
      (fun T' => if T'.take m = T then 1 else 0) fun _ => rfl
    simp only [mul_ite, mul_one, mul_zero] at this
    rw [this]
    refine sum_congr rfl fun E hE => ?_
    rw [mem_statesFin] at hE
    rw [show (S.map fun _ => 0) = List.replicate m 0 by rw [← hS]; simp, bosonProb_zeros _ _ _ _ (by rw [List.sum_append]; omega)]

/-- The sampler for lossy networks and version B with any dilation of the network. -/
theorem dilation_wp {d : Svd m} (h : IsSvd B d) (h1 : ∀ i, d.s i ≤ 1) (hf' : m < fuel) (N : ℕ)
    (f : Py (List (List ℕ)) → ℝ≥0∞) :
    (dilationSimulate W fuel S N).wp f = (lossyNetSimulate (ryserSubPermanents fuel) d fuel S N).wp f := by
  rw [dilation_samples hW hS hm fuel hf hf' N f, (lossyNet_law h h1 hW hS hm fuel hf hf' N).1 f]

theorem lossyNetF_closeN {e n K : ℕ} {W' : Matrix (Fin (m + m)) (Fin (m + m)) ℂ} {d : Svd m} (h : IsSvd B d)
    (h1 : ∀ i, d.s i ≤ 1) (hc : ∀ i j, Close e 1 (W' i j) (W i j)) (hm' : m + m ≤ 2 ^ 20) (hn : S.sum ≤ n) (hn' : n ≤ 1000)
    (hK : boxSize S ≤ K) (hf' : m < fuel) (N : ℕ) :
    CloseF (lossyNetSimulateF R C (ryserSubPermanentsR R C fuel) (rowsOf W') fuel S N)
      (lossyNetSimulate (ryserSubPermanents fuel) d fuel S N)
      (ENNReal.ofReal (N * versionBBound (m + m) n (entryBound e n (m + m) K))) := by
  have hl : (S ++ S.map fun _ => 0).length = m + m := by rw [expanded_len, hS]
  have hb : boxSize (S ++ S.map fun _ => 0) = boxSize S := expanded_prod S
  have hrows : ∀ r ∈ rowsOf W', r.length = m + m := by
    intro r hr
    obtain ⟨i, rfl⟩ := List.mem_ofFn.mp hr
    simp
  have hclose : MatClose e (rowsOf W') (rowsOf W) := by
    intro i j
    by_cases hij : i < m + m ∧ j < m + m
    · rw [mget_rowsOf _ _ _ hij.1 hij.2, mget_rowsOf _ _ _ hij.1 hij.2]
      exact hc _ _
    · rw [mget_rowsOf_out _ _ _ hij, mget_rowsOf_out _ _ _ hij]
      exact (Close.exact (by simp)).mono (Nat.zero_le _)
  have he : EntriesNear R C (ryserSubPermanentsR R C fuel) (rowsOf W') (rowsOf W) (S ++ S.map fun _ => 0)
      (entryBound e S.sum (m + m) (boxSize S)) := by
    have := entriesNear_ryser R C hrows (by rw [hl]; simp [rowsOf]) hl.le (by rw [hl]; exact hm')
      (by rw [expanded_sum]; omega) hclose fuel (S := S ++ S.map fun _ => 0) (by
        change boxSize (S ++ S.map fun _ => 0) ≤ fuel; rw [hb]; exact hf)
    rwa [entryErr_eq, expanded_sum, hl, hb] at this
  have hc := gccbSimulateF_close R C (dilation_bok hW hS hm fuel hf) he (entryBound_nonneg ..) (by rw [hl]; exact hm') fuel
    (by rw [expanded_sum]; exact lt_of_lt_of_le (sum_lt_prod_succ S) hf) N
  rw [expanded_sum, hl, drawsErr_eq, Int.toNat_natCast] at hc
  have hc' := (hc.bind_left fun samples => Prog.done (samples.mapM fun out => trimTo fuel S.length out)).mono
    (ENNReal.ofReal_le_ofReal (mul_le_mul_of_nonneg_left
      (versionBBound_mono hn (entryBound_nonneg ..) (entryBound_mono (e := e) (m := m + m) hn hK)) (Nat.cast_nonneg N)))
  intro f hf1
  have e1 := dilation_wp hW hS hm fuel hf h h1 hf' N f
  have := hc' f hf1
  change _ ≤ (dilationSimulate W fuel S (N : ℕ)).wp f + _ ∧ (dilationSimulate W fuel S (N : ℕ)).wp f ≤ _ at this
  rw [e1] at this
  exact this

theorem lossyNetF_close {e n K : ℕ} {W' : Matrix (Fin (m + m)) (Fin (m + m)) ℂ} {d : Svd m} (h : IsSvd B d)
    (h1 : ∀ i, d.s i ≤ 1) (hc : ∀ i j, Close e 1 (W' i j) (W i j)) (hm' : m + m ≤ 2 ^ 20) (hn : S.sum ≤ n) (hn' : n ≤ 1000)
    (hK : boxSize S ≤ K) (hf' : m < fuel) :
    CloseF (lossyNetSimulateF R C (ryserSubPermanentsR R C fuel) (rowsOf W') fuel S 1)
      (lossyNetSimulate (ryserSubPermanents fuel) d fuel S 1)
      (ENNReal.ofReal (versionBBound (m + m) n (entryBound e n (m + m) K))) := by
  have := lossyNetF_closeN R C hW hS hm fuel hf h h1 hc hm' hn hn' hK hf' 1
  rwa [Nat.cast_one, Nat.cast_one, one_mul] at this

end

/-! ### The matrix of a sample -/

theorem bobsNet_entry {A : Matrix (Fin m) (Fin m) ℂ} {d : Svd m} (hA : IsSvd A d) (h1 : ∀ i, d.s i ≤ 1)
    {P Q : Matrix (Fin m) (Fin m) ℂ} (hP : P ∈ unitaryGroup (Fin m) ℂ) (hQ : Q ∈ unitaryGroup (Fin m) ℂ) (i j : Fin m) :
    ‖(A * P * Q) i j‖ ≤ 1 := by
  obtain ⟨d', hd'⟩ := svd_exists (A * P * Q)
  exact contraction_entry hd' (network_le_one hA h1 hP hQ d' hd') i j

theorem bobsMatrixF_close {α : Type} {e : ℕ} {o : BobsObj m} {A' A : Matrix (Fin m) (Fin m) ℂ} {d : Svd m} (hA : IsSvd A d)
    (h1 : ∀ i, d.s i ≤ 1) (hi : o.initial = some A') (hk : o.k ≤ m) (hm : m ≤ 2 ^ 20)
    (hA' : ∀ i j, ‖A' i j - A i j‖ ≤ (1 + 1 / 2 ^ 48) ^ e - 1)
    {F G : Matrix (Fin m) (Fin m) ℂ → Prog α} {ε : ℝ≥0∞}
    (h : ∀ (B' : Matrix (Fin m) (Fin m) ℂ) us,
      (∀ i j, Close (uBobsOps e o.k m) 1 (B' i j) ((A * phaseMatrix o.k m us * dftMatrix o.k m) i j)) →
      CloseF (F B') (G (A * phaseMatrix o.k m us * dftMatrix o.k m)) ε) :
    CloseF ((bobsMatrixF R C Φ o).bind F) ((bobsMatrix { o with initial := some A }).bind G) ε := by
  obtain ⟨Q, hQ, hQc⟩ := generateQftR_close R C Φ (m := m) hk (hk.trans hm)
  rw [bobsMatrix_eq { o with initial := some A } A rfl hk]
  unfold bobsMatrixF
  rw [hQ, hi]
  simp only [Prog.bind_eq, Prog.lift_def, Prog.pure_eq, Prog.bind_assoc, Prog.done_ok_bind]
  refine randVec_close o.k fun us' us hl hus => ?_
  obtain ⟨v', v, rfl, rfl, hv⟩ := forall₂_ofFn hl hus
  have e1 : ∀ w : Fin o.k → ℝ, (fun i : Fin o.k => (List.ofFn w).getD i 0) = w := by
    intro w; funext i; simp
  rw [e1, e1]
  obtain ⟨P, hP, hPd, hP0⟩ := generatePhasesR_ok (m := m) Φ hk hv
  have hPu := (generatePhases_eq o.k m hk v).2
  have hQu := (generateQft_eq o.k m hk).2
  have hen : ∀ i j, ‖A i j‖ ≤ 1 := contraction_entry hA h1
  rw [hP, Prog.done_ok_bind]
  refine h _ v fun i j => ?_
  refine net_close C hm (fun i j => ⟨hen i j, by rw [mul_one]; exact hA' i j⟩) (fun i j => ?_)
    (bobsNet_entry hA h1 hPu hQu) hPd hP0 hQc i j
  have := bobsNet_entry hA h1 hPu (one_mem _) i j
  rwa [mul_one] at this

/-! ### One sample -/

/-- Error of a sample: `n` particles, `K` states below the input, `e` roundings of the expanded matrix. -/
noncomputable def bobsErrF (e m n K : ℕ) : ℝ :=
  (12 * n + 28 * m) / 2 ^ 53 + versionBBound (m + m) n (entryBound e n (m + m) K)

theorem bobsErrF_nonneg (e m n K : ℕ) : 0 ≤ bobsErrF e m n K :=
  add_nonneg (by positivity) (versionBBound_nonneg _ _ (entryBound_nonneg ..))

theorem boxSize_modeLe {L s : List ℕ} (h : ModeLe L s) : boxSize L ≤ boxSize s :=
  boxSize_le ((mem_lowerStates s L).mpr h)

theorem bobsSampleF_close {e e₁ : ℕ} {expand : Matrix (Fin m) (Fin m) ℂ → Matrix (Fin (m + m)) (Fin (m + m)) ℂ}
    {svd : Matrix (Fin m) (Fin m) ℂ → Svd m} (hsvd : ∀ B, IsSvd B (svd B)) (fuel : ℕ) {o : BobsObj m}
    {A' A : Matrix (Fin m) (Fin m) ℂ} {d : Svd m} (hA : IsSvd A d) (hd1 : ∀ i, d.s i ≤ 1) (hi : o.initial = some A')
    (hm0 : 0 < m) (hm : m + m ≤ 2 ^ 20) (hA' : ∀ i j, ‖A' i j - A i j‖ ≤ (1 + 1 / 2 ^ 48) ^ e - 1)
    (hex : ExpandsWithin expand A o.k (uBobsOps e o.k m) e₁)
    (h0 : 0 ≤ o.losses) (h1 : o.losses ≤ 1) (hf : IsFloat o.losses) {S : List ℕ} (hS : S.length = m) {mx : ℕ}
    (hmx : ∀ x ∈ S, x ≤ mx) (hmx' : o.number + (S.take o.k).sum ≤ mx) (hk : o.k ≤ m) (hn : o.number + S.sum ≤ 170)
    (hfu : (o.number + (S.take o.k).sum + 1) * boxSize (S.drop o.k) ≤ fuel) (hfu' : m < fuel) :
    CloseF (bobsSampleF R C Φ expand (ryserSubPermanentsR R C fuel) fuel { o with
        state := List.replicate o.k 0 ++ S.drop o.k, number := o.number + (S.take o.k).sum,
        weights := bobsTableR R o.losses mx })
      (bobsSample svd (ryserSubPermanents fuel) fuel { o with
        initial := some A
        state := List.replicate o.k 0 ++ S.drop o.k, number := o.number + (S.take o.k).sum,
        weights := bobsWeights o.losses mx })
      (ENNReal.ofReal (bobsErrF e₁ m (o.number + S.sum) ((o.number + (S.take o.k).sum + 1) * boxSize (S.drop o.k)))) := by
  set K := (o.number + (S.take o.k).sum + 1) * boxSize (S.drop o.k) with hKdef
  have hsplit : S.sum = (S.take o.k).sum + (S.drop o.k).sum := by
    conv_lhs => rw [← List.take_append_drop o.k S, List.sum_append]
  have key : ∀ st : List ℕ, (∀ x ∈ st, x ≤ mx) → st.sum ≤ o.number + S.sum → st.length = S.length →
      CloseF (bobsLossyInputR R o.losses (bobsTableR R o.losses mx) st) (bobsLossyInput o.losses (bobsWeights o.losses mx) st)
        (ENNReal.ofReal ((12 * (o.number + S.sum : ℕ) + 28 * m) / 2 ^ 53)) := by
    intro st hst hsum hlen
    refine (bobsLossyInputR_close R h0 h1 hf mx st hst fun x hx => (entry_le_sum hx).trans (hsum.trans hn)).mono
      (ENNReal.ofReal_le_ofReal ?_)
    unfold lossesErr
    rw [hlen, hS]
    have : (st.sum : ℝ) ≤ (o.number + S.sum : ℕ) := by exact_mod_cast hsum
    gcongr
  have hstate : ∀ x ∈ List.replicate o.k 0 ++ S.drop o.k, x ≤ mx := by
    intro x hx
    rcases List.mem_append.mp hx with hx | hx
    · rw [List.eq_of_mem_replicate hx]; omega
    · exact hmx x (List.mem_of_mem_drop hx)
  have main : ∀ st : List ℕ, (∀ x ∈ st, x ≤ mx) → st.sum ≤ o.number + S.sum → st.length = S.length → boxSize st ≤ K →
      CloseF ((bobsLossyInputR R o.losses (bobsTableR R o.losses mx) st).bind fun lossy =>
          (bobsMatrixF R C Φ { o with
            state := List.replicate o.k 0 ++ S.drop o.k, number := o.number + (S.take o.k).sum,
            weights := bobsTableR R o.losses mx }).bind fun B =>
          (lossyNetSimulateF R C (ryserSubPermanentsR R C fuel) (rowsOf (expand B)) fuel lossy 1).bind fun res =>
          .done (pyGetN res 0))
        ((bobsLossyInput o.losses (bobsWeights o.losses mx) st).bind fun lossy =>
          (bobsMatrix { o with
            initial := some A
            state := List.replicate o.k 0 ++ S.drop o.k, number := o.number + (S.take o.k).sum,
            weights := bobsWeights o.losses mx }).bind fun B =>
          (lossyNetSimulate (ryserSubPermanents fuel) (svd B) fuel lossy 1).bind fun res =>
          .done (pyGetN res 0))
        (ENNReal.ofReal (bobsErrF e₁ m (o.number + S.sum) K)) := by
    intro st hst hsum hlen hbox
    unfold bobsErrF
    rw [ENNReal.ofReal_add (by positivity) (versionBBound_nonneg _ _ (entryBound_nonneg ..))]
    refine (key st hst hsum hlen).bind_all (bobsLossyInput_all mx st hst) fun L hL => ?_
    refine bobsMatrixF_close R C Φ (o := { o with
            state := List.replicate o.k 0 ++ S.drop o.k, number := o.number + (S.take o.k).sum,
            weights := bobsTableR R o.losses mx }) hA hd1 hi hk (by omega) hA' fun B' us hB' => ?_
    obtain ⟨W, hW1, hW2, hW3⟩ := hex us B' fun i j => by have := (hB' i j).2; rwa [mul_one] at this
    have hLb : boxSize L ≤ K := (boxSize_modeLe hL).trans hbox
    have hLl : L.length = m := by rw [hL.length_eq, hlen, hS]
    exact (lossyNetF_close R C hW1 hLl hm0 fuel (hLb.trans hfu) (hsvd _)
      (network_le_one hA hd1 (generatePhases_eq o.k m hk us).2 (generateQft_eq o.k m hk).2 _ (hsvd _))
      (fun i j => ⟨hW2 i j, by rw [mul_one]; exact hW3 i j⟩) hm (hL.sum_le.trans hsum) (by omega) hLb hfu').bind_left _
  unfold bobsSampleF bobsSample
  refine CloseF.bind_right_all _ (I := fun st => (∀ x ∈ st, x ≤ mx) ∧ st.sum ≤ o.number + S.sum ∧ st.length = S.length ∧
    boxSize st ≤ K) (E := fun _ => True) ?_ fun st hst => main st hst.1 hst.2.1 hst.2.2.1 hst.2.2.2
  simp only
  split
  · refine Prog.all_bind (Prog.all_randint (fun _ => trivial) fun i hi => Prog.all_done_ok hi) fun i hi => ?_
    have hlt : i < (List.replicate o.k 0 ++ S.drop o.k).length := by simp; omega
    rw [pySetN_ok hlt]
    refine Prog.all_done_ok ⟨fun x hx => ?_, ?_, by simp; omega, ?_⟩
    · rcases List.mem_or_eq_of_mem_set hx with hx | rfl
      · exact hstate x hx
      · exact hmx'
    · rw [List.set_append_left _ _ (by simpa using hi), List.sum_append]
      have : ((List.replicate o.k 0).set i (o.number + (S.take o.k).sum)).sum = o.number + (S.take o.k).sum := by
        rw [List.sum_set]
        simp [hi]
      omega
    · rw [List.set_append_left _ _ (by simpa using hi)]
      unfold boxSize at hKdef ⊢
      rw [List.map_append, List.prod_append, List.map_set, List.map_replicate, hKdef]
      refine Nat.mul_le_mul_right _ ?_
      rw [List.prod_set]
      simp [hi]
  · refine Prog.all_done_ok ⟨hstate, ?_, by simp; omega, ?_⟩
    · rw [List.sum_append]
      simp
      omega
    · unfold boxSize at hKdef ⊢
      rw [List.map_append, List.prod_append, List.map_replicate, hKdef]
      exact Nat.mul_le_mul_right _ (by simp)

/-! ### A whole call -/

theorem bobsSimulateF_close {e e₁ : ℕ} {expand : Matrix (Fin m) (Fin m) ℂ → Matrix (Fin (m + m)) (Fin (m + m)) ℂ}
    {svd : Matrix (Fin m) (Fin m) ℂ → Svd m} (hsvd : ∀ B, IsSvd B (svd B)) (fuel : ℕ) {o : BobsObj m}
    {A' A : Matrix (Fin m) (Fin m) ℂ} {d : Svd m} (hA : IsSvd A d) (hd1 : ∀ i, d.s i ≤ 1) (hi : o.initial = some A')
    (hm0 : 0 < m) (hm : m + m ≤ 2 ^ 20) (hA' : ∀ i j, ‖A' i j - A i j‖ ≤ (1 + 1 / 2 ^ 48) ^ e - 1)
    (hex : ExpandsWithin expand A o.k (uBobsOps e o.k m) e₁)
    (h0 : 0 ≤ o.losses) (h1 : o.losses ≤ 1) (hf : IsFloat o.losses) (ht : 0 < o.threads) {S : List ℕ} (hS : S.length = m)
    (hk : o.k ≤ m) (hn : o.number + S.sum ≤ 170)
    (hfu : (o.number + (S.take o.k).sum + 1) * boxSize (S.drop o.k) ≤ fuel) (hfu' : m < fuel) (N : ℤ) :
    CloseF (bobsSimulateF R C Φ expand (ryserSubPermanentsR R C fuel) fuel o S N)
      ((bobsSimulate svd (ryserSubPermanents fuel) fuel { o with initial := some A } S N).bind fun r => .done (.ok r.1))
      (ENNReal.ofReal ((o.threads * (N.toNat / o.threads + 1) : ℕ)
        * bobsErrF e₁ m (o.number + S.sum) ((o.number + (S.take o.k).sum + 1) * boxSize (S.drop o.k)))) := by
  have hne : S ≠ [] := by rintro rfl; simp at hS; omega
  unfold bobsSimulateF
  by_cases hN : N < 1
  · unfold bobsSimulate
    rw [if_pos hN, if_pos hN]
    exact (CloseF.refl _).mono zero_le
  · obtain ⟨mx, hm1, hm2, hm3, hm4⟩ := bobsPrepareR_ok R o S hne (by omega)
    have hm3' : bobsPrepare { o with initial := some A } S = .ok { o with
        initial := some A
        state := List.replicate o.k 0 ++ S.drop o.k, number := o.number + (S.take o.k).sum,
        weights := bobsWeights o.losses mx } := by
      have e : bobsPrepare { o with initial := some A } S
          = (bobsPrepare o S).map fun o => { o with initial := some A } := by
        unfold bobsPrepare
        simp only
        rw [bobsPrepare_loop S o.k (by omega) o, bobsPrepare_loop S o.k (by omega) { o with initial := some A }]
        cases pyMaxN S <;> rfl
      rw [e, hm3]
      rfl
    rw [if_neg hN, hm4, bobsSimulate_eq svd _ fuel _ _ S N (by omega) hm3' ht]
    simp only [Prog.lift_def, Prog.bind_eq, Prog.done_ok_bind, Prog.bind_assoc]
    rw [uBobsPool_eq, bobsSplit_sum _ _ ht]
    have := (bobsSampleF_close R C Φ hsvd fuel hA hd1 hi hm0 hm hA' hex h0 h1 hf hS hm1 hm2 hk hn hfu hfu').repeatN
      (bobsErrF_nonneg ..) (o.threads * (N.toNat / o.threads + 1))
    have hb : ∀ p : Prog (List (List ℕ)), (p.bind fun a => .done (.ok a)) = p := fun p => bind_pure_prog p
    rwa [hb]

end Verif
