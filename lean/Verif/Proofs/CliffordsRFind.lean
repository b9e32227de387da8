import Verif.Proofs.CliffordsR
import Verif.Proofs.ProgLoop

/-! Helper lemmas: dictionaries filled by draws. -/
namespace Verif

open scoped ENNReal

section
variable {V : Type} {d : List (List ℕ × V)} {k : List ℕ} {v : V}

theorem assocSet_mem {e : List ℕ × V} : e ∈ assocSet d k v ↔ e = (k, v) ∨ (e ∈ d ∧ e.1 ≠ k) := by
  unfold assocSet
  simp

theorem assocSet_keys_nodup (h : (d.map Prod.fst).Nodup) : ((assocSet d k v).map Prod.fst).Nodup := by
  unfold assocSet
  rw [List.map_cons, List.nodup_cons]
  constructor
  · simp
  · exact h.sublist (List.filter_sublist.map _)

theorem assocSet_length_new (h : k ∉ d.map Prod.fst) : (assocSet d k v).length = d.length + 1 := by
  unfold assocSet
  rw [List.length_cons, List.filter_eq_self.mpr]
  intro e he
  simp only [ne_eq, decide_not, Bool.not_eq_true', decide_eq_false_iff_not]
  rintro rfl
  exact h (List.mem_map.mpr ⟨e, he, rfl⟩)

theorem assocSet_length_old (hn : (d.map Prod.fst).Nodup) (h : k ∈ d.map Prod.fst) :
    (assocSet d k v).length = d.length := by
  induction d with
  | nil => simp at h
  | cons e d ih =>
    rw [List.map_cons, List.nodup_cons] at hn
    by_cases hk : e.1 = k
    · have hnot : k ∉ d.map Prod.fst := hk ▸ hn.1
      have := assocSet_length_new (v := v) hnot
      unfold assocSet at this ⊢
      rw [List.filter_cons_of_neg (by simpa using hk)]
      rw [List.length_cons] at this ⊢
      rw [List.length_cons]
      omega
    · have hin : k ∈ d.map Prod.fst := by
        rw [List.map_cons, List.mem_cons] at h
        rcases h with h | h
        · exact absurd h.symm hk
        · exact h
      have := ih hn.2 hin
      unfold assocSet at this ⊢
      rw [List.filter_cons_of_pos (by simpa using hk)]
      simp only [List.length_cons] at this ⊢
      omega

theorem assocSet_length_le (hn : (d.map Prod.fst).Nodup) : d.length ≤ (assocSet d k v).length := by
  by_cases h : k ∈ d.map Prod.fst
  · rw [assocSet_length_old hn h]
  · rw [assocSet_length_new h]; omega

theorem assocGet_of_mem (hn : (d.map Prod.fst).Nodup) (h : (k, v) ∈ d) : assocGet d k = some v := by
  unfold assocGet
  induction d with
  | nil => simp at h
  | cons e d ih =>
    rw [List.map_cons, List.nodup_cons] at hn
    rcases List.mem_cons.mp h with rfl | h
    · simp
    · have : e.1 ≠ k := by
        rintro rfl
        exact hn.1 (List.mem_map.mpr ⟨_, h, rfl⟩)
      rw [List.find?_cons_of_neg (by simpa using this)]
      exact ih hn.2 h

end

/-- What the dictionary of `find_probabilities` contains at any time. -/
structure DictInv (draw : Prog (List ℕ × ℝ)) (outcomes : List (List ℕ)) (d : List (List ℕ × ℝ)) : Prop where
  nodup : (d.map Prod.fst).Nodup
  keys : ∀ e ∈ d, e.1 ∈ outcomes
  drawn : ∀ e ∈ d, draw.Runs (.ok e)

theorem dictInv_nil (draw : Prog (List ℕ × ℝ)) (outcomes : List (List ℕ)) : DictInv draw outcomes [] :=
  ⟨by simp, by simp, by simp⟩

theorem dictInv_set {draw : Prog (List ℕ × ℝ)} {outcomes : List (List ℕ)} {d : List (List ℕ × ℝ)} (h : DictInv draw outcomes d)
    {T : List ℕ} {p : ℝ} (hT : T ∈ outcomes) (hd : draw.Runs (.ok (T, p))) : DictInv draw outcomes (assocSet d T p) := by
  refine ⟨assocSet_keys_nodup h.nodup, ?_, ?_⟩
  · intro e he
    rcases assocSet_mem.mp he with rfl | ⟨he, -⟩
    · exact hT
    · exact h.keys e he
  · intro e he
    rcases assocSet_mem.mp he with rfl | ⟨he, -⟩
    · exact hd
    · exact h.drawn e he

theorem dictInv_length {draw : Prog (List ℕ × ℝ)} {outcomes : List (List ℕ)} {d : List (List ℕ × ℝ)} (h : DictInv draw outcomes d) :
    d.length ≤ outcomes.dedup.length := by
  have h1 : (d.map Prod.fst) ⊆ outcomes.dedup := by
    intro T hT
    obtain ⟨e, he, rfl⟩ := List.mem_map.mp hT
    exact List.mem_dedup.mpr (h.keys e he)
  have := (h.nodup.subperm h1).length_le
  simpa using this

/-- The body of the loop of `find_probabilities`. -/
abbrev findBody (draw : Prog (List ℕ × ℝ)) (outcomes : List (List ℕ)) (d : List (List ℕ × ℝ)) : Prog (List (List ℕ × ℝ)) :=
  draw.bind fun x => .done (.ok (if x.1 ∈ outcomes then assocSet d x.1 x.2 else d))

theorem findBody_inv {draw : Prog (List ℕ × ℝ)} {outcomes : List (List ℕ)} {d d' : List (List ℕ × ℝ)} (h : DictInv draw outcomes d)
    (hr : (findBody draw outcomes d).Runs (.ok d')) : DictInv draw outcomes d' ∧ d.length ≤ d'.length := by
  rw [Prog.runs_bind] at hr
  rcases hr with ⟨x, h1, h2⟩ | ⟨e, -, h2⟩
  · have h2 : (Except.ok d' : Py _) = .ok _ := h2
    injection h2 with h2
    subst h2
    split_ifs with hx
    · exact ⟨dictInv_set h hx h1, assocSet_length_le h.nodup⟩
    · exact ⟨h, le_refl _⟩
  · cases h2

theorem rFindProbabilities_eq (sampler : RSamplerPmf) (fuel : ℕ) (U : List (List ℂ)) (S : List ℕ) (outcomes : List (List ℕ))
    (A : List (List ℂ)) (hA : firstColumns U S.sum = .ok A) :
    rFindProbabilities sampler fuel U S outcomes =
      Prog.loop fuel (fun d : List (List ℕ × ℝ) => decide (d.length ≠ outcomes.length))
        (findBody (rDraw sampler (toRMatrix A S.sum) S.length) outcomes) [] := by
  unfold rFindProbabilities
  rw [hA]
  rfl

end Verif
namespace Verif

open scoped ENNReal

theorem arraySplit_one {α : Type} (l : List α) : arraySplit l 1 = .ok [l] := by
  unfold arraySplit
  simp [pure, Except.pure]

/-- Decoding of one sample. -/
theorem rDraw_decode (m n : ℕ) (hm : 1 ≤ m) (result : List ℤ) (h : IsROutput m n 1 result) :
    ∃ T, modeAssignmentToModeOccupation (result.map fun x => x - 1) m = .ok T ∧ ROccupation m n 0 result T ∧ T.sum = n := by
  obtain ⟨samples, h1, h2, h3⟩ := rDecode_ok m n 1 hm le_rfl result h
  have h0 : (0 : ℕ) < samples.length := by omega
  obtain ⟨h4, h5⟩ := h3 0 h0
  rw [Nat.cast_one, arraySplit_one, ok_bind] at h1
  have hs : samples = [samples[0]] := by
    refine List.ext_getElem (by simpa using h2) fun i hi hi' => ?_
    have : i = 0 := by omega
    subst this
    rfl
  rw [hs, List.mapM_cons, List.mapM_nil] at h1
  cases h6 : modeAssignmentToModeOccupation (result.map fun x => x - 1) m with
  | error e => rw [h6] at h1; simp [bind, Except.bind] at h1
  | ok T =>
    rw [h6] at h1
    have h1 : (Except.ok [T] : Py _) = .ok [samples[0]] := h1
    injection h1 with h1
    injection h1 with h1 _
    exact ⟨T, rfl, h1 ▸ h4, h1 ▸ h5⟩

theorem rDraw_bind (sampler : RSamplerPmf) (A : RMatrix) (m : ℕ) : rDraw sampler A m =
    (sampler A).bind fun x => (Prog.done (modeAssignmentToModeOccupation (x.1.map fun y => y - 1) m)).bind fun T =>
      .done (.ok (T, x.2)) := by
  unfold rDraw
  simp only [Prog.bind_eq, Prog.lift_def, Prog.pure_eq]
  congr 1
  funext x
  obtain ⟨result, p⟩ := x
  simp only [arraySplit_one, Prog.done_ok_bind]
  rfl

theorem rDraw_runs {sampler : RSamplerPmf} {A : RMatrix} (hm : 1 ≤ A.nrow) (h : RPmfExactFor sampler A)
    (r : Py (List ℕ × ℝ)) (hr : (rDraw sampler A A.nrow).Runs r) :
    ∃ T, r = .ok (T, rProb A T) ∧ T.length = A.nrow ∧ T.sum = A.ncol := by
  rw [rDraw_bind, Prog.runs_bind] at hr
  rcases hr with ⟨x, h1, h2⟩ | ⟨e, h1, h2⟩
  · obtain ⟨result, T, h3, h4, h5⟩ := h.output _ h1
    injection h3 with h3
    subst h3
    obtain ⟨T', h6, h7, h8⟩ := rDraw_decode _ _ hm result h4
    simp only [h6, Prog.done_ok_bind] at h2
    have e := rOccupation_unique h5 h7
    subst e
    exact ⟨T, h2, h7.1, h8⟩
  · obtain ⟨result, T, h3, -⟩ := h.output _ h1
    cases h3

theorem rDraw_prob {sampler : RSamplerPmf} {A : RMatrix} (hm : 1 ≤ A.nrow) (h : RPmfExactFor sampler A) (T : List ℕ)
    (hT : T.length = A.nrow) (hTn : T.sum = A.ncol) :
    (rDraw sampler A A.nrow).prob (fun r => ∃ p, r = .ok (T, p)) = ENNReal.ofReal (rProb A T) := by
  rw [← h.law T hT hTn, rDraw_bind]
  unfold Prog.prob
  rw [Prog.wp_bind]
  refine Prog.wp_congr _ _ _ fun r hr => ?_
  obtain ⟨result, T₀, rfl, h4, h5⟩ := h.output r hr
  obtain ⟨T', h6, h7, h8⟩ := rDraw_decode _ _ hm result h4
  simp only [Prog.post, h6, Prog.done_ok_bind, Prog.wp]
  congr 1
  refine propext ⟨?_, ?_⟩
  · rintro ⟨p, hp⟩
    injection hp with hp
    injection hp with hp _
    subst hp
    exact ⟨result, _, rfl, h7⟩
  · rintro ⟨result', p, h9, h10⟩
    injection h9 with h9
    injection h9 with h9 h9'
    subst h9
    have e := rOccupation_unique h7 h10
    subst e
    exact ⟨_, rfl⟩

theorem exists_lower_bound {ι : Type} (l : List ι) (f : ι → ℝ≥0∞) (h : ∀ i ∈ l, 0 < f i) :
    ∃ ε : ℝ, 0 < ε ∧ ε ≤ 1 ∧ ∀ i ∈ l, ENNReal.ofReal ε ≤ f i := by
  induction l with
  | nil => exact ⟨1, one_pos, le_rfl, by simp⟩
  | cons i l ih =>
    obtain ⟨ε, h1, h2, h3⟩ := ih fun j hj => h j (List.mem_cons_of_mem _ hj)
    obtain ⟨q, hq, hq'⟩ : ∃ q : ℝ, 0 < q ∧ ENNReal.ofReal q ≤ f i := by
      by_cases hf : f i = ⊤
      · exact ⟨1, one_pos, hf ▸ le_top⟩
      · refine ⟨(f i).toReal, ENNReal.toReal_pos (h i List.mem_cons_self).ne' hf, ?_⟩
        rw [ENNReal.ofReal_toReal hf]
    refine ⟨min ε q, lt_min h1 hq, (min_le_left _ _).trans h2, ?_⟩
    intro j hj
    rcases List.mem_cons.mp hj with rfl | hj
    · exact (ENNReal.ofReal_le_ofReal (min_le_right _ _)).trans hq'
    · exact (ENNReal.ofReal_le_ofReal (min_le_left _ _)).trans (h3 j hj)

/-- With probability tending to one the loop of `find_probabilities` ends. -/
theorem findLoop_tendsto (draw : Prog (List ℕ × ℝ)) (outcomes : List (List ℕ)) (hn : outcomes.Nodup)
    (hok : ∀ r, draw.Runs r → ∃ x, r = .ok x)
    (hpos : ∀ T ∈ outcomes, 0 < draw.prob (fun r => ∃ p, r = .ok (T, p))) :
    Filter.Tendsto (fun fuel => (Prog.loop fuel (fun d : List (List ℕ × ℝ) => decide (d.length ≠ outcomes.length))
      (findBody draw outcomes) []).prob fun r => ∀ d, r ≠ .ok d) Filter.atTop (nhds 0) := by
  obtain ⟨ε, h0, h1, hε⟩ := exists_lower_bound outcomes _ hpos
  have hbound := Prog.loop_unfinished_le h0 h1 (cond := fun d : List (List ℕ × ℝ) => decide (d.length ≠ outcomes.length))
    (body := findBody draw outcomes) (DictInv draw outcomes) (fun d => outcomes.length - d.length) ?_ ?_ ?_
  · have hlim := (ENNReal.continuous_ofReal.tendsto _).comp (Prog.waitBound_tendsto h0 h1 outcomes.length)
    rw [ENNReal.ofReal_zero] at hlim
    refine tendsto_of_tendsto_of_tendsto_of_le_of_le tendsto_const_nhds hlim (fun _ => zero_le) fun fuel => ?_
    exact hbound fuel [] (dictInv_nil _ _)
  · intro d hd _ r hr
    rw [Prog.runs_bind] at hr
    rcases hr with ⟨x, h2, h3⟩ | ⟨e, h2, h3⟩
    · have h3 : r = .ok _ := h3
      refine ⟨_, h3, ?_⟩
      have := findBody_inv (d' := if x.1 ∈ outcomes then assocSet d x.1 x.2 else d) hd
        ((Prog.runs_bind _ _ _).mpr (.inl ⟨x, h2, rfl⟩))
      exact ⟨this.1, Nat.sub_le_sub_left this.2 _⟩
    · obtain ⟨x, hx⟩ := hok _ h2
      cases hx
  · intro d hd hc
    have h2 := dictInv_length hd
    rw [List.dedup_eq_self.mpr hn] at h2
    have h3 : d.length ≠ outcomes.length := by simpa using hc
    omega
  · intro d hd hc
    have h2 := dictInv_length hd
    rw [List.dedup_eq_self.mpr hn] at h2
    have h3 : d.length ≠ outcomes.length := by simpa using hc
    obtain ⟨T, hT, hTd⟩ : ∃ T ∈ outcomes, T ∉ d.map Prod.fst := by
      by_contra hall
      have hsub : outcomes ⊆ d.map Prod.fst := by
        intro T hT
        by_contra hTd
        exact hall ⟨T, hT, hTd⟩
      have := (hn.subperm hsub).length_le
      simp at this
      omega
    refine (hε T hT).trans ?_
    unfold Prog.prob
    rw [Prog.wp_bind]
    refine Prog.wp_mono _ _ _ fun r hr => ?_
    split_ifs with hp
    · obtain ⟨p, rfl⟩ := hp
      simp only [Prog.post, Prog.wp]
      rw [if_pos]
      refine ⟨_, rfl, ?_⟩
      rw [if_pos hT, assocSet_length_new hTd]
      omega
    · exact zero_le

/-- If an outcome is drawn with probability zero, the loop of `find_probabilities` records it with
probability zero. -/
theorem findLoop_zero (draw : Prog (List ℕ × ℝ)) (outcomes : List (List ℕ)) (T : List ℕ)
    (h0 : draw.prob (fun r => ∃ p, r = .ok (T, p)) = 0) (cond : List (List ℕ × ℝ) → Bool) (fuel : ℕ)
    (d : List (List ℕ × ℝ)) (hd : T ∉ d.map Prod.fst) :
    (Prog.loop fuel cond (findBody draw outcomes) d).prob (fun r => ∃ d', r = .ok d' ∧ T ∈ d'.map Prod.fst) = 0 := by
  induction fuel generalizing d with
  | zero => simp [Prog.loop, Prog.prob, Prog.wp]
  | succ fuel ih =>
    rw [Prog.loop]
    split_ifs with hc
    · rw [Prog.bind_eq]
      rw [show findBody draw outcomes d = draw.bind fun x => .done (.ok (if x.1 ∈ outcomes then assocSet d x.1 x.2 else d))
        from rfl, Prog.bind_assoc]
      refine le_antisymm (le_trans ?_ h0.le) zero_le
      unfold Prog.prob
      rw [Prog.wp_bind]
      refine Prog.wp_mono _ _ _ fun r _ => ?_
      cases r with
      | error e => simp [Prog.post]
      | ok x =>
        by_cases hx : x.1 = T
        · rw [if_pos ⟨x.2, by rw [← hx]⟩]
          exact (Prog.wp_mono _ _ (fun _ => 1) fun r _ => by split_ifs <;> simp).trans (Prog.wp_const _ 1).le
        · simp only [Prog.post, Prog.done_ok_bind]
          refine (ih _ ?_).le.trans zero_le
          · split_ifs
            · rw [List.mem_map]
              rintro ⟨e, he, rfl⟩
              rcases assocSet_mem.mp he with rfl | ⟨he, -⟩
              · exact hx rfl
              · exact hd (List.mem_map_of_mem he)
            · exact hd
    · simp only [Prog.prob, Prog.pure_eq, Prog.wp]
      rw [if_neg]
      rintro ⟨d', h1, h2⟩
      injection h1 with h1
      exact hd (h1 ▸ h2)

end Verif

namespace Verif

theorem firstColumns_length {U A : List (List ℂ)} {n m : ℕ} (h : firstColumns U n = .ok A) (hU : U.length = m) :
    (toRMatrix A n).nrow = m := by
  unfold firstColumns at h
  cases h1 : pyGetN U 0 with
  | error e => rw [h1] at h; cases h
  | ok row =>
    rw [h1, ok_bind] at h
    split_ifs at h with h2
    · injection h with h
      subst h
      simpa [toRMatrix] using hU

/-- One draw: the reported number is the probability of the decoded sample. -/
theorem rDraw_runs' {sampler : RSamplerPmf} {A : RMatrix} (hm : 1 ≤ A.nrow) (h : RPmfExactFor sampler A)
    {result : List ℤ} {p : ℝ} (hr : (sampler A).Runs (.ok (result, p))) {T : List ℕ}
    (hT : modeAssignmentToModeOccupation (result.map fun x => x - 1) A.nrow = .ok T) :
    p = rProb A T ∧ ROccupation A.nrow A.ncol 0 result T ∧ T.length = A.nrow ∧ T.sum = A.ncol := by
  obtain ⟨result', T₀, h3, h4, h5⟩ := h.output _ hr
  injection h3 with h3
  injection h3 with h3 h3'
  subst h3 h3'
  obtain ⟨T', h6, h7, h8⟩ := rDraw_decode _ _ hm result h4
  rw [hT] at h6
  injection h6 with h6
  subst h6
  have e := rOccupation_unique h5 h7
  subst e
  exact ⟨rfl, h7, h7.1, h8⟩

/-! ### `find_probabilities_of_n_random_states` -/

/-- What the dictionary of `find_probabilities_of_n_random_states` contains at any time. -/
structure RandInv (draw : Prog (List ℕ × ℝ)) (st : List (List ℕ × ℝ) × ℝ) : Prop where
  nodup : (st.1.map Prod.fst).Nodup
  drawn : ∀ e ∈ st.1, draw.Runs (.ok e)
  sum : st.2 = (st.1.map Prod.snd).sum

theorem randInv_nil (draw : Prog (List ℕ × ℝ)) : RandInv draw ([], 0) := ⟨by simp, by simp, by simp⟩

abbrev randBody (draw : Prog (List ℕ × ℝ)) (st : List (List ℕ × ℝ) × ℝ) : Prog (List (List ℕ × ℝ) × ℝ) :=
  draw.bind fun x => .done (.ok (assocSet st.1 x.1 x.2, ((assocSet st.1 x.1 x.2).map Prod.snd).sum))

theorem randBody_inv {draw : Prog (List ℕ × ℝ)} {st st' : List (List ℕ × ℝ) × ℝ} (h : RandInv draw st)
    (hr : (randBody draw st).Runs (.ok st')) : RandInv draw st' ∧ st.1.map Prod.fst ⊆ st'.1.map Prod.fst := by
  rw [Prog.runs_bind] at hr
  rcases hr with ⟨x, h1, h2⟩ | ⟨e, -, h2⟩
  · have h2 : (Except.ok st' : Py _) = .ok _ := h2
    injection h2 with h2
    subst h2
    refine ⟨⟨assocSet_keys_nodup h.nodup, ?_, rfl⟩, ?_⟩
    · intro e he
      rcases assocSet_mem.mp he with rfl | ⟨he, -⟩
      · exact h1
      · exact h.drawn e he
    · intro T hT
      obtain ⟨e, he, rfl⟩ := List.mem_map.mp hT
      by_cases hk : e.1 = x.1
      · exact List.mem_map.mpr ⟨(x.1, x.2), assocSet_mem.mpr (.inl rfl), hk.symm⟩
      · exact List.mem_map.mpr ⟨e, assocSet_mem.mpr (.inr ⟨he, hk⟩), rfl⟩
  · cases h2

/-- The number of states asked for in the loop. -/
def randTarget (S : List ℕ) (k : ℤ) : ℤ := min k ((S.sum + S.length - 1).choose (S.length - 1) : ℕ)

open Classical in
noncomputable abbrev randCond (k : ℤ) (st : List (List ℕ × ℝ) × ℝ) : Bool :=
  decide ((st.1.length : ℤ) < k) || decide (¬ IsCloseToOne st.2)

theorem rFindRandom_eq (sampler : RSamplerPmf) (fuel : ℕ) (U : List (List ℂ)) (S : List ℕ) (k : ℤ)
    (A : List (List ℂ)) (hA : firstColumns U S.sum = .ok A) :
    rFindRandom sampler fuel U S k = (Prog.loop fuel (randCond (randTarget S k))
      (randBody (rDraw sampler (toRMatrix A S.sum) S.length)) ([], 0)).bind fun st => .done (.ok st.1) := by
  have hk : (if (((S.sum + S.length - 1).choose (S.length - 1) : ℕ) : ℤ) < k then
      (((S.sum + S.length - 1).choose (S.length - 1) : ℕ) : ℤ) else k) = randTarget S k := by
    unfold randTarget
    split_ifs with h
    · rw [min_eq_right h.le]
    · rw [min_eq_left (not_lt.mp h)]
  unfold rFindRandom
  simp only [hk]
  rw [hA]
  rfl

/-- Everything known about a result of `find_probabilities_of_n_random_states`. -/
theorem rFindRandom_result {sampler : RSamplerPmf} {fuel : ℕ} {U : List (List ℂ)} {S : List ℕ} {k : ℤ}
    {d : List (List ℕ × ℝ)} (h : (rFindRandom sampler fuel U S k).Runs (.ok d)) :
    ∃ A, firstColumns U S.sum = .ok A ∧ RandInv (rDraw sampler (toRMatrix A S.sum) S.length) (d, (d.map Prod.snd).sum) ∧
      randTarget S k ≤ d.length ∧ IsCloseToOne (d.map Prod.snd).sum := by
  cases hA : firstColumns U S.sum with
  | error e =>
    unfold rFindRandom at h
    rw [hA] at h
    cases h
  | ok A =>
    rw [rFindRandom_eq _ _ _ _ _ _ hA, Prog.runs_bind] at h
    rcases h with ⟨st, h1, h2⟩ | ⟨e, -, h2⟩
    · have h2 : (Except.ok d : Py _) = .ok st.1 := h2
      injection h2 with h2
      subst h2
      obtain ⟨h3, h4⟩ := Prog.loop_inv (RandInv (rDraw sampler (toRMatrix A S.sum) S.length))
        (fun st hst _ st' hr => (randBody_inv hst hr).1) fuel _ st (randInv_nil _) h1
      simp only [randCond, Bool.or_eq_false_iff, decide_eq_false_iff_not, not_lt, not_not] at h4
      refine ⟨A, rfl, ?_, h4.1, h3.sum ▸ h4.2⟩
      rw [← h3.sum]
      exact h3
    · cases h2

/-- When the loop stops: without one of its keys the dictionary did not end it. -/
theorem rFindRandom_last {sampler : RSamplerPmf} {fuel : ℕ} {U : List (List ℂ)} {S : List ℕ} {k : ℤ}
    {d : List (List ℕ × ℝ)} (h : (rFindRandom sampler fuel U S k).Runs (.ok d)) (hd : d ≠ []) :
    ∃ A, firstColumns U S.sum = .ok A ∧ ∃ st, RandInv (rDraw sampler (toRMatrix A S.sum) S.length) st ∧
      st.1.map Prod.fst ⊆ d.map Prod.fst ∧ st.1.length + 1 = d.length ∧ randCond (randTarget S k) st = true := by
  cases hA : firstColumns U S.sum with
  | error e =>
    unfold rFindRandom at h
    rw [hA] at h
    cases h
  | ok A =>
    refine ⟨A, rfl, ?_⟩
    rw [rFindRandom_eq _ _ _ _ _ _ hA, Prog.runs_bind] at h
    rcases h with ⟨st, h1, h2⟩ | ⟨e, -, h2⟩
    · have h2 : (Except.ok d : Py _) = .ok st.1 := h2
      injection h2 with h2
      subst h2
      have h3 := (Prog.loop_inv (fun st => RandInv (rDraw sampler (toRMatrix A S.sum) S.length) st ∧ (st.1 = [] ∨
          ∃ st', RandInv (rDraw sampler (toRMatrix A S.sum) S.length) st' ∧ st'.1.map Prod.fst ⊆ st.1.map Prod.fst ∧
            st'.1.length + 1 = st.1.length ∧ randCond (randTarget S k) st' = true))
        (fun st hst hc st' hr => ?_) fuel _ st ⟨randInv_nil _, .inl rfl⟩ h1).1.2
      · exact h3.resolve_left hd
      · obtain ⟨g1, g2⟩ := randBody_inv hst.1 hr
        refine ⟨g1, .inr ?_⟩
        rw [Prog.runs_bind] at hr
        rcases hr with ⟨x, -, h5⟩ | ⟨e, -, h5⟩
        · have h5 : (Except.ok st' : Py _) = .ok _ := h5
          injection h5 with h5
          subst h5
          by_cases hx : x.1 ∈ st.1.map Prod.fst
          · rcases hst.2 with hl | ⟨st₀, f1, f2, f3, f4⟩
            · rw [hl] at hx; cases hx
            · exact ⟨st₀, f1, List.Subset.trans f2 g2, f3.trans (assocSet_length_old hst.1.nodup hx).symm, f4⟩
          · exact ⟨st, hst.1, g2, (assocSet_length_new hx).symm, hc⟩
        · cases h5
    · cases h2

theorem randSum {draw : Prog (List ℕ × ℝ)} {st : List (List ℕ × ℝ) × ℝ} (h : RandInv draw st) (P : List ℕ → ℝ)
    (hP : ∀ e, draw.Runs (.ok e) → e.2 = P e.1) : st.2 = ∑ T ∈ (st.1.map Prod.fst).toFinset, P T := by
  rw [h.sum, List.sum_toFinset P h.nodup, List.map_map]
  congr 1
  exact List.map_congr_left fun e he => hP e (h.drawn e he)

open Classical in
/-- With probability tending to one the loop of `find_probabilities_of_n_random_states` ends. -/
theorem randLoop_tendsto (draw : Prog (List ℕ × ℝ)) (k : ℤ) (support : Finset (List ℕ)) (P : List ℕ → ℝ)
    (hok : ∀ r, draw.Runs r → ∃ T, r = .ok (T, P T)) (hP0 : ∀ T, draw.Runs (.ok (T, P T)) → T ∉ support → P T = 0)
    (hsum : ∑ T ∈ support, P T = 1) (hk : k ≤ support.card)
    (hpos : ∀ T ∈ support, 0 < draw.prob (fun r => ∃ p, r = .ok (T, p))) :
    Filter.Tendsto (fun fuel => (Prog.loop fuel (randCond k) (randBody draw) ([], 0)).prob fun r => ∀ d, r ≠ .ok d)
      Filter.atTop (nhds 0) := by
  have hP : ∀ e, draw.Runs (.ok e) → e.2 = P e.1 := by
    intro e he
    obtain ⟨T, hT⟩ := hok _ he
    injection hT with hT
    subst hT
    rfl
  obtain ⟨ε, h0, h1, hε⟩ := exists_lower_bound support.toList _ fun T hT => hpos T (Finset.mem_toList.mp hT)
  let V : List (List ℕ × ℝ) × ℝ → ℕ := fun st => (support.filter fun T => T ∉ st.1.map Prod.fst).card
  have hex : ∀ st, RandInv draw st → randCond k st = true → ∃ T ∈ support, T ∉ st.1.map Prod.fst := by
    intro st hst hc
    by_contra hall
    have hsub : support ⊆ (st.1.map Prod.fst).toFinset := by
      intro T hT
      by_contra hTd
      exact hall ⟨T, hT, fun h => hTd (List.mem_toFinset.mpr h)⟩
    have e1 : st.2 = 1 := by
      rw [randSum hst P hP, ← hsum]
      refine (Finset.sum_subset hsub fun T hT hTs => hP0 T ?_ hTs).symm
      obtain ⟨e, he, rfl⟩ := List.mem_map.mp (List.mem_toFinset.mp hT)
      have := hst.drawn e he
      rw [← hP e this]
      exact this
    have e2 : support.card ≤ st.1.length := by
      have := Finset.card_le_card hsub
      rw [List.toFinset_card_of_nodup hst.nodup, List.length_map] at this
      exact this
    simp only [randCond, Bool.or_eq_true, decide_eq_true_eq] at hc
    rcases hc with hc | hc
    · omega
    · refine hc ?_
      rw [e1]
      unfold IsCloseToOne
      norm_num
  have hbound := Prog.loop_unfinished_le h0 h1 (cond := randCond k) (body := randBody draw) (RandInv draw) V ?_ ?_ ?_
  · have hlim := (ENNReal.continuous_ofReal.tendsto _).comp (Prog.waitBound_tendsto h0 h1 (V ([], 0)))
    rw [ENNReal.ofReal_zero] at hlim
    refine tendsto_of_tendsto_of_tendsto_of_le_of_le tendsto_const_nhds hlim (fun _ => zero_le) fun fuel => ?_
    exact hbound fuel _ (randInv_nil _)
  · intro st hst _ r hr
    rw [Prog.runs_bind] at hr
    rcases hr with ⟨x, h2, h3⟩ | ⟨e, h2, h3⟩
    · have h3 : r = .ok _ := h3
      have := randBody_inv (st' := (assocSet st.1 x.1 x.2, ((assocSet st.1 x.1 x.2).map Prod.snd).sum)) hst
        ((Prog.runs_bind _ _ _).mpr (.inl ⟨x, h2, rfl⟩))
      refine ⟨_, h3, this.1, Finset.card_le_card ?_⟩
      intro T hT
      rw [Finset.mem_filter] at hT ⊢
      exact ⟨hT.1, fun h => hT.2 (this.2 h)⟩
    · obtain ⟨x, hx⟩ := hok _ h2
      cases hx
  · intro st hst hc
    obtain ⟨T, hT, hTd⟩ := hex st hst hc
    exact Finset.card_pos.mpr ⟨T, Finset.mem_filter.mpr ⟨hT, hTd⟩⟩
  · intro st hst hc
    obtain ⟨T, hT, hTd⟩ := hex st hst hc
    refine (hε T (Finset.mem_toList.mpr hT)).trans ?_
    unfold Prog.prob
    rw [Prog.wp_bind]
    refine Prog.wp_mono _ _ _ fun r hr => ?_
    split_ifs with hp
    · obtain ⟨p, rfl⟩ := hp
      simp only [Prog.post, Prog.wp]
      rw [if_pos]
      refine ⟨_, rfl, Finset.card_lt_card ?_⟩
      rw [Finset.ssubset_iff_of_subset]
      · refine ⟨T, Finset.mem_filter.mpr ⟨hT, hTd⟩, ?_⟩
        rw [Finset.mem_filter]
        rintro ⟨-, h⟩
        exact h (List.mem_map.mpr ⟨(T, p), assocSet_mem.mpr (.inl rfl), rfl⟩)
      · intro T' hT'
        rw [Finset.mem_filter] at hT' ⊢
        exact ⟨hT'.1, fun h => hT'.2 ((randBody_inv (st' := (assocSet st.1 T p, ((assocSet st.1 T p).map Prod.snd).sum)) hst
          ((Prog.runs_bind _ _ _).mpr (.inl ⟨(T, p), hr, rfl⟩))).2 h)⟩
    · exact zero_le

theorem rFindRandom_unfinished (p : Prog (List (List ℕ × ℝ) × ℝ)) :
    (p.bind fun st => .done (.ok st.1)).prob (fun r => ∀ d, r ≠ .ok d) = p.prob fun r => ∀ st, r ≠ .ok st := by
  unfold Prog.prob
  rw [Prog.wp_bind]
  refine Prog.wp_congr _ _ _ fun r _ => ?_
  cases r with
  | ok st => simp [Prog.post, Prog.wp]
  | error e => simp [Prog.post]

end Verif
