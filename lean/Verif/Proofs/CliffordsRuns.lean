import Verif.Proofs.Cliffords

/-! Helper lemmas: every run of the generalized Clifford & Clifford sampler. -/
namespace Verif

open Finset

/-- Every run ends with a value satisfying `I` or an exception satisfying `E`. -/
def Prog.All {α : Type} (p : Prog α) (I : α → Prop) (E : PyErr → Prop) : Prop :=
  ∀ r, p.Runs r → (∃ a, r = .ok a ∧ I a) ∨ ∃ e, r = .error e ∧ E e

namespace Prog

variable {α β : Type} {E : PyErr → Prop}

theorem all_done_ok {a : α} {I : α → Prop} (h : I a) : (done (.ok a)).All I E := by
  rintro r rfl; exact .inl ⟨a, rfl, h⟩

theorem all_done_error {e : PyErr} {I : α → Prop} (h : E e) : (done (.error e) : Prog α).All I E := by
  rintro r rfl; exact .inr ⟨e, rfl, h⟩

theorem all_bind {p : Prog α} {g : α → Prog β} {I : α → Prop} {J : β → Prop} (hp : p.All I E)
    (hg : ∀ a, I a → (g a).All J E) : (p.bind g).All J E := by
  intro r hr
  rcases (runs_bind p g r).mp hr with ⟨a, h1, h2⟩ | ⟨e, h1, h2⟩
  · rcases hp _ h1 with ⟨a', h, hI⟩ | ⟨e, h, -⟩
    · injection h with h; subst h; exact hg a hI r h2
    · cases h
  · rcases hp _ h1 with ⟨a', h, -⟩ | ⟨e', h, hE⟩
    · cases h
    · injection h with h; subst h; exact .inr ⟨e, h2, hE⟩

theorem all_uniform {k : ℝ → Prog α} {I : α → Prop} (h : ∀ u, 0 ≤ u → u < 1 → (k u).All I E) :
    (uniform k).All I E := by
  rintro r ⟨u, h0, h1, hr⟩; exact h u h0 h1 r hr

theorem all_done {x : Py α} {I : α → Prop} (h1 : ∀ a, x = .ok a → I a) (h2 : ∀ e, x = .error e → E e) :
    (done x).All I E := by
  rintro r rfl
  cases r with
  | ok a => exact .inl ⟨a, rfl, h1 a rfl⟩
  | error e => exact .inr ⟨e, rfl, h2 e rfl⟩

theorem all_loop {σ : Type} {cond : σ → Bool} {body : σ → Prog σ} (I : ℕ → σ → Prop)
    (h0 : ∀ s, I 0 s → cond s = false) (h1 : ∀ d s, I (d + 1) s → cond s = true)
    (hb : ∀ d s, I (d + 1) s → (body s).All (I d) E) (d fuel : ℕ) (hf : d < fuel) (s : σ) (hs : I d s) :
    (loop fuel cond body s).All (I 0) E := by
  induction d generalizing fuel s with
  | zero =>
    obtain ⟨fuel, rfl⟩ : ∃ x, fuel = x + 1 := ⟨fuel - 1, by omega⟩
    rw [loop_succ, h0 s hs]
    exact all_done_ok hs
  | succ d ih =>
    obtain ⟨fuel, rfl⟩ : ∃ x, fuel = x + 1 := ⟨fuel - 1, by omega⟩
    rw [loop_succ, h1 d s hs, if_pos rfl]
    exact all_bind (hb d s hs) fun a ha => ih fuel (by omega) a ha

end Prog

/-- Not the model-level outcome of a loop that was cut off. -/
def NotFuel (e : PyErr) : Prop := e ≠ .outOfFuel

/-- A deterministic computation that is not cut off. -/
def NoFuel {α : Type} (x : Py α) : Prop := ∀ e, x = .error e → NotFuel e

theorem noFuel_ok {α : Type} (a : α) : NoFuel (.ok a : Py α) := by intro e h; cases h

theorem noFuel_error {α : Type} {e : PyErr} (h : e ≠ .outOfFuel) : NoFuel (.error e : Py α) := by
  rintro e' he; injection he with he; subst he; exact h

theorem noFuel_bind {α β : Type} {x : Py α} {g : α → Py β} (hx : NoFuel x) (hg : ∀ a, NoFuel (g a)) :
    NoFuel (x >>= g) := by
  cases x with
  | ok a => exact hg a
  | error e => intro e' h; injection h with h; subst h; exact hx e rfl

theorem noFuel_bind' {α β : Type} {x : Py α} {g : α → Py β} (hx : NoFuel x) (hg : ∀ a, x = .ok a → NoFuel (g a)) :
    NoFuel (x >>= g) := by
  cases x with
  | ok a => exact hg a rfl
  | error e => intro e' h; injection h with h; subst h; exact hx e rfl

theorem mem_of_pyGetN {α : Type} {l : List α} {i : ℕ} {a : α} (h : pyGetN l i = .ok a) : a ∈ l := by
  unfold pyGetN at h
  split at h
  · cases h
  · injection h with h; subst h
    rename_i h
    exact List.mem_of_getElem? h

theorem noFuel_foldlM {α β : Type} (f : β → α → Py β) (l : List α) (b : β) (h : ∀ b a, NoFuel (f b a)) :
    NoFuel (l.foldlM f b) := by
  induction l generalizing b with
  | nil => exact noFuel_ok b
  | cons a l ih => rw [List.foldlM_cons]; exact noFuel_bind (h b a) fun b => ih b

theorem noFuel_mapM {α β : Type} (f : α → Py β) (l : List α) (h : ∀ a ∈ l, NoFuel (f a)) :
    NoFuel (l.mapM f) := by
  induction l with
  | nil => exact noFuel_ok _
  | cons a l ih =>
    rw [List.mapM_cons]
    exact noFuel_bind (h a (by simp)) fun b => noFuel_bind (ih fun a ha => h a (by simp [ha])) fun bs => noFuel_ok _

theorem noFuel_pyGetN {α : Type} (l : List α) (i : ℕ) : NoFuel (pyGetN l i) := by
  unfold pyGetN; split
  · exact noFuel_error (by decide)
  · exact noFuel_ok _

theorem noFuel_layerWeights (S : List ℕ) (inputs : List (List ℕ)) : NoFuel (layerWeights S inputs) := by
  unfold layerWeights
  refine noFuel_bind (noFuel_mapM _ _ fun st _ => noFuel_mapM _ _ fun i _ =>
    noFuel_bind (noFuel_pyGetN _ _) fun s => noFuel_bind (noFuel_pyGetN _ _) fun x => ?_) fun ks => ?_
  · unfold natSub; split
    · exact noFuel_ok _
    · exact noFuel_error (by decide)
  · refine noFuel_bind (noFuel_mapM _ _ fun k _ => ?_) fun ws => ?_
    · unfold calculateWeight
      simp only
      split
      · exact noFuel_error (by decide)
      · exact noFuel_foldlM _ _ _ fun w m => noFuel_bind (noFuel_pyGetN _ _) fun s =>
          noFuel_bind (noFuel_pyGetN _ _) fun j => noFuel_ok _
    · split
      · exact noFuel_error (by decide)
      · refine noFuel_mapM _ _ fun w _ => ?_
        unfold floatDiv; split
        · exact noFuel_error (by decide)
        · exact noFuel_ok _

/-- The permanent calculator is not cut off on the states that occur below `S`. -/
def PermEnds (perm : CalcCfg ℂ → Py ℂ) (U : List (List ℂ)) (S : List ℕ) : Prop :=
  ∀ l T, StateLE l S → T.length = S.length → l.sum = T.sum → NoFuel (perm ⟨U, l, T⟩)

theorem PermOn.ends {perm : CalcCfg ℂ → Py ℂ} {U : List (List ℂ)} {S : List ℕ} (h : PermOn perm U S) :
    PermEnds perm U S := by
  intro l T h1 h2 h3
  rw [h l T h1 h2 h3]
  exact noFuel_ok _

section

variable {v : GccVariant} {S : List ℕ} (V : VariantOK v S)

/-- The part of the cache invariant that holds for every matrix. -/
structure ShapeOK (o : GccObj) : Prop where
  input : o.input = S
  labeled : o.labeled = labeledStates S
  val : V.val o.r
  key : o.key = o.r
  cache : ∀ key, assocGet o.pmfs key ≠ none → V.val key → assocGet o.outs key = some (v.next S key)

theorem newLayer_shape {perm : CalcCfg ℂ → Py ℂ} (U : List (List ℂ)) (o : GccObj) (ho : ShapeOK V o) (o' : GccObj)
    (h : newLayer v perm U o = .ok o') : ShapeOK V o' ∧ o'.r = o.r ∧ assocGet o'.pmfs o'.key ≠ none := by
  unfold newLayer at h
  simp only at h
  cases h1 : layerWeights o.input ((assocGet o.labeled (v.count o.r + 1)).getD []) with
  | error e => rw [h1, error_bind] at h; cases h
  | ok ws =>
    rw [h1, ok_bind] at h
    generalize (List.mapM _ (v.next o.input o.r) : Py (List ℝ)) = x at h
    cases x with
    | error e => rw [error_bind] at h; cases h
    | ok pmf =>
      rw [ok_bind] at h
      injection h with h
      subst h
      refine ⟨⟨ho.input, ho.labeled, ho.val, ho.key, fun key h1 h2 => ?_⟩, rfl, ?_⟩
      · simp only [assocGet_set] at h1 ⊢
        by_cases e : key = o.key
        · rw [if_pos e, e, ho.key, ho.input]
        · rw [if_neg e] at h1 ⊢; exact ho.cache key h1 h2
      · simp [assocGet_set]

theorem noFuel_newLayer {perm : CalcCfg ℂ → Py ℂ} {U : List (List ℂ)} (hperm : PermEnds perm U S) (o : GccObj)
    (ho : ShapeOK V o) : NoFuel (newLayer v perm U o) := by
  unfold newLayer
  refine noFuel_bind (noFuel_layerWeights _ _) fun ws => noFuel_bind (noFuel_mapM _ _ fun out hout => ?_)
    fun pmf => noFuel_ok _
  rw [ho.input, V.next _ ho.val] at hout
  obtain ⟨j, hj, rfl⟩ := List.mem_map.mp hout
  rw [ho.input, V.occ _ (V.nx_val _ ho.val j (List.mem_range.mp hj)), ok_bind]
  unfold pmfEntry
  refine noFuel_foldlM _ _ _ fun acc i => noFuel_bind' (noFuel_pyGetN _ _) fun st hst => noFuel_bind ?_ fun p =>
    noFuel_bind (noFuel_pyGetN _ _) fun w => noFuel_ok _
  have hst := mem_of_pyGetN hst
  rw [ho.labeled, labeledStates_get, List.mem_filter, mem_inputSubstates, decide_eq_true_eq] at hst
  have hj := List.mem_range.mp hj
  have hv := V.nx_val _ ho.val j hj
  unfold outputsProbability
  refine noFuel_bind (hperm st _ hst.1 (occOf_length _ _) ?_) fun x => noFuel_ok _
  rw [occOf_sum _ _ (V.lt _ hv), (V.nx_seq _ ho.val j hj).length_eq, hst.2, V.count _ ho.val, List.length_cons]

theorem sample_all (o : GccObj) (ho : ShapeOK V o) :
    (sampleFromLatestPmf o).All
      (fun o' => ShapeOK V o' ∧ (V.seqOf o'.r).length = (V.seqOf o.r).length + 1) NotFuel := by
  cases hP : assocGet o.pmfs o.key with
  | none =>
    have : sampleFromLatestPmf o = .done (.error .keyError) := by
      unfold sampleFromLatestPmf assocGetPy
      rw [hP]; rfl
    rw [this]; exact Prog.all_done_error (by unfold NotFuel; decide)
  | some P =>
    have hO := ho.cache o.key (by rw [hP]; simp) (by rw [ho.key]; exact ho.val)
    rw [sample_eq o P _ hP hO]
    refine Prog.all_uniform fun u _ _ => ?_
    refine Prog.all_bind (I := fun _ => True) (Prog.all_done (fun _ _ => trivial) (noFuel_pyGetN _ _)) fun _ _ => ?_
    refine Prog.all_bind (I := fun r => V.val r ∧ (V.seqOf r).length = (V.seqOf o.r).length + 1)
      (Prog.all_done (fun r hr => ?_) (noFuel_pyGetN _ _)) fun r hr => ?_
    · rw [ho.key, V.next _ ho.val] at hr
      generalize scanIndex (u * P.sum) P 0 = i at hr
      by_cases hi : i < S.length
      · rw [pyGetN_ok (by simpa using hi)] at hr
        injection hr with hr
        rw [← hr]
        simp only [List.getElem_map, List.getElem_range]
        exact ⟨V.nx_val _ ho.val i hi, by rw [(V.nx_seq _ ho.val i hi).length_eq, List.length_cons]⟩
      · rw [pyGetN_err (by simpa using hi)] at hr; cases hr
    · exact Prog.all_done_ok ⟨⟨ho.input, ho.labeled, hr.1, rfl, ho.cache⟩, hr.2⟩

theorem fillStep_all {perm : CalcCfg ℂ → Py ℂ} {U : List (List ℂ)} (hperm : PermEnds perm U S) (o : GccObj)
    (ho : ShapeOK V o) :
    (fillStep v perm U o).All
      (fun o' => ShapeOK V o' ∧ (V.seqOf o'.r).length = (V.seqOf o.r).length + 1) NotFuel := by
  unfold fillStep
  refine Prog.all_bind (I := fun o' => ShapeOK V o' ∧ o'.r = o.r) (Prog.all_done (fun o' h => ?_) ?_) ?_
  · split at h
    · have := newLayer_shape V U o ho o' h; exact ⟨this.1, this.2.1⟩
    · injection h with h; subst h; exact ⟨ho, rfl⟩
  · split
    · exact noFuel_newLayer V hperm o ho
    · exact noFuel_ok _
  · rintro o' ⟨h1, h2⟩
    have := sample_all V o' h1
    rwa [h2] at this

theorem fill_all {perm : CalcCfg ℂ → Py ℂ} {U : List (List ℂ)} (hperm : PermEnds perm U S) (fuel : ℕ)
    (hfuel : S.sum < fuel) (o : GccObj) (hi : o.input = S)
    (hlab : o.labeled = labeledStates S)
    (hc : ∀ key, assocGet o.pmfs key ≠ none → V.val key → assocGet o.outs key = some (v.next S key)) :
    (fillRSample v perm U fuel o).All
      (fun o' => ShapeOK V o' ∧ (V.seqOf o'.r).length = S.sum) NotFuel := by
  unfold fillRSample
  have := Prog.all_loop (E := NotFuel) (cond := fun o : GccObj => decide (v.count o.r < o.input.sum))
    (body := fillStep v perm U)
    (fun d o => ShapeOK V o ∧ (V.seqOf o.r).length + d = S.sum)
    (fun o ho => by rw [decide_eq_false_iff_not, V.count _ ho.1.val, ho.1.input]; omega)
    (fun d o ho => by rw [decide_eq_true_eq, V.count _ ho.1.val, ho.1.input]; omega)
    (fun d o ho r hr => by
      rcases fillStep_all V hperm o ho.1 r hr with ⟨o', h1, h2, h3⟩ | h
      · exact .inl ⟨o', h1, h2, by omega⟩
      · exact .inr h)
    S.sum fuel hfuel { o with r := v.start S, key := v.start S }
    ⟨⟨hi, hlab, V.start_val, rfl, hc⟩, by simp only; rw [V.start_seq]; simp⟩
  rw [hi]
  simpa [hi] using this

/-- Every run of `simulate` that does not raise returns `N` well-formed samples. -/
theorem simulateLoop_all {perm : CalcCfg ℂ → Py ℂ} {U : List (List ℂ)} (hperm : PermEnds perm U S) (fuel : ℕ)
    (hfuel : S.sum < fuel) (N : ℕ) (o : GccObj) (hi : o.input = S)
    (hlab : o.labeled = labeledStates S)
    (hc : ∀ key, assocGet o.pmfs key ≠ none → V.val key → assocGet o.outs key = some (v.next S key)) :
    (simulateLoop v perm U fuel N o).All
      (fun x => x.1.length = N ∧ ∀ T ∈ x.1, T.length = S.length ∧ T.sum = S.sum) NotFuel := by
  induction N generalizing o with
  | zero => exact Prog.all_done_ok ⟨rfl, by simp⟩
  | succ N ih =>
    rw [simulateLoop, Prog.bind_eq]
    refine Prog.all_bind (fill_all V hperm fuel hfuel o hi hlab hc) ?_
    rintro o' ⟨h1, h2⟩
    rw [h1.input, V.occ _ h1.val]
    simp only [Prog.lift_def, Prog.bind_eq, Prog.done_ok_bind]
    refine Prog.all_bind (ih o' h1.input h1.labeled h1.cache) ?_
    rintro ⟨l, o''⟩ ⟨h3, h4⟩
    refine Prog.all_done_ok ⟨by simp only [List.length_cons]; rw [h3], ?_⟩
    intro T hT
    rcases List.mem_cons.mp hT with rfl | hT
    · exact ⟨occOf_length _ _, by rw [occOf_sum _ _ (V.lt _ h1.val), h2]⟩
    · exact h4 T hT

include V in
theorem gccSimulate_all {perm : CalcCfg ℂ → Py ℂ} {U : List (List ℂ)} (hperm : PermEnds perm U S) (fuel : ℕ)
    (hfuel : S.sum < fuel) (N : ℤ) (o : GccObj) :
    (gccSimulate v perm U fuel o S N).All
      (fun x => x.1.length = N.toNat ∧ ∀ T ∈ x.1, T.length = S.length ∧ T.sum = S.sum) NotFuel :=
  simulateLoop_all V hperm fuel hfuel N.toNat _ rfl rfl (fun _ h => absurd rfl h)

/-! ### No run raises when the columns are orthonormal -/

/-- The object of a run that has been possible so far. -/
structure LiveOK (U : List (List ℂ)) (o : GccObj) : Prop where
  cache : CacheOK V U o
  val : V.val o.r
  key : o.key = o.r
  pos : 0 < seqProb (colOf U) S (V.seqOf o.r).length (V.seqOf o.r)

theorem fillStep_live {perm : CalcCfg ℂ → Py ℂ} {U : List (List ℂ)} (hp : PermOn perm U S)
    (hc : UsedOrtho (colOf U) S.length S) (o : GccObj) (ho : LiveOK V U o)
    (hk : (V.seqOf o.r).length < S.sum) :
    (fillStep v perm U o).All
      (fun o' => LiveOK V U o' ∧ (V.seqOf o'.r).length = (V.seqOf o.r).length + 1) (fun _ => False) := by
  obtain ⟨o', h1, h2, h3, h4, h5, h6⟩ := prepare_ok V hp o ho.cache ho.val ho.key hk
  have e : fillStep v perm U o = sampleFromLatestPmf o' := by
    unfold fillStep
    rw [h1]
    rfl
  rw [e, sample_eq o' _ _ h5 h6]
  refine Prog.all_uniform fun u hu0 hu1 => ?_
  have hsum := pmfOf_sum V hc o.r hk
  have hl : (pmfOf V U o.r).length = S.length := by simp [pmfOf]
  have hpos : 0 < (pmfOf V U o.r).sum := by rw [hsum]; exact ho.pos
  obtain ⟨hi, hpi⟩ := scanIndex_lt (pmfOf V U o.r) (u * (pmfOf V U o.r).sum) 0 (mul_nonneg hu0 hpos.le) (by
    rw [zero_add]; exact mul_lt_of_lt_one_left hpos hu1)
  generalize scanIndex (u * (pmfOf V U o.r).sum) (pmfOf V U o.r) 0 = i at hi hpi
  have hi' : i < S.length := hl ▸ hi
  rw [pyGetN_ok hi, V.next _ ho.val, pyGetN_ok (by simpa using hi')]
  simp only [Prog.done_ok_bind]
  refine Prog.all_done_ok ⟨⟨⟨h2.input, h2.labeled, h2.cache⟩, ?_, rfl, ?_⟩, ?_⟩
  · simpa using V.nx_val _ ho.val i hi'
  · have hs := V.nx_seq _ ho.val i hi'
    simp only [List.getElem_map, List.getElem_range]
    rw [hs.length_eq, List.length_cons, seqProb_perm _ _ _ hs]
    rw [getD_of_lt _ _ hi] at hpi
    simpa [pmfOf] using hpi
  · simp only [List.getElem_map, List.getElem_range]
    rw [(V.nx_seq _ ho.val i hi').length_eq, List.length_cons]

theorem fill_live {perm : CalcCfg ℂ → Py ℂ} {U : List (List ℂ)} (hp : PermOn perm U S)
    (hc : UsedOrtho (colOf U) S.length S) (fuel : ℕ) (hfuel : S.sum < fuel) (o : GccObj)
    (ho : CacheOK V U o) :
    (fillRSample v perm U fuel o).All
      (fun o' => CacheOK V U o' ∧ V.val o'.r ∧ (V.seqOf o'.r).length = S.sum) (fun _ => False) := by
  unfold fillRSample
  have := Prog.all_loop (E := fun _ => False) (cond := fun o : GccObj => decide (v.count o.r < o.input.sum))
    (body := fillStep v perm U)
    (fun d o => LiveOK V U o ∧ (V.seqOf o.r).length + d = S.sum)
    (fun o ho => by rw [decide_eq_false_iff_not, V.count _ ho.1.val, ho.1.cache.input]; omega)
    (fun d o ho => by rw [decide_eq_true_eq, V.count _ ho.1.val, ho.1.cache.input]; omega)
    (fun d o ho r hr => by
      rcases fillStep_live V hp hc o ho.1 (by omega) r hr with ⟨o', h1, h2, h3⟩ | h
      · exact .inl ⟨o', h1, h2, by omega⟩
      · exact .inr h)
    S.sum fuel hfuel { o with r := v.start S, key := v.start S }
    ⟨⟨⟨ho.input, ho.labeled, ho.cache⟩, V.start_val, rfl, by simp only; rw [V.start_seq]; simp [seqProb_zero]⟩,
      by simp only; rw [V.start_seq]; simp⟩
  rw [ho.input]
  intro r hr
  rcases this r (by simpa [ho.input] using hr) with ⟨a, h1, h2, h3⟩ | h
  · exact .inl ⟨a, h1, h2.cache, h2.val, by omega⟩
  · exact .inr h

theorem simulateLoop_live {perm : CalcCfg ℂ → Py ℂ} {U : List (List ℂ)} (hp : PermOn perm U S)
    (hc : UsedOrtho (colOf U) S.length S) (fuel : ℕ) (hfuel : S.sum < fuel) (N : ℕ) (o : GccObj)
    (ho : CacheOK V U o) :
    (simulateLoop v perm U fuel N o).All
      (fun x => x.1.length = N ∧ ∀ T ∈ x.1, T.length = S.length ∧ T.sum = S.sum) (fun _ => False) := by
  induction N generalizing o with
  | zero => exact Prog.all_done_ok ⟨rfl, by simp⟩
  | succ N ih =>
    rw [simulateLoop, Prog.bind_eq]
    refine Prog.all_bind (fill_live V hp hc fuel hfuel o ho) ?_
    rintro o' ⟨h1, h2, h2'⟩
    rw [h1.input, V.occ _ h2]
    simp only [Prog.lift_def, Prog.bind_eq, Prog.done_ok_bind]
    refine Prog.all_bind (ih o' h1) ?_
    rintro ⟨l, o''⟩ ⟨h3, h4⟩
    refine Prog.all_done_ok ⟨by simp only [List.length_cons]; rw [h3], ?_⟩
    intro T hT
    rcases List.mem_cons.mp hT with rfl | hT
    · exact ⟨occOf_length _ _, by rw [occOf_sum _ _ (V.lt _ h2), h2']⟩
    · exact h4 T hT

include V in
theorem gccSimulate_live {perm : CalcCfg ℂ → Py ℂ} {U : List (List ℂ)} (hp : PermOn perm U S)
    (hc : UsedOrtho (colOf U) S.length S) (fuel : ℕ) (hfuel : S.sum < fuel) (N : ℤ) (o : GccObj) :
    (gccSimulate v perm U fuel o S N).All
      (fun x => x.1.length = N.toNat ∧ ∀ T ∈ x.1, T.length = S.length ∧ T.sum = S.sum) (fun _ => False) :=
  simulateLoop_live V hp hc fuel hfuel N.toNat _ ⟨rfl, rfl, fun _ _ h => by simp [assocGet] at h⟩

end

end Verif
