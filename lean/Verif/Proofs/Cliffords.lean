import Verif.Proofs.Layer

/-! Helper lemmas: the generalized Clifford & Clifford sampler. -/
namespace Verif

open Finset
open scoped ENNReal

namespace Prog

@[simp] theorem lift_def (α : Type) (r : Py α) :
    (@liftM (Except PyErr) Prog _ α r) = .done r := rfl

end Prog

theorem assocGetPy_ok {κ V : Type} [DecidableEq κ] {d : List (κ × V)} {k : κ} {v : V}
    (h : assocGet d k = some v) : assocGetPy d k = .ok v := by unfold assocGetPy; rw [h]

theorem sample_eq (o : GccObj) (P : List ℝ) (O : List (List ℕ)) (hP : assocGet o.pmfs o.key = some P)
    (hO : assocGet o.outs o.key = some O) :
    sampleFromLatestPmf o = .uniform fun u =>
      (Prog.done (pyGetN P (scanIndex (u * P.sum) P 0))).bind fun _ =>
      (Prog.done (pyGetN O (scanIndex (u * P.sum) P 0))).bind fun r =>
        .done (.ok { o with r := r, key := r }) := by
  unfold sampleFromLatestPmf
  rw [assocGetPy_ok hP, assocGetPy_ok hO]
  rfl

theorem sample_wp (o : GccObj) (P : List ℝ) (O : List (List ℕ)) (hP : assocGet o.pmfs o.key = some P)
    (hO : assocGet o.outs o.key = some O) (hlen : O.length = P.length) (hnn : ∀ p ∈ P, 0 ≤ p)
    (hpos : 0 < P.sum) (f : Py GccObj → ℝ≥0∞) :
    (sampleFromLatestPmf o).wp f = ∑ i ∈ range P.length, ENNReal.ofReal (P.getD i 0 / P.sum) *
      f (.ok { o with r := O.getD i [], key := O.getD i [] }) := by
  rw [sample_eq o P O hP hO, ← scan_uniform P hnn hpos (fun i => f (.ok { o with r := O.getD i [], key := O.getD i [] }))]
  simp only [Prog.wp]
  refine MeasureTheory.setLIntegral_congr_fun measurableSet_Ico fun u hu => ?_
  have h := (scanIndex_lt P (u * P.sum) 0 (mul_nonneg hu.1 hpos.le) (by
    rw [zero_add]; exact mul_lt_of_lt_one_left hpos hu.2)).1
  rw [pyGetN_ok h, pyGetN_ok (hlen.symm ▸ h)]
  simp only [Prog.done_ok_bind, Prog.wp]
  rw [getD_of_lt _ _ (hlen.symm ▸ h)]

/-- What the proofs need to know about a variant of the sampler. -/
structure VariantOK (v : GccVariant) (S : List ℕ) where
  val : List ℕ → Prop
  seqOf : List ℕ → List ℕ
  nx : List ℕ → ℕ → List ℕ
  start_val : val (v.start S)
  start_seq : seqOf (v.start S) = []
  next : ∀ r, val r → v.next S r = (List.range S.length).map (nx r)
  nx_val : ∀ r, val r → ∀ j < S.length, val (nx r j)
  nx_seq : ∀ r, val r → ∀ j < S.length, (seqOf (nx r j)).Perm (j :: seqOf r)
  count : ∀ r, val r → v.count r = (seqOf r).length
  occ : ∀ r, val r → v.occ S r = .ok (occOf S.length (seqOf r))
  lt : ∀ r, val r → ∀ x ∈ seqOf r, x < S.length

theorem particles_occOf {m : ℕ} {w : List ℕ} (h : ∀ x ∈ w, x < m) : (particles (occOf m w)).Perm w := by
  rw [List.perm_iff_count]
  intro j
  rw [count_particles]
  by_cases hj : j < m
  · rw [getD_of_lt _ _ (by simpa [occOf] using hj)]; simp [occOf]
  · rw [List.getD_eq_getElem?_getD, List.getElem?_eq_none (by simp [occOf]; omega), Option.getD_none]
    symm
    rw [List.count_eq_zero]
    exact fun hm => hj (h j hm)

theorem occOf_perm {m : ℕ} {w w' : List ℕ} (h : w.Perm w') : occOf m w = occOf m w' :=
  List.map_congr_left fun j _ => h.count_eq j

theorem modify_particles (r : List ℕ) (j : ℕ) (hj : j < r.length) :
    (particles (r.modify j (· + 1))).Perm (j :: particles r) := by
  rw [List.perm_iff_count]
  intro i
  rw [count_particles, List.count_cons, count_particles]
  rw [List.getD_eq_getElem?_getD, List.getD_eq_getElem?_getD, List.getElem?_modify]
  by_cases h : j = i
  · subst h; simp [hj]
  · simp [h]

/-- The occupation variant. -/
def okA (S : List ℕ) : VariantOK gccA S where
  val r := r.length = S.length
  seqOf := particles
  nx r j := r.modify j (· + 1)
  start_val := by simp [gccA]
  start_seq := by
    apply List.eq_nil_of_length_eq_zero
    rw [particlesFrom_length]; simp [gccA]
  next r hr := by simp [gccA, hr]
  nx_val r hr j _ := by simp [hr]
  nx_seq r hr j hj := modify_particles r j (by omega)
  count r _ := by rw [particlesFrom_length]; rfl
  occ r hr := by rw [← hr, occOf_particles]; rfl
  lt r hr x hx := by have := particlesFrom_range hx; omega

/-- The assignment variant (at least one mode). -/
def okAssignment (S : List ℕ) (hS : S ≠ []) : VariantOK gccAssignment S where
  val r := ∀ x ∈ r, x < S.length
  seqOf r := r
  nx r j := r ++ [j]
  start_val := by simp [gccAssignment]
  start_seq := rfl
  next r _ := rfl
  nx_val r hr j hj := by
    intro x hx
    rcases List.mem_append.mp hx with h | h
    · exact hr x h
    · rw [List.mem_singleton.mp h]; exact hj
  nx_seq r _ j _ := List.perm_append_singleton j r
  count r _ := rfl
  occ r hr := by
    have := asgToOcc_ok r S.length (List.length_pos_of_ne_nil hS) hr
    simp only [gccAssignment, occOf]
    exact this
  lt r hr := hr

section

variable {v : GccVariant} {S : List ℕ} (V : VariantOK v S)

/-- The pmf stored for a key. -/
noncomputable def pmfOf (U : List (List ℂ)) (r : List ℕ) : List ℝ :=
  (List.range S.length).map fun j => seqProb (colOf U) S ((V.seqOf r).length + 1) (j :: V.seqOf r)

theorem pmfOf_sum {U : List (List ℂ)} (hc : UsedOrtho (colOf U) S.length S) (r : List ℕ)
    (hk : (V.seqOf r).length < S.sum) :
    (pmfOf V U r).sum = seqProb (colOf U) S (V.seqOf r).length (V.seqOf r) := by
  rw [← seqProb_marginal hc _ hk, pmfOf, ← List.sum_toFinset _ List.nodup_range]
  refine sum_congr ?_ fun _ _ => rfl
  ext; simp

/-- The cache only contains what would be recomputed. -/
structure CacheOK (U : List (List ℂ)) (o : GccObj) : Prop where
  input : o.input = S
  labeled : o.labeled = labeledStates S
  cache : ∀ key pmf, assocGet o.pmfs key = some pmf → V.val key → (V.seqOf key).length < S.sum →
    pmf = pmfOf V U key ∧ assocGet o.outs key = some (v.next S key)

theorem newLayer_ok {perm : CalcCfg ℂ → Py ℂ} {U : List (List ℂ)} (hp : PermOn perm U S) (o : GccObj)
    (hi : o.input = S) (hl : o.labeled = labeledStates S) (hr : V.val o.r)
    (hk : (V.seqOf o.r).length < S.sum) :
    newLayer v perm U o = .ok { o with
      outs := assocSet o.outs o.key (v.next S o.r), pmfs := assocSet o.pmfs o.key (pmfOf V U o.r) } := by
  unfold newLayer
  simp only [hi, hl]
  rw [labeledStates_get, V.count _ hr]
  change (layerWeights S (subStates S _) >>= _) = _
  rw [layerWeights_ok S _ hk, ok_bind]
  have h2 := V.nx_seq _ hr
  have := layer_pmf hp ((V.seqOf o.r).length + 1) (v.next S o.r) (v.occ S)
    (fun out => occOf S.length (V.seqOf out)) (by
      intro out hout
      rw [V.next _ hr] at hout
      obtain ⟨j, hj, rfl⟩ := List.mem_map.mp hout
      have hj := List.mem_range.mp hj
      refine ⟨V.occ _ (V.nx_val _ hr _ hj), occOf_length _ _, ?_⟩
      rw [occOf_sum _ _ (V.lt _ (V.nx_val _ hr _ hj)), (h2 j hj).length_eq, List.length_cons])
  change (((v.next S o.r).mapM fun out => do
      let occ ← v.occ S out
      pmfEntry perm U (subStates S ((V.seqOf o.r).length + 1)) _ occ : Py (List ℝ)) >>= _) = _
  rw [this, ok_bind, pure_eq_ok]
  have e : (v.next S o.r).map (fun out => seqProb (colOf U) S ((V.seqOf o.r).length + 1)
      (particles (occOf S.length (V.seqOf out)))) = pmfOf V U o.r := ?_
  · rw [e]
  unfold pmfOf
  rw [V.next _ hr, List.map_map]
  refine List.map_congr_left fun j hj => ?_
  have hj := List.mem_range.mp hj
  exact seqProb_perm _ _ _ ((particles_occOf (V.lt _ (V.nx_val _ hr _ hj))).trans (h2 j hj))

/-- Looking the pmf up or computing it ends in the same kind of object. -/
theorem prepare_ok {perm : CalcCfg ℂ → Py ℂ} {U : List (List ℂ)} (hp : PermOn perm U S) (o : GccObj)
    (ho : CacheOK V U o) (hr : V.val o.r) (hkey : o.key = o.r) (hk : (V.seqOf o.r).length < S.sum) :
    ∃ o', (if assocGet o.pmfs o.key = none then newLayer v perm U o else pure o : Py _) = .ok o' ∧
      CacheOK V U o' ∧ o'.r = o.r ∧ o'.key = o.r ∧ assocGet o'.pmfs o'.key = some (pmfOf V U o.r) ∧
      assocGet o'.outs o'.key = some (v.next S o.r) := by
  by_cases h : assocGet o.pmfs o.key = none
  · rw [if_pos h, newLayer_ok V hp o ho.input ho.labeled hr hk]
    refine ⟨_, rfl, ⟨ho.input, ho.labeled, ?_⟩, rfl, hkey, ?_, ?_⟩
    · intro key pmf h1 h2 h3
      simp only [assocGet_set] at h1 ⊢
      by_cases e : key = o.key
      · rw [if_pos e] at h1 ⊢
        injection h1 with h1
        rw [e, hkey]
        exact ⟨h1.symm, rfl⟩
      · rw [if_neg e] at h1 ⊢
        exact ho.cache key pmf h1 h2 h3
    · simp [assocGet_set]
    · simp [assocGet_set]
  · rw [if_neg h]
    obtain ⟨P, hP⟩ := Option.ne_none_iff_exists'.mp h
    have := ho.cache _ _ hP (hkey ▸ hr) (hkey ▸ hk)
    rw [hkey] at this
    exact ⟨o, rfl, ho, rfl, hkey, by rw [hP, this.1], by rw [hkey]; exact this.2⟩

theorem pmfOf_nonneg (U : List (List ℂ)) (r : List ℕ) : ∀ p ∈ pmfOf V U r, 0 ≤ p := by
  intro p hp
  obtain ⟨j, -, rfl⟩ := List.mem_map.mp hp
  exact seqProb_nonneg _ _ _ _

/-- One step of the sampler: some object with a valid cache, and the next particle chosen with the
conditional probability. -/
theorem fillStep_wp {perm : CalcCfg ℂ → Py ℂ} {U : List (List ℂ)} (hp : PermOn perm U S)
    (hc : UsedOrtho (colOf U) S.length S) (o : GccObj)
    (ho : CacheOK V U o) (hr : V.val o.r) (hkey : o.key = o.r) (hk : (V.seqOf o.r).length < S.sum)
    (hpos : 0 < seqProb (colOf U) S (V.seqOf o.r).length (V.seqOf o.r)) :
    ∃ o', CacheOK V U o' ∧ ∀ f : Py GccObj → ℝ≥0∞, (fillStep v perm U o).wp f
      = ∑ j ∈ range S.length,
        ENNReal.ofReal (seqProb (colOf U) S ((V.seqOf o.r).length + 1) (j :: V.seqOf o.r)
          / seqProb (colOf U) S (V.seqOf o.r).length (V.seqOf o.r))
        * f (.ok { o' with r := V.nx o.r j, key := V.nx o.r j }) := by
  obtain ⟨o', h1, h2, h3, h4, h5, h6⟩ := prepare_ok V hp o ho hr hkey hk
  refine ⟨o', h2, fun f => ?_⟩
  have e : fillStep v perm U o = sampleFromLatestPmf o' := by
    unfold fillStep
    rw [h1]
    rfl
  have hlen : (v.next S o.r).length = (pmfOf V U o.r).length := by rw [V.next _ hr]; simp [pmfOf]
  have hsum := pmfOf_sum V hc o.r hk
  rw [e, sample_wp o' _ _ h5 h6 hlen (pmfOf_nonneg V U o.r) (by rw [hsum]; exact hpos), hsum]
  have hl : (pmfOf V U o.r).length = S.length := by simp [pmfOf]
  rw [hl]
  refine sum_congr rfl fun j hj => ?_
  have hj := mem_range.mp hj
  rw [V.next _ hr, getD_of_lt (pmfOf V U o.r) _ (by rw [hl]; exact hj), getD_of_lt _ _ (by simpa using hj)]
  simp [pmfOf]

end

theorem seqProb_zero_append {c : ℕ → ℕ → ℂ} {m : ℕ} {S : List ℕ} (hc : UsedOrtho c m S) (k : ℕ)
    (rs : List ℕ) (h0 : seqProb c S k rs = 0) (d : ℕ) (hd : k + d ≤ S.sum) (w : List ℕ) (hw : w ∈ words m d) :
    seqProb c S (k + d) (w ++ rs) = 0 := by
  induction d generalizing w with
  | zero =>
    rw [words, mem_singleton] at hw
    rw [hw]; exact h0
  | succ d ih =>
    obtain ⟨h1, h2⟩ := mem_words.mp hw
    cases w with
    | nil => simp at h1
    | cons a w =>
      exact phi_zero_of_cons hc (k + d) (by omega) (w ++ rs)
        (ih (by omega) w (mem_words.mpr ⟨by simpa using h1, fun x hx => h2 x (by simp [hx])⟩)) a
        (h2 a (by simp))

theorem sum_words_append {A : Type*} [AddCommMonoid A] (m d : ℕ) (rs : List ℕ) (F : List ℕ → A)
    (hF : ∀ a b : List ℕ, a.Perm b → F a = F b) :
    ∑ w ∈ words m (d + 1), F (w ++ rs) = ∑ j ∈ range m, ∑ w ∈ words m d, F (w ++ j :: rs) := by
  rw [sum_words_succ, sum_comm]
  refine sum_congr rfl fun j _ => sum_congr rfl fun w _ => hF _ _ ?_
  exact List.perm_middle.symm

section

variable {v : GccVariant} {S : List ℕ} (V : VariantOK v S)

/-- The loop of `_fill_r_sample`: chain rule over the remaining particles. -/
theorem fillLoop_wp {perm : CalcCfg ℂ → Py ℂ} {U : List (List ℂ)} (hp : PermOn perm U S)
    (hc : UsedOrtho (colOf U) S.length S) (f : Py GccObj → ℝ≥0∞) (G : List ℕ → ℝ≥0∞)
    (hG : ∀ a b : List ℕ, a.Perm b → G a = G b)
    (hf : ∀ o, CacheOK V U o → V.val o.r → (V.seqOf o.r).length = S.sum → f (.ok o) = G (V.seqOf o.r))
    (d fuel : ℕ) (hfuel : d < fuel) (o : GccObj) (ho : CacheOK V U o) (hr : V.val o.r) (hkey : o.key = o.r)
    (hk : (V.seqOf o.r).length + d = S.sum) :
    ENNReal.ofReal (seqProb (colOf U) S (V.seqOf o.r).length (V.seqOf o.r)) *
      (Prog.loop fuel (fun o => decide (v.count o.r < o.input.sum)) (fillStep v perm U) o).wp f
    = ∑ w ∈ words S.length d,
        ENNReal.ofReal (seqProb (colOf U) S S.sum (w ++ V.seqOf o.r)) * G (w ++ V.seqOf o.r) := by
  induction d generalizing fuel o with
  | zero =>
    obtain ⟨fuel, rfl⟩ : ∃ x, fuel = x + 1 := ⟨fuel - 1, by omega⟩
    rw [Prog.loop_succ, V.count _ hr, ho.input]
    rw [if_neg (by simp; omega)]
    simp only [Prog.wp, words, sum_singleton, List.nil_append]
    have hk' : (V.seqOf o.r).length = S.sum := by omega
    rw [hf o ho hr hk', hk']
  | succ d ih =>
    obtain ⟨fuel, rfl⟩ : ∃ x, fuel = x + 1 := ⟨fuel - 1, by omega⟩
    have hlt : (V.seqOf o.r).length < S.sum := by omega
    by_cases h0 : seqProb (colOf U) S (V.seqOf o.r).length (V.seqOf o.r) = 0
    · rw [h0, ENNReal.ofReal_zero, zero_mul]
      symm
      refine sum_eq_zero fun w hw => ?_
      rw [← hk, seqProb_zero_append hc _ _ h0 (d + 1) hk.le w hw, ENNReal.ofReal_zero, zero_mul]
    · have hpos := lt_of_le_of_ne (seqProb_nonneg (colOf U) S (V.seqOf o.r).length (V.seqOf o.r)) (Ne.symm h0)
      obtain ⟨o', ho', hstep⟩ := fillStep_wp V hp hc o ho hr hkey hlt hpos
      rw [Prog.loop_succ, V.count _ hr, ho.input, if_pos (by simpa using hlt), Prog.wp_bind, hstep, mul_sum]
      rw [sum_words_append _ _ _ (fun w => ENNReal.ofReal (seqProb (colOf U) S S.sum w) * G w)
        (fun a b h => by rw [seqProb_perm _ _ _ h, hG _ _ h])]
      refine sum_congr rfl fun j hj => ?_
      have hj := mem_range.mp hj
      have hn := V.nx_seq _ hr j hj
      have hi := ih fuel (by omega) { o' with r := V.nx o.r j, key := V.nx o.r j }
        ⟨ho'.input, ho'.labeled, ho'.cache⟩ (V.nx_val _ hr j hj) rfl
        (by simp only; rw [hn.length_eq, List.length_cons]; omega)
      simp only at hi
      rw [← mul_assoc, ← ENNReal.ofReal_mul hpos.le, mul_div_cancel₀ _ h0]
      rw [hn.length_eq, List.length_cons, seqProb_perm _ _ _ hn] at hi
      rw [Prog.post, hi]
      refine sum_congr rfl fun w _ => ?_
      rw [seqProb_perm _ _ _ (hn.append_left w), hG _ _ (hn.append_left w)]

end

/-- All states with `m` modes and `k` particles. -/
def statesFin (m k : ℕ) : Finset (List ℕ) := (words m k).image (occOf m)

theorem mem_statesFin (m k : ℕ) (T : List ℕ) : T ∈ statesFin m k ↔ T.length = m ∧ T.sum = k := by
  unfold statesFin
  rw [mem_image]
  constructor
  · rintro ⟨w, hw, rfl⟩
    obtain ⟨h1, h2⟩ := mem_words.mp hw
    exact ⟨occOf_length _ _, by rw [occOf_sum _ _ h2, h1]⟩
  · rintro ⟨h1, h2⟩
    refine ⟨particles T, mem_words.mpr ⟨by rw [particlesFrom_length, h2], fun x hx => ?_⟩, ?_⟩
    · have := particlesFrom_range hx; omega
    · rw [← h1, occOf_particles]

theorem sum_words_states' {A : Type*} [AddCommMonoid A] (m k : ℕ) (f : List ℕ → A)
    (hf : ∀ w w' : List ℕ, w.Perm w' → f w = f w') :
    ∑ w ∈ words m k, f w = ∑ T ∈ statesFin m k, (arrangements (particles T : Multiset ℕ)).card • f (particles T) := by
  rw [← sum_fiberwise_of_maps_to (g := occOf m) (t := statesFin m k)]
  · refine sum_congr rfl fun T hT => ?_
    obtain ⟨h1, h2⟩ := (mem_statesFin m k T).mp hT
    have : (words m k).filter (fun w => occOf m w = T) = arrangements (particles T : Multiset ℕ) := by
      ext w; rw [mem_arr_particles h1, mem_filter, h2]
    rw [this, sum_congr rfl fun w hw => hf w (particles T) (Multiset.coe_eq_coe.mp (mem_arrangements.mp hw)),
      sum_const]
  · intro w hw
    exact mem_image_of_mem _ hw

/-- Expectation over output sequences as expectation over output states. -/
theorem sum_seq_states (U : List (List ℂ)) (S : List ℕ) (m k : ℕ) (G : List ℕ → ℝ≥0∞)
    (hG : ∀ a b : List ℕ, a.Perm b → G a = G b) :
    ∑ w ∈ words m k, ENNReal.ofReal (seqProb (colOf U) S k w) * G w
      = ∑ T ∈ statesFin m k, ENNReal.ofReal (fixedLossProb U S k T) * G (particles T) := by
  rw [sum_words_states' m k _ (fun a b h => by rw [seqProb_perm _ _ _ h, hG _ _ h])]
  refine sum_congr rfl fun T hT => ?_
  obtain ⟨h1, h2⟩ := (mem_statesFin m k T).mp hT
  rw [fixedLossProb_eq_seq U S T k h2, nsmul_eq_mul, ← mul_assoc]
  congr 1
  rw [← ENNReal.ofReal_natCast, ← ENNReal.ofReal_mul (by positivity)]
  congr 2
  have := card_arr_particles T
  rw [← h2, ← this]
  have := (factProd_pos T).ne'
  push_cast
  field_simp

section

variable {v : GccVariant} {S : List ℕ} (V : VariantOK v S)

theorem fill_wp {perm : CalcCfg ℂ → Py ℂ} {U : List (List ℂ)} (hp : PermOn perm U S)
    (hc : UsedOrtho (colOf U) S.length S) (f : Py GccObj → ℝ≥0∞) (G : List ℕ → ℝ≥0∞)
    (hf : ∀ o, CacheOK V U o → V.val o.r → (V.seqOf o.r).length = S.sum →
      f (.ok o) = G (occOf S.length (V.seqOf o.r)))
    (fuel : ℕ) (hfuel : S.sum < fuel) (o : GccObj) (ho : CacheOK V U o) :
    (fillRSample v perm U fuel o).wp f
      = ∑ T ∈ statesFin S.length S.sum, ENNReal.ofReal (bosonProb U S T) * G T := by
  have h := fillLoop_wp V hp hc f (fun w => G (occOf S.length w)) (fun a b h => by rw [occOf_perm h]) hf
    S.sum fuel hfuel { o with r := v.start S, key := v.start S } ⟨ho.input, ho.labeled, ho.cache⟩
    V.start_val rfl (by simp only; rw [V.start_seq]; simp)
  simp only [V.start_seq, List.length_nil, seqProb_zero, ENNReal.ofReal_one, one_mul, List.append_nil] at h
  unfold fillRSample
  have e : v.start o.input = v.start S := by rw [ho.input]
  rw [e, h, sum_seq_states U S _ _ _ (fun a b h => by rw [occOf_perm h])]
  refine sum_congr rfl fun T hT => ?_
  rw [fixedLossProb_full]
  have := ((mem_statesFin _ _ T).mp hT).1
  rw [← this, occOf_particles]

/-- Expectation over a list of independent samples with weights `p` on a set of states. -/
noncomputable def expIid (𝒯 : Finset (List ℕ)) (p : List ℕ → ℝ≥0∞) :
    ℕ → (List (List ℕ) → ℝ≥0∞) → ℝ≥0∞
  | 0, g => g []
  | n + 1, g => ∑ T ∈ 𝒯, p T * expIid 𝒯 p n fun l => g (T :: l)

theorem simulateLoop_wp {perm : CalcCfg ℂ → Py ℂ} {U : List (List ℂ)} (hp : PermOn perm U S)
    (hc : UsedOrtho (colOf U) S.length S) (fuel : ℕ) (hfuel : S.sum < fuel) (N : ℕ)
    (g : List (List ℕ) → ℝ≥0∞) (f : Py (List (List ℕ) × GccObj) → ℝ≥0∞)
    (hf : ∀ l o, f (.ok (l, o)) = g l) (o : GccObj) (ho : CacheOK V U o) :
    (simulateLoop v perm U fuel N o).wp f
      = expIid (statesFin S.length S.sum) (fun T => ENNReal.ofReal (bosonProb U S T)) N g := by
  induction N generalizing g f o with
  | zero => exact hf [] o
  | succ N ih =>
    rw [simulateLoop, Prog.bind_eq, Prog.wp_bind, expIid]
    refine fill_wp V hp hc _ (fun T => expIid (statesFin S.length S.sum)
      (fun T => ENNReal.ofReal (bosonProb U S T)) N fun l => g (T :: l)) ?_ fuel hfuel o ho
    intro o' ho' hr' _
    rw [Prog.post, ho'.input, V.occ _ hr']
    simp only [Prog.lift_def, Prog.bind_eq, Prog.done_ok_bind]
    rw [Prog.wp_bind]
    exact ih (fun l => g (occOf S.length (V.seqOf o'.r) :: l)) _ (fun l o => hf _ o) o' ho'

include V in
theorem simulate_wp {perm : CalcCfg ℂ → Py ℂ} {U : List (List ℂ)} (hp : PermOn perm U S)
    (hc : UsedOrtho (colOf U) S.length S) (fuel : ℕ) (hfuel : S.sum < fuel) (N : ℤ)
    (g : List (List ℕ) → ℝ≥0∞) (f : Py (List (List ℕ) × GccObj) → ℝ≥0∞)
    (hf : ∀ l o, f (.ok (l, o)) = g l) (o : GccObj) :
    (gccSimulate v perm U fuel o S N).wp f
      = expIid (statesFin S.length S.sum) (fun T => ENNReal.ofReal (bosonProb U S T)) N.toNat g :=
  simulateLoop_wp V hp hc fuel hfuel N.toNat g f hf _
    ⟨rfl, rfl, fun _ _ h => by simp [assocGet] at h⟩

end

open Classical in
/-- The joint probability of independent samples is the product. -/
theorem expIid_indicator (𝒯 : Finset (List ℕ)) (p : List ℕ → ℝ≥0∞) (l : List (List ℕ)) (h : ∀ T ∈ l, T ∈ 𝒯) :
    expIid 𝒯 p l.length (fun l' => if l' = l then 1 else 0) = (l.map p).prod := by
  induction l with
  | nil => simp [expIid]
  | cons T l ih =>
    rw [List.length_cons, expIid, sum_eq_single T]
    · simp only [List.cons.injEq, true_and]
      rw [ih fun T hT => h T (by simp [hT]), List.map_cons, List.prod_cons]
    · intro T' _ hne
      simp only [List.cons.injEq, hne, false_and, if_false]
      have : ∀ n, expIid 𝒯 p n (fun _ => 0) = 0 := by
        intro n
        induction n with
        | zero => rfl
        | succ n ih => simp [expIid, ih]
      rw [this, mul_zero]
    · intro hT; exact absurd (h T (by simp)) hT

end Verif
