import Verif.Model.CliffordsB
import Verif.Proofs.CliffordsRuns
import Verif.Proofs.PermFinal

/-! Helper lemmas: version B of the generalized Clifford & Clifford sampler. -/
namespace Verif

open Finset
open scoped ENNReal

/-! ### Removing one element of a list -/

theorem sum_picks_index {M : Type*} [AddCommMonoid M] (l : List ℕ) (Φ : ℕ → List ℕ → M) :
    ∑ i ∈ range l.length, Φ (l.getD i 0) (l.eraseIdx i) = ((picks l).map fun p => Φ p.1 p.2).sum := by
  induction l generalizing Φ with
  | nil => simp [picks]
  | cons a l ih =>
    rw [List.length_cons, sum_range_succ', picks, List.map_cons, List.sum_cons, List.map_map]
    have := ih (fun x w => Φ x (a :: w))
    simp only [List.getD_cons_succ, List.eraseIdx_cons_succ, List.getD_cons_zero, List.eraseIdx_cons_zero]
    rw [this, add_comm]
    rfl

theorem sum_picks_erase2 {M : Type*} [AddCommMonoid M] (l : List ℕ) (Φ : ℕ → List ℕ → M)
    (hΦ : ∀ x, ∀ a b : List ℕ, a.Perm b → Φ x a = Φ x b) :
    ((picks l).map fun p => Φ p.1 p.2).sum = (l.map fun x => Φ x (l.erase x)).sum := by
  have h : ((picks l).map fun p => Φ p.1 p.2) = (picks l).map fun p => Φ p.1 (l.erase p.1) := by
    refine List.map_congr_left fun p hp => hΦ _ _ _ ?_
    have := (picks_perm hp).erase p.1
    rwa [List.erase_cons_head] at this
  rw [h]
  conv_rhs => rw [← picks_fst l, List.map_map]
  rw [picks_fst]
  rfl

theorem sum_picks_perm {M : Type*} [AddCommMonoid M] {l l' : List ℕ} (h : l.Perm l') (Φ : ℕ → List ℕ → M)
    (hΦ : ∀ x, ∀ a b : List ℕ, a.Perm b → Φ x a = Φ x b) :
    ((picks l).map fun p => Φ p.1 p.2).sum = ((picks l').map fun p => Φ p.1 p.2).sum := by
  rw [sum_picks_erase2 l Φ hΦ, sum_picks_erase2 l' Φ hΦ, (h.map _).sum_eq]
  congr 1
  exact List.map_congr_left fun x _ => hΦ _ _ _ (h.erase x)

theorem sum_picks_set2 {S : List ℕ} {M : Type*} [AddCommMonoid M] (A : Finset (Particle S))
    (Φ : ℕ → List ℕ → M) (hΦ : ∀ x, ∀ a b : List ℕ, a.Perm b → Φ x a = Φ x b) :
    ((picks (modesOf A)).map fun p => Φ p.1 p.2).sum = ∑ a ∈ A, Φ a.1.1 (modesOf (A.erase a)) := by
  rw [sum_picks_erase2 _ Φ hΦ]
  conv_lhs => rw [modesOf]
  rw [List.map_map, ← sum_map_toList A (fun a => Φ a.1.1 (modesOf (A.erase a)))]
  congr 1
  refine List.map_congr_left fun a ha => hΦ _ _ _ ?_
  have h1 := (modesOf_erase A a (mem_toList.mp ha)).erase a.1.1
  rw [List.erase_cons_head] at h1
  exact h1

/-! ### The step as one pick followed by a part that does not look at the working list -/

/-- The part of a step after the pick: the new `_current_input` and `r_sample`. -/
noncomputable def gccbTail (sub : CalcCfg ℂ → Py (List ℂ)) (U : List (List ℂ)) (m : ℕ) (cur r : List ℕ) :
    Prog (List ℕ × List ℕ) :=
  (Prog.done (gccbPmf sub U cur r)).bind fun pmf =>
  (Prog.done (if pmf.length = m then .ok () else .error .valueError : Py Unit)).bind fun _ =>
  .choice pmf fun j =>
  (Prog.done (pyGetN r j)).bind fun x =>
  (Prog.done (pySetN r j (x + 1))).bind fun r' => .done (.ok (cur, r'))

/-- A step after the pick of mode `x`. -/
noncomputable def gccbCore (sub : CalcCfg ℂ → Py (List ℂ)) (U : List (List ℂ)) (m : ℕ) (cur r : List ℕ) (x : ℕ) :
    Prog (List ℕ × List ℕ) :=
  (Prog.done (pyGetN cur x)).bind fun v =>
  (Prog.done (pySetN cur x (v + 1))).bind fun cur' => gccbTail sub U m cur' r

theorem gccbStep_eq (sub : CalcCfg ℂ → Py (List ℂ)) (U : List (List ℂ)) (m : ℕ) (s : GccbState) :
    gccbStep sub U m s = .randint s.work.length fun i =>
      (Prog.done (pyGetN s.work i)).bind fun x =>
      (gccbCore sub U m s.cur s.r x).bind fun p =>
        .done (.ok { cur := p.1, work := s.work.eraseIdx i, r := p.2 }) := by
  unfold gccbStep gccbUpdateInput gccbCore gccbTail gccbSample
  simp only [Prog.bind_eq, Prog.lift_def, Prog.pure_eq, Prog.randBelow, Prog.categorical, Prog.bind,
    Prog.bind_assoc, pure_eq_ok]

/-- Continuation after a step that leaves the working list `w`. -/
noncomputable def afterStep (F : GccbState → ℝ≥0∞) (f : Py GccbState → ℝ≥0∞) (w : List ℕ) :
    Py (List ℕ × List ℕ) → ℝ≥0∞
  | .ok p => F { cur := p.1, work := w, r := p.2 }
  | .error e => f (.error e)

theorem gccbStep_wp (sub : CalcCfg ℂ → Py (List ℂ)) (U : List (List ℂ)) (m : ℕ) (s : GccbState)
    (g : GccbState → Prog GccbState) (f : Py GccbState → ℝ≥0∞) (h0 : s.work ≠ []) :
    ((gccbStep sub U m s).bind g).wp f
      = ((picks s.work).map fun p =>
          (gccbCore sub U m s.cur s.r p.1).wp (afterStep (fun s => (g s).wp f) f p.2)).sum / s.work.length := by
  rw [gccbStep_eq]
  simp only [Prog.bind, Prog.wp]
  rw [if_neg (by simpa using h0)]
  congr 1
  rw [← sum_picks_index s.work (fun x w =>
    (gccbCore sub U m s.cur s.r x).wp (afterStep (fun s => (g s).wp f) f w))]
  refine sum_congr rfl fun i hi => ?_
  have hi := mem_range.mp hi
  rw [pyGetN_ok hi, getD_of_lt _ _ hi]
  simp only [Prog.done_ok_bind, Prog.bind_assoc]
  rw [Prog.wp_bind]
  congr 1
  funext x
  cases x <;> rfl

theorem gccbLoop_perm (sub : CalcCfg ℂ → Py (List ℂ)) (U : List (List ℂ)) (m : ℕ) (cond : List ℕ → Bool)
    (f : Py GccbState → ℝ≥0∞)
    (hf : ∀ cur r w w', w.Perm w' → f (.ok ⟨cur, w, r⟩) = f (.ok ⟨cur, w', r⟩))
    (fuel : ℕ) (cur r w w' : List ℕ) (h : w.Perm w') :
    (Prog.loop fuel (fun s => cond s.r) (gccbStep sub U m) ⟨cur, w, r⟩).wp f
      = (Prog.loop fuel (fun s => cond s.r) (gccbStep sub U m) ⟨cur, w', r⟩).wp f := by
  induction fuel generalizing cur r w w' with
  | zero => rfl
  | succ fuel ih =>
    rw [Prog.loop_succ, Prog.loop_succ]
    by_cases hc : cond r = true
    · rw [if_pos hc, if_pos hc]
      by_cases h0 : w = []
      · subst h0
        rw [List.nil_perm.mp h]
      · have h0' : w' ≠ [] := by rintro rfl; exact h0 h.eq_nil
        rw [gccbStep_wp _ _ _ _ _ _ h0, gccbStep_wp _ _ _ _ _ _ h0']
        simp only
        rw [h.length_eq]
        congr 1
        refine sum_picks_perm h (fun x w => (gccbCore sub U m cur r x).wp (afterStep (fun s =>
          (Prog.loop fuel (fun s => cond s.r) (gccbStep sub U m) s).wp f) f w)) ?_
        intro x a b hab
        congr 1
        funext y
        cases y with
        | ok p => exact ih p.1 p.2 a b hab
        | error e => rfl
    · rw [if_neg hc, if_neg hc]
      exact hf _ _ _ _ h

/-! ### The conditional distribution of one step -/

/-- What the submatrix permanent calculator must deliver below `S`. -/
def SubPermOn (sub : CalcCfg ℂ → Py (List ℂ)) (U : List (List ℂ)) (S : List ℕ) : Prop :=
  ∀ l T, StateLE l S → T.length = S.length → l.sum = T.sum + 1 → sub ⟨U, l, T⟩ = .ok (subResult U l T)

theorem particles_decAt (l : List ℕ) (i : ℕ) (h : 0 < l.getD i 0) :
    (particles (decAt l i)).Perm ((particles l).erase i) := by
  have hi : i < l.length := by
    by_contra hi
    rw [List.getD_eq_getElem?_getD, List.getElem?_eq_none (by omega)] at h
    simp at h
  rw [List.perm_iff_count]
  intro j
  rw [count_particles, List.count_erase, count_particles]
  unfold decAt
  rw [List.getD_eq_getElem?_getD, List.getElem?_set, List.getD_eq_getElem?_getD, List.getD_eq_getElem?_getD]
  by_cases hj : i = j
  · subst hj; simp [hi]
  · have hj' : ¬ j = i := fun e => hj e.symm
    simp [hj]

/-- Laplace expansion along the new output row. -/
theorem laplace_entry (U : List (List ℂ)) (l T : List ℕ) (j : ℕ) (h : l.sum = T.sum + 1) :
    ∑ i ∈ range l.length, (l.getD i 0 : ℂ) * (subResult U l T).getD i 0 * mget U j i
      = amp (colOf U) (j :: particles T) (particles l) := by
  rw [amp_cons, sum_picks_erase2 (particles l) (fun x w => colOf U x j * amp (colOf U) (particles T) w)
    (fun x a b hab => by rw [amp_perm _ _ hab])]
  have key : ((particles l).map fun x => colOf U x j * amp (colOf U) (particles T) ((particles l).erase x)).sum
      = ∑ i ∈ range l.length, ((particles l).count i : ℂ) *
        (colOf U i j * amp (colOf U) (particles T) ((particles l).erase i)) := by
    generalize hg : (fun x => colOf U x j * amp (colOf U) (particles T) ((particles l).erase x)) = g
    have hlt : ∀ x ∈ particles l, x < l.length := fun x hx => by have := particlesFrom_range hx; omega
    have : ∀ w : List ℕ, (∀ x ∈ w, x < l.length) →
        (w.map g).sum = ∑ i ∈ range l.length, (w.count i : ℂ) * g i := by
      intro w hw
      induction w with
      | nil => simp
      | cons a w ih =>
        rw [List.map_cons, List.sum_cons, ih fun x hx => hw x (by simp [hx])]
        have : ∀ i ∈ range l.length, (((a :: w).count i : ℕ) : ℂ) * g i
            = (w.count i : ℂ) * g i + if i = a then g a else 0 := by
          intro i _
          rw [List.count_cons]
          by_cases hi : a = i
          · subst hi; simp; ring
          · have hi' : ¬ i = a := fun e => hi e.symm
            simp [hi, hi']
        rw [sum_congr rfl this, sum_add_distrib, sum_ite_eq' (range l.length) a, if_pos (mem_range.mpr (hw a (by simp))),
          add_comm]
    rw [this _ hlt, ← hg]
  rw [key]
  refine sum_congr rfl fun i hi => ?_
  have hi := mem_range.mp hi
  rw [count_particles, mul_assoc]
  by_cases h0 : l.getD i 0 = 0
  · rw [h0]; simp
  · congr 1
    have : (subResult U l T).getD i 0 = amp (colOf U) (particles T) ((particles l).erase i) := by
      rw [getD_of_lt _ _ (by simpa [subResult] using hi)]
      simp only [subResult, List.getElem_map, List.getElem_range, if_neg h0]
      have hs : (decAt l i).sum = T.sum := by
        have h1 := (particles_decAt l i (by omega)).length_eq
        rw [particlesFrom_length, List.length_erase_of_mem, particlesFrom_length] at h1
        · omega
        · rw [← List.count_pos_iff, count_particles]; omega
      rw [← amp_perm _ _ (particles_decAt l i (by omega))]
      unfold amp
      rw [lperm_scattering U _ T hs]
    rw [this]
    exact mul_comm _ _

theorem gccbPmf_ok {sub : CalcCfg ℂ → Py (List ℂ)} {U : List (List ℂ)} {S : List ℕ} (hp : SubPermOn sub U S)
    (n : ℕ) (hrows : ∀ r ∈ U, r.length = n) (hUl : S.length ≤ U.length) (hn : S.length ≤ n)
    (l T : List ℕ) (hl : StateLE l S) (hT : T.length = S.length) (hs : l.sum = T.sum + 1)
    (hpos : 0 < ∑ j ∈ range S.length, Complex.normSq (amp (colOf U) (j :: particles T) (particles l))) :
    gccbPmf sub U l T = .ok ((List.range S.length).map fun j =>
      Complex.normSq (amp (colOf U) (j :: particles T) (particles l)) /
        ∑ j ∈ range S.length, Complex.normSq (amp (colOf U) (j :: particles T) (particles l))) := by
  unfold gccbPmf
  rw [hp l T hl hT hs, ok_bind]
  rw [mapM_ok _ (fun j => Complex.normSq (amp (colOf U) (j :: particles T) (particles l)))]
  · rw [ok_bind]
    have : ((List.range T.length).map fun j =>
        Complex.normSq (amp (colOf U) (j :: particles T) (particles l))).sum
        = ∑ j ∈ range S.length, Complex.normSq (amp (colOf U) (j :: particles T) (particles l)) := by
      rw [hT, ← List.sum_toFinset _ List.nodup_range]
      exact sum_congr (by ext; simp) fun _ _ => rfl
    simp only [this]
    rw [if_neg hpos.ne', pure_eq_ok, List.map_map, hT]
    rfl
  · intro j hj
    have hj : j < T.length := List.mem_range.mp hj
    rw [foldlM_ok _ (fun acc i => acc + (l.getD i 0 : ℂ) * (subResult U l T).getD i 0 * mget U j i)]
    · rw [ok_bind, pure_eq_ok]
      congr 2
      rw [← laplace_entry U l T j hs]
      have : ∀ (w : List ℕ) (x : ℂ) (g : ℕ → ℂ), w.foldl (fun acc i => acc + g i) x = x + (w.map g).sum := by
        intro w
        induction w with
        | nil => intro x g; simp
        | cons a w ih => intro x g; rw [List.foldl_cons, ih, List.map_cons, List.sum_cons, add_assoc]
      rw [this, zero_add, ← List.sum_toFinset _ List.nodup_range]
      exact sum_congr (by ext; simp) fun _ _ => rfl
    · intro acc i hi
      have hi : i < l.length := List.mem_range.mp hi
      have hiS : i < S.length := by rw [← hl.length_eq]; exact hi
      have hjU : j < U.length := by omega
      have hrow : (U[j]).length = n := hrows _ (List.getElem_mem hjU)
      rw [pyGetN_ok hi, ok_bind, pyGetN_ok (by simpa [subResult] using hi), ok_bind, pyGetN_ok hjU, ok_bind,
        pyGetN_ok (by omega), ok_bind, pure_eq_ok, getD_of_lt _ _ hi,
        getD_of_lt (subResult U l T) _ (by simpa [subResult] using hi)]
      unfold mget
      rw [getD_of_lt _ _ hjU, getD_of_lt _ _ (by omega)]

theorem set_eq_modify (r : List ℕ) (j : ℕ) (hj : j < r.length) : r.set j (r[j] + 1) = r.modify j (· + 1) := by
  apply List.ext_getElem
  · simp
  · intro i h1 h2
    rw [List.getElem_set, List.getElem_modify]
    by_cases h : j = i
    · subst h; simp
    · simp [h]

/-- The `_current_input` of a set of particles. -/
noncomputable def curOf {S : List ℕ} (A : Finset (Particle S)) : List ℕ := occOf S.length (modesOf A)

theorem curOf_eq {S : List ℕ} (A : Finset (Particle S)) : curOf A = stateOf A := by
  unfold curOf
  rw [occOf_perm (particles_stateOf A).symm, ← stateOf_length A, occOf_particles]

theorem stateOf_le {S : List ℕ} (A : Finset (Particle S)) : StateLE (stateOf A) S := by
  refine List.forall₂_iff_get.mpr ⟨stateOf_length A, fun i h h' => ?_⟩
  simp only [stateOf, List.get_eq_getElem, List.getElem_ofFn]
  exact (card_le_card (filter_subset_filter _ (subset_univ A))).trans (card_mode S i h').le

theorem curOf_insert {S : List ℕ} (A : Finset (Particle S)) (a : Particle S) (h : a ∉ A) :
    (curOf A).modify a.1.1 (· + 1) = curOf (insert a A) := by
  unfold curOf
  rw [occOf_perm (modesOf_insert A a h)]
  apply List.ext_getElem
  · simp [occOf]
  · intro i h1 h2
    rw [List.getElem_modify]
    simp only [occOf, List.getElem_map, List.getElem_range, List.count_cons]
    by_cases h : a.1.1 = i
    · simp [h]
    · simp [h]

theorem sum_normSq_phi (c : ℕ → ℕ → ℂ) (m : ℕ) (rs cs : List ℕ) (j : ℕ)
    (hD : 0 < ∑ j ∈ range m, phi c (j :: rs) cs) :
    Complex.normSq (amp c (j :: rs) cs) / ∑ j ∈ range m, Complex.normSq (amp c (j :: rs) cs)
      = phi c (j :: rs) cs / ∑ j ∈ range m, phi c (j :: rs) cs := by
  unfold phi at hD ⊢
  rw [← sum_div] at hD ⊢
  have h0 : (multFact (cs : Multiset ℕ) : ℝ) ≠ 0 := by
    intro h; rw [h] at hD; simp at hD
  rw [div_div_div_cancel_right₀ h0]

section

variable {sub : CalcCfg ℂ → Py (List ℂ)} {U : List (List ℂ)} {S : List ℕ} {n : ℕ}

/-- Everything version B needs from the matrix and the submatrix calculator. -/
structure BOk (sub : CalcCfg ℂ → Py (List ℂ)) (U : List (List ℂ)) (S : List ℕ) (n : ℕ) : Prop where
  perm : SubPermOn sub U S
  rows : ∀ r ∈ U, r.length = n
  len : S.length ≤ U.length
  cols : S.length ≤ n
  ortho : UsedOrtho (colOf U) S.length S

theorem gccbPmf_set (h : BOk sub U S n) (A : Finset (Particle S)) (r : List ℕ) (hr : r.length = S.length)
    (hA : A.card = r.sum + 1)
    (hD : 0 < ∑ j ∈ range S.length, phi (colOf U) (j :: particles r) (modesOf A)) :
    gccbPmf sub U (curOf A) r = .ok ((List.range S.length).map fun j =>
      phi (colOf U) (j :: particles r) (modesOf A) /
        ∑ j ∈ range S.length, phi (colOf U) (j :: particles r) (modesOf A)) := by
  have e : ∀ j, phi (colOf U) (j :: particles r) (modesOf A)
      = phi (colOf U) (j :: particles r) (particles (curOf A)) := fun j => by
    rw [curOf_eq]; exact (phi_perm _ _ (particles_stateOf A)).symm
  simp only [e] at hD ⊢
  rw [gccbPmf_ok h.perm n h.rows h.len h.cols (curOf A) r (by rw [curOf_eq]; exact stateOf_le A) hr
    (by rw [curOf_eq, stateOf_sum, hA])]
  · simp only [sum_normSq_phi _ _ _ _ _ hD]
  · unfold phi at hD
    rw [← sum_div] at hD
    have h0 : (0 : ℝ) < (multFact (particles (curOf A) : Multiset ℕ) : ℝ) := by
      by_contra hn
      have : (multFact (particles (curOf A) : Multiset ℕ) : ℝ) = 0 := le_antisymm (not_lt.mp hn) (by positivity)
      rw [this] at hD; simp at hD
    exact (div_pos_iff_of_pos_right h0).mp hD

theorem isProbVector_norm (m : ℕ) (p : ℕ → ℝ) (hp : ∀ j, 0 ≤ p j) (hD : 0 < ∑ j ∈ range m, p j) :
    Prog.IsProbVector ((List.range m).map fun j => p j / ∑ j ∈ range m, p j) := by
  refine ⟨fun x hx => ?_, ?_⟩
  · obtain ⟨j, -, rfl⟩ := List.mem_map.mp hx
    exact div_nonneg (hp j) hD.le
  · rw [← List.sum_toFinset _ List.nodup_range]
    have : (List.range m).toFinset = range m := by ext; simp
    rw [this, ← sum_div, div_self hD.ne']

theorem gccbTail_wp (h : BOk sub U S n) (A : Finset (Particle S)) (r : List ℕ) (hr : r.length = S.length)
    (hA : A.card = r.sum + 1)
    (hD : 0 < ∑ j ∈ range S.length, phi (colOf U) (j :: particles r) (modesOf A))
    (f : Py (List ℕ × List ℕ) → ℝ≥0∞) :
    (gccbTail sub U S.length (curOf A) r).wp f
      = ∑ j ∈ range S.length, ENNReal.ofReal (phi (colOf U) (j :: particles r) (modesOf A) /
          ∑ j ∈ range S.length, phi (colOf U) (j :: particles r) (modesOf A)) *
        f (.ok (curOf A, r.modify j (· + 1))) := by
  unfold gccbTail
  rw [gccbPmf_set h A r hr hA hD]
  simp only [Prog.done_ok_bind, List.length_map, List.length_range, if_true]
  rw [Prog.wp, if_pos (isProbVector_norm _ _ (fun j => phi_nonneg _ _ _) hD)]
  simp only [List.length_map, List.length_range]
  refine sum_congr rfl fun j hj => ?_
  have hj := mem_range.mp hj
  have hj' : j < r.length := by omega
  rw [pyGetN_ok hj', getD_of_lt _ _ (by simpa using hj)]
  simp only [Prog.done_ok_bind, List.getElem_map, List.getElem_range]
  rw [pySetN_ok hj', set_eq_modify r j hj']
  rfl

theorem gccbCore_eq (A : Finset (Particle S)) (a : Particle S) (ha : a ∉ A) (r : List ℕ) (m : ℕ) :
    gccbCore sub U m (curOf A) r a.1.1 = gccbTail sub U m (curOf (insert a A)) r := by
  have h1 : a.1.1 < (curOf A).length := by simp [curOf, occOf]
  unfold gccbCore
  rw [pyGetN_ok h1]
  simp only [Prog.done_ok_bind]
  rw [pySetN_ok h1, set_eq_modify _ _ h1, curOf_insert A a ha]
  rfl

/-- The remaining loop from a set of used particles. -/
noncomputable def gccbRest (sub : CalcCfg ℂ → Py (List ℂ)) (U : List (List ℂ)) (S : List ℕ) (t fuel : ℕ)
    (f : Py GccbState → ℝ≥0∞) (A : Finset (Particle S)) (r : List ℕ) : ℝ≥0∞ :=
  (Prog.loop fuel (fun s => decide (s.r.sum < t)) (gccbStep sub U S.length)
    ⟨curOf A, modesOf Aᶜ, r⟩).wp f

theorem gccbRest_succ (t fuel : ℕ) (f : Py GccbState → ℝ≥0∞)
    (hf : ∀ cur r w w', w.Perm w' → f (.ok ⟨cur, w, r⟩) = f (.ok ⟨cur, w', r⟩))
    (A : Finset (Particle S)) (r : List ℕ) (ht : r.sum < t) (hA : A.card < S.sum) :
    gccbRest sub U S t (fuel + 1) f A r
      = (∑ a ∈ Aᶜ, (gccbTail sub U S.length (curOf (insert a A)) r).wp
          (afterStep (fun s => (Prog.loop fuel (fun s => decide (s.r.sum < t)) (gccbStep sub U S.length) s).wp f) f
            (modesOf (insert a A)ᶜ))) / ((S.sum - A.card : ℕ) : ℝ≥0∞) := by
  have hc : Aᶜ.card = S.sum - A.card := by rw [card_compl, card_particle]
  unfold gccbRest
  rw [Prog.loop_succ, if_pos (by simpa using ht), gccbStep_wp]
  · simp only
    rw [modesOf_length, hc, sum_picks_set2 Aᶜ (fun x w => (gccbCore sub U S.length (curOf A) r x).wp
      (afterStep (fun s => (Prog.loop fuel (fun s => decide (s.r.sum < t)) (gccbStep sub U S.length) s).wp f) f w))]
    · congr 1
      refine sum_congr rfl fun a ha => ?_
      rw [mem_compl] at ha
      rw [gccbCore_eq A a ha, compl_insert]
    · intro x a b hab
      congr 1
      funext y
      cases y with
      | ok p => exact gccbLoop_perm sub U S.length (fun r => decide (r.sum < t)) f hf fuel p.1 p.2 a b hab
      | error e => rfl
  · simp only
    intro h0
    have := modesOf_length Aᶜ
    rw [h0, hc] at this
    simp at this
    omega

theorem gccb_potential (h : BOk sub U S n) (t : ℕ) (ht : t ≤ S.sum) (f : Py GccbState → ℝ≥0∞)
    (G : List ℕ → ℝ≥0∞) (hG : ∀ a b : List ℕ, a.Perm b → G a = G b)
    (hf : ∀ cur w r, r.length = S.length → r.sum = t → f (.ok ⟨cur, w, r⟩) = G (particles r))
    (hf' : ∀ cur r w w', w.Perm w' → f (.ok ⟨cur, w, r⟩) = f (.ok ⟨cur, w', r⟩))
    (d fuel : ℕ) (hfuel : d < fuel) (r : List ℕ) (hr : r.length = S.length) (hk : r.sum + d = t) :
    ∑ A ∈ powersetCard r.sum (univ : Finset (Particle S)),
        ENNReal.ofReal (phi (colOf U) (particles r) (modesOf A)) * gccbRest sub U S t fuel f A r
      = ((S.sum - t).factorial : ℝ≥0∞) / ((S.sum - r.sum).factorial : ℝ≥0∞) *
        ∑ w ∈ words S.length d, (∑ A ∈ powersetCard t (univ : Finset (Particle S)),
          ENNReal.ofReal (phi (colOf U) (w ++ particles r) (modesOf A))) * G (w ++ particles r) := by
  induction d generalizing fuel r with
  | zero =>
    obtain ⟨fuel, rfl⟩ : ∃ x, fuel = x + 1 := ⟨fuel - 1, by omega⟩
    have hrt : r.sum = t := by omega
    have h0 : ((S.sum - t).factorial : ℝ≥0∞) ≠ 0 := by exact_mod_cast (Nat.factorial_pos _).ne'
    rw [hrt, ENNReal.div_self h0 (by simp), one_mul]
    simp only [words, sum_singleton, List.nil_append]
    rw [sum_mul]
    refine sum_congr rfl fun A hA => ?_
    congr 1
    unfold gccbRest
    rw [Prog.loop_succ, if_neg (by simp [hrt])]
    exact hf _ _ r hr hrt
  | succ d ih =>
    obtain ⟨fuel, rfl⟩ : ∃ x, fuel = x + 1 := ⟨fuel - 1, by omega⟩
    have hlt : r.sum < S.sum := by omega
    set W : Finset (Particle S) → ℝ≥0∞ := fun A => (gccbTail sub U S.length (curOf A) r).wp
      (afterStep (fun s => (Prog.loop fuel (fun s => decide (s.r.sum < t)) (gccbStep sub U S.length) s).wp f) f
        (modesOf Aᶜ)) with hW
    have e1 : ∀ A ∈ powersetCard r.sum (univ : Finset (Particle S)),
        ENNReal.ofReal (phi (colOf U) (particles r) (modesOf A)) * gccbRest sub U S t (fuel + 1) f A r
        = (∑ a ∈ Aᶜ, ENNReal.ofReal (phi (colOf U) (particles r) (modesOf A)) * W (insert a A))
          / ((S.sum - r.sum : ℕ) : ℝ≥0∞) := by
      intro A hA
      have hAc := (mem_powersetCard.mp hA).2
      rw [gccbRest_succ t fuel f hf' A r (by omega) (by omega), hAc, ← mul_div_assoc, mul_sum]
    rw [sum_congr rfl e1]
    simp only [div_eq_mul_inv]
    rw [← sum_mul]
    have e2 := sum_powersetCard_erase (α := Particle S) r.sum
      (fun A a => ENNReal.ofReal (phi (colOf U) (particles r) (modesOf A)) * W (insert a A))
    rw [← e2]
    have e3 : ∀ A ∈ powersetCard (r.sum + 1) (univ : Finset (Particle S)),
        ∑ a ∈ A, ENNReal.ofReal (phi (colOf U) (particles r) (modesOf (A.erase a))) * W (insert a (A.erase a))
        = ∑ j ∈ range S.length, ENNReal.ofReal (phi (colOf U) (particles (r.modify j (· + 1))) (modesOf A)) *
          gccbRest sub U S t fuel f A (r.modify j (· + 1)) := by
      intro A hA
      have hAc := (mem_powersetCard.mp hA).2
      rw [sum_congr rfl fun a ha => by rw [insert_erase ha], ← sum_mul,
        ← ENNReal.ofReal_sum_of_nonneg fun a _ => phi_nonneg _ _ _, ← sum_phi_modes h.ortho A (particles r)]
      have e4 : ∀ j ∈ range S.length, phi (colOf U) (particles (r.modify j (· + 1))) (modesOf A)
          = phi (colOf U) (j :: particles r) (modesOf A) := by
        intro j hj
        exact phi_perm_rows _ _ (modify_particles r j (by rw [hr]; exact mem_range.mp hj))
      by_cases hD : 0 < ∑ j ∈ range S.length, phi (colOf U) (j :: particles r) (modesOf A)
      · rw [hW]
        simp only
        rw [gccbTail_wp h A r hr hAc hD, mul_sum]
        refine sum_congr rfl fun j hj => ?_
        rw [← mul_assoc, ← ENNReal.ofReal_mul hD.le, mul_div_cancel₀ _ hD.ne', e4 j hj]
        rfl
      · have hz : ∑ j ∈ range S.length, phi (colOf U) (j :: particles r) (modesOf A) = 0 :=
          le_antisymm (not_lt.mp hD) (sum_nonneg fun j _ => phi_nonneg _ _ _)
        have hz' := (sum_eq_zero_iff_of_nonneg fun j _ => phi_nonneg (colOf U) (j :: particles r) (modesOf A)).mp hz
        rw [hz, ENNReal.ofReal_zero, zero_mul]
        symm
        refine sum_eq_zero fun j hj => ?_
        rw [e4 j hj, hz' j hj, ENNReal.ofReal_zero, zero_mul]
    rw [sum_congr rfl e3, sum_comm]
    have hm : ∀ j ∈ range S.length, (r.modify j (· + 1)).sum = r.sum + 1 := by
      intro j hj
      have := (modify_particles r j (by rw [hr]; exact mem_range.mp hj)).length_eq
      rwa [List.length_cons, particlesFrom_length, particlesFrom_length] at this
    have e5 : ∀ j ∈ range S.length, ∑ A ∈ powersetCard (r.sum + 1) (univ : Finset (Particle S)),
        ENNReal.ofReal (phi (colOf U) (particles (r.modify j (· + 1))) (modesOf A)) *
          gccbRest sub U S t fuel f A (r.modify j (· + 1))
        = ((S.sum - t).factorial : ℝ≥0∞) / ((S.sum - (r.sum + 1)).factorial : ℝ≥0∞) *
          ∑ w ∈ words S.length d, (∑ A ∈ powersetCard t (univ : Finset (Particle S)),
            ENNReal.ofReal (phi (colOf U) (w ++ j :: particles r) (modesOf A))) * G (w ++ j :: particles r) := by
      intro j hj
      have hi := ih fuel (by omega) (r.modify j (· + 1)) (by simpa using hr) (by rw [hm j hj]; omega)
      rw [hm j hj] at hi
      rw [hi]
      congr 1
      refine sum_congr rfl fun w _ => ?_
      have hpp := (modify_particles r j (by rw [hr]; exact mem_range.mp hj)).append_left w
      rw [hG _ _ hpp]
      congr 1
      exact sum_congr rfl fun A _ => by rw [phi_perm_rows _ _ hpp]
    rw [sum_congr rfl e5, ← mul_sum, sum_words_append S.length d (particles r) (fun w =>
      (∑ A ∈ powersetCard t (univ : Finset (Particle S)), ENNReal.ofReal (phi (colOf U) w (modesOf A))) * G w)
      (fun a b hab => by
        rw [hG _ _ hab]; congr 1
        exact sum_congr rfl fun A _ => by rw [phi_perm_rows _ _ hab])]
    rw [mul_right_comm]
    congr 1
    have hfac : (S.sum - r.sum).factorial = (S.sum - (r.sum + 1)).factorial * (S.sum - r.sum) := by
      obtain ⟨q, hq⟩ : ∃ q, S.sum - r.sum = q + 1 := ⟨S.sum - r.sum - 1, by omega⟩
      have : S.sum - (r.sum + 1) = q := by omega
      rw [hq, this, Nat.factorial_succ, mul_comm]
    rw [hfac, div_eq_mul_inv, mul_assoc]
    congr 1
    rw [Nat.cast_mul, ENNReal.mul_inv (.inr (ENNReal.natCast_ne_top _)) (.inl (ENNReal.natCast_ne_top _))]

theorem gccbFill_wp (h : BOk sub U S n) (t : ℕ) (ht : t ≤ S.sum) (f : Py GccbState → ℝ≥0∞)
    (G : List ℕ → ℝ≥0∞)
    (hf : ∀ cur w r, r.length = S.length → r.sum = t → f (.ok ⟨cur, w, r⟩) = G r)
    (hf' : ∀ cur r w w', w.Perm w' → f (.ok ⟨cur, w, r⟩) = f (.ok ⟨cur, w', r⟩))
    (fuel : ℕ) (hfuel : t < fuel) :
    (gccbFill sub U fuel S (particles S) t).wp f
      = ∑ T ∈ statesFin S.length t, ENNReal.ofReal (fixedLossProb U S t T) * G T := by
  have hz : ((S.map fun _ => 0) : List ℕ).sum = 0 := by simp
  have hpz : particles (S.map fun _ => 0) = [] := by
    apply List.eq_nil_of_length_eq_zero
    rw [particlesFrom_length, hz]
  have hp := gccb_potential h t ht f (fun w => G (occOf S.length w)) (fun a b hab => by rw [occOf_perm hab])
    (fun cur w r h1 h2 => by rw [hf cur w r h1 h2, ← h1, occOf_particles]) hf' t fuel hfuel
    (S.map fun _ => 0) (by simp) (by rw [hz, zero_add])
  rw [hz, hpz, powersetCard_zero, sum_singleton] at hp
  have h1 : phi (colOf U) [] (modesOf (∅ : Finset (Particle S))) = 1 := by
    simp [modesOf, phi, amp, lperm, multFact]
  rw [h1, ENNReal.ofReal_one, one_mul, Nat.sub_zero] at hp
  have h2 : gccbRest sub U S t fuel f ∅ (S.map fun _ => 0) = (gccbFill sub U fuel S (particles S) t).wp f := by
    have e0 : curOf (∅ : Finset (Particle S)) = S.map fun _ => 0 := by
      apply List.ext_getElem
      · simp [curOf, occOf]
      · intro i _ _; simp [curOf, occOf, modesOf]
    have e1 : (modesOf (∅ᶜ : Finset (Particle S))).Perm (particles S) := by
      rw [compl_empty]
      refine (particles_stateOf univ).symm.trans ?_
      have : stateOf (univ : Finset (Particle S)) = S := by
        apply List.ext_getElem (stateOf_length _)
        intro i h1 h2
        simp only [stateOf, List.getElem_ofFn]
        exact card_mode S i h2
      rw [this]
    unfold gccbRest gccbFill
    rw [e0]
    exact gccbLoop_perm sub U S.length (fun r => decide (r.sum < t)) f hf' fuel _ _ _ _ e1
  rw [← h2, hp, mul_sum]
  have h3 : ∀ T ∈ statesFin S.length t, ENNReal.ofReal (fixedLossProb U S t T) * G T
      = ENNReal.ofReal (fixedLossProb U S t T) * G (occOf S.length (particles T)) := by
    intro T hT
    rw [← ((mem_statesFin _ _ T).mp hT).1, occOf_particles]
  rw [sum_congr rfl h3, ← sum_seq_states U S S.length t (fun w => G (occOf S.length w))
    (fun a b hab => by rw [occOf_perm hab])]
  refine sum_congr rfl fun w _ => ?_
  rw [List.append_nil, ← mul_assoc]
  congr 1
  unfold seqProb
  rw [← ENNReal.ofReal_sum_of_nonneg fun A _ => phi_nonneg _ _ _]
  have hc : (S.sum.choose t : ℝ) * (t.factorial : ℝ) * ((S.sum - t).factorial : ℝ) = (S.sum.factorial : ℝ) := by
    exact_mod_cast Nat.choose_mul_factorial_mul_factorial ht
  have p1 : (0 : ℝ) < ((S.sum - t).factorial : ℝ) := by exact_mod_cast Nat.factorial_pos _
  have p2 : (0 : ℝ) < (S.sum.factorial : ℝ) := by exact_mod_cast Nat.factorial_pos _
  rw [← ENNReal.ofReal_natCast, ← ENNReal.ofReal_natCast, ← ENNReal.ofReal_div_of_pos p2,
    ← ENNReal.ofReal_mul (by positivity)]
  congr 1
  rw [← hc]
  have p3 : (S.sum.choose t : ℝ) * (t.factorial : ℝ) ≠ 0 := by
    intro h0; rw [h0, zero_mul] at hc; exact p2.ne hc
  field_simp

end

end Verif
