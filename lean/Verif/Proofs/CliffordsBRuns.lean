import Verif.Proofs.CliffordsB

/-! Helper lemmas: every run of version B of the generalized Clifford & Clifford sampler. -/
namespace Verif

open Finset

namespace Prog

variable {α β : Type} {E : PyErr → Prop}

theorem all_randint {n : ℕ} {k : ℕ → Prog α} {I : α → Prop} (h0 : n = 0 → E .valueError)
    (h : ∀ i < n, (k i).All I E) : (randint n k).All I E := by
  rintro r (⟨hn, rfl⟩ | ⟨i, hi, hr⟩)
  · exact .inr ⟨_, rfl, h0 hn⟩
  · exact h i hi r hr

theorem all_choice {p : List ℝ} {k : ℕ → Prog α} {I : α → Prop} (h0 : ¬ IsProbVector p → E .valueError)
    (h : ∀ i < p.length, 0 < p.getD i 0 → (k i).All I E) : (choice p k).All I E := by
  rintro r (⟨hn, rfl⟩ | ⟨-, i, hi, h2, hr⟩)
  · exact .inr ⟨_, rfl, h0 hn⟩
  · exact h i hi h2 r hr

theorem all_mono {p : Prog α} {I J : α → Prop} {E F : PyErr → Prop} (h : p.All I E) (hI : ∀ a, I a → J a)
    (hE : ∀ e, E e → F e) : p.All J F := by
  intro r hr
  rcases h r hr with ⟨a, h1, h2⟩ | ⟨e, h1, h2⟩
  · exact .inl ⟨a, h1, hI a h2⟩
  · exact .inr ⟨e, h1, hE e h2⟩

end Prog

/-- The submatrix calculator is not cut off on the states that occur below `S`. -/
def SubEnds (sub : CalcCfg ℂ → Py (List ℂ)) (U : List (List ℂ)) (S : List ℕ) : Prop :=
  ∀ l T, StateLE l S → T.length = S.length → l.sum = T.sum + 1 → NoFuel (sub ⟨U, l, T⟩)

theorem SubPermOn.ends {sub : CalcCfg ℂ → Py (List ℂ)} {U : List (List ℂ)} {S : List ℕ} (h : SubPermOn sub U S) :
    SubEnds sub U S := by
  intro l T h1 h2 h3
  rw [h l T h1 h2 h3]
  exact noFuel_ok _

section

variable {sub : CalcCfg ℂ → Py (List ℂ)} {U : List (List ℂ)} {S : List ℕ} {n : ℕ}

theorem gccbUpdate_all {E : PyErr → Prop} (s : GccbState) (A : Finset (Particle S)) (hcur : s.cur = curOf A)
    (hw : s.work.Perm (modesOf Aᶜ)) (hE : A.card = S.sum → E .valueError) :
    (gccbUpdateInput s).All (fun s' => ∃ a ∉ A, s'.cur = curOf (insert a A) ∧
      s'.work.Perm (modesOf (insert a A)ᶜ) ∧ s'.r = s.r) E := by
  have hc : Aᶜ.card = S.sum - A.card := by rw [card_compl, card_particle]
  have hle : A.card ≤ S.sum := by rw [← card_particle S]; exact card_le_univ A
  have hwl : s.work.length = S.sum - A.card := by rw [hw.length_eq, modesOf_length, hc]
  refine Prog.all_randint (fun h0 => hE (by omega)) fun i hi => ?_
  simp only [Prog.bind_eq, Prog.lift_def, Prog.pure_eq]
  have hm : s.work[i] ∈ modesOf Aᶜ := hw.subset (List.getElem_mem hi)
  obtain ⟨a, ha, hae⟩ := List.mem_map.mp hm
  rw [mem_toList, mem_compl] at ha
  have h1 : a.1.1 < (curOf A).length := by simp [curOf, occOf]
  rw [Prog.done_ok_bind, pyGetN_ok hi]
  simp only [Prog.bind]
  rw [← hae, hcur, pyGetN_ok h1]
  simp only [Prog.done_ok_bind]
  rw [pySetN_ok h1, set_eq_modify _ _ h1, curOf_insert A a ha]
  refine Prog.all_done_ok ⟨a, ha, rfl, ?_, rfl⟩
  simp only
  have e1 : (s.work[i] :: s.work.eraseIdx i).Perm s.work := List.getElem_cons_eraseIdx_perm hi
  have e2 := modesOf_erase Aᶜ a (by simpa using ha)
  rw [compl_insert]
  have e3 := (e1.trans hw).trans e2
  rw [← hae] at e3
  exact e3.cons_inv

theorem noFuel_gccbPmf (hs : SubEnds sub U S) (A : Finset (Particle S)) (r : List ℕ) (hr : r.length = S.length)
    (hA : A.card = r.sum + 1) : NoFuel (gccbPmf sub U (curOf A) r) := by
  unfold gccbPmf
  refine noFuel_bind (hs _ _ (by rw [curOf_eq]; exact stateOf_le A) hr (by rw [curOf_eq, stateOf_sum, hA])) fun ps =>
    noFuel_bind (noFuel_mapM _ _ fun m _ => noFuel_bind (noFuel_foldlM _ _ _ fun acc i => ?_) fun x => noFuel_ok _)
      fun pmf => ?_
  · exact noFuel_bind (noFuel_pyGetN _ _) fun _ => noFuel_bind (noFuel_pyGetN _ _) fun _ =>
      noFuel_bind (noFuel_pyGetN _ _) fun _ => noFuel_bind (noFuel_pyGetN _ _) fun _ => noFuel_ok _
  · simp only
    split
    · exact noFuel_error (by decide)
    · exact noFuel_ok _

/-- The invariant of the loop for every matrix. -/
structure BInv (S : List ℕ) (s : GccbState) (A : Finset (Particle S)) : Prop where
  cur : s.cur = curOf A
  work : s.work.Perm (modesOf Aᶜ)
  len : s.r.length = S.length
  card : A.card = s.r.sum

theorem modify_sum (r : List ℕ) (j : ℕ) (hj : j < r.length) : (r.modify j (· + 1)).sum = r.sum + 1 := by
  have := (modify_particles r j hj).length_eq
  rwa [List.length_cons, particlesFrom_length, particlesFrom_length] at this

theorem gccbStep_all (hs : SubEnds sub U S) (s : GccbState) (A : Finset (Particle S)) (h : BInv S s A) :
    (gccbStep sub U S.length s).All (fun s' => (∃ A', BInv S s' A') ∧ s'.r.sum = s.r.sum + 1) NotFuel := by
  refine Prog.all_bind (gccbUpdate_all s A h.cur h.work fun _ => by unfold NotFuel; decide) ?_
  rintro s' ⟨a, ha, h1, h2, h3⟩
  have hc : (insert a A).card = s'.r.sum + 1 := by rw [card_insert_of_notMem ha, h.card, h3]
  have hl : s'.r.length = S.length := by rw [h3, h.len]
  refine Prog.all_bind (I := fun _ => True) (Prog.all_done (fun _ _ => trivial) (by
    rw [h1]; exact noFuel_gccbPmf hs _ _ hl hc)) fun pmf _ => ?_
  unfold gccbSample
  by_cases hp : pmf.length = S.length
  · rw [if_pos hp]
    refine Prog.all_choice (fun _ => by unfold NotFuel; decide) fun j hj _ => ?_
    have hj' : j < s'.r.length := by omega
    simp only [Prog.bind_eq, Prog.lift_def, Prog.pure_eq]
    rw [Prog.done_ok_bind, pyGetN_ok hj']
    simp only [Prog.done_ok_bind]
    rw [pySetN_ok hj', set_eq_modify _ _ hj']
    refine Prog.all_done_ok ⟨⟨insert a A, h1, h2, by simpa using hl, ?_⟩, ?_⟩
    · rw [hc]; exact (modify_sum _ _ hj').symm
    · simp only; rw [modify_sum _ _ hj', h3]
  · rw [if_neg hp]
    exact Prog.all_done_error (by unfold NotFuel; decide)

theorem binv_start (S : List ℕ) :
    BInv S { cur := S.map fun _ => 0, work := particles S, r := S.map fun _ => 0 } ∅ := by
  refine ⟨?_, ?_, by simp, by simp⟩
  · apply List.ext_getElem
    · simp [curOf, occOf]
    · intro i _ _; simp [curOf, occOf, modesOf]
  · rw [compl_empty]
    refine List.Perm.trans ?_ (particles_stateOf univ)
    have : stateOf (univ : Finset (Particle S)) = S := by
      apply List.ext_getElem (stateOf_length _)
      intro i h1 h2
      simp only [stateOf, List.getElem_ofFn]
      exact card_mode S i h2
    rw [this]

/-- Every run of `_fill_r_sample` that does not raise ends with `t` particles. -/
theorem gccbFill_all (hs : SubEnds sub U S) (t fuel : ℕ) (hfuel : t < fuel) :
    (gccbFill sub U fuel S (particles S) t).All (fun s => s.r.length = S.length ∧ s.r.sum = t) NotFuel := by
  unfold gccbFill
  have := Prog.all_loop (E := NotFuel) (cond := fun s : GccbState => decide (s.r.sum < t))
    (body := gccbStep sub U S.length)
    (fun d s => (∃ A, BInv S s A) ∧ s.r.sum + d = t)
    (fun s hs => by rw [decide_eq_false_iff_not]; omega)
    (fun d s hs => by rw [decide_eq_true_eq]; omega)
    (fun d s ⟨⟨A, hA⟩, hd⟩ => Prog.all_mono (gccbStep_all hs s A hA)
      (fun s' h' => ⟨h'.1, by omega⟩) fun _ h => h)
    t fuel hfuel _ ⟨⟨∅, binv_start S⟩, by simp⟩
  exact Prog.all_mono this (fun s ⟨⟨A, hA⟩, hd⟩ => ⟨hA.len, by omega⟩) fun _ h => h

/-! ### No run raises when the columns are orthonormal -/

theorem gccbStep_live (h : BOk sub U S n) (s : GccbState) (A : Finset (Particle S)) (hA : BInv S s A)
    (hpos : 0 < phi (colOf U) (particles s.r) (modesOf A)) (hlt : s.r.sum < S.sum) :
    (gccbStep sub U S.length s).All (fun s' => (∃ A', BInv S s' A' ∧
      0 < phi (colOf U) (particles s'.r) (modesOf A')) ∧ s'.r.sum = s.r.sum + 1) (fun _ => False) := by
  refine Prog.all_bind (gccbUpdate_all s A hA.cur hA.work fun hc => by have := hA.card; omega) ?_
  rintro s' ⟨a, ha, h1, h2, h3⟩
  have hc : (insert a A).card = s'.r.sum + 1 := by rw [card_insert_of_notMem ha, hA.card, h3]
  have hl : s'.r.length = S.length := by rw [h3, hA.len]
  have hD : 0 < ∑ j ∈ range S.length, phi (colOf U) (j :: particles s'.r) (modesOf (insert a A)) := by
    rw [sum_phi_modes h.ortho (insert a A) (particles s'.r)]
    refine sum_pos' (fun _ _ => phi_nonneg _ _ _) ⟨a, mem_insert_self _ _, ?_⟩
    rw [erase_insert ha, h3]
    exact hpos
  rw [h1, gccbPmf_set h (insert a A) s'.r hl hc hD]
  simp only [Prog.bind_eq, Prog.lift_def, Prog.done_ok_bind]
  unfold gccbSample
  rw [if_pos (by simp)]
  refine Prog.all_choice (fun hn => hn (isProbVector_norm _ _ (fun j => phi_nonneg _ _ _) hD)) fun j hj hpj => ?_
  simp only [List.length_map, List.length_range] at hj
  have hj' : j < s'.r.length := by omega
  simp only [Prog.bind_eq, Prog.lift_def, Prog.pure_eq]
  rw [Prog.done_ok_bind, pyGetN_ok hj']
  simp only [Prog.done_ok_bind]
  rw [pySetN_ok hj', set_eq_modify _ _ hj']
  refine Prog.all_done_ok ⟨⟨insert a A, ⟨h1, h2, by simpa using hl, ?_⟩, ?_⟩, ?_⟩
  · rw [hc]; exact (modify_sum _ _ hj').symm
  · simp only
    rw [phi_perm_rows _ _ (modify_particles s'.r j hj')]
    rw [getD_of_lt _ _ (by simpa using hj)] at hpj
    simp only [List.getElem_map, List.getElem_range] at hpj
    exact (div_pos_iff_of_pos_right hD).mp hpj
  · simp only; rw [modify_sum _ _ hj', h3]

/-- No run of `_fill_r_sample` raises. -/
theorem gccbFill_live (h : BOk sub U S n) (t fuel : ℕ) (ht : t ≤ S.sum) (hfuel : t < fuel) :
    (gccbFill sub U fuel S (particles S) t).All (fun s => s.r.length = S.length ∧ s.r.sum = t)
      (fun _ => False) := by
  unfold gccbFill
  have hpz : particles (S.map fun _ => 0) = [] := by
    apply List.eq_nil_of_length_eq_zero
    rw [particlesFrom_length]; simp
  have := Prog.all_loop (E := fun _ => False) (cond := fun s : GccbState => decide (s.r.sum < t))
    (body := gccbStep sub U S.length)
    (fun d s => (∃ A, BInv S s A ∧ 0 < phi (colOf U) (particles s.r) (modesOf A)) ∧ s.r.sum + d = t)
    (fun s hs => by rw [decide_eq_false_iff_not]; omega)
    (fun d s hs => by rw [decide_eq_true_eq]; omega)
    (fun d s ⟨⟨A, hA, hp⟩, hd⟩ => Prog.all_mono (gccbStep_live h s A hA hp (by omega))
      (fun s' h' => ⟨h'.1, by omega⟩) fun _ h => h)
    t fuel hfuel _ ⟨⟨∅, binv_start S, by rw [hpz]; simp [modesOf, phi, amp, lperm, multFact]⟩, by simp⟩
  exact Prog.all_mono this (fun s ⟨⟨A, hA, _⟩, hd⟩ => ⟨hA.len, by omega⟩) fun _ h => h

/-! ### The loop over samples -/

theorem gccbLoop_all {E : PyErr → Prop} (fuel N : ℕ)
    (hfill : (gccbFill sub U fuel S (particles S) S.sum).All
      (fun s => s.r.length = S.length ∧ s.r.sum = S.sum) E) :
    (gccbLoop sub U fuel S (particles S) N).All
      (fun l => l.length = N ∧ ∀ T ∈ l, T.length = S.length ∧ T.sum = S.sum) E := by
  induction N with
  | zero => exact Prog.all_done_ok ⟨rfl, by simp⟩
  | succ N ih =>
    refine Prog.all_bind hfill fun s hs => Prog.all_bind ih fun l hl => Prog.all_done_ok ⟨?_, ?_⟩
    · rw [List.length_cons, hl.1]
    · intro T hT
      rcases List.mem_cons.mp hT with rfl | hT
      · exact hs
      · exact hl.2 T hT

theorem gccbSimulate_eq (fuel : ℕ) (N : ℤ) :
    gccbSimulate sub U fuel S N = gccbLoop sub U fuel S (particles S) N.toNat := by
  unfold gccbSimulate
  rw [modeOccupationToModeAssignment_eq]
  rfl

open scoped ENNReal in
theorem gccbLoop_wp (h : BOk sub U S n) (fuel : ℕ) (hfuel : S.sum < fuel) (N : ℕ)
    (f : Py (List (List ℕ)) → ℝ≥0∞) :
    (gccbLoop sub U fuel S (particles S) N).wp f
      = expIid (statesFin S.length S.sum) (fun T => ENNReal.ofReal (bosonProb U S T)) N (fun l => f (.ok l)) := by
  induction N generalizing f with
  | zero => rfl
  | succ N ih =>
    rw [gccbLoop, Prog.bind_eq, Prog.wp_bind, gccbFill_wp h S.sum le_rfl _ (fun r =>
      expIid (statesFin S.length S.sum) (fun T => ENNReal.ofReal (bosonProb U S T)) N (fun l => f (.ok (r :: l))))
      _ _ fuel hfuel]
    · rw [expIid]
      refine sum_congr rfl fun T hT => ?_
      have hT := (mem_statesFin _ _ T).mp hT
      rw [fixedLossProb_full U S T]
    · intro cur w r _ _
      simp only [Prog.post]
      rw [Prog.bind_eq, Prog.wp_bind, ih]
      rfl
    · intro cur r w w' _
      rfl

end

end Verif
