import Verif.Spec.Dilation
import Verif.Proofs.FockStates
import Verif.Proofs.CliffordsBRuns

/-! Helper lemmas: the output law of a lossy network does not depend on the dilation. -/
namespace Verif

open Finset

theorem amp_mul_conj (c : ℕ → ℕ → ℂ) (r : ℕ) (rs X Y : List ℕ) :
    amp c (r :: rs) X * (starRingEnd ℂ) (amp c (r :: rs) Y)
      = ((picks X).map fun p => ((picks Y).map fun q =>
          (c p.1 r * (starRingEnd ℂ) (c q.1 r)) * (amp c rs p.2 * (starRingEnd ℂ) (amp c rs q.2))).sum).sum := by
  rw [amp_cons, amp_cons, map_list_sum, List.map_map, ← List.sum_map_mul_right]
  congr 1
  refine List.map_congr_left fun p _ => ?_
  rw [← List.sum_map_mul_left]
  congr 1
  refine List.map_congr_left fun q _ => ?_
  simp only [Function.comp, map_mul]
  ring

/-- Overlap of the amplitudes for the inputs `X` and `Y`, summed over all sequences of `k` outputs
in the rows `m, …, m+b-1`. -/
noncomputable def envSum (c : ℕ → ℕ → ℂ) (m b : ℕ) (t : List ℕ) (k : ℕ) (X Y : List ℕ) : ℂ :=
  ∑ e ∈ words b k, amp c (t ++ e.map (m + ·)) X * (starRingEnd ℂ) (amp c (t ++ e.map (m + ·)) Y)

theorem sum_list_comm {α : Type*} (s : Finset α) (X : List ℕ) (F : α → ℕ × List ℕ → ℂ) :
    ∑ a ∈ s, ((picks X).map (F a)).sum = ((picks X).map fun p => ∑ a ∈ s, F a p).sum := by
  simp only [← Fin.sum_univ_fun_getElem]
  rw [sum_comm]

theorem envSum_cons (c : ℕ → ℕ → ℂ) (m b r : ℕ) (t : List ℕ) (k : ℕ) (X Y : List ℕ) :
    envSum c m b (r :: t) k X Y
      = ((picks X).map fun p => ((picks Y).map fun q =>
          (c p.1 r * (starRingEnd ℂ) (c q.1 r)) * envSum c m b t k p.2 q.2).sum).sum := by
  unfold envSum
  simp only [List.cons_append, amp_mul_conj]
  rw [sum_list_comm]
  congr 1
  refine List.map_congr_left fun p _ => ?_
  rw [sum_list_comm]
  congr 1
  refine List.map_congr_left fun q _ => ?_
  rw [mul_sum]

theorem envSum_succ (c : ℕ → ℕ → ℂ) (m b k : ℕ) (X Y : List ℕ) :
    envSum c m b [] (k + 1) X Y
      = ((picks X).map fun p => ((picks Y).map fun q =>
          (∑ r ∈ range b, c p.1 (m + r) * (starRingEnd ℂ) (c q.1 (m + r))) * envSum c m b [] k p.2 q.2).sum).sum := by
  unfold envSum
  simp only [List.nil_append]
  rw [sum_words_succ]
  simp only [List.map_cons, amp_mul_conj]
  rw [sum_congr rfl fun w _ => sum_list_comm _ _ _, sum_list_comm]
  congr 1
  refine List.map_congr_left fun p _ => ?_
  rw [sum_congr rfl fun w _ => sum_list_comm _ _ _, sum_list_comm]
  congr 1
  refine List.map_congr_left fun q _ => ?_
  rw [sum_congr rfl fun w _ => (sum_mul _ _ _).symm, ← mul_sum]

theorem mem_of_picks {X : List ℕ} {p : ℕ × List ℕ} (h : p ∈ picks X) : p.1 ∈ X ∧ ∀ x ∈ p.2, x ∈ X := by
  have := picks_perm h
  exact ⟨this.mem_iff.mp (by simp), fun x hx => this.mem_iff.mp (by simp [hx])⟩

theorem envSum_congr (c c' : ℕ → ℕ → ℂ) (m m' b b' : ℕ) (t : List ℕ) (k : ℕ) (X Y : List ℕ)
    (h1 : ∀ r ∈ t, ∀ x, x ∈ X ∨ x ∈ Y → c x r = c' x r)
    (h2 : ∀ x ∈ X, ∀ y ∈ Y, ∑ r ∈ range b, c x (m + r) * (starRingEnd ℂ) (c y (m + r))
      = ∑ r ∈ range b', c' x (m' + r) * (starRingEnd ℂ) (c' y (m' + r))) :
    envSum c m b t k X Y = envSum c' m' b' t k X Y := by
  induction t generalizing X Y with
  | nil =>
    induction k generalizing X Y with
    | zero =>
      simp only [envSum, words, sum_singleton, List.map_nil, List.append_nil]
      have : ∀ (c c' : ℕ → ℕ → ℂ) (X : List ℕ), amp c [] X = amp c' [] X := by
        intro c c' X; cases X <;> rfl
      rw [this c c' X, this c c' Y]
    | succ k ih =>
      rw [envSum_succ, envSum_succ]
      congr 1
      refine List.map_congr_left fun p hp => ?_
      congr 1
      refine List.map_congr_left fun q hq => ?_
      obtain ⟨hp1, hp2⟩ := mem_of_picks hp
      obtain ⟨hq1, hq2⟩ := mem_of_picks hq
      rw [h2 _ hp1 _ hq1, ih p.2 q.2 (by simp) fun x hx y hy => h2 x (hp2 x hx) y (hq2 y hy)]
  | cons r t ih =>
    rw [envSum_cons, envSum_cons]
    congr 1
    refine List.map_congr_left fun p hp => ?_
    congr 1
    refine List.map_congr_left fun q hq => ?_
    obtain ⟨hp1, hp2⟩ := mem_of_picks hp
    obtain ⟨hq1, hq2⟩ := mem_of_picks hq
    rw [h1 r (by simp) _ (.inl hp1), h1 r (by simp) _ (.inr hq1), ih p.2 q.2
      (fun r' hr' x hx => h1 r' (by simp [hr']) x (hx.imp (hp2 x) (hq2 x)))
      fun x hx y hy => h2 x (hp2 x hx) y (hq2 y hy)]

/-! ### Lossy probabilities as sums over sequences -/

theorem particlesFrom_append (k : ℕ) (T E : List ℕ) :
    particlesFrom k (T ++ E) = particlesFrom k T ++ particlesFrom (k + T.length) E := by
  induction T generalizing k with
  | nil => simp [particlesFrom]
  | cons a T ih =>
    simp only [List.cons_append, particlesFrom, ih, List.length_cons, List.append_assoc]
    rw [show k + 1 + T.length = k + (T.length + 1) by omega]

theorem particlesFrom_shift (k : ℕ) (E : List ℕ) : particlesFrom k E = (particles E).map (k + ·) := by
  have : ∀ (j : ℕ) (E : List ℕ), particlesFrom (k + j) E = (particlesFrom j E).map (k + ·) := by
    intro j E
    induction E generalizing j with
    | nil => simp [particlesFrom]
    | cons a E ih => simp only [particlesFrom, List.map_append, List.map_replicate, ← ih (j + 1), Nat.add_assoc]
  exact this 0 E

theorem factProd_append (T E : List ℕ) : factProd (T ++ E) = factProd T * factProd E := by
  simp [factProd]

theorem lossyProb_eq_states (W : List (List ℂ)) (b : ℕ) (S T : List ℕ) (h : T.sum ≤ S.sum) :
    lossyProb W b S T = ∑ E ∈ statesFin b (S.sum - T.sum), bosonProb W S (T ++ E) := by
  unfold lossyProb
  refine sum_nbij' (fun E => List.ofFn E) (fun E => fun i : Fin b => E.getD i 0) ?_ ?_ ?_ ?_ ?_
  · intro E hE
    rw [mem_filter] at hE
    rw [mem_statesFin, List.sum_ofFn, List.length_ofFn]
    exact ⟨rfl, by omega⟩
  · intro E hE
    rw [mem_statesFin] at hE
    obtain ⟨rfl, h2⟩ := hE
    have hs : ∑ i : Fin E.length, E.getD i 0 = E.sum := by
      rw [← Fin.sum_univ_getElem E]
      exact sum_congr rfl fun i _ => by rw [getD_of_lt _ _ i.2]
    rw [mem_filter, Fintype.mem_piFinset]
    refine ⟨fun i => ?_, by rw [hs]; omega⟩
    have := single_le_sum (f := fun i : Fin E.length => E.getD i 0) (fun i _ => Nat.zero_le _) (mem_univ i)
    simp only [hs] at this
    rw [mem_range]; omega
  · intro E _
    funext i
    simp
  · intro E hE
    rw [mem_statesFin] at hE
    refine List.ext_getElem (by simp [hE.1]) fun i h1 h2 => ?_
    simp [h2]
  · intro E _; rfl

theorem lossyProb_eq_words (W : List (List ℂ)) (b : ℕ) (S T : List ℕ) (h : T.sum ≤ S.sum) :
    lossyProb W b S T
      = (∑ w ∈ words b (S.sum - T.sum),
          phi (colOf W) (particles T ++ w.map (T.length + ·)) (particles S))
        / ((S.sum - T.sum).factorial * factProd T) := by
  rw [lossyProb_eq_states W b S T h, sum_words_states b (S.sum - T.sum) _ (fun E => mem_statesFin _ _ E)
    (fun w => phi (colOf W) (particles T ++ w.map (T.length + ·)) (particles S))
    (fun w w' hw => phi_perm_rows _ _ ((hw.map _).append_left _)), sum_div]
  refine sum_congr rfl fun E hE => ?_
  rw [mem_statesFin] at hE
  rw [bosonProb_eq_phi W S (T ++ E) (by rw [List.sum_append, hE.2]; omega)]
  have : particles (T ++ E) = particles T ++ (particles E).map (T.length + ·) := by
    rw [← particlesFrom_shift]
    have := particlesFrom_append 0 T E
    rwa [Nat.zero_add] at this
  rw [this, factProd_append]
  have h1 := (factProd_pos T).ne'
  have h2 := (factProd_pos E).ne'
  have h3 := (S.sum - T.sum).factorial_ne_zero
  push_cast
  field_simp

theorem lossyProb_eq_env (W : List (List ℂ)) (b : ℕ) (S T : List ℕ) (h : T.sum ≤ S.sum) :
    (lossyProb W b S T : ℂ)
      = envSum (colOf W) T.length b (particles T) (S.sum - T.sum) (particles S) (particles S)
        / (multFact (particles S : Multiset ℕ) * ((S.sum - T.sum).factorial * factProd T)) := by
  rw [lossyProb_eq_words W b S T h]
  rw [← div_div (envSum _ _ _ _ _ _ _), envSum, Complex.ofReal_div, Complex.ofReal_sum]
  have e : ∀ w ∈ words b (S.sum - T.sum),
      ((phi (colOf W) (particles T ++ w.map (T.length + ·)) (particles S) : ℝ) : ℂ)
        = amp (colOf W) (particles T ++ w.map (T.length + ·)) (particles S) *
            (starRingEnd ℂ) (amp (colOf W) (particles T ++ w.map (T.length + ·)) (particles S))
          / (multFact (particles S : Multiset ℕ) : ℂ) := by
    intro w _
    rw [phi, Complex.mul_conj]
    push_cast
    rfl
  rw [sum_congr rfl e, ← sum_div]
  push_cast
  rfl

/-- The law only depends on the embedded matrix. -/
theorem lossyProb_indep {B W W' : List (List ℂ)} {m b b' : ℕ} (h : IsDilation B W m b) (h' : IsDilation B W' m b')
    (S T : List ℕ) (hS : ∀ x ∈ particles S, x < m) (hT : T.length = m) (hle : T.sum ≤ S.sum) :
    lossyProb W b S T = lossyProb W' b' S T := by
  apply Complex.ofReal_injective
  rw [lossyProb_eq_env W b S T hle, lossyProb_eq_env W' b' S T hle]
  congr 1
  refine envSum_congr _ _ _ _ _ _ _ _ _ _ ?_ ?_
  · intro r hr x hx
    have hr' := particlesFrom_range hr
    have hx' : x < m := hS x (by tauto)
    simp only [colOf]
    rw [h.embeds r (by omega) x hx', h'.embeds r (by omega) x hx']
  · intro x hx y hy
    have hx := hS x hx
    have hy := hS y hy
    have key : ∀ (W : List (List ℂ)) (b : ℕ), IsDilation B W m b →
        ∑ r ∈ range b, colOf W x (T.length + r) * (starRingEnd ℂ) (colOf W y (T.length + r))
          = (if y = x then 1 else 0) - ∑ r ∈ range m, mget B r x * (starRingEnd ℂ) (mget B r y) := by
      intro W b hW
      rw [hT, eq_sub_iff_add_eq', ← hW.isometric y hy x hx, sum_range_add]
      congr 1
      · refine sum_congr rfl fun r hr => ?_
        have hr := mem_range.mp hr
        rw [hW.embeds r hr x hx, hW.embeds r hr y hy, mul_comm]
      · exact sum_congr rfl fun r _ => by simp only [colOf]; rw [mul_comm]
    rw [key W b h, key W' b' h']

end Verif
