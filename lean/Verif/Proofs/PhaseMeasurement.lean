import Verif.Proofs.HybridMixture
import Verif.Proofs.Symmetry
import Verif.Spec.UniformBobs
import Verif.Spec.Measurement

/-! Helper lemmas: random phases between two networks act like a measurement of the numbers of particles. -/
namespace Verif

open Finset
open scoped ENNReal

/-- Columns that are combinations of the columns of `c`. -/
theorem lperm_expand (c v : ℕ → ℕ → ℂ) (m : ℕ) (rs xs : List ℕ) (cs : List (ℕ → ℂ)) :
    lperm rs (xs.map (fun x r => ∑ j ∈ range m, v j x * c j r) ++ cs)
      = ∑ w ∈ words m xs.length, mono v xs w * lperm rs (w.map c ++ cs) := by
  induction xs generalizing cs with
  | nil => simp [words, mono]
  | cons x xs ih =>
    rw [List.map_cons, List.cons_append, lperm_sum_col, List.length_cons, sum_words_succ, sum_comm]
    refine sum_congr rfl fun j _ => ?_
    rw [lperm_perm_cols (List.perm_middle (l₁ := xs.map fun x r => ∑ j ∈ range m, v j x * c j r) (a := c j)).symm, ih,
      mul_sum]
    refine sum_congr rfl fun w _ => ?_
    rw [lperm_perm_cols (List.perm_middle (l₁ := w.map c) (a := c j)), List.map_cons, List.cons_append, mono, mono,
      List.zipWith_cons_cons, List.prod_cons]
    ring

theorem mono_scaled (p : ℕ → ℂ) (q : ℕ → ℕ → ℂ) (xs w : List ℕ) (h : w.length = xs.length) :
    mono (fun j x => p j * q j x) xs w = (w.map p).prod * mono q xs w := by
  induction xs generalizing w with
  | nil =>
    obtain rfl : w = [] := by simpa using h
    simp [mono]
  | cons x xs ih =>
    cases w with
    | nil => simp at h
    | cons j w =>
      have := ih w (by simpa using h)
      unfold mono at this ⊢
      rw [List.zipWith_cons_cons, List.zipWith_cons_cons, List.prod_cons, List.prod_cons, this, List.map_cons, List.prod_cons]
      ring

/-- The amplitude of a network of two parts with phases in between: a sum over the states between the parts. -/
theorem amp_product (c q : ℕ → ℕ → ℂ) (p : ℕ → ℂ) (m : ℕ) (rs xs : List ℕ) :
    amp (fun x r => ∑ j ∈ range m, p j * q j x * c j r) rs xs
      = ∑ R ∈ statesFin m xs.length, amp q xs (particles R) / factProd R * amp c rs (particles R) *
          ((particles R).map p).prod := by
  have e := lperm_expand c (fun j x => p j * q j x) m rs xs []
  rw [List.append_nil] at e
  rw [amp, e, ← sum_fiberwise_of_maps_to (g := occOf m) (t := statesFin m xs.length) fun v hv => mem_image_of_mem _ hv]
  refine sum_congr rfl fun R hR => ?_
  obtain ⟨h1, h2⟩ := (mem_statesFin _ _ R).mp hR
  have hset : (words m xs.length).filter (fun v => occOf m v = R) = arrangements (particles R : Multiset ℕ) := by
    ext v; rw [mem_arr_particles h1, mem_filter, h2]
  rw [hset]
  have hF : (factProd R : ℂ) ≠ 0 := by exact_mod_cast (factProd_pos R).ne'
  have hl : (particles R).length = xs.length := by rw [particles_length, h2]
  rw [amp_eq_mono q xs (particles R) hl, multFact_particles, mul_div_cancel_left₀ _ hF, sum_mul, sum_mul]
  refine sum_congr rfl fun w hw => ?_
  have hw : w.Perm (particles R) := Multiset.coe_eq_coe.mp (mem_arrangements.mp hw)
  rw [List.append_nil, mono_scaled p q xs w (by rw [hw.length_eq, hl]), (hw.map p).prod_eq, amp,
    lperm_perm_cols (hw.map c)]
  ring

theorem mono_filter (q : ℕ → ℕ → ℂ) (K : ℕ) (hq : ∀ j x, K ≤ j ∨ K ≤ x → j ≠ x → q j x = 0) (xs w : List ℕ)
    (h : w.length = xs.length) (hne : mono q xs w ≠ 0) : w.filter (K ≤ ·) = xs.filter (K ≤ ·) := by
  induction xs generalizing w with
  | nil =>
    obtain rfl : w = [] := by simpa using h
    rfl
  | cons x xs ih =>
    cases w with
    | nil => simp at h
    | cons j w =>
      unfold mono at hne
      rw [List.zipWith_cons_cons, List.prod_cons] at hne
      have h1 := ih w (by simpa using h) (right_ne_zero_of_mul hne)
      have h2 := left_ne_zero_of_mul hne
      rw [List.filter_cons, List.filter_cons, h1]
      by_cases hjx : j = x
      · rw [hjx]
      · have : ¬ (K ≤ j ∨ K ≤ x) := fun hk => h2 (hq j x hk hjx)
        have h3 : ¬ K ≤ j := fun h => this (.inl h)
        have h4 : ¬ K ≤ x := fun h => this (.inr h)
        simp [h3, h4]

/-- A network that leaves the modes from `K` on alone leaves their occupation alone. -/
theorem amp_fixed (q : ℕ → ℕ → ℂ) (K : ℕ) (hq : ∀ j x, K ≤ j ∨ K ≤ x → j ≠ x → q j x = 0) (L R : List ℕ)
    (hl : L.length = R.length) (hs : L.sum = R.sum) (hne : amp q (particles L) (particles R) ≠ 0) :
    R.drop K = L.drop K := by
  rw [amp_eq_mono q _ _ (by rw [particles_length, particles_length, hs])] at hne
  obtain ⟨w, hw, hm⟩ := exists_ne_zero_of_sum_ne_zero (right_ne_zero_of_mul hne)
  have hw : w.Perm (particles R) := Multiset.coe_eq_coe.mp (mem_arrangements.mp hw)
  have hf := mono_filter q K hq _ w (by rw [hw.length_eq, particles_length, particles_length, hs]) hm
  refine List.ext_getElem (by simp [hl]) fun i h1 h2 => ?_
  have hc := congrArg (List.count (K + i)) hf
  rw [List.count_filter (by simp), List.count_filter (by simp), hw.count_eq, count_particles, count_particles] at hc
  rw [List.length_drop] at h1 h2
  rw [List.getElem_drop, List.getElem_drop]
  rwa [getD_of_lt _ _ (by omega), getD_of_lt _ _ (by omega)] at hc

/-- The phases of `phaseMatrix`, by number of the mode. -/
noncomputable def phaseNat (K : ℕ) (us : Fin K → ℝ) (j : ℕ) : ℂ := if h : j < K then phaseOf (us ⟨j, h⟩) else 1

theorem phaseNat_prod {K : ℕ} (us : Fin K → ℝ) (t R : List ℕ) (ht : t.length = K) :
    ((particles (t ++ R)).map (phaseNat K us)).prod = ∏ i : Fin K, phaseOf (us i) ^ t.getD i 0 := by
  rw [particles, particlesFrom_append, List.map_append, List.prod_append, ht, Nat.zero_add]
  have h1 : ((particlesFrom K R).map (phaseNat K us)).prod = 1 := by
    refine List.prod_eq_one fun z hz => ?_
    obtain ⟨x, hx, rfl⟩ := List.mem_map.mp hz
    have := particlesFrom_range hx
    rw [phaseNat, dif_neg (by omega)]
  have h2 := prod_particles (phaseNat K us) ht
  rw [particles] at h2
  rw [h1, mul_one, h2]
  refine prod_congr rfl fun i _ => ?_
  rw [phaseNat, dif_pos i.2]

theorem sum_states_fixed {M : Type*} [AddCommMonoid M] {m K : ℕ} (hK : K ≤ m) (L : List ℕ) (hL : L.length = m)
    (f : List ℕ → M) (hf : ∀ R ∈ statesFin m L.sum, R.drop K ≠ L.drop K → f R = 0) :
    ∑ R ∈ statesFin m L.sum, f R = ∑ t ∈ statesFin K (L.take K).sum, f (t ++ L.drop K) := by
  have hsum : (L.take K).sum + (L.drop K).sum = L.sum := by rw [← List.sum_append, List.take_append_drop]
  rw [← sum_filter_add_sum_filter_not _ (fun R => R.drop K = L.drop K), sum_eq_zero (s := filter (fun R => ¬ _) _), add_zero]
  · symm
    refine sum_nbij' (fun t => t ++ L.drop K) (fun R => R.take K) ?_ ?_ ?_ ?_ ?_
    · intro t ht
      obtain ⟨h1, h2⟩ := (mem_statesFin _ _ t).mp ht
      refine mem_filter.mpr ⟨(mem_statesFin _ _ _).mpr ⟨?_, ?_⟩, ?_⟩
      · simp [h1, hL]; omega
      · rw [List.sum_append, h2, hsum]
      · rw [← h1, List.drop_left]
    · intro R hR
      obtain ⟨h1, h2⟩ := mem_filter.mp hR
      obtain ⟨h3, h4⟩ := (mem_statesFin _ _ R).mp h1
      refine (mem_statesFin _ _ _).mpr ⟨by simp [h3, hK], ?_⟩
      have : (R.take K).sum + (R.drop K).sum = R.sum := by rw [← List.sum_append, List.take_append_drop]
      rw [h2] at this
      omega
    · intro t ht
      obtain ⟨h1, h2⟩ := (mem_statesFin _ _ t).mp ht
      change List.take K (t ++ L.drop K) = t
      rw [← h1, List.take_left]
    · intro R hR
      obtain ⟨h1, h2⟩ := mem_filter.mp hR
      change R.take K ++ L.drop K = R
      rw [← h2, List.take_append_drop]
    · intros; rfl
  · intro R hR
    exact hf R (mem_filter.mp hR).1 (mem_filter.mp hR).2

/-- The average over the phases. -/
theorem phase_measure {ι : Type*} (s : Finset ι) (w : ι → ℝ) (hw : ∀ x ∈ s, 0 ≤ w x) (c : ι → ℕ → ℕ → ℂ) (rs : ι → List ℕ)
    {m K : ℕ} (hK : K ≤ m) (q : ℕ → ℕ → ℂ) (hq : ∀ j x, K ≤ j ∨ K ≤ x → j ≠ x → q j x = 0) (L : List ℕ) (hL : L.length = m) :
    expUniform K (fun us => ENNReal.ofReal (∑ x ∈ s, w x *
        phi (fun y r => ∑ j ∈ range m, phaseNat K us j * q j y * c x j r) (rs x) (particles L)))
      = ENNReal.ofReal (∑ x ∈ s, w x * ∑ R ∈ statesFin m L.sum,
          Complex.normSq (amp q (particles L) (particles R)) / (factProd L * factProd R) * phi (c x) (rs x) (particles R)) := by
  set n := (L.take K).sum with hn
  have hz : ∀ R ∈ statesFin m L.sum, R.drop K ≠ L.drop K → amp q (particles L) (particles R) = 0 := by
    intro R hR hd
    obtain ⟨h1, h2⟩ := (mem_statesFin _ _ R).mp hR
    by_contra hne
    exact hd (amp_fixed q K hq L R (by rw [hL, h1]) h2.symm hne)
  let g : ι → List ℕ → ℂ := fun x t => amp q (particles L) (particles (t ++ L.drop K)) / factProd (t ++ L.drop K) *
    amp (c x) (rs x) (particles (t ++ L.drop K))
  have e : ∀ us : Fin K → ℝ, ∑ x ∈ s, w x *
        phi (fun y r => ∑ j ∈ range m, phaseNat K us j * q j y * c x j r) (rs x) (particles L)
      = ∑ x ∈ s, (w x / factProd L) * Complex.normSq (∑ e : Fin K → Fin (n + 1),
          (if ∑ i, (e i : ℕ) = n then g x (List.ofFn fun i => (e i : ℕ)) else 0) * ∏ i, phaseOf (us i) ^ (e i : ℕ)) := by
    intro us
    refine sum_congr rfl fun x _ => ?_
    rw [phi, multFact_particles, amp_product, particles_length, sum_states_fixed hK L hL _ fun R hR hd => by
      rw [hz R hR hd, zero_div, zero_mul, zero_mul], ← mul_div_assoc, mul_div_right_comm]
    congr 2
    have h3 : ∀ t ∈ statesFin K n, amp q (particles L) (particles (t ++ L.drop K)) / factProd (t ++ L.drop K) *
        amp (c x) (rs x) (particles (t ++ L.drop K)) * ((particles (t ++ L.drop K)).map (phaseNat K us)).prod
        = g x t * ∏ i : Fin K, phaseOf (us i) ^ t.getD i 0 := by
      intro t ht
      rw [phaseNat_prod us t _ ((mem_statesFin _ _ t).mp ht).1]
    rw [sum_congr rfl h3, sum_states_fin]
    refine sum_congr rfl fun e _ => ?_
    split_ifs
    · simp
    · simp
  simp only [e]
  rw [parseval s _ (fun x hx => div_nonneg (hw x hx) (Nat.cast_nonneg _)) K (n + 1)
    fun x e => if ∑ i, (e i : ℕ) = n then g x (List.ofFn fun i => (e i : ℕ)) else 0]
  congr 1
  refine sum_congr rfl fun x hx => ?_
  have e1 : ∑ e : Fin K → Fin (n + 1), Complex.normSq (if ∑ i, (e i : ℕ) = n then g x (List.ofFn fun i => (e i : ℕ)) else 0)
      = ∑ t ∈ statesFin K n, Complex.normSq (g x t) := by
    rw [sum_states_fin]
    refine sum_congr rfl fun e _ => ?_
    split_ifs
    · rfl
    · simp
  rw [e1, sum_states_fixed hK L hL (fun R => Complex.normSq (amp q (particles L) (particles R)) / (factProd L * factProd R) *
    phi (c x) (rs x) (particles R)) fun R hR hd => by rw [hz R hR hd]; simp, mul_sum, mul_sum]
  refine sum_congr rfl fun t _ => ?_
  have h3 : (factProd (t ++ L.drop K) : ℝ) ≠ 0 := by exact_mod_cast (factProd_pos _).ne'
  have h4 : (factProd L : ℝ) ≠ 0 := by exact_mod_cast (factProd_pos L).ne'
  simp only [g]
  rw [map_mul, map_div₀, Complex.normSq_natCast, phi, multFact_particles]
  field_simp

/-- The entries of a matrix by number. -/
noncomputable def entryNat {m : ℕ} (V : Matrix (Fin m) (Fin m) ℂ) (j x : ℕ) : ℂ :=
  if h : j < m ∧ x < m then V ⟨j, h.1⟩ ⟨x, h.2⟩ else 0

theorem bosonProb_entry {m : ℕ} (V : Matrix (Fin m) (Fin m) ℂ) (L R : List ℕ) (hL : L.length = m) (hR : R.length = m)
    (hs : L.sum = R.sum) :
    bosonProb (rowsOf V) L R = Complex.normSq (amp (entryNat V) (particles L) (particles R)) / (factProd L * factProd R) := by
  have hrev : Reversed m (rowsOf V) (rowsOf V.conjTranspose) := by
    intro i hi j hj
    rw [mget_rowsOf _ _ _ hi hj, mget_rowsOf _ _ _ hj hi, Matrix.conjTranspose_apply]
    rfl
  rw [← bosonProb_reversed hrev L R hL hR hs, bosonProb, normSq_scattering _ _ _ hs.symm,
    amp_conj (entryNat V) (colOf (rowsOf V.conjTranspose)), Complex.normSq_conj, mul_comm]
  intro i hi j hj
  have hi := particles_lt hL hi
  have hj := particles_lt hR hj
  rw [colOf, hrev i hi j hj, mget_rowsOf _ _ _ hj hi, entryNat, dif_pos ⟨hj, hi⟩]

theorem measuredThen_eq (m : ℕ) (V : List (List ℂ)) (L : List ℕ) (f : List ℕ → ℝ) :
    measuredThen m V L f = ∑ R ∈ statesFin m L.sum, bosonProb V L R * f R := by
  rw [measuredThen, sum_filter, sum_states_fin]

/-- Random phases on the first `K` modes between `V`, which acts on these modes only, and any networks `A x`. -/
theorem phase_network {ι : Type*} (s : Finset ι) (w : ι → ℝ) (hw : ∀ x ∈ s, 0 ≤ w x) {m b b' K : ℕ} (hK : K ≤ m)
    {V : Matrix (Fin m) (Fin m) ℂ} (hV : V ∈ Matrix.unitaryGroup (Fin m) ℂ) (hfix : FixesLast (m - K) V)
    (A : ι → Matrix (Fin m) (Fin m) ℂ) (W : ι → List (List ℂ)) (hW : ∀ x, IsDilation (rowsOf (A x)) (W x) m b)
    (W' : ι → (Fin K → ℝ) → List (List ℂ))
    (hW' : ∀ x us, IsDilation (rowsOf (A x * phaseMatrix K m us * V)) (W' x us) m b')
    (L T : List ℕ) (hL : L.length = m) (hT : T.length = m) :
    expUniform K (fun us => ENNReal.ofReal (∑ x ∈ s, w x * lossyProb (W' x us) b' L T))
      = ENNReal.ofReal (∑ x ∈ s, w x * measuredThen m (rowsOf V) L fun R => lossyProb (W x) b R T) := by
  have hq : ∀ j x, K ≤ j ∨ K ≤ x → j ≠ x → entryNat V j x = 0 := by
    intro j x h hne
    unfold entryNat
    split_ifs with hjx
    · rw [hfix ⟨j, hjx.1⟩ ⟨x, hjx.2⟩ (by simp only; omega), if_neg (fun h => hne (congrArg Fin.val h))]
    · rfl
  by_cases hle : T.sum ≤ L.sum
  · set a : ℝ := 1 / (((L.sum - T.sum).factorial : ℝ) * factProd T) with ha
    have e : ∀ us, ∑ x ∈ s, w x * lossyProb (W' x us) b' L T
        = ∑ y ∈ s ×ˢ words b (L.sum - T.sum), (w y.1 * a) *
            phi (fun x r => ∑ j ∈ range m, phaseNat K us j * entryNat V j x * colOf (W y.1) j r)
              (particles T ++ y.2.map (m + ·)) (particles L) := by
      intro us
      rw [sum_product]
      refine sum_congr rfl fun x _ => ?_
      have hPV : phaseMatrix K m us * V ∈ Matrix.unitaryGroup (Fin m) ℂ := mul_mem (generatePhases_eq K m hK us).2 hV
      have hd := mulRows_isDilation (hW x) hPV
      rw [← Matrix.mul_assoc] at hd
      rw [lossyProb_indep (hW' x us) hd L T (fun x hx => particles_lt hL hx) hT hle,
        lossyProb_eq_words _ _ _ _ hle, hT, div_eq_inv_mul, ← one_div, ← ha, mul_sum, mul_sum]
      refine sum_congr rfl fun v hv => ?_
      rw [mul_assoc]
      congr 2
      rw [phi, phi]
      congr 2
      refine (amp_block _ _ _ _ fun i hi j hj => ?_)
      have hj := particles_lt hL hj
      have hi : i < m + b := by
        rw [List.mem_append] at hi
        rcases hi with hi | hi
        · have := particles_lt hT hi; omega
        · rw [List.mem_map] at hi
          obtain ⟨y, hy, rfl⟩ := hi
          have := (mem_words.mp hv).2 y hy
          omega
      rw [colOf, mget_mulRows _ _ _ hi hj, sum_range]
      refine sum_congr rfl fun k _ => ?_
      rw [show entryNat V k j = V k ⟨j, hj⟩ from dif_pos ⟨k.2, hj⟩, phaseMatrix, Matrix.diagonal_mul, phaseNat, colOf, mul_comm]
      rfl
    simp only [e]
    rw [phase_measure (s ×ˢ words b (L.sum - T.sum)) (fun y => w y.1 * a) (fun y hy =>
        mul_nonneg (hw _ (mem_product.mp hy).1) (by positivity)) (fun y => colOf (W y.1))
        (fun y => particles T ++ y.2.map (m + ·)) hK (entryNat V) hq L hL, sum_product]
    congr 1
    refine sum_congr rfl fun x _ => ?_
    simp only [mul_assoc]
    rw [← mul_sum, measuredThen_eq]
    congr 1
    simp only [mul_sum]
    rw [sum_comm]
    refine sum_congr rfl fun R hR => ?_
    obtain ⟨h1, h2⟩ := (mem_statesFin _ _ R).mp hR
    rw [bosonProb_entry V L R hL h1 h2.symm, lossyProb_eq_words _ _ _ _ (by omega), h2, hT, div_eq_inv_mul (∑ v ∈ _, _),
      ← one_div, ← ha, mul_sum, mul_sum]
    refine sum_congr rfl fun v _ => ?_
    ring
  · have e : ∀ us, ∑ x ∈ s, w x * lossyProb (W' x us) b' L T = 0 := fun us =>
      sum_eq_zero fun x _ => by rw [lossyProb_eq_zero _ _ _ _ (by omega), mul_zero]
    simp only [e]
    rw [expUniform_const, sum_eq_zero]
    intro x _
    rw [measuredThen_eq, sum_eq_zero fun R hR => ?_, mul_zero]
    rw [lossyProb_eq_zero _ _ _ _ (by rw [((mem_statesFin _ _ R).mp hR).2]; omega), mul_zero]

end Verif
