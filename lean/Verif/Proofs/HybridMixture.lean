import Verif.Proofs.Thrown
import Verif.Proofs.LossChannel
import Verif.Proofs.BobsSample
import Verif.Proofs.Cliffords
import Verif.Proofs.PhaseShift
import Verif.Proofs.Correlations

/-! Helper lemmas: random phases on some of the modes average to particles entering these modes at random. -/
namespace Verif

open Finset
open scoped ENNReal

/-- The permanent is linear in the first column. -/
theorem lperm_sum_col {ι K : Type*} [CommRing K] {κ : Type*} (s : Finset κ) (z : κ → K) (f : κ → ι → K) (rs : List ι)
    (cs : List (ι → K)) :
    lperm rs ((fun r => ∑ j ∈ s, z j * f j r) :: cs) = ∑ j ∈ s, z j * lperm rs (f j :: cs) := by
  induction rs generalizing cs with
  | nil => simp [lperm]
  | cons r rs ih =>
    simp only [lperm, picks, List.map_cons, List.sum_cons, List.map_map, mul_add, sum_add_distrib]
    congr 1
    · rw [sum_mul]
      exact sum_congr rfl fun j _ => by ring
    · have e : ∀ p ∈ picks cs, ((fun p : (ι → K) × List (ι → K) => p.1 r * lperm rs p.2) ∘
            fun p => (p.1, (fun r => ∑ j ∈ s, z j * f j r) :: p.2)) p
          = ∑ j ∈ s, z j * (p.1 r * lperm rs (f j :: p.2)) := by
        intro p _
        simp only [Function.comp, ih, mul_sum]
        exact sum_congr rfl fun j _ => by ring
      rw [List.map_congr_left e]
      generalize picks cs = l
      induction l with
      | nil => simp
      | cons p l ihl =>
        simp only [List.map_cons, List.sum_cons, ihl, mul_add, sum_add_distrib, Function.comp]

theorem lperm_replicate_sum (c : ℕ → ℕ → ℂ) (K : ℕ) (z : ℕ → ℂ) (rs : List ℕ) (l : ℕ) (cs : List (ℕ → ℂ)) :
    lperm rs (List.replicate l (fun r => ∑ j ∈ range K, z j * c j r) ++ cs)
      = ∑ w ∈ words K l, (w.map z).prod * lperm rs (w.map c ++ cs) := by
  induction l generalizing cs with
  | zero => simp [words]
  | succ l ih =>
    rw [List.replicate_succ, List.cons_append, lperm_sum_col, sum_words_succ, sum_comm]
    refine sum_congr rfl fun j _ => ?_
    rw [lperm_perm_cols (List.perm_middle (l₁ := List.replicate l fun r => ∑ j ∈ range K, z j * c j r) (a := c j)).symm, ih,
      mul_sum]
    refine sum_congr rfl fun w _ => ?_
    rw [lperm_perm_cols (List.perm_middle (l₁ := w.map c) (a := c j)), List.map_cons, List.map_cons, List.prod_cons,
      List.cons_append]
    ring

/-- The columns with the first one replaced by the even superposition of the first `K` with phases. -/
noncomputable def smearedCols (c : ℕ → ℕ → ℂ) (K : ℕ) (us : Fin K → ℝ) (x : ℕ) : ℕ → ℂ :=
  if x = 0 then fun r => ∑ j ∈ range K, smearedNat K K us j * c j r else c x

theorem smearedNat_self {K : ℕ} (us : Fin K → ℝ) {t : List ℕ} (ht : t.length = K) :
    ((particles t).map (smearedNat K K us)).prod
      = ((1 / Real.sqrt K : ℝ) : ℂ) ^ t.sum * ∏ i : Fin K, phaseOf (us i) ^ t.getD i 0 := by
  rw [prod_particles _ ht]
  have hs : ∑ i : Fin K, t.getD i 0 = t.sum := by
    subst ht
    rw [← Fin.sum_univ_getElem t]
    exact sum_congr rfl fun i _ => by rw [getD_of_lt _ _ i.2]
  rw [← hs, ← prod_pow_eq_pow_sum, ← prod_mul_distrib]
  refine prod_congr rfl fun i _ => ?_
  rw [smearedNat_fin, mul_pow, evenAmp, if_pos i.2]

theorem amp_smeared (c : ℕ → ℕ → ℂ) (K : ℕ) (us : Fin K → ℝ) (rs : List ℕ) (l : ℕ) (q : List ℕ) (hq : ∀ x ∈ q, x ≠ 0) :
    amp (smearedCols c K us) rs (List.replicate l 0 ++ q)
      = ∑ t ∈ statesFin K l, ((arrangements (particles t : Multiset ℕ)).card : ℂ) * ((1 / Real.sqrt K : ℝ) : ℂ) ^ l *
          amp c rs (particles t ++ q) * ∏ i : Fin K, phaseOf (us i) ^ t.getD i 0 := by
  have e : (List.replicate l 0 ++ q).map (smearedCols c K us)
      = List.replicate l (fun r => ∑ j ∈ range K, smearedNat K K us j * c j r) ++ q.map c := by
    rw [List.map_append, List.map_replicate, smearedCols, if_pos rfl]
    congr 1
    exact List.map_congr_left fun x hx => by rw [smearedCols, if_neg (hq x hx)]
  rw [amp, e, lperm_replicate_sum,
    sum_words_states' K l (fun w => (w.map (smearedNat K K us)).prod * lperm rs (w.map c ++ q.map c)) fun w w' h => by
      rw [(h.map _).prod_eq, lperm_perm_cols ((h.map c).append_right _)]]
  refine sum_congr rfl fun t ht => ?_
  obtain ⟨h1, h2⟩ := (mem_statesFin K l t).mp ht
  rw [smearedNat_self us h1, h2, nsmul_eq_mul, amp, List.map_append]
  ring

theorem phase_states {ι : Type*} (s : Finset ι) (w : ι → ℝ) (hw : ∀ x ∈ s, 0 ≤ w x) (c : ℕ → ℕ → ℂ) (K : ℕ) (hK : 0 < K)
    (l : ℕ) (R : List ℕ) (rs : ι → List ℕ) :
    expUniform K (fun us => ENNReal.ofReal (∑ x ∈ s, w x *
        phi (smearedCols c K us) (rs x) (particles (l :: List.replicate (K - 1) 0 ++ R))))
      = ENNReal.ofReal (∑ x ∈ s, w x * (1 / (K : ℝ) ^ l * ∑ v ∈ words K l, phi c (rs x) (particles (occOf K v ++ R)))) := by
  have hpb : particles (l :: List.replicate (K - 1) 0 ++ R) = List.replicate l 0 ++ particlesFrom K R := by
    have := particles_bunched 0 (K - 1) l R
    rwa [List.replicate_zero, List.nil_append, show 0 + 1 + (K - 1) = K by omega] at this
  have hmf : multFact (particles (l :: List.replicate (K - 1) 0 ++ R) : Multiset ℕ) = l.factorial * factProd R := by
    rw [multFact_particles]
    have := factProd_bunched 0 (K - 1) l R
    rwa [List.replicate_zero, List.nil_append] at this
  have hpt : ∀ t : List ℕ, t.length = K → particles (t ++ R) = particles t ++ particlesFrom K R := by
    intro t ht
    rw [particles, particlesFrom_append, ht, Nat.zero_add]
  have hF : ((l.factorial * factProd R : ℕ) : ℝ) ≠ 0 := by
    exact_mod_cast (Nat.mul_pos l.factorial_pos (factProd_pos R)).ne'
  have e : ∀ us : Fin K → ℝ, ∑ x ∈ s, w x * phi (smearedCols c K us) (rs x) (particles (l :: List.replicate (K - 1) 0 ++ R))
      = ∑ x ∈ s, (w x / (l.factorial * factProd R : ℕ)) * Complex.normSq (∑ e : Fin K → Fin (l + 1),
          (if ∑ i, (e i : ℕ) = l then
            (fun t => ((arrangements (particles t : Multiset ℕ)).card : ℂ) * ((1 / Real.sqrt K : ℝ) : ℂ) ^ l *
              amp c (rs x) (particles t ++ particlesFrom K R)) (List.ofFn fun i => (e i : ℕ)) else 0)
            * ∏ i, phaseOf (us i) ^ (e i : ℕ)) := by
    intro us
    refine sum_congr rfl fun x _ => ?_
    rw [phi, hmf, hpb, amp_smeared c K us (rs x) l _ (fun y hy => by
      have := particlesFrom_range hy; omega), sum_states_fin, ← mul_div_assoc, mul_div_right_comm]
    congr 2
    refine sum_congr rfl fun e _ => ?_
    split_ifs
    · simp
    · simp
  simp only [e]
  rw [parseval s _ (fun x hx => div_nonneg (hw x hx) (Nat.cast_nonneg _)) K (l + 1)
    fun x e => if ∑ i, (e i : ℕ) = l then
            (fun t => ((arrangements (particles t : Multiset ℕ)).card : ℂ) * ((1 / Real.sqrt K : ℝ) : ℂ) ^ l *
              amp c (rs x) (particles t ++ particlesFrom K R)) (List.ofFn fun i => (e i : ℕ)) else 0]
  congr 1
  refine sum_congr rfl fun x hx => ?_
  have e1 : ∑ e : Fin K → Fin (l + 1), Complex.normSq (if ∑ i, (e i : ℕ) = l then
            (fun t => ((arrangements (particles t : Multiset ℕ)).card : ℂ) * ((1 / Real.sqrt K : ℝ) : ℂ) ^ l *
              amp c (rs x) (particles t ++ particlesFrom K R)) (List.ofFn fun i => (e i : ℕ)) else 0)
      = ∑ t ∈ statesFin K l, Complex.normSq (((arrangements (particles t : Multiset ℕ)).card : ℂ) *
          ((1 / Real.sqrt K : ℝ) : ℂ) ^ l * amp c (rs x) (particles t ++ particlesFrom K R)) := by
    rw [sum_states_fin]
    refine sum_congr rfl fun e _ => ?_
    split_ifs
    · rfl
    · simp
  have e2 : ∑ v ∈ words K l, phi c (rs x) (particles (occOf K v ++ R))
      = ∑ t ∈ statesFin K l, ((arrangements (particles t : Multiset ℕ)).card : ℝ) *
          (Complex.normSq (amp c (rs x) (particles t ++ particlesFrom K R)) / (factProd t * factProd R : ℕ)) := by
    rw [← sum_fiberwise_of_maps_to (g := occOf K) (t := statesFin K l) fun v hv => mem_image_of_mem _ hv]
    refine sum_congr rfl fun t ht => ?_
    obtain ⟨h1, h2⟩ := (mem_statesFin K l t).mp ht
    have hset : (words K l).filter (fun v => occOf K v = t) = arrangements (particles t : Multiset ℕ) := by
      ext v; rw [mem_arr_particles h1, mem_filter, h2]
    rw [sum_congr rfl (g := fun _ => phi c (rs x) (particles (t ++ R))) fun v hv => by rw [(mem_filter.mp hv).2], sum_const,
      hset, nsmul_eq_mul, phi, multFact_particles, factProd_append, hpt t h1]
  rw [e1, e2, mul_sum, mul_sum, mul_sum]
  refine sum_congr rfl fun t ht => ?_
  obtain ⟨h1, h2⟩ := (mem_statesFin K l t).mp ht
  have hc := card_arr_particles t
  rw [h2] at hc
  have hc' : ((arrangements (particles t : Multiset ℕ)).card : ℝ) * factProd t = l.factorial := by exact_mod_cast hc
  have hsq : Complex.normSq (((1 / Real.sqrt K : ℝ) : ℂ) ^ l) = 1 / (K : ℝ) ^ l := by
    rw [map_pow, Complex.normSq_ofReal, ← sq, div_pow, one_pow, Real.sq_sqrt (Nat.cast_nonneg _), one_div_pow]
  rw [map_mul, map_mul, hsq, Complex.normSq_natCast, Nat.cast_mul, Nat.cast_mul, ← hc']
  have h3 : (factProd t : ℝ) ≠ 0 := by exact_mod_cast (factProd_pos t).ne'
  have h4 : (factProd R : ℝ) ≠ 0 := by exact_mod_cast (factProd_pos R).ne'
  have h5 : ((arrangements (particles t : Multiset ℕ)).card : ℝ) ≠ 0 := by
    intro h; rw [h, zero_mul] at hc'; exact l.factorial_ne_zero (by exact_mod_cast hc'.symm)
  field_simp

/-- The rows of `W * V` for an array `W` with `n` rows and `m` columns. -/
noncomputable def mulRows {m : ℕ} (W : List (List ℂ)) (n : ℕ) (V : Matrix (Fin m) (Fin m) ℂ) : List (List ℂ) :=
  (List.range n).map fun r => List.ofFn fun x : Fin m => ∑ j : Fin m, mget W r j * V j x

theorem mget_mulRows {m : ℕ} (W : List (List ℂ)) (n : ℕ) (V : Matrix (Fin m) (Fin m) ℂ) {r x : ℕ} (hr : r < n) (hx : x < m) :
    mget (mulRows W n V) r x = ∑ j : Fin m, mget W r j * V j ⟨x, hx⟩ := by
  simp [mget, mulRows, hr, hx]

theorem mulRows_isDilation {m b : ℕ} {A V : Matrix (Fin m) (Fin m) ℂ} {W : List (List ℂ)} (hW : IsDilation (rowsOf A) W m b)
    (hV : V ∈ Matrix.unitaryGroup (Fin m) ℂ) : IsDilation (rowsOf (A * V)) (mulRows W (m + b) V) m b := by
  refine ⟨fun i hi j hj => ?_, fun x hx y hy => ?_⟩
  · rw [mget_mulRows W _ V (by omega) hj, mget_rowsOf _ _ _ hi hj, Matrix.mul_apply]
    refine sum_congr rfl fun k _ => ?_
    rw [hW.embeds i hi k k.2, mget_rowsOf _ _ _ hi k.2]
  · have h1 : ∀ r ∈ range (m + b), (starRingEnd ℂ) (mget (mulRows W (m + b) V) r x) * mget (mulRows W (m + b) V) r y
        = ∑ i : Fin m, ∑ j : Fin m, ((starRingEnd ℂ) (V i ⟨x, hx⟩) * V j ⟨y, hy⟩) *
            ((starRingEnd ℂ) (mget W r i) * mget W r j) := by
      intro r hr
      rw [mget_mulRows W _ V (mem_range.mp hr) hx, mget_mulRows W _ V (mem_range.mp hr) hy, map_sum, sum_mul_sum]
      refine sum_congr rfl fun i _ => sum_congr rfl fun j _ => ?_
      rw [map_mul]; ring
    rw [sum_congr rfl h1, sum_comm]
    have h2 : ∀ i : Fin m, ∑ r ∈ range (m + b), ∑ j : Fin m, ((starRingEnd ℂ) (V i ⟨x, hx⟩) * V j ⟨y, hy⟩) *
            ((starRingEnd ℂ) (mget W r i) * mget W r j) = (starRingEnd ℂ) (V i ⟨x, hx⟩) * V i ⟨y, hy⟩ := by
      intro i
      rw [sum_comm]
      simp only [← mul_sum]
      rw [sum_congr rfl fun j _ => by rw [hW.isometric i i.2 j j.2]]
      simp [Fin.val_inj]
    rw [sum_congr rfl fun i _ => h2 i]
    have h3 := congrFun (congrFun (Matrix.mem_unitaryGroup_iff'.mp hV) ⟨x, hx⟩) ⟨y, hy⟩
    rw [Matrix.mul_apply, Matrix.one_apply] at h3
    simpa [Matrix.star_apply] using h3

/-- Column 0 of the Fourier transform with phases is the smeared column, the columns from `K` on are unchanged. -/
theorem colOf_smearing {m b K : ℕ} (hK : 0 < K) (hKm : K ≤ m) (W : List (List ℂ)) (us : Fin K → ℝ) {r x : ℕ}
    (hr : r < m + b) (hx : x < m) (hx' : x = 0 ∨ K ≤ x) :
    colOf (mulRows W (m + b) (phaseMatrix K m us * dftMatrix K m)) x r = smearedCols (colOf W) K us x r := by
  rw [colOf, mget_mulRows W _ _ hr hx, smearedCols]
  have hentry : ∀ j : Fin m, (phaseMatrix K m us * dftMatrix K m) j ⟨x, hx⟩
      = (if h : (j : ℕ) < K then Complex.exp (2 * Real.pi * us ⟨j, h⟩ * Complex.I) else 1) * dftMatrix K m j ⟨x, hx⟩ := by
    intro j
    rw [phaseMatrix, Matrix.diagonal_mul]
  by_cases h0 : x = 0
  · subst h0
    rw [if_pos rfl]
    rw [← sum_subset (s₁ := (univ : Finset (Fin m)).filter fun j : Fin m => (j : ℕ) < K) (filter_subset _ _)]
    · have e : ∀ j ∈ (univ : Finset (Fin m)).filter (fun j : Fin m => (j : ℕ) < K), mget W r j * (phaseMatrix K m us * dftMatrix K m) j ⟨0, hx⟩
          = smearedNat K K us j * colOf W j r := by
        intro j hj
        have hj := (mem_filter.mp hj).2
        rw [hentry, dif_pos hj, dftMatrix, Matrix.of_apply, if_pos ⟨hj, hK⟩, smearedNat, dif_pos hj, smeared,
          if_pos hj, colOf]
        simp only [Nat.cast_zero, mul_zero, zero_div, Complex.exp_zero]
        ring
      rw [sum_congr rfl e]
      refine sum_bij (fun j _ => (j : ℕ)) ?_ ?_ ?_ fun _ _ => rfl
      · intro j hj; exact mem_range.mpr (mem_filter.mp hj).2
      · intro i _ j _ h; exact Fin.ext h
      · intro j hj
        have := mem_range.mp hj
        exact ⟨⟨j, by omega⟩, by simpa using this, rfl⟩
    · intro j _ hj
      have hj' : ¬ (j : ℕ) < K := fun h => hj (mem_filter.mpr ⟨mem_univ _, h⟩)
      rw [hentry, dftMatrix, Matrix.of_apply, if_neg (fun h => hj' h.1), if_neg (by
        intro h; have := congrArg Fin.val h; simp only at this; omega), mul_zero, mul_zero]
  · rw [if_neg h0, sum_eq_single ⟨x, hx⟩]
    · rw [hentry, dftMatrix, Matrix.of_apply, dif_neg (by simp only; omega), if_neg (fun h => by simp only at h; omega), if_pos rfl,
        mul_one, mul_one, colOf]
    · intro j _ hj
      rw [hentry, dftMatrix, Matrix.of_apply, if_neg (fun h => by simp only at h; omega), if_neg hj, mul_zero, mul_zero]
    · simp

/-- The law of `l` particles in mode 0 of the smeared network. -/
theorem hybrid_mixture {m b b' K : ℕ} (hK : 0 < K) (hKm : K ≤ m) {A : Matrix (Fin m) (Fin m) ℂ} {W : List (List ℂ)}
    (hW : IsDilation (rowsOf A) W m b) (W' : (Fin K → ℝ) → List (List ℂ))
    (hW' : ∀ us, IsDilation (rowsOf (A * phaseMatrix K m us * dftMatrix K m)) (W' us) m b') (l : ℕ) (R : List ℕ)
    (hR : R.length = m - K) (T : List ℕ) (hT : T.length = m) :
    expUniform K (fun us => ENNReal.ofReal (lossyProb (W' us) b' (l :: List.replicate (K - 1) 0 ++ R) T))
      = ENNReal.ofReal (1 / (K : ℝ) ^ l * ∑ v ∈ words K l, lossyProb W b (occOf K v ++ R) T) := by
  set L := l :: List.replicate (K - 1) 0 ++ R with hL
  have hLs : L.sum = l + R.sum := by simp [hL]
  have hvs : ∀ v ∈ words K l, (occOf K v ++ R).sum = l + R.sum := by
    intro v hv
    have hv := mem_words.mp hv
    rw [List.sum_append, occOf_sum _ _ hv.2, hv.1]
  have hp : particles L = List.replicate l 0 ++ particlesFrom K R := by
    have := particles_bunched 0 (K - 1) l R
    rwa [List.replicate_zero, List.nil_append, show 0 + 1 + (K - 1) = K by omega] at this
  have hpx : ∀ x ∈ particles L, x < m ∧ (x = 0 ∨ K ≤ x) := by
    intro x hx
    rw [hp, List.mem_append] at hx
    rcases hx with hx | hx
    · have := List.eq_of_mem_replicate hx
      omega
    · have := particlesFrom_range hx
      omega
  by_cases hle : T.sum ≤ l + R.sum
  · have e : ∀ us, lossyProb (W' us) b' L T = ∑ w ∈ words b (l + R.sum - T.sum),
        1 / (((l + R.sum - T.sum).factorial : ℝ) * factProd T) *
          phi (smearedCols (colOf W) K us) (particles T ++ w.map (m + ·)) (particles L) := by
      intro us
      have hV : phaseMatrix K m us * dftMatrix K m ∈ Matrix.unitaryGroup (Fin m) ℂ :=
        mul_mem (generatePhases_eq K m hKm us).2 (generateQft_eq K m hKm).2
      have hd := mulRows_isDilation hW hV
      rw [← Matrix.mul_assoc] at hd
      rw [lossyProb_indep (hW' us) hd L T (fun x hx => (hpx x hx).1) hT (by omega),
        lossyProb_eq_words _ _ _ _ (by omega), hLs, hT, div_eq_inv_mul, ← one_div, mul_sum]
      refine sum_congr rfl fun w hw => ?_
      congr 1
      rw [phi, phi]
      congr 2
      refine (amp_block _ _ _ _ fun i hi j hj => ?_)
      refine (colOf_smearing hK hKm W us (b := b) ?_ (hpx j hj).1 (hpx j hj).2)
      rw [List.mem_append] at hi
      rcases hi with hi | hi
      · have := particlesFrom_range hi; omega
      · rw [List.mem_map] at hi
        obtain ⟨y, hy, rfl⟩ := hi
        have := (mem_words.mp hw).2 y hy
        omega
    simp only [e]
    rw [phase_states (words b (l + R.sum - T.sum)) _ (fun _ _ => by positivity) (colOf W) K hK l R]
    congr 1
    have e2 : ∀ v ∈ words K l, lossyProb W b (occOf K v ++ R) T
        = ∑ w ∈ words b (l + R.sum - T.sum), 1 / (((l + R.sum - T.sum).factorial : ℝ) * factProd T) *
            phi (colOf W) (particles T ++ w.map (m + ·)) (particles (occOf K v ++ R)) := by
      intro v hv
      rw [lossyProb_eq_words _ _ _ _ (by rw [hvs v hv]; exact hle), hvs v hv, hT, div_eq_inv_mul, ← one_div, mul_sum]
    rw [sum_congr rfl e2, sum_comm, mul_sum]
    refine sum_congr rfl fun w _ => ?_
    rw [← mul_sum]
    ring
  · have e : ∀ us, lossyProb (W' us) b' L T = 0 := fun us => lossyProb_eq_zero _ _ _ _ (by omega)
    simp only [e]
    rw [expUniform_const, sum_eq_zero fun v hv => lossyProb_eq_zero _ _ _ _ (by rw [hvs v hv]; omega), mul_zero]

end Verif
