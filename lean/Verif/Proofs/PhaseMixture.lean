import Verif.Proofs.Parseval
import Verif.Proofs.Dilation

/-! Helper lemmas: the random phases of the separable strategies average to a random input state. -/
namespace Verif

open Finset MeasureTheory
open scoped ENNReal

/-- Amplitude with which the particles entering the modes `w` leave through the modes `rs`, in this order. -/
def mono (c : ℕ → ℕ → ℂ) (rs w : List ℕ) : ℂ := (List.zipWith (fun r j => c j r) rs w).prod

theorem prod_expand (c : ℕ → ℕ → ℂ) (m : ℕ) (z : ℕ → ℂ) (rs : List ℕ) :
    (rs.map fun r => ∑ j ∈ range m, c j r * z j).prod = ∑ w ∈ words m rs.length, mono c rs w * (w.map z).prod := by
  induction rs with
  | nil => simp [words, mono]
  | cons r rs ih =>
    rw [List.map_cons, List.prod_cons, ih, List.length_cons, sum_words_succ, sum_mul_sum, sum_comm]
    refine sum_congr rfl fun w _ => sum_congr rfl fun j _ => ?_
    simp only [mono, List.zipWith_cons_cons, List.prod_cons, List.map_cons]
    ring

theorem amp_eq_mono (c : ℕ → ℕ → ℂ) (rs cs : List ℕ) (h : cs.length = rs.length) :
    amp c rs cs = multFact (cs : Multiset ℕ) * ∑ w ∈ arrangements (cs : Multiset ℕ), mono c rs w := by
  induction rs generalizing cs with
  | nil =>
    obtain rfl : cs = [] := by simpa using h
    have : arrangements (([] : List ℕ) : Multiset ℕ) = {[]} := by
      ext l; simp [mem_arrangements]
    rw [this]
    simp [amp, lperm, mono, multFact]
  | cons r rs ih =>
    have hne : (cs : Multiset ℕ) ≠ 0 := by
      intro e
      rw [Multiset.coe_eq_zero] at e
      simp [e] at h
    have key : ∀ G : ℕ → ℂ, (∀ p ∈ picks cs, c p.1 r * amp c rs p.2 = G p.1) → amp c (r :: rs) cs = (cs.map G).sum := by
      intro G hG
      rw [amp_cons, List.map_congr_left hG]
      conv_rhs => rw [← picks_fst cs, List.map_map]
      rfl
    rw [key fun a => c a r * ((multFact ((cs.erase a : List ℕ) : Multiset ℕ) : ℂ) *
            ∑ w ∈ arrangements ((cs.erase a : List ℕ) : Multiset ℕ), mono c rs w)]
    rotate_left
    · intro p hp
      have h1 := picks_perm hp
      have h2 : p.2.Perm (cs.erase p.1) := by
        have := h1.erase p.1
        rwa [List.erase_cons_head] at this
      have hl : p.2.length = rs.length := by
        have := h1.length_eq
        simp only [List.length_cons] at this h
        omega
      rw [ih _ hl, Multiset.coe_eq_coe.mpr h2]
    rw [Finset.sum_list_map_count, arrangements_eq _ hne, sum_biUnion, mul_sum]
    · refine sum_congr rfl fun a ha => ?_
      have ha' : a ∈ (cs : Multiset ℕ) := by simpa using ha
      rw [sum_image (List.cons_injective.injOn), multFact_erase ha', Multiset.coe_count, Multiset.coe_erase, nsmul_eq_mul]
      simp only [mono, List.zipWith_cons_cons, List.prod_cons]
      rw [← mul_sum]
      push_cast
      ring
    · intro a _ b _ hab
      rw [Function.onFun, disjoint_left]
      intro l h1 h2
      rw [mem_image] at h1 h2
      obtain ⟨l1, -, rfl⟩ := h1
      obtain ⟨l2, -, e⟩ := h2
      exact hab (List.cons.inj e).1.symm

theorem prod_particles (z : ℕ → ℂ) {m : ℕ} {t : List ℕ} (h : t.length = m) :
    ((particles t).map z).prod = ∏ i : Fin m, z i ^ t.getD i 0 := by
  rw [Finset.prod_list_map_count, ← prod_range fun i => z i ^ t.getD i 0]
  refine (prod_subset (fun x hx => ?_) fun x _ hx => ?_).trans (prod_congr rfl fun x _ => ?_)
  · rw [List.mem_toFinset] at hx
    have := particlesFrom_range hx
    rw [mem_range]; omega
  · rw [List.count_eq_zero_of_not_mem (by simpa using hx), pow_zero]
  · rw [count_particles]

theorem prod_expand_states (c : ℕ → ℕ → ℂ) (m : ℕ) (z : ℕ → ℂ) (rs : List ℕ) :
    (rs.map fun r => ∑ j ∈ range m, c j r * z j).prod
      = ∑ t ∈ statesFin m rs.length, amp c rs (particles t) / factProd t * ∏ i : Fin m, z i ^ t.getD i 0 := by
  rw [prod_expand, ← sum_fiberwise_of_maps_to (g := occOf m) (t := statesFin m rs.length)]
  · refine sum_congr rfl fun t ht => ?_
    obtain ⟨h1, h2⟩ := (mem_statesFin m _ t).mp ht
    have hset : (words m rs.length).filter (fun w => occOf m w = t) = arrangements (particles t : Multiset ℕ) := by
      ext w
      rw [mem_arr_particles h1, mem_filter, h2]
    rw [hset, amp_eq_mono _ _ _ (by rw [particlesFrom_length, h2]), multFact_particles,
      mul_div_cancel_left₀ _ (by exact_mod_cast (factProd_pos t).ne'), ← prod_particles z h1, sum_mul]
    refine sum_congr rfl fun w hw => ?_
    rw [mem_arrangements, Multiset.coe_eq_coe] at hw
    rw [(hw.map z).prod_eq]
  · intro w hw
    exact mem_image_of_mem _ hw

theorem sum_states_fin {M : Type*} [AddCommMonoid M] (m k : ℕ) (F : List ℕ → M) :
    ∑ t ∈ statesFin m k, F t
      = ∑ e : Fin m → Fin (k + 1), if ∑ i, (e i : ℕ) = k then F (List.ofFn fun i => (e i : ℕ)) else 0 := by
  rw [← sum_filter]
  symm
  refine sum_nbij' (fun e => List.ofFn fun i => (e i : ℕ))
    (fun t => fun i : Fin m => (⟨min (t.getD i 0) k, by omega⟩ : Fin (k + 1))) ?_ ?_ ?_ ?_ ?_
  · intro e he
    rw [mem_filter] at he
    rw [mem_statesFin, List.sum_ofFn, List.length_ofFn]
    exact ⟨rfl, he.2⟩
  · intro t ht
    rw [mem_statesFin] at ht
    obtain ⟨rfl, h2⟩ := ht
    have hs : ∑ i : Fin t.length, t.getD i 0 = t.sum := by
      rw [← Fin.sum_univ_getElem t]
      exact sum_congr rfl fun i _ => by rw [getD_of_lt _ _ i.2]
    rw [mem_filter]
    refine ⟨mem_univ _, ?_⟩
    rw [← h2, ← hs]
    refine sum_congr rfl fun i _ => ?_
    have := single_le_sum (f := fun i : Fin t.length => t.getD i 0) (fun i _ => Nat.zero_le _) (mem_univ i)
    simp only at this ⊢
    omega
  · intro e _
    funext i
    ext
    have := (e i).2
    simp only [List.getD_eq_getElem?_getD, List.getElem?_ofFn, i.2, dif_pos, Option.getD_some, Fin.eta]
    omega
  · intro t ht
    rw [mem_statesFin] at ht
    refine List.ext_getElem (by simp [ht.1]) fun i h1 h2 => ?_
    have : t[i] ≤ t.sum := List.le_sum_of_mem (List.getElem_mem _)
    simp only [List.getElem_ofFn, getD_of_lt _ _ h2]
    omega
  · intro E _; rfl

/-- Absolute amplitude of the smeared particle in mode `j`. -/
noncomputable def evenAmp (n j : ℕ) : ℝ := if j < n then 1 / Real.sqrt n else 0

/-- The smeared particle as a function on all indices. -/
noncomputable def smearedNat (m n : ℕ) (us : Fin m → ℝ) (j : ℕ) : ℂ := if h : j < m then smeared m n us ⟨j, h⟩ else 0

theorem smearedNat_fin (m n : ℕ) (us : Fin m → ℝ) (i : Fin m) :
    smearedNat m n us i = (evenAmp n i : ℂ) * phaseOf (us i) := by
  rw [smearedNat, dif_pos i.2, Fin.eta, smeared, evenAmp, phaseOf]
  split_ifs
  · push_cast
    rw [one_div, div_eq_mul_inv, mul_comm]
  · simp

theorem evenAmp_sq (n j : ℕ) : evenAmp n j ^ 2 = if j < n then 1 / (n : ℝ) else 0 := by
  unfold evenAmp
  split_ifs with h
  · rw [div_pow, one_pow, Real.sq_sqrt (Nat.cast_nonneg _)]
  · simp

theorem prod_evenAmp_words (n : ℕ) (k : ℕ) {w : List ℕ} (hw : w.length = k) :
    (w.map fun j => evenAmp n j ^ 2).prod = if w ∈ words n k then 1 / (n : ℝ) ^ k else 0 := by
  induction w generalizing k with
  | nil => subst hw; simp [words]
  | cons a w ih =>
    subst hw
    rw [List.map_cons, List.prod_cons, ih _ rfl, evenAmp_sq]
    have : a :: w ∈ words n (w.length + 1) ↔ a < n ∧ w ∈ words n w.length := by
      simp [mem_words]
    rw [List.length_cons]
    simp only [this]
    by_cases h1 : a < n <;> by_cases h2 : w ∈ words n w.length <;> simp [h1, h2, pow_succ, mul_comm]

theorem words_subset {n m : ℕ} (h : n ≤ m) (k : ℕ) : words n k ⊆ words m k := by
  intro w hw
  rw [mem_words] at hw ⊢
  exact ⟨hw.1, fun x hx => (hw.2 x hx).trans_le h⟩

theorem phase_words {ι : Type*} (s : Finset ι) (w : ι → ℝ) (hw : ∀ x ∈ s, 0 ≤ w x) (c : ℕ → ℕ → ℂ) {m n : ℕ}
    (hn : n ≤ m) (k : ℕ) (rs : ι → List ℕ) (hrs : ∀ x ∈ s, (rs x).length = k) :
    expUniform m (fun us => ENNReal.ofReal (∑ x ∈ s, w x *
        Complex.normSq ((rs x).map fun r => ∑ j ∈ range m, c j r * smearedNat m n us j).prod))
      = ENNReal.ofReal (∑ x ∈ s, w x * (1 / (k.factorial * (n : ℝ) ^ k) * ∑ v ∈ words n k, phi c (rs x) v)) := by
  have e : ∀ us : Fin m → ℝ, ∀ x ∈ s, ((rs x).map fun r => ∑ j ∈ range m, c j r * smearedNat m n us j).prod
      = ∑ e : Fin m → Fin (k + 1), (if ∑ i, (e i : ℕ) = k then
          amp c (rs x) (particles (List.ofFn fun i => (e i : ℕ))) / factProd (List.ofFn fun i => (e i : ℕ)) *
            ∏ i : Fin m, (evenAmp n i : ℂ) ^ (e i : ℕ) else 0) * ∏ i, phaseOf (us i) ^ (e i : ℕ) := by
    intro us x hx
    rw [prod_expand_states, hrs x hx, sum_states_fin]
    refine sum_congr rfl fun e _ => ?_
    split_ifs
    · rw [mul_assoc, ← prod_mul_distrib]
      congr 1
      refine prod_congr rfl fun i _ => ?_
      rw [smearedNat_fin, mul_pow]
      simp
    · simp
  have e1 : ∀ us : Fin m → ℝ, (∑ x ∈ s, w x *
        Complex.normSq ((rs x).map fun r => ∑ j ∈ range m, c j r * smearedNat m n us j).prod)
      = ∑ x ∈ s, w x * Complex.normSq (∑ e : Fin m → Fin (k + 1), (if ∑ i, (e i : ℕ) = k then
          amp c (rs x) (particles (List.ofFn fun i => (e i : ℕ))) / factProd (List.ofFn fun i => (e i : ℕ)) *
            ∏ i : Fin m, (evenAmp n i : ℂ) ^ (e i : ℕ) else 0) * ∏ i, phaseOf (us i) ^ (e i : ℕ)) :=
    fun us => sum_congr rfl fun x hx => by rw [e us x hx]
  simp only [e1]
  rw [parseval s w hw m (k + 1) fun x e => if ∑ i, (e i : ℕ) = k then
          amp c (rs x) (particles (List.ofFn fun i => (e i : ℕ))) / factProd (List.ofFn fun i => (e i : ℕ)) *
            ∏ i : Fin m, (evenAmp n i : ℂ) ^ (e i : ℕ) else 0]
  congr 1
  refine sum_congr rfl fun x hx => ?_
  congr 1
  have e2 : ∑ t ∈ statesFin m k, phi c (rs x) (particles t) / factProd t * ((particles t).map fun j => evenAmp n j ^ 2).prod
      = 1 / (k.factorial * (n : ℝ) ^ k) * ∑ v ∈ words n k, phi c (rs x) v := by
    have h1 := sum_words_states m k _ (fun t => mem_statesFin m k t)
      (fun v => phi c (rs x) v * (v.map fun j => evenAmp n j ^ 2).prod)
      (fun v v' hv => by rw [phi_perm c (rs x) hv, (hv.map _).prod_eq])
    have h2 : ∑ v ∈ words m k, phi c (rs x) v * (v.map fun j => evenAmp n j ^ 2).prod
        = 1 / (n : ℝ) ^ k * ∑ v ∈ words n k, phi c (rs x) v := by
      rw [mul_sum, ← sum_subset (words_subset hn k)]
      · refine sum_congr rfl fun v hv => ?_
        rw [prod_evenAmp_words n k (mem_words.mp hv).1, if_pos hv, mul_comm]
      · intro v hv hv'
        rw [prod_evenAmp_words n k (mem_words.mp hv).1, if_neg hv', mul_zero]
    have hk : (k.factorial : ℝ) ≠ 0 := by exact_mod_cast k.factorial_ne_zero
    have h3 : 1 / (k.factorial * (n : ℝ) ^ k) * ∑ v ∈ words n k, phi c (rs x) v
        = 1 / k.factorial * (1 / (n : ℝ) ^ k * ∑ v ∈ words n k, phi c (rs x) v) := by
      rw [← mul_assoc, one_div_mul_one_div]
    rw [h3, ← h2, h1, mul_sum]
    refine sum_congr rfl fun t _ => ?_
    field_simp
  rw [← e2, sum_states_fin]
  refine sum_congr rfl fun e _ => ?_
  split_ifs
  · rw [phi, multFact_particles]
    have h1 : ∀ t : List ℕ, t.length = m → ((particles t).map fun j => evenAmp n j ^ 2).prod
        = Complex.normSq (∏ i : Fin m, (evenAmp n i : ℂ) ^ t.getD i 0) := by
      intro t ht
      apply Complex.ofReal_injective
      rw [← prod_particles (fun j => (evenAmp n j : ℂ)) ht]
      induction particles t with
      | nil => simp
      | cons a l ih =>
        simp only [List.map_cons, List.prod_cons, map_mul]
        push_cast
        rw [ih, Complex.normSq_ofReal]
        push_cast
        ring
    rw [h1 _ (by simp), map_mul, map_div₀, Complex.normSq_natCast]
    simp only [List.getD_eq_getElem?_getD, List.getElem?_ofFn, Fin.is_lt, dif_pos, Option.getD_some, Fin.eta]
    ring
  · simp

theorem pow_words (b K : ℕ) (q : ℕ → ℝ) : (∑ r ∈ range b, q r) ^ K = ∑ w ∈ words b K, (w.map q).prod := by
  induction K with
  | zero => simp [words]
  | succ K ih =>
    rw [pow_succ, ih, sum_words_succ, sum_mul]
    refine sum_congr rfl fun w _ => ?_
    rw [mul_sum]
    refine sum_congr rfl fun r _ => ?_
    rw [List.map_cons, List.prod_cons, mul_comm]

theorem zip_particles (f : ℕ → ℝ) (T : List ℕ) (a : ℕ) :
    (List.zipWith (fun x t => x ^ t) ((List.range' a T.length).map f) T).prod = ((particlesFrom a T).map f).prod := by
  induction T generalizing a with
  | nil => simp [particlesFrom]
  | cons t T ih =>
    rw [List.length_cons, List.range'_succ, List.map_cons, List.zipWith_cons_cons, List.prod_cons, ih, particlesFrom,
      List.map_append, List.prod_append, List.map_replicate, List.prod_replicate]

/-- Amplitude of the smeared particle in the output mode `r`. -/
noncomputable def psi (c : ℕ → ℕ → ℂ) (m n : ℕ) (us : Fin m → ℝ) (r : ℕ) : ℂ :=
  ∑ j ∈ range m, c j r * smearedNat m n us j

theorem smearedNat_norm {m n : ℕ} (h0 : 0 < n) (hn : n ≤ m) (us : Fin m → ℝ) :
    ∑ j ∈ range m, Complex.normSq (smearedNat m n us j) = 1 := by
  rw [sum_range]
  have e : ∀ i : Fin m, Complex.normSq (smearedNat m n us i) = (fun j => if j < n then 1 / (n : ℝ) else 0) (i : ℕ) := by
    intro i
    rw [smearedNat_fin, map_mul, normSq_phaseOf, mul_one, Complex.normSq_ofReal, ← sq, evenAmp_sq]
  rw [sum_congr rfl fun i _ => e i, ← sum_range (fun j => if j < n then 1 / (n : ℝ) else 0), ← sum_filter]
  have : (range m).filter (· < n) = range n := by
    ext x; simp only [mem_filter, mem_range]; omega
  rw [this, sum_const, card_range, nsmul_eq_mul]
  have : (n : ℝ) ≠ 0 := by exact_mod_cast h0.ne'
  field_simp

theorem psi_norm {c : ℕ → ℕ → ℂ} {m M n : ℕ} (hc : OrthoCols c M m) (h0 : 0 < n) (hn : n ≤ m) (us : Fin m → ℝ) :
    ∑ r ∈ range M, Complex.normSq (psi c m n us r) = 1 := by
  rw [← smearedNat_norm h0 hn us]
  apply Complex.ofReal_injective
  push_cast
  have e : ∀ r, (Complex.normSq (psi c m n us r) : ℂ) = ∑ i ∈ range m, ∑ j ∈ range m,
      ((starRingEnd ℂ) (c i r) * c j r) * ((starRingEnd ℂ) (smearedNat m n us i) * smearedNat m n us j) := by
    intro r
    rw [Complex.normSq_eq_conj_mul_self, psi, map_sum, sum_mul_sum]
    refine sum_congr rfl fun i _ => sum_congr rfl fun j _ => ?_
    rw [map_mul]; ring
  simp only [e]
  rw [sum_comm]
  refine sum_congr rfl fun i hi => ?_
  rw [sum_comm]
  simp only [← sum_mul]
  rw [sum_congr rfl fun j hj => by rw [hc i (mem_range.mp hi) j (mem_range.mp hj)]]
  rw [Complex.normSq_eq_conj_mul_self]
  simp [mem_range.mp hi]

theorem psi_dilation {m b n : ℕ} {A : Matrix (Fin m) (Fin m) ℂ} {W : List (List ℂ)} (hW : IsDilation (rowsOf A) W m b)
    (us : Fin m → ℝ) (i : Fin m) : psi (colOf W) m n us i = (A.mulVec (smeared m n us)) i := by
  rw [psi, sum_range, Matrix.mulVec, dotProduct]
  refine sum_congr rfl fun j _ => ?_
  rw [smearedNat, dif_pos j.2, show colOf W j i = mget W i j from rfl, hW.embeds _ i.2 _ j.2, mget_rowsOf]

theorem multinomial_expand {m b n : ℕ} {A : Matrix (Fin m) (Fin m) ℂ} {W : List (List ℂ)}
    (hW : IsDilation (rowsOf A) W m b) (h0 : 0 < n) (hn : n ≤ m) (us : Fin m → ℝ) (k : ℕ) (T : List ℕ) (hT : T.length = m) :
    multinomialProb (List.ofFn fun i => Complex.normSq ((A.mulVec (smeared m n us)) i)) k T
      = ∑ w ∈ words b (k - T.sum), (k.factorial : ℝ) / (factProd T * (k - T.sum).factorial) *
          Complex.normSq ((particles T ++ w.map (m + ·)).map fun r => ∑ j ∈ range m, colOf W j r * smearedNat m n us j).prod := by
  have hp : (List.ofFn fun i => Complex.normSq ((A.mulVec (smeared m n us)) i))
      = (List.range' 0 T.length).map fun r => Complex.normSq (psi (colOf W) m n us r) := by
    refine List.ext_getElem (by simp [hT]) fun i h1 h2 => ?_
    have hi : i < m := by simpa using h1
    rw [List.getElem_ofFn, List.getElem_map, List.getElem_range']
    rw [← psi_dilation hW us ⟨i, hi⟩]
    simp
  have hs : 1 - (List.ofFn fun i => Complex.normSq ((A.mulVec (smeared m n us)) i)).sum
      = ∑ r ∈ range b, Complex.normSq (psi (colOf W) m n us (m + r)) := by
    have := psi_norm (orthoCols_of W hW.isometric) h0 hn us
    rw [sum_range_add] at this
    have h2 : ∑ i : Fin m, Complex.normSq ((A.mulVec (smeared m n us)) i)
        = ∑ r ∈ range m, Complex.normSq (psi (colOf W) m n us r) := by
      rw [sum_range]
      exact sum_congr rfl fun i _ => by rw [psi_dilation hW us i]
    rw [List.sum_ofFn, h2]
    linarith
  rw [multinomialProb, hs, hp, zip_particles, pow_words, mul_assoc, mul_sum, mul_sum]
  refine sum_congr rfl fun w _ => ?_
  rw [show (fun r => ∑ j ∈ range m, colOf W j r * smearedNat m n us j) = psi (colOf W) m n us from rfl]
  congr 1
  rw [map_list_prod, List.map_append, List.map_append, List.prod_append, List.map_map, List.map_map, List.map_map]
  rfl

theorem mixture_law {m b n : ℕ} {A : Matrix (Fin m) (Fin m) ℂ} {W : List (List ℂ)}
    (hW : IsDilation (rowsOf A) W m b) (h0 : 0 < n) (hn : n ≤ m) (k : ℕ) (T : List ℕ) (hT : T.length = m) (hk : T.sum ≤ k) :
    expUniform m (fun us => ENNReal.ofReal (multinomialProb
        (List.ofFn fun i => Complex.normSq ((A.mulVec (smeared m n us)) i)) k T))
      = ENNReal.ofReal (1 / (n : ℝ) ^ k * ∑ v ∈ words n k, lossyProb W b (occOf m v) T) := by
  simp only [multinomial_expand hW h0 hn _ k T hT]
  rw [phase_words (words b (k - T.sum)) (fun _ => (k.factorial : ℝ) / (factProd T * (k - T.sum).factorial))
    (fun _ _ => by positivity) (colOf W) hn k (fun w => particles T ++ w.map (m + ·))
    (fun w hw => by
      rw [List.length_append, List.length_map, particlesFrom_length, (mem_words.mp hw).1]; omega)]
  congr 1
  have e : ∀ v ∈ words n k, lossyProb W b (occOf m v) T
      = (∑ w ∈ words b (k - T.sum), phi (colOf W) (particles T ++ w.map (m + ·)) v) / ((k - T.sum).factorial * factProd T) := by
    intro v hv
    have hv' := mem_words.mp (words_subset hn k hv)
    have hs : (occOf m v).sum = k := by rw [occOf_sum _ _ hv'.2, hv'.1]
    rw [lossyProb_eq_words _ _ _ _ (by omega), hs, hT]
    congr 1
    refine sum_congr rfl fun w _ => phi_perm _ _ ?_
    have := (mem_arr_particles (occOf_length m v) v).mpr ⟨by rw [hs]; exact mem_words.mpr hv', rfl⟩
    rw [mem_arrangements, Multiset.coe_eq_coe] at this
    exact this.symm
  rw [sum_congr rfl e, ← sum_div, sum_comm]
  simp only [← mul_assoc]
  rw [← mul_sum]
  have h1 : (k.factorial : ℝ) ≠ 0 := by exact_mod_cast k.factorial_ne_zero
  have h2 : ((k - T.sum).factorial : ℝ) ≠ 0 := by exact_mod_cast (k - T.sum).factorial_ne_zero
  have h3 : (factProd T : ℝ) ≠ 0 := by exact_mod_cast (factProd_pos T).ne'
  have h4 : (n : ℝ) ≠ 0 := by exact_mod_cast h0.ne'
  field_simp

end Verif
