import Verif.Proofs.LossyNet
import Verif.Props.Cliffords
import Verif.Proofs.SvdExists
import Verif.Proofs.Dilation

/-! C35: sampling from lossy networks. -/
namespace Verif

open Finset
open scoped ENNReal

theorem lossyNet_bok {m : ℕ} {M : Matrix (Fin m) (Fin m) ℂ} {d : Svd m} (h : IsSvd M d) (h1 : ∀ i, d.s i ≤ 1)
    {S : List ℕ} (hS : S.length = m) (hm : 0 < m) (fuel : ℕ) (hf : (S.map (· + 1)).prod ≤ fuel) :
    BOk (ryserSubPermanents fuel) (rowsOf (expandedMatrix d)) (S ++ S.map fun _ => 0) (m + m) := by
  have hlen : (S ++ S.map fun _ => 0).length = m + m := by rw [expanded_len, hS]
  have hrows : ∀ r ∈ rowsOf (expandedMatrix d), r.length = m + m := by
    intro r hr
    obtain ⟨i, rfl⟩ := List.mem_ofFn.mp hr
    simp
  have hl : (rowsOf (expandedMatrix d)).length = m + m := by simp [rowsOf]
  refine ⟨ryser_subPermOn _ _ (m + m) hrows (by omega) (by omega) ?_ fuel (by rw [expanded_prod]; exact hf), hrows,
    by omega, by omega, ?_⟩
  · intro h0; rw [h0] at hlen; simp at hlen; omega
  · rw [hlen]; exact expanded_used M d h h1 S hS

open Classical in
/-- C35: for every `m × m` network `M` with singular values at most 1, whatever decomposition of it
is used, each sample of a call `simulate(S, N)` of the sampler for lossy networks equals the state `T`
with a probability that is the sum, over all states `E` of the `m` environment modes holding the lost
particles, of the probability that the expanded network takes `S` and `m` empty modes to `T` followed
by `E`. -/
theorem C35_sample {m : ℕ} (M : Matrix (Fin m) (Fin m) ℂ) (d : Svd m) (h : IsSvd M d) (h1 : ∀ i, d.s i ≤ 1)
    (S : List ℕ) (hS : S.length = m) (hm : 0 < m) (fuel : ℕ) (hf : (S.map (· + 1)).prod ≤ fuel) (hf' : m < fuel)
    (N : ℤ) (i : ℕ) (hi : i < N.toNat) (T : List ℕ) (hT : T.length = m) (hs : T.sum ≤ S.sum)
    (𝓔 : Finset (List ℕ)) (h𝓔 : ∀ E, E ∈ 𝓔 ↔ E.length = m ∧ T.sum + E.sum = S.sum) :
    (lossyNetSimulate (ryserSubPermanents fuel) d fuel S N).prob (fun r => ∃ l, r = .ok l ∧ l[i]? = some T)
      = ∑ E ∈ 𝓔, ENNReal.ofReal
          (bosonProb (rowsOf (expandedMatrix d)) (S ++ List.replicate m 0) (T ++ E)) := by
  have hB := lossyNet_bok h h1 hS hm fuel hf
  have hrep : S ++ List.replicate m 0 = S ++ S.map fun _ => 0 := by
    congr 1
    rw [← hS]
    simp
  have hE : 𝓔 = statesFin m (S.sum - T.sum) := by
    ext E; rw [h𝓔, mem_statesFin]; omega
  rw [hE, hrep]
  unfold Prog.prob lossyNetSimulate
  simp only
  rw [Prog.bind_eq, Prog.wp_bind, gccbSimulate_eq, gccbLoop_wp hB fuel (by
    rw [expanded_sum]; exact lt_of_lt_of_le (sum_lt_prod_succ S) hf)]
  have ht := boson_total' hB
  rw [expanded_sum, expanded_len, hS] at ht ⊢
  rw [expIid_congr _ _ (fun l => if (l.getD i []).take m = T then 1 else 0)]
  · rw [expIid_at ht _ i hi (fun T' => if T'.take m = T then 1 else 0)]
    exact sum_take T hT hs _ _ fun T' => rfl
  · intro l hl hl'
    simp only [Prog.post, Prog.lift_def]
    rw [mapM_trim fuel m hf' l fun T hT => ((mem_statesFin _ _ T).mp (hl' T hT)).1]
    simp only [Prog.wp, Except.ok.injEq, exists_eq_left']
    rw [List.getElem?_map, getD_of_lt _ _ (by omega), List.getElem?_eq_getElem (by omega)]
    simp

/-- C35: no run raises; every run returns `N` samples with `m` entries and at most as many particles
as the input. -/
theorem C35_shape {m : ℕ} (M : Matrix (Fin m) (Fin m) ℂ) (d : Svd m) (h : IsSvd M d) (h1 : ∀ i, d.s i ≤ 1)
    (S : List ℕ) (hS : S.length = m) (hm : 0 < m) (fuel : ℕ) (hf : (S.map (· + 1)).prod ≤ fuel) (hf' : m < fuel)
    (N : ℤ) (r : Py (List (List ℕ))) (hr : (lossyNetSimulate (ryserSubPermanents fuel) d fuel S N).Runs r) :
    ∃ l, r = .ok l ∧ l.length = N.toNat ∧ ∀ T ∈ l, T.length = m ∧ T.sum ≤ S.sum := by
  have hB := lossyNet_bok h h1 hS hm fuel hf
  unfold lossyNetSimulate at hr
  simp only at hr
  rw [gccbSimulate_eq] at hr
  have hall := gccbLoop_all fuel N.toNat (gccbFill_live hB (S ++ S.map fun _ => 0).sum fuel le_rfl (by
    rw [expanded_sum]; exact lt_of_lt_of_le (sum_lt_prod_succ S) hf))
  rcases Prog.all_bind hall (J := fun l => l.length = N.toNat ∧ ∀ T ∈ l, T.length = m ∧ T.sum ≤ S.sum) (by
    rintro l ⟨h2, h3⟩
    have h3' : ∀ T ∈ l, T.length = m + m := fun T hT => by rw [(h3 T hT).1, expanded_len, hS]
    rw [hS, mapM_trim fuel m hf' l h3']
    refine Prog.all_done_ok ⟨by simpa using h2, ?_⟩
    intro T hT
    obtain ⟨T', hT', rfl⟩ := List.mem_map.mp hT
    refine ⟨by rw [List.length_take, h3' T' hT']; omega, ?_⟩
    have := congrArg List.sum (List.take_append_drop m T')
    rw [List.sum_append, (h3 T' hT').2, expanded_sum] at this
    omega) r hr with h | ⟨_, _, h⟩
  · exact h
  · exact h.elim

/-! ### The law in terms of an arbitrary dilation -/

theorem particles_zeros (S : List ℕ) (b : ℕ) : particles (S ++ List.replicate b 0) = particles S := by
  have h := particlesFrom_append 0 S (List.replicate b 0)
  have h0 : ∀ k b, particlesFrom k (List.replicate b 0) = [] := by
    intro k b
    induction b generalizing k with
    | zero => rfl
    | succ b ih => rw [List.replicate_succ, particlesFrom, ih]; rfl
  rw [h0, List.append_nil] at h
  exact h

theorem bosonProb_zeros (W : List (List ℂ)) (S T : List ℕ) (b : ℕ) (h : T.sum = S.sum) :
    bosonProb W (S ++ List.replicate b 0) T = bosonProb W S T := by
  rw [bosonProb_eq_phi _ _ _ (by simp [h]), bosonProb_eq_phi _ _ _ h.symm, particles_zeros]

/-- The expanded matrix is a dilation. -/
theorem expanded_isDilation {m : ℕ} {M : Matrix (Fin m) (Fin m) ℂ} {d : Svd m} (h : IsSvd M d) (h1 : ∀ i, d.s i ≤ 1) :
    IsDilation (rowsOf M) (rowsOf (expandedMatrix d)) m m := by
  obtain ⟨he, hi⟩ := C34_embeds_partial M d h
  constructor
  · intro i hi j hj
    rw [mget_rowsOf _ _ _ (by omega) (by omega), mget_rowsOf _ _ _ hi hj]
    exact he ⟨i, hi⟩ ⟨j, hj⟩
  · intro a ha b hb
    rw [sum_range]
    have hC := hi h1 ⟨a, ha⟩ ⟨b, hb⟩
    simp only [Fin.mk.injEq] at hC
    rw [← hC]
    refine sum_congr rfl fun r _ => ?_
    rw [mget_rowsOf _ _ _ r.isLt (by omega), mget_rowsOf _ _ _ r.isLt (by omega)]
    rfl

theorem lossyProb_eq_zero (W : List (List ℂ)) (b : ℕ) (S T : List ℕ) (h : S.sum < T.sum) : lossyProb W b S T = 0 := by
  unfold lossyProb
  rw [filter_eq_empty_iff.mpr (fun E _ => by omega), sum_empty]

/-- C35: the law does not depend on the decomposition: whatever interferometer `W` contains the
network `M` as its top left block and has orthonormal columns there, the sample equals `T` with the
probability that the particles of `S`, sent through `W`, show `T` in the first `m` modes. -/
theorem C35_dilation {m : ℕ} (M : Matrix (Fin m) (Fin m) ℂ) (d : Svd m) (h : IsSvd M d) (h1 : ∀ i, d.s i ≤ 1)
    (W : List (List ℂ)) (b : ℕ) (hW : IsDilation (rowsOf M) W m b)
    (S : List ℕ) (hS : S.length = m) (hm : 0 < m) (fuel : ℕ) (hf : (S.map (· + 1)).prod ≤ fuel) (hf' : m < fuel)
    (N : ℤ) (i : ℕ) (hi : i < N.toNat) (T : List ℕ) (hT : T.length = m) :
    (lossyNetSimulate (ryserSubPermanents fuel) d fuel S N).prob (fun r => ∃ l, r = .ok l ∧ l[i]? = some T)
      = ENNReal.ofReal (lossyProb W b S T) := by
  by_cases hs : T.sum ≤ S.sum
  · rw [C35_sample M d h h1 S hS hm fuel hf hf' N i hi T hT hs (statesFin m (S.sum - T.sum))
      (fun E => by rw [mem_statesFin]; omega),
      lossyProb_indep hW (expanded_isDilation h h1) S T
        (fun x hx => by have := particlesFrom_range hx; omega) hT hs,
      lossyProb_eq_states _ _ _ _ hs, ENNReal.ofReal_sum_of_nonneg fun E _ => bosonProb_nonneg _ _ _]
    refine sum_congr rfl fun E hE => ?_
    rw [mem_statesFin] at hE
    rw [bosonProb_zeros _ _ _ _ (by rw [List.sum_append]; omega)]
  · rw [lossyProb_eq_zero _ _ _ _ (not_le.mp hs), ENNReal.ofReal_zero]
    classical
    refine Eq.trans (Prog.wp_congr _ _ (fun _ => 0) fun r hr => ?_) (Prog.wp_const _ _)
    obtain ⟨l, rfl, -, h3⟩ := C35_shape M d h h1 S hS hm fuel hf hf' N r hr
    rw [if_neg]
    rintro ⟨l', hl, hT'⟩
    injection hl with hl
    subst hl
    exact hs (h3 T (List.mem_of_getElem? hT')).2

/-- Two different dilations of the same single-mode network that loses the amplitude `4/5`: with one
and with two environment modes. -/
example (T : List ℕ) (hT : T.length = 1) (h : T.sum ≤ 2) :
    lossyProb [[3 / 5], [4 / 5]] 1 [2] T = lossyProb [[3 / 5], [0], [4 / 5 * Complex.I]] 2 [2] T := by
  have d1 : IsDilation [[3 / 5]] [[3 / 5], [4 / 5]] 1 1 := by
    constructor
    · intro i hi j hj; obtain rfl : i = 0 := by omega
      obtain rfl : j = 0 := by omega
      rfl
    · intro a ha b hb
      obtain rfl : a = 0 := by omega
      obtain rfl : b = 0 := by omega
      simp [sum_range_succ, mget, Complex.ext_iff, Complex.conj_ofNat]; norm_num
  have d2 : IsDilation [[3 / 5]] [[3 / 5], [0], [4 / 5 * Complex.I]] 1 2 := by
    constructor
    · intro i hi j hj; obtain rfl : i = 0 := by omega
      obtain rfl : j = 0 := by omega
      rfl
    · intro a ha b hb
      obtain rfl : a = 0 := by omega
      obtain rfl : b = 0 := by omega
      simp [sum_range_succ, mget, Complex.ext_iff, Complex.conj_ofNat]; norm_num
  exact lossyProb_indep d1 d2 [2] T (fun x hx => by have := particlesFrom_range hx; simpa using this) hT (by simpa using h)

/-- The hypotheses can be met for every matrix with singular values at most 1: a decomposition
exists (`svd_exists`); here a single mode transmitting half of the amplitude and two particles. -/
example : ∃ d : Svd 1, IsSvd (Matrix.of fun _ _ => (1 / 2 : ℂ)) d ∧ (∀ i, d.s i ≤ 1) ∧
    ∀ r, (lossyNetSimulate (ryserSubPermanents 3) d 3 [2] 4).Runs r →
      ∃ l, r = .ok l ∧ l.length = 4 ∧ ∀ T ∈ l, T.length = 1 ∧ T.sum ≤ 2 := by
  have h1 : ∀ i, halfSvd.s i ≤ 1 := fun i => by simp only [halfSvd]; norm_num
  exact ⟨halfSvd, halfSvd_isSvd, h1, fun r hr => C35_shape _ halfSvd halfSvd_isSvd h1 [2] rfl (by decide) 3 (by decide)
    (by decide) 4 r hr⟩

end Verif
