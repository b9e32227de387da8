import Verif.Proofs.PhaseMixture
import Verif.Proofs.BlockNetworks
import Verif.Spec.Separable
import Mathlib.Data.Fintype.CardEmbedding

/-! Helper lemmas: particles thrown into random modes. -/
namespace Verif

open Finset

theorem sum_words_fun {M : Type*} [AddCommMonoid M] (n k : ℕ) (G : List ℕ → M) :
    ∑ v ∈ words n k, G v = ∑ f : Fin k → Fin n, G (List.ofFn fun i => (f i : ℕ)) := by
  symm
  refine sum_bij (fun f _ => List.ofFn fun i => (f i : ℕ)) ?_ ?_ ?_ fun _ _ => rfl
  · intro f _
    rw [mem_words]
    refine ⟨by simp, fun x hx => ?_⟩
    rw [List.mem_ofFn] at hx
    obtain ⟨i, rfl⟩ := hx
    exact (f i).2
  · intro f _ g _ h
    funext i
    have := congrFun (List.ofFn_injective h) i
    exact Fin.ext this
  · intro v hv
    rw [mem_words] at hv
    obtain ⟨rfl, h2⟩ := hv
    exact ⟨fun i => ⟨v[i], h2 _ (List.getElem_mem _)⟩, mem_univ _, by simp⟩

theorem occOf_ofFn (m : ℕ) {k n : ℕ} (f : Fin k → Fin n) : occOf m (List.ofFn fun i => (f i : ℕ)) = thrown m f := by
  unfold occOf thrown
  refine List.map_congr_left fun j _ => ?_
  rw [← Multiset.coe_count, ← Fin.univ_val_map fun i => (f i : ℕ), Multiset.count_map]
  rw [card_def, filter_val]
  congr 2
  funext i
  exact propext eq_comm

theorem thrown_length (m : ℕ) {k n : ℕ} (f : Fin k → Fin n) : (thrown m f).length = m := by simp [thrown]

theorem thrown_sum {m : ℕ} {k n : ℕ} (hn : n ≤ m) (f : Fin k → Fin n) : (thrown m f).sum = k := by
  rw [← occOf_ofFn, occOf_sum]
  · simp
  · intro x hx
    rw [List.mem_ofFn] at hx
    obtain ⟨i, rfl⟩ := hx
    exact (f i).2.trans_le hn

theorem thrownProb_eq (W : List (List ℂ)) (m b n k : ℕ) (T : List ℕ) :
    thrownProb W m b n k T = 1 / (n : ℝ) ^ k * ∑ v ∈ words n k, lossyProb W b (occOf m v) T := by
  rw [sum_words_fun n k fun v => lossyProb W b (occOf m v) T, thrownProb, div_eq_inv_mul, one_div]
  simp only [occOf_ofFn]

theorem thrownProb_nonneg (W : List (List ℂ)) (m b n k : ℕ) (T : List ℕ) : 0 ≤ thrownProb W m b n k T :=
  div_nonneg (sum_nonneg fun _ _ => lossyProb_nonneg _ _ _ _) (by positivity)

theorem FirstModes.le {m : ℕ} {S : List ℕ} (h : FirstModes m S) : S.sum ≤ m := by
  have e : S.length = m := by rw [h]; simp
  have := List.sum_le_card_nsmul S 1 (by
    intro x hx
    rw [h, List.mem_map] at hx
    obtain ⟨c, -, rfl⟩ := hx
    split_ifs <;> omega)
  rwa [smul_eq_mul, mul_one, e] at this

/-- The states with one particle in `k` of the first modes, reached by `k!` injective placements each. -/
theorem sum_injective {m : ℕ} {S : List ℕ} (hS : FirstModes m S) (hn : S.sum ≤ m) (k : ℕ) (F : List ℕ → ℝ) :
    ∑ f : Fin k → Fin S.sum with Function.Injective f, F (thrown m f)
      = k.factorial * ∑ A ∈ powersetCard k (univ : Finset (Particle S)), F (stateOf A) := by
  classical
  have hl : S.length = m := by rw [hS]; simp
  have hget : ∀ i, (h : i < S.length) → S[i] = if i < S.sum then 1 else 0 := by
    intro i h
    have : S[i]? = ((List.range m).map fun c => if c < S.sum then 1 else 0)[i]? := congrArg (·[i]?) hS
    rw [List.getElem?_eq_getElem h] at this
    simpa [hl ▸ h] using this
  set L := (statesFin m k).filter (fun l => StateLE l S) with hL
  have hLe : ∀ l, l ∈ L ↔ StateLE l S ∧ l.sum = k := by
    intro l
    rw [hL, mem_filter, mem_statesFin]
    constructor
    · rintro ⟨⟨-, h2⟩, h3⟩; exact ⟨h3, h2⟩
    · rintro ⟨h1, h2⟩; exact ⟨⟨by rw [h1.length_eq, hl], h2⟩, h1⟩
  have hle : ∀ l ∈ L, ∀ j, (hj : j < l.length) → l[j] ≤ if j < S.sum then 1 else 0 := by
    intro l hlL j hj
    have h1 := ((hLe l).mp hlL).1
    have hj' : j < S.length := by rw [← h1.length_eq]; exact hj
    have := (List.forall₂_iff_get.mp h1).2 j hj hj'
    simp only [List.get_eq_getElem] at this
    rwa [hget j hj'] at this
  rw [sum_stateOf S k L hLe F]
  have e1 : ∑ f : Fin k → Fin S.sum with Function.Injective f, F (thrown m f)
      = ∑ v ∈ (words S.sum k).filter List.Nodup, F (occOf m v) := by
    rw [sum_filter, sum_filter, sum_words_fun S.sum k fun v => if v.Nodup then F (occOf m v) else 0]
    refine sum_congr rfl fun f _ => ?_
    rw [occOf_ofFn]
    have : (Function.Injective fun i => ((f i : Fin S.sum) : ℕ)) ↔ Function.Injective f :=
      ⟨fun h => fun a b hab => h (congrArg Fin.val hab), fun h => Fin.val_injective.comp h⟩
    simp only [List.nodup_ofFn, this]
  rw [e1, ← sum_fiberwise_of_maps_to (g := occOf m) (t := L), mul_sum]
  · refine sum_congr rfl fun l hlL => ?_
    obtain ⟨h1, h2⟩ := (mem_statesFin m k l).mp (mem_filter.mp hlL).1
    have hset : ((words S.sum k).filter List.Nodup).filter (fun v => occOf m v = l)
        = arrangements (particles l : Multiset ℕ) := by
      ext v
      rw [mem_arr_particles h1, mem_filter, mem_filter, h2]
      refine ⟨fun h => ⟨words_subset hn k h.1.1, h.2⟩, fun h => ⟨?_, h.2⟩⟩
      have hw := mem_words.mp h.1
      have hc : ∀ x ∈ v, x < S.sum ∧ v.count x ≤ 1 := by
        intro x hx
        have hxm := hw.2 x hx
        have hcx : l[x]'(by omega) = v.count x := by
          have : (occOf m v)[x]'(by rw [occOf_length]; exact hxm) = v.count x := by simp [occOf]
          rw [← this]
          simp only [h.2]
        have := hle l hlL x (by omega)
        rw [hcx] at this
        have hpos : 0 < v.count x := List.count_pos_iff.mpr hx
        split_ifs at this with hlt
        · exact ⟨hlt, this⟩
        · omega
      refine ⟨mem_words.mpr ⟨hw.1, fun x hx => (hc x hx).1⟩, List.nodup_iff_count_le_one.mpr fun x => ?_⟩
      by_cases hx : x ∈ v
      · exact (hc x hx).2
      · rw [List.count_eq_zero_of_not_mem hx]; omega
    have hfp : factProd l = 1 := by
      refine List.prod_eq_one fun x hx => ?_
      rw [List.mem_map] at hx
      obtain ⟨y, hy, rfl⟩ := hx
      obtain ⟨j, hj, rfl⟩ := List.getElem_of_mem hy
      have := hle l hlL j hj
      have : l[j] ≤ 1 := by split_ifs at this <;> omega
      exact Nat.factorial_eq_one.mpr this
    have hcp : (List.zipWith Nat.choose S l).prod = 1 := by
      refine List.prod_eq_one fun x hx => ?_
      obtain ⟨j, hj, rfl⟩ := List.getElem_of_mem hx
      rw [List.length_zipWith] at hj
      rw [List.getElem_zipWith, hget j (by omega)]
      have := hle l hlL j (by omega)
      split_ifs at this ⊢ with hlt
      · have : l[j] = 0 ∨ l[j] = 1 := by omega
        rcases this with h | h <;> rw [h] <;> rfl
      · rw [show l[j] = 0 by omega]; rfl
    have hcard := card_arr_particles l
    rw [hfp, mul_one, h2] at hcard
    rw [hset, sum_congr rfl (g := fun _ => F l), sum_const, hcard, nsmul_eq_mul, hcp]
    · simp
    · intro v hv
      rw [((mem_arr_particles h1 v).mp hv).2]
  · intro v hv
    rw [mem_filter, mem_words] at hv
    rw [hLe]
    refine ⟨List.forall₂_iff_get.mpr ⟨by rw [occOf_length, hl], fun i h h' => ?_⟩, ?_⟩
    · simp only [List.get_eq_getElem]
      rw [hget i h']
      have : (occOf m v)[i] = v.count i := by simp [occOf]
      rw [this]
      split_ifs with hi
      · exact List.nodup_iff_count_le_one.mp hv.2 i
      · rw [List.count_eq_zero_of_not_mem fun hx => hi (hv.1.2 i hx)]
    · rw [occOf_sum _ _ fun x hx => (hv.1.2 x hx).trans_le hn, hv.1.1]

theorem card_injective (k n : ℕ) :
    ((univ : Finset (Fin k → Fin n)).filter Function.Injective).card = n.descFactorial k := by
  classical
  rw [← Fintype.card_subtype, Fintype.card_congr (Equiv.subtypeInjectiveEquivEmbedding (Fin k) (Fin n)),
    Fintype.card_embedding_eq, Fintype.card_fin, Fintype.card_fin]

theorem survivorsProb_eq {m : ℕ} {S : List ℕ} (hS : FirstModes m S) (hn : S.sum ≤ m) (W : List (List ℂ)) (b k : ℕ)
    (T : List ℕ) :
    survivorsProb W b S k T
      = (∑ f : Fin k → Fin S.sum with Function.Injective f, lossyProb W b (thrown m f) T) / S.sum.descFactorial k := by
  rw [sum_injective hS hn k fun t => lossyProb W b t T, survivorsProb, Nat.descFactorial_eq_factorial_mul_choose]
  push_cast
  rw [mul_div_mul_left _ _ (by exact_mod_cast k.factorial_ne_zero)]

/-- Averages over all functions and over the injective ones. -/
theorem average_injective {k n : ℕ} (hk : k ≤ n) (L : (Fin k → Fin n) → List ℕ → ℝ) (𝒯 : Finset (List ℕ))
    (h0 : ∀ f T, 0 ≤ L f T) (h1 : ∀ f, ∑ T ∈ 𝒯, L f T ≤ 1) :
    ∑ T ∈ 𝒯, |(∑ f, L f T) / (n : ℝ) ^ k - (∑ f with Function.Injective f, L f T) / n.descFactorial k|
      ≤ 2 * (1 - n.descFactorial k / (n : ℝ) ^ k) := by
  classical
  set I : ℝ := ((n.descFactorial k : ℕ) : ℝ) with hI
  set N : ℝ := (n : ℝ) ^ k with hN
  have hIpos : 0 < I := by rw [hI]; exact_mod_cast Nat.pos_of_ne_zero (by rw [Ne, Nat.descFactorial_eq_zero_iff_lt]; omega)
  have hIN : I ≤ N := by rw [hI, hN]; exact_mod_cast Nat.descFactorial_le_pow n k
  have hNpos : 0 < N := hIpos.trans_le hIN
  have hinv : 0 ≤ 1 / I - 1 / N := sub_nonneg.mpr (one_div_le_one_div_of_le hIpos hIN)
  have hb : ∀ T ∈ 𝒯, |(∑ f, L f T) / N - (∑ f with Function.Injective f, L f T) / I|
      ≤ (∑ f with Function.Injective f, L f T) * (1 / I - 1 / N) + (∑ f with ¬ Function.Injective f, L f T) * (1 / N) := by
    intro T _
    rw [← sum_filter_add_sum_filter_not univ Function.Injective fun f => L f T]
    have ha : 0 ≤ ∑ f with Function.Injective f, L f T := sum_nonneg fun f _ => h0 f T
    have hb : 0 ≤ ∑ f with ¬ Function.Injective f, L f T := sum_nonneg fun f _ => h0 f T
    have e : ((∑ f with Function.Injective f, L f T) + ∑ f with ¬ Function.Injective f, L f T) / N
        - (∑ f with Function.Injective f, L f T) / I
        = (∑ f with ¬ Function.Injective f, L f T) * (1 / N) - (∑ f with Function.Injective f, L f T) * (1 / I - 1 / N) := by
      ring
    rw [e, abs_le]
    have h2 := mul_nonneg ha hinv
    have h3 := mul_nonneg hb (one_div_pos.mpr hNpos).le
    constructor <;> linarith
  refine (sum_le_sum hb).trans ?_
  rw [sum_add_distrib, ← sum_mul, ← sum_mul, sum_comm, sum_comm (t := univ.filter fun f => ¬ Function.Injective f)]
  have hc1 : ∑ f : Fin k → Fin n with Function.Injective f, ∑ T ∈ 𝒯, L f T ≤ I := by
    refine (sum_le_sum fun f _ => h1 f).trans ?_
    rw [sum_const, card_injective, nsmul_eq_mul, mul_one]
  have hc2 : ∑ f : Fin k → Fin n with ¬ Function.Injective f, ∑ T ∈ 𝒯, L f T ≤ N - I := by
    refine (sum_le_sum fun f _ => h1 f).trans ?_
    rw [sum_const, nsmul_eq_mul, mul_one]
    have h := card_filter_add_card_filter_not (s := (univ : Finset (Fin k → Fin n))) Function.Injective
    rw [card_injective, card_univ, Fintype.card_fun, Fintype.card_fin, Fintype.card_fin] at h
    have : (n.descFactorial k : ℝ) + ((univ : Finset (Fin k → Fin n)).filter fun f => ¬ Function.Injective f).card = (n : ℝ) ^ k := by
      exact_mod_cast h
    rw [hI, hN]
    linarith
  have h2 := mul_le_mul_of_nonneg_right hc1 hinv
  have h3 := mul_le_mul_of_nonneg_right hc2 (one_div_pos.mpr hNpos).le
  refine (add_le_add h2 h3).trans (le_of_eq ?_)
  field_simp
  ring

theorem birthday {n : ℕ} (h : 0 < n) (k : ℕ) (hk : k ≤ n) :
    1 - (n.descFactorial k : ℝ) / (n : ℝ) ^ k ≤ (k : ℝ) * (k - 1) / (2 * n) := by
  have hn : (0 : ℝ) < n := by exact_mod_cast h
  induction k with
  | zero => simp
  | succ k ih =>
    have ih := ih (by omega)
    have h1 : (n.descFactorial k : ℝ) / (n : ℝ) ^ k ≤ 1 := by
      rw [div_le_one (by positivity)]
      exact_mod_cast Nat.descFactorial_le_pow n k
    have e : (n.descFactorial (k + 1) : ℝ) / (n : ℝ) ^ (k + 1) = (n.descFactorial k : ℝ) / (n : ℝ) ^ k * (1 - k / n) := by
      rw [Nat.descFactorial_succ, Nat.cast_mul, Nat.cast_sub (by omega), pow_succ]
      field_simp
    have h2 : (n.descFactorial k : ℝ) / (n : ℝ) ^ k * (k / n) ≤ k / n :=
      mul_le_of_le_one_left (by positivity) h1
    have e2 : ((k + 1 : ℕ) : ℝ) * ((k + 1 : ℕ) - 1) / (2 * n) = (k : ℝ) * (k - 1) / (2 * n) + k / n := by
      push_cast
      field_simp
      ring
    rw [e, e2]
    linarith

end Verif
