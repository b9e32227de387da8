import Verif.Props.LossyErrors
import Verif.Props.NetworkEstimates
import Verif.Props.NetworkStatistics
import Verif.Props.ApproxStatistics

/-!
C128: samplers that work with a nearby network: other losses, approximated modes, estimated distributions.
-/
namespace Verif

open Finset
open scoped ENNReal

variable {m : ℕ} {A B : Matrix (Fin m) (Fin m) ℂ}

/-- The laws of two nearby lossy networks, listed in the order `outs`. -/
theorem lossy_countTvd {W W' : List (List ℂ)} {b b' : ℕ} (hA : IsDilation (rowsOf A) W m b) (hB : IsDilation (rowsOf B) W' m b')
    (S : List ℕ) (hS : S.length = m) (outs : List (List ℕ)) (hn : outs.Nodup) (ho : ∀ T ∈ outs, T.length = m) :
    ∃ tv, countTvd (outs.map (lossyProb W b S)) (outs.map (lossyProb W' b' S)) = .ok tv ∧ tv ≤ 2 * S.sum * matrixDistance A B := by
  refine ⟨_, countTvd_ok _ _ (by simp), ?_⟩
  have h := C127_law hA hB S hS outs.toFinset fun T hT => ho T (List.mem_toFinset.mp hT)
  rw [List.sum_toFinset _ hn] at h
  rw [List.zipWith_map, List.zipWith_self]
  linarith

/-- C128: the distribution estimated from `N` samples of the sampler for the lossy network `B` is within the error bound of the
code plus `2 n` times the distance of the matrices of the law of the network `A`, except with probability at most `δ`. -/
theorem C128_network {d : Svd m} (h : IsSvd B d) (h1 : ∀ i, d.s i ≤ 1) {W : List (List ℂ)} {b : ℕ}
    (hW : IsDilation (rowsOf A) W m b) {S : List ℕ} (hS : S.length = m) (hm : 0 < m) (fuel : ℕ)
    (hf : (S.map (· + 1)).prod ≤ fuel) (hf' : m < fuel)
    (outs : List (List ℕ)) (hn : outs.Nodup) (ho : ∀ T, T ∈ outs ↔ T.length = m ∧ T.sum ≤ S.sum)
    (N : ℕ) (δ : ℝ) (left k : ℤ) (hN : 0 < N) (hδ0 : 0 < δ) (hδ1 : δ ≤ 1) :
    (approximateDistribution (networkStrategy d fuel) fuel ⟨S, S.length, left, some outs, k⟩ N).prob
        (Misses (outs.map (lossyProb W b S)) (tvErrorBound outs.length N δ + 2 * S.sum * matrixDistance A B))
      ≤ ENNReal.ofReal δ := by
  have hB := expanded_isDilation h h1
  obtain ⟨tv, e1, e2⟩ := lossy_countTvd hW hB S hS outs hn fun T hT => ((ho T).mp hT).1
  exact prob_near e1 e2 _ (C64_network h h1 hB hS hm fuel hf hf' outs hn ho N δ left k hN hδ0 hδ1)

/-- C128: for the distance `ε` the number of samples the code computes for the distance that remains is enough. -/
theorem C128_network_enough {d : Svd m} (h : IsSvd B d) (h1 : ∀ i, d.s i ≤ 1) {W : List (List ℂ)} {b : ℕ}
    (hW : IsDilation (rowsOf A) W m b) {S : List ℕ} (hS : S.length = m) (hm : 0 < m) (fuel : ℕ)
    (hf : (S.map (· + 1)).prod ≤ fuel) (hf' : m < fuel)
    (outs : List (List ℕ)) (hn : outs.Nodup) (ho : ∀ T, T ∈ outs ↔ T.length = m ∧ T.sum ≤ S.sum)
    (N : ℕ) (δ ε : ℝ) (left k : ℤ) (hδ0 : 0 < δ) (hδ1 : δ ≤ 1) (hε : 2 * S.sum * matrixDistance A B < ε)
    (hN : minimalSamples outs.length δ (ε - 2 * S.sum * matrixDistance A B) ≤ N) :
    (approximateDistribution (networkStrategy d fuel) fuel ⟨S, S.length, left, some outs, k⟩ N).prob
        (Misses (outs.map (lossyProb W b S)) ε) ≤ ENNReal.ofReal δ := by
  have hB := expanded_isDilation h h1
  obtain ⟨tv, e1, e2⟩ := lossy_countTvd hW hB S hS outs hn fun T hT => ((ho T).mp hT).1
  have := prob_near e1 e2 _ (C64_network_enough h h1 hB hS hm fuel hf hf' outs hn ho N δ _ left k hδ0 hδ1 (by linarith) hN)
  rwa [sub_add_cancel] at this

/-- C128: what it costs to replace losses that differ between the modes by uniform ones. The law of the sampler for the network
`A` differs from that of the sampler with the unitary matrix `U` and the transmissivity `η` by at most `2 n` times the distance
of `A` from `√η U`. -/
theorem C128_uniform {d : Svd m} (h : IsSvd A d) (h1 : ∀ i, d.s i ≤ 1) {U : Matrix (Fin m) (Fin m) ℂ}
    (hU : U ∈ Matrix.unitaryGroup (Fin m) ℂ) {eta : ℝ} (he0 : 0 ≤ eta) (he1 : eta ≤ 1) (S : List ℕ) (hS : S.length = m)
    (hm : 0 < m) (fuel : ℕ) (hf : (S.map (· + 1)).prod ≤ fuel) (hf' : m < fuel) (N N' : ℤ) (i j : ℕ) (hi : i < N.toNat)
    (hj : j < N'.toNat) (𝒯 : Finset (List ℕ)) (h𝒯 : ∀ T ∈ 𝒯, T.length = m ∧ T.sum ≤ S.sum) :
    1 / 2 * ∑ T ∈ 𝒯,
      |((lossyNetSimulate (ryserSubPermanents fuel) d fuel S N).prob fun r => ∃ l, r = .ok l ∧ l[i]? = some T).toReal
        - ((gccbLossySimulate (ryserSubPermanents fuel) (rowsOf U) fuel eta S N').prob
            fun r => ∃ l, r = .ok l ∧ l[j]? = some T).toReal|
      ≤ 2 * S.sum * matrixDistance A (((Real.sqrt eta : ℝ) : ℂ) • U) := by
  obtain ⟨dU, hdU⟩ := svd_exists (((Real.sqrt eta : ℝ) : ℂ) • U)
  have hle : ∀ i, dU.s i ≤ 1 := fun i => by
    have := svd_uniform hU eta he0 hdU i
    nlinarith [hdU.nonneg i]
  have hB := expanded_isDilation hdU hle
  refine le_trans (le_of_eq ?_) (C127_law (expanded_isDilation h h1) hB S hS 𝒯 fun T hT => (h𝒯 T hT).1)
  congr 1
  refine sum_congr rfl fun T hT => ?_
  obtain ⟨e1, e2⟩ := h𝒯 T hT
  rw [C35_dilation A d h h1 _ m (expanded_isDilation h h1) S hS hm fuel hf hf' N i hi T e1,
    C32_sample (rowsOf_interferometer hU hm S hS) eta he0 he1 fuel hf N' j hj T (by omega) e2,
    ← lossyProb_binomial hU eta he0 he1 hB S T hS e1 e2,
    ENNReal.toReal_ofReal (lossyProb_nonneg ..), ENNReal.toReal_ofReal (lossyProb_nonneg ..)]

section

variable {M M' A' : Matrix (Fin m) (Fin m) ℂ} {d d' : Svd m} {cpu cpu' : ℕ} {k t t' : ℤ} {l eta l' eta' : ℝ} {K th th' fuel : ℕ}
  {svd svd' : Matrix (Fin m) (Fin m) ℂ → Svd m}

theorem wordsCard (K p : ℕ) : (words K p).card = K ^ p := by
  rw [card_eq_sum_ones]
  induction p with
  | zero => simp [words]
  | succ p ih => rw [sum_words_succ, sum_comm, sum_congr rfl fun _ _ => ih, sum_const, card_range, smul_eq_mul, pow_succ, mul_comm]

/-- A partly random input of two nearby networks. -/
theorem scrambled_near {W W' : List (List ℂ)} {b b' : ℕ} (hA : IsDilation (rowsOf A) W m b) (hB : IsDilation (rowsOf B) W' m b')
    (hK : K ≤ m) (p : ℕ) (S : List ℕ) (hS : S.length = m) (𝒯 : Finset (List ℕ)) (h𝒯 : ∀ T ∈ 𝒯, T.length = m) :
    1 / 2 * ∑ T ∈ 𝒯, |scrambledProb W b K p S T - scrambledProb W' b' K p S T|
      ≤ 2 * (p + (S.drop K).sum : ℕ) * matrixDistance A B := by
  have hd : 0 ≤ matrixDistance A B := Real.sqrt_nonneg _
  have h1 : ∀ T, |scrambledProb W b K p S T - scrambledProb W' b' K p S T|
      ≤ 1 / (K : ℝ) ^ p * ∑ v ∈ words K p, |lossyProb W b (occOf K v ++ S.drop K) T - lossyProb W' b' (occOf K v ++ S.drop K) T| := by
    intro T
    rw [scrambledProb_eq, scrambledProb_eq, ← mul_sub, ← sum_sub_distrib, abs_mul, abs_of_nonneg (by positivity)]
    exact mul_le_mul_of_nonneg_left (abs_sum_le_sum_abs _ _) (by positivity)
  have h2 : ∀ v ∈ words K p, 1 / 2 * ∑ T ∈ 𝒯, |lossyProb W b (occOf K v ++ S.drop K) T - lossyProb W' b' (occOf K v ++ S.drop K) T|
      ≤ 2 * (p + (S.drop K).sum : ℕ) * matrixDistance A B := by
    intro v hv
    have e := C127_law hA hB (occOf K v ++ S.drop K) (by rw [List.length_append, occOf_length, List.length_drop]; omega) 𝒯 h𝒯
    have hv' := mem_words.mp hv
    rwa [List.sum_append, occOf_sum _ _ hv'.2, hv'.1] at e
  calc 1 / 2 * ∑ T ∈ 𝒯, |scrambledProb W b K p S T - scrambledProb W' b' K p S T|
      ≤ 1 / 2 * ∑ T ∈ 𝒯, (1 / (K : ℝ) ^ p
          * ∑ v ∈ words K p, |lossyProb W b (occOf K v ++ S.drop K) T - lossyProb W' b' (occOf K v ++ S.drop K) T|) :=
        mul_le_mul_of_nonneg_left (sum_le_sum fun T _ => h1 T) (by norm_num)
    _ = 1 / (K : ℝ) ^ p * ∑ v ∈ words K p,
          (1 / 2 * ∑ T ∈ 𝒯, |lossyProb W b (occOf K v ++ S.drop K) T - lossyProb W' b' (occOf K v ++ S.drop K) T|) := by
        rw [← mul_sum, sum_comm, ← mul_sum]; ring
    _ ≤ 1 / (K : ℝ) ^ p * ∑ _v ∈ words K p, 2 * (p + (S.drop K).sum : ℕ) * matrixDistance A B :=
        mul_le_mul_of_nonneg_left (sum_le_sum h2) (by positivity)
    _ = (1 / (K : ℝ) ^ p * (K : ℝ) ^ p) * (2 * (p + (S.drop K).sum : ℕ) * matrixDistance A B) := by
        rw [sum_const, nsmul_eq_mul, wordsCard, Nat.cast_pow]; ring
    _ ≤ 1 * (2 * (p + (S.drop K).sum : ℕ) * matrixDistance A B) := by
        refine mul_le_mul_of_nonneg_right ?_ (by positivity)
        rw [one_div]
        exact inv_mul_le_one
    _ = _ := one_mul _

/-- C128 for the approximate sampler for non-uniform losses: after histories that left equally many particles in the approximated
modes, the laws of its samples for two networks differ by at most `2` times the number of particles times the distance of
the matrices, although the extracted losses may be different. -/
theorem C128_bobs (h : BobsSetup M d cpu k t A l eta K th) (h' : BobsSetup M' d' cpu' k t' A' l' eta' K th')
    (hsvd : ∀ B, IsSvd B (svd B)) (hsvd' : ∀ B, IsSvd B (svd' B)) (htol : l = 0 ∨ 1e-8 < l) (htol' : l' = 0 ∨ 1e-8 < l')
    {calls calls' : List (List ℕ × ℤ)} {o o' : BobsObj m}
    (hh : BobsHistory svd (ryserSubPermanents fuel) fuel d cpu k t calls o)
    (hh' : BobsHistory svd' (ryserSubPermanents fuel) fuel d' cpu' k t' calls' o')
    (hp : pastParticles K calls = pastParticles K calls')
    (S : List ℕ) (hS : S.length = m) (N N' : ℤ) (hf : (pastParticles K calls + S.sum + 1) ^ m ≤ fuel)
    (hf' : m < fuel) (i j : ℕ) (hi : i < N.toNat) (hj : j < N'.toNat) (𝒯 : Finset (List ℕ)) (h𝒯 : ∀ T ∈ 𝒯, T.length = m) :
    1 / 2 * ∑ T ∈ 𝒯, |((bobsSimulate svd (ryserSubPermanents fuel) fuel o S N).prob
          fun r => ∃ samples o', r = .ok (samples, o') ∧ samples[i]? = some T).toReal
        - ((bobsSimulate svd' (ryserSubPermanents fuel) fuel o' S N').prob
          fun r => ∃ samples o', r = .ok (samples, o') ∧ samples[j]? = some T).toReal|
      ≤ 2 * (pastParticles K calls + S.sum : ℕ) * matrixDistance M M' := by
  have hW := expanded_isDilation h.isSvd h.le_one
  have hW' := expanded_isDilation h'.isSvd h'.le_one
  have e := scrambled_near hW hW' h.modes_le (pastParticles K calls + (S.take K).sum) S hS 𝒯 h𝒯
  rw [Nat.add_assoc, ← List.sum_append, List.take_append_drop] at e
  refine le_trans (le_of_eq ?_) e
  congr 1
  refine sum_congr rfl fun T hT => ?_
  rw [C114_sample h hsvd htol hh S hS N (by omega) hf hf' _ m hW i hi T (h𝒯 T hT),
    C114_sample h' hsvd' htol' hh' S hS N' (by omega) (by rw [← hp]; exact hf) hf' _ m hW' j hj T (h𝒯 T hT), ← hp,
    ENNReal.toReal_ofReal (scrambledProb_nonneg ..), ENNReal.toReal_ofReal (scrambledProb_nonneg ..)]

/-- C128 for distributions estimated with the approximate sampler: the errors of C116 and that of the matrix add up. -/
theorem C128_bobs_estimate (h : BobsSetup M d cpu k t A l eta K th) (hsvd : ∀ B, IsSvd B (svd B)) (htol : l = 0 ∨ 1e-8 < l)
    {calls : List (List ℕ × ℤ)} {o : BobsObj m} (hh : BobsHistory svd (ryserSubPermanents fuel) fuel d cpu k t calls o)
    (hp : ∀ c ∈ calls, ∀ x ∈ c.1.take K, x = 0)
    (S : List ℕ) (hS : S.length = m) (hK : 0 < K) (hones : S.take K = List.replicate K 1)
    (hf : (S.sum + 1) ^ m ≤ fuel) (hf' : m < fuel) (W : List (List ℂ)) (b : ℕ) (hW : IsDilation (rowsOf B) W m b)
    (outs : List (List ℕ)) (hn : outs.Nodup) (ho : ∀ T, T ∈ outs ↔ T.length = m ∧ T.sum ≤ S.sum)
    (N N' : ℕ) (hN' : N' = th * (N / th + 1)) (δ : ℝ) (left j : ℤ) (hN : 0 < N) (hδ0 : 0 < δ) (hδ1 : δ ≤ 1) :
    (approximateDistribution (bobsStrategy svd fuel o) fuel ⟨S, S.length, left, some outs, j⟩ N).prob
        (Misses (outs.map (lossyProb W b S))
          (tvErrorBound outs.length N' δ + eta ^ 2 * (K - 1) / 2 + ((N' : ℝ) - N) / (2 * N) + 2 * S.sum * matrixDistance B M))
      ≤ ENNReal.ofReal δ := by
  have hM := expanded_isDilation h.isSvd h.le_one
  obtain ⟨tv, e1, e2⟩ := lossy_countTvd hW hM S hS outs hn fun T hT => ((ho T).mp hT).1
  exact prob_near e1 e2 _ (C116_bobs h hsvd htol hh hp S hS hK hones hf hf' _ m hM outs hn ho N N' hN' δ left j hN hδ0 hδ1)

end

/-! ### Non-trivial instances -/

/-- A mode that transmits half of the amplitude, replaced by one that transmits three fifths: the laws for two particles differ by
at most 2/5. -/
example (N : ℤ) (hN : 0 < N.toNat) : 1 / 2 * ∑ T ∈ {[0], [1], [2]},
      |((lossyNetSimulate (ryserSubPermanents 3) halfSvd 3 [2] N).prob fun r => ∃ l, r = .ok l ∧ l[0]? = some T).toReal
        - ((gccbLossySimulate (ryserSubPermanents 3) (rowsOf (1 : Matrix (Fin 1) (Fin 1) ℂ)) 3 (9 / 25) [2] N).prob
            fun r => ∃ l, r = .ok l ∧ l[0]? = some T).toReal| ≤ 2 / 5 := by
  have h1 : ∀ i, halfSvd.s i ≤ 1 := fun i => by simp only [halfSvd]; norm_num
  refine (C128_uniform halfSvd_isSvd h1 (one_mem _) (by norm_num) (by norm_num) [2] rfl (by decide) 3 (by decide) (by decide)
    N N 0 0 hN hN _ (fun T hT => by simp at hT; rcases hT with rfl | rfl | rfl <;> simp)).trans (le_of_eq ?_)
  have hs : Real.sqrt (9 / 25) = 3 / 5 := by
    rw [show (9 / 25 : ℝ) = (3 / 5) ^ 2 by norm_num, Real.sqrt_sq (by norm_num)]
  have hd : matrixDistance (Matrix.of fun _ _ => (1 / 2 : ℂ)) (((Real.sqrt (9 / 25) : ℝ) : ℂ) • (1 : Matrix (Fin 1) (Fin 1) ℂ)) = 1 / 10 := by
    rw [matrixDistance, hs]
    simp only [Fin.sum_univ_one, Matrix.sub_apply, Matrix.of_apply, Matrix.smul_apply, Matrix.one_apply_eq, smul_eq_mul, mul_one]
    rw [show (1 / 2 : ℂ) - ((3 / 5 : ℝ) : ℂ) = ((-(1 / 10) : ℝ) : ℂ) by push_cast; norm_num, Complex.norm_real, Real.norm_eq_abs,
      sq_abs, Real.sqrt_sq_eq_abs]
    norm_num
  rw [hd]
  norm_num

/-- The estimate for a mode that transmits three fifths of the amplitude from samples of one that transmits half of it. -/
example (N : ℕ) (hN : 0 < N) : (approximateDistribution (networkStrategy halfSvd 3) 3 ⟨[2], 1, 2, some [[0], [1], [2]], 1⟩ N).prob
      (Misses ([[0], [1], [2]].map (lossyProb (oneModeSplit (3 / 5)) 1 [2]))
        (tvErrorBound 3 N (1 / 10) + 2 * ([2] : List ℕ).sum * matrixDistance (oneModeLoss (3 / 5)) (Matrix.of fun _ _ => (1 / 2 : ℂ))))
    ≤ ENNReal.ofReal (1 / 10) :=
  C128_network halfSvd_isSvd (fun i => by simp only [halfSvd]; norm_num) (oneModeSplit_isDilation (by norm_num)) rfl (by decide) 3
    (by decide) (by decide) [[0], [1], [2]] (by decide) (fun T => by
      constructor
      · intro hT; simp at hT; rcases hT with rfl | rfl | rfl <;> simp
      · rintro ⟨h1, h2⟩
        match T, h1 with
        | [x], _ =>
          have : x ≤ 2 := by simpa using h2
          simp; omega) N (1 / 10) 2 1 hN (by norm_num) (by norm_num)

/-- The approximate sampler given different decompositions (the `svd` of its threads): the law is the same. -/
example (svd svd' : Matrix (Fin 2) (Fin 2) ℂ → Svd 2) (hsvd : ∀ B, IsSvd B (svd B)) (hsvd' : ∀ B, IsSvd B (svd' B)) :
    ∃ o, bobsInit idSvd 1 2 1 = .ok o ∧ 1 / 2 * ∑ T ∈ statesFin 2 2, |((bobsSimulate svd (ryserSubPermanents 9) 9 o [1, 1] 3).prob
          fun r => ∃ samples o', r = .ok (samples, o') ∧ samples[1]? = some T).toReal
        - ((bobsSimulate svd' (ryserSubPermanents 9) 9 o [1, 1] 5).prob
          fun r => ∃ samples o', r = .ok (samples, o') ∧ samples[4]? = some T).toReal| ≤ 0 := by
  obtain ⟨o, h1, -⟩ := idSetup.inv
  refine ⟨o, h1, (C128_bobs idSetup idSetup hsvd hsvd' (.inl rfl) (.inl rfl) (.new h1) (.new h1) rfl [1, 1] rfl 3 5 (by decide)
    (by decide) 1 4 (by decide) (by decide) _ fun T hT => ((mem_statesFin _ _ T).mp hT).1).trans (le_of_eq ?_)⟩
  have : matrixDistance (1 : Matrix (Fin 2) (Fin 2) ℂ) 1 = 0 := by simp [matrixDistance]
  rw [this, mul_zero]

end Verif
