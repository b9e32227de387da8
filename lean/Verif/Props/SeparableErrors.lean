import Verif.Props.NearbyLosses
import Verif.Props.RoundedExpansion
import Verif.Props.MatrixDistance

/-!
C129: the separable samplers with the matrix of a nearby network.
-/
namespace Verif

open Finset
open scoped ENNReal

variable {m : ℕ} {A B : Matrix (Fin m) (Fin m) ℂ}

/-- The distance of two mixtures with the same weights. -/
theorem mixture_near {ι : Type*} (s : Finset ι) (w : ι → ℝ) (hw : ∀ i ∈ s, 0 ≤ w i) (f g : ι → List ℕ → ℝ) (β : ι → ℝ)
    (𝒯 : Finset (List ℕ)) (h : ∀ i ∈ s, 1 / 2 * ∑ T ∈ 𝒯, |f i T - g i T| ≤ β i) :
    1 / 2 * ∑ T ∈ 𝒯, |(∑ i ∈ s, w i * f i T) - ∑ i ∈ s, w i * g i T| ≤ ∑ i ∈ s, w i * β i := by
  have h1 : ∀ T ∈ 𝒯, |(∑ i ∈ s, w i * f i T) - ∑ i ∈ s, w i * g i T| ≤ ∑ i ∈ s, w i * |f i T - g i T| := fun T _ => by
    rw [← sum_sub_distrib]
    refine (abs_sum_le_sum_abs _ _).trans (sum_le_sum fun i hi => ?_)
    rw [← mul_sub, abs_mul, abs_of_nonneg (hw i hi)]
  refine (mul_le_mul_of_nonneg_left (sum_le_sum h1) (by norm_num)).trans ?_
  rw [sum_comm, mul_sum]
  refine sum_le_sum fun i hi => ?_
  have := mul_le_mul_of_nonneg_left (h i hi) (hw i hi)
  rw [← mul_sum]
  linarith

section

variable {W W' : List (List ℂ)} {b b' : ℕ} (hA : IsDilation (rowsOf A) W m b) (hB : IsDilation (rowsOf B) W' m b')
  (𝒯 : Finset (List ℕ)) (h𝒯 : ∀ T ∈ 𝒯, T.length = m)
include hA hB h𝒯

theorem thrown_near {n : ℕ} (hn : 0 < n) (hnm : n ≤ m) (k : ℕ) :
    1 / 2 * ∑ T ∈ 𝒯, |thrownProb W m b n k T - thrownProb W' m b' n k T| ≤ 2 * k * matrixDistance A B := by
  have hp : (0 : ℝ) < (n : ℝ) ^ k := by positivity
  have h := mixture_near (univ : Finset (Fin k → Fin n)) (fun _ => 1 / (n : ℝ) ^ k) (fun _ _ => by positivity)
    (fun f T => lossyProb W b (thrown m f) T) (fun f T => lossyProb W' b' (thrown m f) T) (fun _ => 2 * k * matrixDistance A B) 𝒯
    (fun f _ => by
      have := C127_law hA hB (thrown m f) (thrown_length m f) 𝒯 h𝒯
      rwa [thrown_sum hnm] at this)
  rw [sum_const, card_univ, Fintype.card_fun, Fintype.card_fin, Fintype.card_fin, nsmul_eq_mul, Nat.cast_pow, ← mul_assoc,
    mul_one_div_cancel hp.ne', one_mul] at h
  refine le_trans (le_of_eq ?_) h
  congr 1
  refine sum_congr rfl fun T _ => ?_
  rw [thrownProb, thrownProb, ← mul_sum, ← mul_sum, div_eq_inv_mul, div_eq_inv_mul, one_div]

theorem survivors_near (S : List ℕ) (hS : S.length = m) (k : ℕ) (hk : k ≤ S.sum) :
    1 / 2 * ∑ T ∈ 𝒯, |survivorsProb W b S k T - survivorsProb W' b' S k T| ≤ 2 * k * matrixDistance A B := by
  have hC : (0 : ℝ) < S.sum.choose k := by exact_mod_cast Nat.choose_pos hk
  have h := mixture_near (powersetCard k (univ : Finset (Particle S))) (fun _ => 1 / (S.sum.choose k : ℝ)) (fun _ _ => by positivity)
    (fun P T => lossyProb W b (stateOf P) T) (fun P T => lossyProb W' b' (stateOf P) T) (fun _ => 2 * k * matrixDistance A B) 𝒯
    (fun P hP => by
      have := C127_law hA hB (stateOf P) (by rw [stateOf_length, hS]) 𝒯 h𝒯
      rwa [stateOf_sum, (mem_powersetCard.mp hP).2] at this)
  rw [sum_const, card_powersetCard, card_univ, card_particle, nsmul_eq_mul, ← mul_assoc, mul_one_div_cancel hC.ne', one_mul] at h
  refine le_trans (le_of_eq ?_) h
  congr 1
  refine sum_congr rfl fun T _ => ?_
  rw [survivorsProb, survivorsProb, ← mul_sum, ← mul_sum, div_eq_inv_mul, div_eq_inv_mul, one_div]

end

/-- C129, the sampler with `k` particles left: the laws of its samples for two networks differ by at most `2 k` times the
distance of the matrices. -/
theorem C129_fixed {net net' : List ℂ → Py (List ℂ)} (h : NetworkOf net A) (h' : NetworkOf net' B) {d d' : Svd m}
    (hd : IsSvd A d) (hd' : IsSvd B d') (hs : ∀ i, d.s i ≤ 1) (hs' : ∀ i, d'.s i ≤ 1) (k : ℕ) (S : List ℕ) (hS : 1 ≤ S.sum)
    (hSm : S.sum ≤ m) (N N' : ℤ) (i j : ℕ) (hi : i < N.toNat) (hj : j < N'.toNat) (𝒯 : Finset (List ℕ))
    (h𝒯 : ∀ T ∈ 𝒯, T.length = m) :
    1 / 2 * ∑ T ∈ 𝒯, |((fixedSimulate net m k S N).prob fun r => ∃ l, r = .ok l ∧ l[i]? = some T).toReal
        - ((fixedSimulate net' m k S N').prob fun r => ∃ l, r = .ok l ∧ l[j]? = some T).toReal|
      ≤ 2 * k * matrixDistance A B := by
  have hW := expanded_isDilation hd hs
  have hW' := expanded_isDilation hd' hs'
  refine le_trans (le_of_eq ?_) (thrown_near hW hW' 𝒯 h𝒯 hS hSm k)
  congr 1
  refine sum_congr rfl fun T hT => ?_
  rw [C112_fixed h d hd hs hW k S hS hSm N i hi T (h𝒯 T hT), C112_fixed h' d' hd' hs' hW' k S hS hSm N' j hj T (h𝒯 T hT),
    ENNReal.toReal_ofReal (thrownProb_nonneg ..), ENNReal.toReal_ofReal (thrownProb_nonneg ..)]

/-- C129, the sampler with uniform losses: the mean number `η n` of surviving particles takes the place of `k`. -/
theorem C129_uniform {d d' : Svd m} (hd : IsSvd A d) (hd' : IsSvd B d') (hs : ∀ i, d.s i ≤ 1) (hs' : ∀ i, d'.s i ≤ 1)
    (fuel : ℕ) (hf : m < fuel) {eta : ℝ} (h0 : 0 ≤ eta) (h1 : eta ≤ 1) (S : List ℕ) (hS : 1 ≤ S.sum)
    (hSm : S.sum ≤ m) (N N' : ℤ) (i j : ℕ) (hi : i < N.toNat) (hj : j < N'.toNat) (𝒯 : Finset (List ℕ))
    (h𝒯 : ∀ T ∈ 𝒯, T.length = m) :
    1 / 2 * ∑ T ∈ 𝒯, |((uniformSimulate fuel d m eta S N).prob fun r => ∃ l, r = .ok l ∧ l[i]? = some T).toReal
        - ((uniformSimulate fuel d' m eta S N').prob fun r => ∃ l, r = .ok l ∧ l[j]? = some T).toReal|
      ≤ 2 * (eta * S.sum) * matrixDistance A B := by
  have hW := expanded_isDilation hd hs
  have hW' := expanded_isDilation hd' hs'
  have e := mixture_near (range (S.sum + 1)) (fun l => binomialWeight S.sum l eta) (fun l _ => binomialWeight_nonneg _ _ h0 h1) _ _ _ 𝒯
    fun l _ => thrown_near hW hW' 𝒯 h𝒯 hS hSm l
  have e2 : ∑ l ∈ range (S.sum + 1), binomialWeight S.sum l eta * (2 * l * matrixDistance A B)
      = 2 * (eta * S.sum) * matrixDistance A B := by
    rw [← binomial_mean, mul_sum, sum_mul]
    exact sum_congr rfl fun l _ => by ring
  rw [e2] at e
  refine le_trans (le_of_eq ?_) e
  congr 1
  refine sum_congr rfl fun T hT => ?_
  rw [C112_uniform d hd hs hW fuel hf eta h0 h1 S hS hSm N i hi T (h𝒯 T hT),
    C112_uniform d' hd' hs' hW' fuel hf eta h0 h1 S hS hSm N' j hj T (h𝒯 T hT),
    ENNReal.toReal_ofReal (sum_nonneg fun _ _ => mul_nonneg (binomialWeight_nonneg _ _ h0 h1) (thrownProb_nonneg ..)),
    ENNReal.toReal_ofReal (sum_nonneg fun _ _ => mul_nonneg (binomialWeight_nonneg _ _ h0 h1) (thrownProb_nonneg ..))]

/-- C129 for distributions estimated with the sampler with `k` particles left: the sampling error, the error of the separable
approximation and the error of the matrix add up. -/
theorem C129_fixed_estimate {net : List ℂ → Py (List ℂ)} (h : NetworkOf net B) (d : Svd m) (hd : IsSvd B d) (hs : ∀ i, d.s i ≤ 1)
    {W : List (List ℂ)} {b : ℕ} (hW : IsDilation (rowsOf A) W m b) (k : ℕ)
    (S : List ℕ) (hS : 1 ≤ S.sum) (hF : FirstModes m S) (hk : k ≤ S.sum)
    (outs : List (List ℕ)) (hn : outs.Nodup) (ho : ∀ T, T ∈ outs ↔ T.length = m ∧ T.sum ≤ k)
    (fuel N : ℕ) (δ : ℝ) (left j : ℤ) (hN : 0 < N) (hδ0 : 0 < δ) (hδ1 : δ ≤ 1) :
    (approximateDistribution (fixedSimulate net m k) fuel ⟨S, S.length, left, some outs, j⟩ N).prob
        (Misses (outs.map (survivorsProb W b S k))
          (tvErrorBound outs.length N δ + (k : ℝ) * (k - 1) / (2 * S.sum) + 2 * k * matrixDistance A B))
      ≤ ENNReal.ofReal δ := by
  have hW' := expanded_isDilation hd hs
  have hl : S.length = m := by rw [hF]; simp
  refine prob_near (countTvd_ok _ _ (by simp)) ?_ _
    (C116_fixed h d hd hs hW' k S hS hF hk outs hn ho fuel N δ left j hN hδ0 hδ1)
  have e := survivors_near hW hW' outs.toFinset (fun T hT => ((ho T).mp (List.mem_toFinset.mp hT)).1) S hl k hk
  rw [List.sum_toFinset _ hn] at e
  rw [List.zipWith_map, List.zipWith_self]
  linarith

/-- C129 for distributions estimated with the sampler with uniform losses. -/
theorem C129_uniform_estimate (d : Svd m) (hd : IsSvd B d) (hs : ∀ i, d.s i ≤ 1)
    {W : List (List ℂ)} {b : ℕ} (hW : IsDilation (rowsOf A) W m b) (fuel : ℕ) (hf : m < fuel) (eta : ℝ) (h0 : 0 ≤ eta)
    (h1 : eta ≤ 1) (S : List ℕ) (hS : 1 ≤ S.sum) (hF : FirstModes m S)
    (outs : List (List ℕ)) (hn : outs.Nodup) (ho : ∀ T, T ∈ outs ↔ T.length = m ∧ T.sum ≤ S.sum)
    (N : ℕ) (δ : ℝ) (left j : ℤ) (hN : 0 < N) (hδ0 : 0 < δ) (hδ1 : δ ≤ 1) :
    (approximateDistribution (uniformSimulate fuel d m eta) fuel ⟨S, S.length, left, some outs, j⟩ N).prob
        (Misses (outs.map fun T => ∑ l ∈ range (S.sum + 1), binomialWeight S.sum l eta * survivorsProb W b S l T)
          (tvErrorBound outs.length N δ + eta ^ 2 * (S.sum - 1) / 2 + 2 * (eta * S.sum) * matrixDistance A B))
      ≤ ENNReal.ofReal δ := by
  have hW' := expanded_isDilation hd hs
  have hl : S.length = m := by rw [hF]; simp
  refine prob_near (countTvd_ok _ _ (by simp)) ?_ _
    (C116_uniform d hd hs hW' fuel hf eta h0 h1 S hS hF outs hn ho N δ left j hN hδ0 hδ1)
  have e := mixture_near (range (S.sum + 1)) (fun l => binomialWeight S.sum l eta) (fun l _ => binomialWeight_nonneg _ _ h0 h1) _ _ _
    outs.toFinset fun l hl' => survivors_near hW hW' outs.toFinset (fun T hT => ((ho T).mp (List.mem_toFinset.mp hT)).1) S hl l
      (Nat.lt_succ_iff.mp (mem_range.mp hl'))
  have e2 : ∑ l ∈ range (S.sum + 1), binomialWeight S.sum l eta * (2 * l * matrixDistance A B)
      = 2 * (eta * S.sum) * matrixDistance A B := by
    rw [← binomial_mean, mul_sum, sum_mul]
    exact sum_congr rfl fun l _ => by ring
  rw [e2, List.sum_toFinset _ hn] at e
  rw [List.zipWith_map, List.zipWith_self]
  linarith

/-! ### The constant cannot be improved -/

noncomputable def oneModeSvd (x : ℝ) : Svd 1 := ⟨1, fun _ => x, 1⟩

theorem oneModeSvd_isSvd {x : ℝ} (h : 0 ≤ x) : IsSvd (oneModeLoss x) (oneModeSvd x) := by
  refine ⟨one_mem _, one_mem _, fun i => h, fun i j _ => le_rfl, ?_⟩
  ext i j
  simp [oneModeSvd, oneModeLoss, Matrix.diagonal, Subsingleton.elim i j]

theorem oneMode_thrown (W : List (List ℂ)) (b : ℕ) (T : List ℕ) : thrownProb W 1 b 1 1 T = lossyProb W b [1] T := by
  have h : ∀ f : Fin 1 → Fin 1, thrown 1 f = [1] := by decide
  simp only [thrownProb, h, sum_const, card_univ, Fintype.card_fun, Fintype.card_fin]
  simp

/-- C129: the sampler for one particle in one mode with the transmission amplitudes `x` and `y`. The distance of its laws is the
bound of `C129_fixed` times `(x + y) / 2`. -/
theorem C129_sharp {x y : ℝ} (hx0 : 0 ≤ x) (hx : x ≤ 1) (hy0 : 0 ≤ y) (hy : y ≤ 1) (fuel : ℕ) (hf : 1 < fuel)
    (N N' : ℤ) (i j : ℕ) (hi : i < N.toNat) (hj : j < N'.toNat) :
    1 / 2 * ∑ T ∈ {[0], [1]},
        |((fixedSimulate (lossySimulate fuel (oneModeSvd x)) 1 1 [1] N).prob fun r => ∃ l, r = .ok l ∧ l[i]? = some T).toReal
          - ((fixedSimulate (lossySimulate fuel (oneModeSvd y)) 1 1 [1] N').prob fun r => ∃ l, r = .ok l ∧ l[j]? = some T).toReal|
      = (x + y) / 2 * (2 * matrixDistance (oneModeLoss x) (oneModeLoss y)) := by
  obtain ⟨hX, hY, h⟩ := C127_sharp hx0 hx hy0 hy
  simp only [List.sum_cons, List.sum_nil, Nat.add_zero, Nat.cast_one, mul_one] at h
  rw [← h]
  congr 1
  refine sum_congr rfl fun T hT => ?_
  have hT' : T.length = 1 := by simp at hT; rcases hT with rfl | rfl <;> rfl
  have ex := C112_fixed (networkOf_strategies _ _ (oneModeSvd_isSvd hx0) fuel hf).1 _ (oneModeSvd_isSvd hx0) (fun _ => hx) hX 1 [1]
    (by decide) (by decide) N i hi T hT'
  have ey := C112_fixed (networkOf_strategies _ _ (oneModeSvd_isSvd hy0) fuel hf).1 _ (oneModeSvd_isSvd hy0) (fun _ => hy) hY 1 [1]
    (by decide) (by decide) N' j hj T hT'
  rw [Nat.cast_one] at ex ey
  rw [ex, ey, ENNReal.toReal_ofReal (thrownProb_nonneg ..), ENNReal.toReal_ofReal (thrownProb_nonneg ..)]
  simp only [List.sum_cons, List.sum_nil, Nat.add_zero, oneMode_thrown]

/-! ### Non-trivial instances: a mode that loses half of the amplitude, or nothing -/

theorem halfSvd₂_distance : matrixDistance (Matrix.diagonal ![1, 1 / 2]) (1 : Matrix (Fin 2) (Fin 2) ℂ) = 1 / 2 := by
  rw [matrixDistance, show (1 / 2 : ℝ) = Real.sqrt ((1 / 2) ^ 2) from (Real.sqrt_sq (by norm_num)).symm]
  congr 1
  simp only [Fin.sum_univ_two, Matrix.sub_apply, Matrix.diagonal_apply, Matrix.one_apply]
  simp
  norm_num

example (N : ℤ) (hN : 0 < N.toNat) : 1 / 2 * ∑ T ∈ statesFin 2 2,
      |((uniformSimulate 3 halfSvd₂ 2 (1 / 4) [1, 1] N).prob fun r => ∃ l, r = .ok l ∧ l[0]? = some T).toReal
        - ((uniformSimulate 3 idSvd 2 (1 / 4) [1, 1] N).prob fun r => ∃ l, r = .ok l ∧ l[0]? = some T).toReal| ≤ 1 / 2 := by
  refine (C129_uniform halfSvd₂_isSvd idSvd_isSvd (fun i => by fin_cases i <;> simp [halfSvd₂]; norm_num) (fun i => by simp [idSvd]) 3 (by decide)
    (by norm_num) (by norm_num) [1, 1] (by decide) (by decide) N N 0 0 hN hN _ fun T hT => ((mem_statesFin _ _ T).mp hT).1).trans
    (le_of_eq ?_)
  rw [halfSvd₂_distance]
  norm_num

example (fuel : ℕ) (hf : 2 < fuel) :
    (approximateDistribution (uniformSimulate fuel halfSvd₂ 2 (1 / 10)) fuel
        ⟨[1, 1], 2, 0, some [[0, 0], [1, 0], [0, 1], [2, 0], [1, 1], [0, 2]], 0⟩ (1000 : ℕ)).prob
      (Misses ([[0, 0], [1, 0], [0, 1], [2, 0], [1, 1], [0, 2]].map fun T => ∑ l ∈ range 3, binomialWeight 2 l (1 / 10) *
          survivorsProb (rowsOf (1 : Matrix (Fin 2) (Fin 2) ℂ)) 0 [1, 1] l T)
        (tvErrorBound 6 1000 (1 / 100) + 1 / 200 + 1 / 5)) ≤ ENNReal.ofReal (1 / 100) := by
  have h := C129_uniform_estimate (A := 1) halfSvd₂ halfSvd₂_isSvd (fun i => by fin_cases i <;> simp [halfSvd₂]; norm_num)
    (unitary_isDilation (one_mem _)) fuel hf (1 / 10)
    (by norm_num) (by norm_num) [1, 1] (by decide) rfl [[0, 0], [1, 0], [0, 1], [2, 0], [1, 1], [0, 2]] (by decide) pairStates
    1000 (1 / 100) 0 0 (by decide) (by norm_num) (by norm_num)
  have hd : matrixDistance (1 : Matrix (Fin 2) (Fin 2) ℂ) (Matrix.diagonal ![1, 1 / 2]) = 1 / 2 := by
    rw [(C73_metric _ _ 1).2.2.1, halfSvd₂_distance]
  rw [hd] at h
  refine le_trans (le_of_eq ?_) h
  congr 2
  push_cast
  norm_num

/-- One particle, amplitudes 9/10 and 8/10: the laws differ by at most 1/5 (by 17/100, says `C129_sharp`). -/
example (N : ℤ) (hN : 0 < N.toNat) : 1 / 2 * ∑ T ∈ {[0], [1]},
    |((fixedSimulate (lossySimulate 2 (oneModeSvd (9 / 10))) 1 (1 : ℕ) [1] N).prob fun r => ∃ l, r = .ok l ∧ l[0]? = some T).toReal
      - ((fixedSimulate (lossySimulate 2 (oneModeSvd (8 / 10))) 1 (1 : ℕ) [1] N).prob fun r => ∃ l, r = .ok l ∧ l[0]? = some T).toReal|
      ≤ 1 / 5 := by
  have hx := oneModeSvd_isSvd (x := 9 / 10) (by norm_num)
  have hy := oneModeSvd_isSvd (x := 8 / 10) (by norm_num)
  refine (C129_fixed (networkOf_strategies _ _ hx 2 (by decide)).1 (networkOf_strategies _ _ hy 2 (by decide)).1 hx hy
    (fun _ => by simp only [oneModeSvd]; norm_num) (fun _ => by simp only [oneModeSvd]; norm_num) 1 [1] (by decide) (by decide) N N 0 0 hN hN _
    fun T hT => by simp at hT; rcases hT with rfl | rfl <;> rfl).trans (le_of_eq ?_)
  rw [oneModeLoss_distance]
  norm_num

example (fuel N : ℕ) (hN : 0 < N) : (approximateDistribution (fixedSimulate (lossySimulate 2 (oneModeSvd (9 / 10))) 1 (1 : ℕ)) fuel
        ⟨[1], 1, 0, some [[0], [1]], 0⟩ N).prob
      (Misses ([[0], [1]].map (survivorsProb (oneModeSplit (8 / 10)) 1 [1] 1)) (tvErrorBound 2 N (1 / 100) + 1 / 5))
    ≤ ENNReal.ofReal (1 / 100) := by
  have hx := oneModeSvd_isSvd (x := 9 / 10) (by norm_num)
  have h := C129_fixed_estimate (networkOf_strategies _ _ hx 2 (by decide)).1 _ hx (fun _ => by simp only [oneModeSvd]; norm_num)
    (oneModeSplit_isDilation (x := 8 / 10) (by norm_num)) 1 [1] (by decide) rfl (by decide) [[0], [1]] (by decide) (fun T => by
      constructor
      · intro hT; simp at hT; rcases hT with rfl | rfl <;> simp
      · rintro ⟨h1, h2⟩
        match T, h1 with
        | [x], _ =>
          have : x ≤ 1 := by simpa using h2
          simp; omega) fuel N (1 / 100) 0 0 hN (by norm_num) (by norm_num)
  refine le_trans (le_of_eq ?_) h
  rw [oneModeLoss_distance]
  congr 2
  norm_num [abs_of_neg]

end Verif
