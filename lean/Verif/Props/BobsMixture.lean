import Verif.Proofs.ExactLoss
import Verif.Props.SeparableMixture
import Verif.Props.BobsModes
import Verif.Props.UniformBobs

/-! C114, C115: the sampler for non-uniform losses as an exact sampler with a partly random input, and its distance from the
exact law. -/
namespace Verif

open Finset
open scoped ENNReal

variable {m : ℕ} {M A : Matrix (Fin m) (Fin m) ℂ} {d : Svd m} {cpu : ℕ} {k t : ℤ} {l eta : ℝ} {K th fuel : ℕ}
  {svd : Matrix (Fin m) (Fin m) ℂ → Svd m}

theorem scrambledProb_eq (W : List (List ℂ)) (b K p : ℕ) (S T : List ℕ) :
    scrambledProb W b K p S T = 1 / (K : ℝ) ^ p * ∑ v ∈ words K p, lossyProb W b (occOf K v ++ S.drop K) T := by
  rw [sum_words_fun K p fun v => lossyProb W b (occOf K v ++ S.drop K) T, scrambledProb, div_eq_inv_mul, one_div]
  simp only [occOf_ofFn]

theorem scrambledProb_nonneg (W : List (List ℂ)) (b K p : ℕ) (S T : List ℕ) : 0 ≤ scrambledProb W b K p S T :=
  div_nonneg (sum_nonneg fun _ _ => lossyProb_nonneg _ _ _ _) (by positivity)

theorem scrambledProb_zero (W : List (List ℂ)) (b : ℕ) (S T : List ℕ) : scrambledProb W b 0 0 S T = lossyProb W b S T := by
  rw [scrambledProb_eq, show words 0 0 = {[]} from rfl]
  simp [occOf]

/-- The law of the approximation in both forms: with the losses of the input, and for the network with these losses. -/
theorem approxLaw_mixture (hK : 0 < K) (hKm : K ≤ m) {W₀ W₁ : List (List ℂ)} {b₀ b₁ : ℕ} (hW₀ : IsDilation (rowsOf A) W₀ m b₀)
    (h0 : 0 ≤ eta) (h1 : eta ≤ 1) (hW₁ : IsDilation (rowsOf (((Real.sqrt eta : ℝ) : ℂ) • A)) W₁ m b₁)
    (W : (Fin K → ℝ) → List (List ℂ)) (b : ℕ)
    (hW : ∀ us, IsDilation (rowsOf (A * phaseMatrix K m us * dftMatrix K m)) (W us) m b)
    (p : ℕ) (S T : List ℕ) (hS : S.length = m) (hT : T.length = m) :
    approxLaw K p eta W b S T = ENNReal.ofReal (∑ l ∈ range (p + 1), binomialWeight p l eta *
          (1 / (K : ℝ) ^ l * ∑ v ∈ words K l, partProb W₀ b₀ eta K (S.drop K) (occOf K v) T)) ∧
    approxLaw K p eta W b S T = ENNReal.ofReal (scrambledProb W₁ b₁ K p S T) := by
  have e : approxLaw K p eta W b S T = ENNReal.ofReal (∑ l ∈ range (p + 1), binomialWeight p l eta *
          (1 / (K : ℝ) ^ l * ∑ v ∈ words K l, partProb W₀ b₀ eta K (S.drop K) (occOf K v) T)) := by
    rw [C58_mode hKm W b hW p eta S T hS hT 0 hK, List.replicate_zero, List.nil_append, Nat.sub_zero,
      hybrid_law hK hKm hW₀ W hW h0 h1 p (S.drop K) (by rw [List.length_drop, hS]) T hT]
  refine ⟨e, ?_⟩
  rw [e, hybrid_thrown hK hKm hW₀ h0 h1 hW₁ p (S.drop K) (by rw [List.length_drop, hS]) T hT, scrambledProb_eq]

/-- A dilation of the smeared network. -/
theorem smeared_dilation (hKm : K ≤ m) {W₀ : List (List ℂ)} {b : ℕ} (hW₀ : IsDilation (rowsOf A) W₀ m b) (us : Fin K → ℝ) :
    IsDilation (rowsOf (A * phaseMatrix K m us * dftMatrix K m))
      (mulRows W₀ (m + b) (phaseMatrix K m us * dftMatrix K m)) m b := by
  rw [Matrix.mul_assoc]
  exact mulRows_isDilation hW₀ (mul_mem (generatePhases_eq K m hKm us).2 (generateQft_eq K m hKm).2)

theorem BobsSetup.modes_le (h : BobsSetup M d cpu k t A l eta K th) : K ≤ m := by have := h.modes; omega

theorem pastParticles_zero (calls : List (List ℕ × ℤ)) : pastParticles 0 calls = 0 := by
  simp [pastParticles]

/-- C114: in every history, a sample equals `T` with the probability with which `T` leaves the lossy network `M` when each of
the particles of the `K` approximated modes (including those left from earlier calls, see C40) enters one of these modes,
chosen independently and uniformly, and the other particles enter where they are. `W` is any embedding of `M` into an
interferometer. -/
theorem C114_sample (h : BobsSetup M d cpu k t A l eta K th) (hsvd : ∀ B, IsSvd B (svd B)) (htol : l = 0 ∨ 1e-8 < l)
    {calls : List (List ℕ × ℤ)} {o : BobsObj m} (hh : BobsHistory svd (ryserSubPermanents fuel) fuel d cpu k t calls o)
    (S : List ℕ) (hS : S.length = m) (N : ℤ) (hN : 1 ≤ N) (hf : (pastParticles K calls + S.sum + 1) ^ m ≤ fuel) (hf' : m < fuel)
    (W : List (List ℂ)) (b : ℕ) (hW : IsDilation (rowsOf M) W m b)
    (i : ℕ) (hi : i < N.toNat) (T : List ℕ) (hT : T.length = m) :
    (bobsSimulate svd (ryserSubPermanents fuel) fuel o S N).prob
        (fun r => ∃ samples o', r = .ok (samples, o') ∧ samples[i]? = some T)
      = ENNReal.ofReal (scrambledProb W b K (pastParticles K calls + (S.take K).sum) S T) := by
  obtain ⟨h3, -, -, -, h7⟩ := hh.inv h
  obtain ⟨d', hd', hd1⟩ := h3.contraction
  have hl0 : 0 ≤ l := h7 ▸ h3.loss0
  have hl1 : l ≤ 1 := h7 ▸ h3.loss1
  have he : eta = 1 - l := by
    rw [h.left]
    rcases htol with rfl | h1
    · norm_num
    · rw [if_neg (not_le.mpr h1)]
  rcases Nat.eq_zero_or_pos K with rfl | hK
  · have hk : k ≤ 0 := by
      obtain ⟨j, -⟩ := h.ne
      have := h.modes
      have := j.2
      omega
    rw [pastParticles_zero] at hf ⊢
    rw [C59_exact h hsvd hk htol hh S hS N hN (by simpa using hf) hf' W b hW i hi T hT, List.take_zero, List.sum_nil,
      add_zero, scrambledProb_zero]
  · have hKm := h.modes_le
    have hW₀ := expanded_isDilation hd' hd1
    rw [C40_law_partial h hsvd hh S hS N hN hf hf' _ m (fun us => smeared_dilation hKm hW₀ us) i hi T hT]
    exact (approxLaw_mixture hK hKm hW₀ (by linarith) (by linarith) (by rw [he, ← h.split]; exact hW) _ m
      (fun us => smeared_dilation hKm hW₀ us) _ S T hS hT).2

/-- C114 for extracted losses below the tolerance of `isclose`, which are dropped: the network is then `M / √(1-l)`. -/
theorem C114_tolerance (h : BobsSetup M d cpu k t A l eta K th) (hsvd : ∀ B, IsSvd B (svd B)) (hK : 0 < K) (htol : l ≤ 1e-8)
    {calls : List (List ℕ × ℤ)} {o : BobsObj m} (hh : BobsHistory svd (ryserSubPermanents fuel) fuel d cpu k t calls o)
    (S : List ℕ) (hS : S.length = m) (N : ℤ) (hN : 1 ≤ N) (hf : (pastParticles K calls + S.sum + 1) ^ m ≤ fuel) (hf' : m < fuel)
    (W : List (List ℂ)) (b : ℕ) (hW : IsDilation (rowsOf A) W m b)
    (i : ℕ) (hi : i < N.toNat) (T : List ℕ) (hT : T.length = m) :
    (bobsSimulate svd (ryserSubPermanents fuel) fuel o S N).prob
        (fun r => ∃ samples o', r = .ok (samples, o') ∧ samples[i]? = some T)
      = ENNReal.ofReal (scrambledProb W b K (pastParticles K calls + (S.take K).sum) S T) := by
  have he : eta = 1 := by rw [h.left, if_pos htol]
  have hKm := h.modes_le
  rw [C40_law_partial h hsvd hh S hS N hN hf hf' _ b (fun us => smeared_dilation hKm hW us) i hi T hT]
  exact (approxLaw_mixture hK hKm hW (by rw [he]; norm_num) he.le (by rw [he]; simpa using hW) _ b
    (fun us => smeared_dilation hKm hW us) _ S T hS hT).2

/-! ### Distance from the exact law -/

theorem partProb_sum_le {d' : Svd m} (hd : IsSvd A d') (hs : ∀ i, d'.s i ≤ 1)
    {W : List (List ℂ)} {b : ℕ} (hW : IsDilation (rowsOf A) W m b) (hm : 0 < m) (h0 : 0 ≤ eta) (h1 : eta ≤ 1) (hKm : K ≤ m)
    {R L : List ℕ} (hR : R.length = m - K) (hL : L.length = K) (𝒯 : Finset (List ℕ)) (h𝒯 : ∀ T ∈ 𝒯, T.length = m) :
    ∑ T ∈ 𝒯, partProb W b eta K R L T ≤ 1 := by
  rw [← ENNReal.ofReal_le_one, ENNReal.ofReal_sum_of_nonneg fun T _ => partProb_nonneg h0 h1 _ _ _ _ _ _]
  simp only [← partProb_eq h0 h1 W b K R L _ hL]
  rw [← expLoss_sum, ← expLoss_const h0 h1 R 1]
  have mono : ∀ (R : List ℕ) (g g' : List ℕ → ℝ≥0∞), (∀ L, L.length = R.length → g L ≤ g' L) → expLoss eta R g ≤ expLoss eta R g' := by
    intro R
    induction R with
    | nil => intro g g' h; exact h [] rfl
    | cons a R ih =>
      intro g g' h
      rw [expLoss, expLoss]
      refine sum_le_sum fun l _ => ?_
      gcongr
      exact ih _ _ fun L hL => h _ (by simp [hL])
  refine mono R _ _ fun R' hR' => ?_
  rw [← ENNReal.ofReal_sum_of_nonneg fun T _ => lossyProb_nonneg _ _ _ _, ENNReal.ofReal_le_one]
  exact lossyProb_sum_le hd hs hW hm (by rw [List.length_append]; omega) 𝒯 h𝒯

theorem approx_distance {d' : Svd m} (hd' : IsSvd A d') (hd1 : ∀ i, d'.s i ≤ 1) (h0 : 0 ≤ eta) (h1 : eta ≤ 1) (hK : 0 < K)
    (hKm : K ≤ m) {S : List ℕ} (hS : S.length = m) (hones : S.take K = List.replicate K 1)
    {W' : (Fin K → ℝ) → List (List ℂ)} {b' : ℕ}
    (hW' : ∀ us, IsDilation (rowsOf (A * phaseMatrix K m us * dftMatrix K m)) (W' us) m b')
    {W : List (List ℂ)} {b : ℕ} (hW : IsDilation (rowsOf (((Real.sqrt eta : ℝ) : ℂ) • A)) W m b)
    (𝒯 : Finset (List ℕ)) (h𝒯 : ∀ T ∈ 𝒯, T.length = m) :
    1 / 2 * ∑ T ∈ 𝒯, |(approxLaw K K eta W' b' S T).toReal - lossyProb W b S T| ≤ eta ^ 2 * (K - 1) / 2 := by
  have hm : 0 < m := by omega
  have hW₀ := expanded_isDilation hd' hd1
  set W₀ := rowsOf (expandedMatrix d') with hW₀'
  have hR : (S.drop K).length = m - K := by rw [List.length_drop, hS]
  have hb := fun l => binomialWeight_nonneg K l h0 h1
  have hn := fun L T => partProb_nonneg h0 h1 W₀ m K (S.drop K) L T
  -- the two laws as averages over placements
  have e1 : ∀ T ∈ 𝒯, (approxLaw K K eta W' b' S T).toReal
      = ∑ l ∈ range (K + 1), binomialWeight K l eta *
          ((∑ f : Fin l → Fin K, partProb W₀ m eta K (S.drop K) (thrown K f) T) / (K : ℝ) ^ l) := by
    intro T hT
    rw [(approxLaw_mixture hK hKm hW₀ h0 h1 hW W' b' hW' _ S T hS (h𝒯 T hT)).1, ENNReal.toReal_ofReal]
    · refine sum_congr rfl fun l _ => ?_
      rw [sum_words_fun K l fun v => partProb W₀ m eta K (S.drop K) (occOf K v) T, one_div, ← div_eq_inv_mul]
      simp only [occOf_ofFn]
    · exact sum_nonneg fun l _ => mul_nonneg (hb l) (mul_nonneg (by positivity) (sum_nonneg fun v _ => hn _ _))
  have e2 : ∀ T ∈ 𝒯, lossyProb W b S T = ∑ l ∈ range (K + 1), binomialWeight K l eta *
          ((∑ f : Fin l → Fin K with Function.Injective f, partProb W₀ m eta K (S.drop K) (thrown K f) T) / K.descFactorial l) := by
    intro T hT
    have hx : ENNReal.ofReal (lossyProb W b S T) = ENNReal.ofReal (∑ l ∈ range (K + 1), binomialWeight K l eta *
          ((∑ f : Fin l → Fin K with Function.Injective f, partProb W₀ m eta K (S.drop K) (thrown K f) T) / K.descFactorial l)) := by
      rw [← lossyProb_uniform A eta h0 h1 hW₀ hW S T hS (h𝒯 T hT)]
      conv_lhs => rw [← List.take_append_drop K S, hones]
      rw [expLoss_append, ← expLoss_ones h0 h1 K (fun L => partProb W₀ m eta K (S.drop K) L T) fun L => hn L T]
      refine expLoss_congr eta _ _ _ fun L hL => ?_
      rw [partProb_eq h0 h1 W₀ m K (S.drop K) L T (by rw [hL.length_eq]; simp)]
    rwa [ENNReal.ofReal_eq_ofReal_iff (lossyProb_nonneg _ _ _ _)
      (sum_nonneg fun l _ => mul_nonneg (hb l) (div_nonneg (sum_nonneg fun f _ => hn _ _) (Nat.cast_nonneg _)))] at hx
  rw [sum_congr rfl fun T hT => by rw [e1 T hT, e2 T hT, ← sum_sub_distrib]]
  have h2 : ∀ T ∈ 𝒯, |∑ l ∈ range (K + 1), (binomialWeight K l eta *
          ((∑ f : Fin l → Fin K, partProb W₀ m eta K (S.drop K) (thrown K f) T) / (K : ℝ) ^ l)
        - binomialWeight K l eta * ((∑ f : Fin l → Fin K with Function.Injective f,
            partProb W₀ m eta K (S.drop K) (thrown K f) T) / K.descFactorial l))|
      ≤ ∑ l ∈ range (K + 1), binomialWeight K l eta *
          |(∑ f : Fin l → Fin K, partProb W₀ m eta K (S.drop K) (thrown K f) T) / (K : ℝ) ^ l
            - (∑ f : Fin l → Fin K with Function.Injective f, partProb W₀ m eta K (S.drop K) (thrown K f) T) / K.descFactorial l| := by
    intro T _
    refine (abs_sum_le_sum_abs _ _).trans (sum_le_sum fun l _ => ?_)
    rw [← mul_sub, abs_mul, abs_of_nonneg (hb l)]
  have h3 := sum_le_sum h2
  rw [sum_comm] at h3
  simp only [← mul_sum] at h3
  have h4 : ∑ l ∈ range (K + 1), binomialWeight K l eta * ∑ T ∈ 𝒯,
          |(∑ f : Fin l → Fin K, partProb W₀ m eta K (S.drop K) (thrown K f) T) / (K : ℝ) ^ l
            - (∑ f : Fin l → Fin K with Function.Injective f, partProb W₀ m eta K (S.drop K) (thrown K f) T) / K.descFactorial l|
      ≤ ∑ l ∈ range (K + 1), binomialWeight K l eta * ((l * (l - 1 : ℕ) : ℕ) : ℝ) / K := by
    refine sum_le_sum fun l hl => ?_
    rw [mem_range] at hl
    rw [mul_div_assoc]
    refine mul_le_mul_of_nonneg_left ?_ (hb l)
    have h5 := average_injective (show l ≤ K by omega) (fun f T => partProb W₀ m eta K (S.drop K) (thrown K f) T) 𝒯
      (fun f T => hn _ _) (fun f => partProb_sum_le hd' hd1 hW₀ hm h0 h1 hKm hR (thrown_length K f) 𝒯 h𝒯)
    have h6 := birthday hK l (by omega)
    have e : ((l * (l - 1 : ℕ) : ℕ) : ℝ) / K = 2 * ((l : ℝ) * (l - 1) / (2 * K)) := by
      have hne : (K : ℝ) ≠ 0 := by exact_mod_cast hK.ne'
      rcases l with _ | l
      · simp
      · push_cast; field_simp; simp
    rw [e]
    linarith
  rw [← sum_div, binomial_pairs] at h4
  have h5 : eta ^ 2 * ((K * (K - 1 : ℕ) : ℕ) : ℝ) / K = eta ^ 2 * (K - 1) := by
    have : (K : ℝ) ≠ 0 := by exact_mod_cast hK.ne'
    rw [Nat.cast_mul, Nat.cast_sub hK, Nat.cast_one]
    field_simp
  rw [h5] at h4
  linarith

/-- C115: for one particle in each of the `K` approximated modes, any particles in the other modes, and no particles in the
approximated modes in earlier calls, the total variation distance between the law of a sample and the exact output law of the
lossy network is at most `η² (K - 1) / 2`, where `1 - η` is the extracted loss. -/
theorem C115_distance (h : BobsSetup M d cpu k t A l eta K th) (hsvd : ∀ B, IsSvd B (svd B)) (htol : l = 0 ∨ 1e-8 < l)
    {calls : List (List ℕ × ℤ)} {o : BobsObj m} (hh : BobsHistory svd (ryserSubPermanents fuel) fuel d cpu k t calls o)
    (hp : ∀ c ∈ calls, ∀ x ∈ c.1.take K, x = 0)
    (S : List ℕ) (hS : S.length = m) (hK : 0 < K) (hones : S.take K = List.replicate K 1) (N : ℤ) (hN : 1 ≤ N)
    (hf : (S.sum + 1) ^ m ≤ fuel) (hf' : m < fuel)
    (W : List (List ℂ)) (b : ℕ) (hW : IsDilation (rowsOf M) W m b)
    (i : ℕ) (hi : i < N.toNat) (𝒯 : Finset (List ℕ)) (h𝒯 : ∀ T ∈ 𝒯, T.length = m) :
    1 / 2 * ∑ T ∈ 𝒯, |((bobsSimulate svd (ryserSubPermanents fuel) fuel o S N).prob
        fun r => ∃ samples o', r = .ok (samples, o') ∧ samples[i]? = some T).toReal - lossyProb W b S T|
      ≤ eta ^ 2 * (K - 1) / 2 := by
  obtain ⟨h3, -, -, -, h7⟩ := hh.inv h
  obtain ⟨d', hd', hd1⟩ := h3.contraction
  have hl0 : 0 ≤ l := h7 ▸ h3.loss0
  have hl1 : l ≤ 1 := h7 ▸ h3.loss1
  have he : eta = 1 - l := by
    rw [h.left]
    rcases htol with rfl | h1
    · norm_num
    · rw [if_neg (not_le.mpr h1)]
  have h0 : 0 ≤ eta := by linarith
  have h1 : eta ≤ 1 := by linarith
  have hKm := h.modes_le
  have hsum : (S.take K).sum = K := by rw [hones]; simp
  have := approx_distance hd' hd1 h0 h1 hK hKm hS hones (fun us => smeared_dilation hKm (expanded_isDilation hd' hd1) us)
    (W := W) (b := b) (by rw [he, ← h.split]; exact hW) 𝒯 h𝒯
  rw [sum_congr rfl fun T hT => by rw [C58_sample h hsvd hh hp S hS N hN hf hf' _ m
    (fun us => smeared_dilation hKm (expanded_isDilation hd' hd1) us) i hi T (h𝒯 T hT), hsum]]
  exact this

/-- C115 against the exact sampler for lossy networks: the total variation distance between the laws of a sample of the two
samplers is at most `η² (K - 1) / 2`. -/
theorem C115_sampler (h : BobsSetup M d cpu k t A l eta K th) (hsvd : ∀ B, IsSvd B (svd B)) (htol : l = 0 ∨ 1e-8 < l)
    {calls : List (List ℕ × ℤ)} {o : BobsObj m} (hh : BobsHistory svd (ryserSubPermanents fuel) fuel d cpu k t calls o)
    (hp : ∀ c ∈ calls, ∀ x ∈ c.1.take K, x = 0)
    (S : List ℕ) (hS : S.length = m) (hK : 0 < K) (hones : S.take K = List.replicate K 1) (N : ℤ) (hN : 1 ≤ N)
    (hf : (S.sum + 1) ^ m ≤ fuel) (hf' : m < fuel) (fuel' : ℕ) (hf₂ : (S.map (· + 1)).prod ≤ fuel') (hf₃ : m < fuel')
    (i : ℕ) (hi : i < N.toNat) (𝒯 : Finset (List ℕ)) (h𝒯 : ∀ T ∈ 𝒯, T.length = m) :
    1 / 2 * ∑ T ∈ 𝒯, |((bobsSimulate svd (ryserSubPermanents fuel) fuel o S N).prob
        fun r => ∃ samples o', r = .ok (samples, o') ∧ samples[i]? = some T).toReal
        - ((lossyNetSimulate (ryserSubPermanents fuel') d fuel' S N).prob fun r => ∃ l, r = .ok l ∧ l[i]? = some T).toReal|
      ≤ eta ^ 2 * (K - 1) / 2 := by
  have hm : 0 < m := by have := h.modes_le; omega
  have hW := expanded_isDilation h.isSvd h.le_one
  have h1 := C115_distance h hsvd htol hh hp S hS hK hones N hN hf hf' _ m hW i hi 𝒯 h𝒯
  refine le_trans (le_of_eq ?_) h1
  congr 1
  refine sum_congr rfl fun T hT => ?_
  rw [C35_dilation M d h.isSvd h.le_one _ m hW S hS hm fuel' hf₂ hf₃ N i hi T (h𝒯 T hT),
    ENNReal.toReal_ofReal (lossyProb_nonneg _ _ _ _)]

/-- Two particles in two modes that are not coupled and without losses, both modes approximated: the sampler shows one
particle in each mode with probability 1/2 only. The distance from the exact law is 1/2, the bound of C115: the bound cannot
be improved. -/
theorem C115_tight (svd : Matrix (Fin 2) (Fin 2) ℂ → Svd 2) (hsvd : ∀ B, IsSvd B (svd B)) :
    ∃ o, bobsInit idSvd 1 2 1 = .ok o ∧
      (bobsSimulate svd (ryserSubPermanents 9) 9 o [1, 1] 3).prob
        (fun r => ∃ samples o', r = .ok (samples, o') ∧ samples[1]? = some [1, 1]) = ENNReal.ofReal (1 / 2) ∧
      lossyProb (rowsOf (1 : Matrix (Fin 2) (Fin 2) ℂ)) 0 [1, 1] [1, 1] = 1 ∧
      1 / 2 * ∑ T ∈ statesFin 2 2, |((bobsSimulate svd (ryserSubPermanents 9) 9 o [1, 1] 3).prob
        fun r => ∃ samples o', r = .ok (samples, o') ∧ samples[1]? = some T).toReal
          - lossyProb (rowsOf (1 : Matrix (Fin 2) (Fin 2) ℂ)) 0 [1, 1] T| = 1 ^ 2 * ((2 : ℕ) - 1) / 2 := by
  obtain ⟨o, h1, -⟩ := idSetup.inv
  have hU : (1 : Matrix (Fin 2) (Fin 2) ℂ) ∈ Matrix.unitaryGroup (Fin 2) ℂ := one_mem _
  have hl : ∀ S T : List ℕ, (S = [1, 1] ∨ S = [2, 0] ∨ S = [0, 2]) → (T = [1, 1] ∨ T = [2, 0] ∨ T = [0, 2]) →
      lossyProb (rowsOf (1 : Matrix (Fin 2) (Fin 2) ℂ)) 0 S T = if S = T then 1 else 0 := by
    intro S T hS hT
    have e : S.sum = T.sum := by rcases hS with rfl | rfl | rfl <;> rcases hT with rfl | rfl | rfl <;> rfl
    rw [lossyProb_zero, if_pos e.symm, identity_pair S T hS hT]
  have hp : ∀ T : List ℕ, (T = [1, 1] ∨ T = [2, 0] ∨ T = [0, 2]) →
      (bobsSimulate svd (ryserSubPermanents 9) 9 o [1, 1] 3).prob
        (fun r => ∃ samples o', r = .ok (samples, o') ∧ samples[1]? = some T)
        = ENNReal.ofReal (if T = [1, 1] then 1 / 2 else 1 / 4) := by
    intro T hT
    rw [C114_sample idSetup hsvd (.inl rfl) (.new h1) [1, 1] rfl 3 (by decide) (by decide) (by decide) _ 0
      (unitary_isDilation hU) 1 (by decide) T (by rcases hT with rfl | rfl | rfl <;> rfl)]
    rw [show pastParticles 2 [] + (List.take 2 [1, 1]).sum = 2 from rfl, scrambledProb_eq, sum_words_succ, sum_words_succ,
      show words 2 0 = {[]} from rfl]
    simp only [sum_range_succ, sum_range_zero, zero_add, sum_singleton]
    rw [show occOf 2 [0, 0] ++ List.drop 2 [1, 1] = [2, 0] from rfl, show occOf 2 [1, 0] ++ List.drop 2 [1, 1] = [1, 1] from rfl,
      show occOf 2 [0, 1] ++ List.drop 2 [1, 1] = [1, 1] from rfl, show occOf 2 [1, 1] ++ List.drop 2 [1, 1] = [0, 2] from rfl,
      hl _ T (by simp) hT, hl _ T (by simp) hT, hl _ T (by simp) hT]
    congr 1
    rcases hT with rfl | rfl | rfl <;> norm_num
  refine ⟨o, h1, by rw [hp _ (by simp)]; simp, by rw [hl _ _ (by simp) (by simp)]; simp, ?_⟩
  rw [show statesFin 2 2 = {[1, 1], [2, 0], [0, 2]} by decide, sum_insert (by decide), sum_insert (by decide), sum_singleton,
    hp _ (by simp), hp _ (by simp), hp _ (by simp), hl _ _ (by simp) (by simp), hl _ _ (by simp) (by simp),
    hl _ _ (by simp) (by simp)]
  norm_num [ENNReal.toReal_ofReal, abs_of_nonneg, abs_of_nonpos]

/-- No such bound holds for the sampler for uniform losses. Four modes that are not coupled, two of them approximated, no
losses, one particle in each approximated mode: the Fourier transform acts on the first two modes, the two particles are put
into the third, so they always leave together. The only possible outcome never occurs: the distance is 1. -/
theorem C115_uniform_bobs (o : UBobsObj 4) (ho : uBobsInit 1 4 1 2 2 = .ok o) :
    (uBobsSimulate (fun l => (Encodable.encode l : ℤ)) (ryserSubPermanents 81) 81 o [0, 0, 1, 1] 5).prob
      (fun r => ∃ l, r = .ok l ∧ l[3]? = some [0, 0, 1, 1]) = 0 ∧
    bosonProb (rowsOf (1 : Matrix (Fin 4) (Fin 4) ℂ)) [0, 0, 1, 1] [0, 0, 1, 1] = 1 := by
  constructor
  · rw [C60_sample _ 81 1 (one_mem _) 4 (by decide) 1 zero_le_one le_rfl 2 (by decide) (by decide) 2 o ho [0, 0, 1, 1] rfl
      (.inr (.inl rfl)) (hashOk_encode _) (by decide) 5 3 (by decide) [0, 0, 1, 1] rfl]
    have key : ∀ (us : Fin (4 - 2) → ℝ) (σ : Equiv.Perm (Fin 4)), lossyProb
        (rowsOf ((1 : Matrix (Fin 4) (Fin 4) ℂ).submatrix id σ * phaseMatrix (4 - 2) 4 us * dftMatrix (4 - 2) 4)) 0
          [0, 0, 2, 0] [0, 0, 1, 1] = 0 := by
      intro us σ
      rw [lossyProb_zero, if_pos (by decide), bosonProb_eq_phi _ _ _ (by decide), phi]
      have hc : ∀ r : Fin 4, ((1 : Matrix (Fin 4) (Fin 4) ℂ).submatrix id σ * phaseMatrix (4 - 2) 4 us * dftMatrix (4 - 2) 4) r 2
          = if r = σ 2 then 1 else 0 := by
        intro r
        rw [Matrix.mul_assoc, Matrix.mul_apply, sum_eq_single 2]
        · rw [phaseMatrix, Matrix.diagonal_mul, dftMatrix, Matrix.of_apply]
          simp [Matrix.one_apply]
        · intro j _ hj
          rw [phaseMatrix, Matrix.diagonal_mul, dftMatrix, Matrix.of_apply]
          simp [hj]
        · simp
      have h2 := hc 2
      have h3 := hc 3
      have hz : ((1 : Matrix (Fin 4) (Fin 4) ℂ).submatrix id σ * phaseMatrix (4 - 2) 4 us * dftMatrix (4 - 2) 4) 2 2 *
          ((1 : Matrix (Fin 4) (Fin 4) ℂ).submatrix id σ * phaseMatrix (4 - 2) 4 us * dftMatrix (4 - 2) 4) 3 2 = 0 := by
        rw [h2, h3]
        by_cases e : (2 : Fin 4) = σ 2
        · rw [← e, if_neg (show ¬(3 : Fin 4) = 2 by decide), mul_zero]
        · rw [if_neg e, zero_mul]
      generalize (1 : Matrix (Fin 4) (Fin 4) ℂ).submatrix id σ * phaseMatrix (4 - 2) 4 us * dftMatrix (4 - 2) 4 = B at hz
      have ha : amp (colOf (rowsOf B)) (particles [0, 0, 1, 1]) (particles [0, 0, 2, 0]) = 0 := by
        have e2 : mget (rowsOf B) 2 2 = B 2 2 := mget_rowsOf B 2 2 (by decide) (by decide)
        have e3 : mget (rowsOf B) 3 2 = B 3 2 := mget_rowsOf B 3 2 (by decide) (by decide)
        simp [amp, lperm, picks, particles, particlesFrom, colOf, e2, e3, List.replicate_succ, hz]
      rw [ha]
      simp
    simp only [List.drop_succ_cons, List.drop_zero, List.sum_cons, List.sum_nil, List.take_succ_cons, List.take_zero,
      expLoss_one, add_zero, Nat.reduceAdd]
    rw [sum_range_succ, sum_range_succ, sum_range_succ, sum_range_zero]
    have hl : [0, 0] ++ 2 :: List.replicate (4 - 2 - 1) 0 = [0, 0, 2, 0] := rfl
    rw [hl]
    have w0 : binomialWeight 2 0 1 = 0 := by norm_num [binomialWeight]
    have w1 : binomialWeight 2 1 1 = 0 := by norm_num [binomialWeight]
    simp [w0, w1, key, expUniform_const]
  · rw [bosonProb_eq_phi _ _ _ rfl, phi, multFact_particles]
    simp [amp, lperm, picks, particles, particlesFrom, colOf, mget, rowsOf, factProd, List.replicate_succ, Matrix.one_apply]

end Verif
