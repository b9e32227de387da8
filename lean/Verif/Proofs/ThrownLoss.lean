import Verif.Proofs.HybridMixture
import Verif.Proofs.NetworkThinning

/-! Helper lemmas: losing particles before or after they are thrown into random modes. -/
namespace Verif

open Finset
open scoped ENNReal

theorem lossSum_perm (eta : ℝ) {l l' : List ℕ} (h : l.Perm l') (f : List ℕ → ℝ) (hf : ∀ A B : List ℕ, A.Perm B → f A = f B) :
    lossSum eta l f = lossSum eta l' f := by
  induction h generalizing f with
  | nil => rfl
  | cons a _ ih => rw [lossSum, lossSum, ih f hf, ih _ fun A B hAB => hf _ _ (hAB.cons a)]
  | swap a b l =>
    have e : (fun A => f (a :: b :: A)) = fun A => f (b :: a :: A) := funext fun A => hf _ _ (List.Perm.swap b a A)
    simp only [lossSum, e]
    ring
  | trans _ _ ih1 ih2 => rw [ih1 f hf, ih2 f hf]

theorem lossSum_linear (eta : ℝ) (q : List ℕ) {ι : Type*} (s : Finset ι) (k : ℝ) (F : ι → List ℕ → ℝ) :
    lossSum eta q (fun A => k * ∑ v ∈ s, F v A) = k * ∑ v ∈ s, lossSum eta q (F v) := by
  induction q generalizing F with
  | nil => rfl
  | cons a q ih =>
    simp only [lossSum, ih, sum_add_distrib, ← mul_sum]
    ring

theorem binomial_step (eta : ℝ) (p : ℕ) (a : ℕ → ℝ) :
    ∑ l ∈ range (p + 1 + 1), binomialWeight (p + 1) l eta * a l
      = (1 - eta) * ∑ l ∈ range (p + 1), binomialWeight p l eta * a l
        + eta * ∑ l ∈ range (p + 1), binomialWeight p l eta * a (l + 1) := by
  have h : ∀ (p : ℕ) (a : ℕ → ℝ), lossSum eta (List.replicate p 0) (fun A => a A.length)
      = ∑ l ∈ range (p + 1), binomialWeight p l eta * a l := by
    intro p a
    have := lossSum_replicate eta p 0 [] fun A => a A.length
    rw [List.append_nil] at this
    rw [this]
    exact sum_congr rfl fun l _ => by simp [lossSum]
  rw [← h, ← h p a, ← h p fun l => a (l + 1), List.replicate_succ, lossSum]
  rfl

theorem thrown_words (eta : ℝ) {K : ℕ} (hK : K ≠ 0) (p : ℕ) (F : List ℕ → ℝ) :
    1 / (K : ℝ) ^ p * ∑ w ∈ words K p, lossSum eta w F
      = ∑ l ∈ range (p + 1), binomialWeight p l eta * (1 / (K : ℝ) ^ l * ∑ v ∈ words K l, F v) := by
  have hK' : (K : ℝ) ≠ 0 := by exact_mod_cast hK
  induction p generalizing F with
  | zero => simp [words, lossSum, binomialWeight]
  | succ p ih =>
    rw [binomial_step eta p fun l => 1 / (K : ℝ) ^ l * ∑ v ∈ words K l, F v, ← ih F]
    have h2 := ih fun A => 1 / (K : ℝ) * ∑ r ∈ range K, F (r :: A)
    have h3 : ∀ l, 1 / (K : ℝ) ^ l * ∑ v ∈ words K l, (1 / (K : ℝ) * ∑ r ∈ range K, F (r :: v))
        = 1 / (K : ℝ) ^ (l + 1) * ∑ v ∈ words K (l + 1), F v := by
      intro l
      rw [sum_words_succ, ← mul_sum, ← mul_assoc, one_div_mul_one_div, pow_succ]
    simp only [h3] at h2
    rw [← h2]
    simp only [lossSum_linear]
    rw [sum_words_succ]
    simp only [lossSum, sum_add_distrib, ← mul_sum, sum_const, card_range, nsmul_eq_mul]
    rw [pow_succ]
    field_simp

/-- Losing particles after they are thrown into `K` modes is losing them before. -/
theorem thrown_loss {eta : ℝ} (h0 : 0 ≤ eta) (h1 : eta ≤ 1) {K : ℕ} (hK : 0 < K) (p : ℕ) (g : List ℕ → ℝ) (hg : ∀ L, 0 ≤ g L) :
    ENNReal.ofReal (1 / (K : ℝ) ^ p) * ∑ w ∈ words K p, expLoss eta (occOf K w) (fun L => ENNReal.ofReal (g L))
      = ENNReal.ofReal (∑ l ∈ range (p + 1), binomialWeight p l eta * (1 / (K : ℝ) ^ l * ∑ v ∈ words K l, g (occOf K v))) := by
  have e : ∀ w ∈ words K p, expLoss eta (occOf K w) (fun L => ENNReal.ofReal (g L))
      = ENNReal.ofReal (lossSum eta w fun A => g (occOf K A)) := by
    intro w hw
    rw [← lossSum_perm eta (particles_occOf (mem_words.mp hw).2) (fun A => g (occOf K A)) fun A B hAB => by
        unfold occOf; simp only [hAB.count_eq], particles,
      ← expLoss_eq h0 h1 0 (occOf K w) (fun A => g (occOf K A)) fun A => hg _]
    refine expLoss_congr eta _ _ _ fun L hL => ?_
    have hl : L.length = K := by rw [hL.length_eq, occOf_length]
    have := occOf_particles L
    rw [hl] at this
    rw [← particles, this]
  rw [sum_congr rfl e, ← ENNReal.ofReal_sum_of_nonneg fun w _ => lossSum_nonneg h0 h1 _ _ fun A => hg _,
    ← ENNReal.ofReal_mul (by positivity)]
  rw [thrown_words eta hK.ne' p fun A => g (occOf K A)]

/-- The probability of `T` with the particles `L` in the first modes and those of `R`, after losses, in the others. -/
noncomputable def partProb (W : List (List ℂ)) (b : ℕ) (eta : ℝ) (K : ℕ) (R L T : List ℕ) : ℝ :=
  lossSum eta (particlesFrom K R) fun A =>
    lossyVal (colOf W) T.length b (particles T) (factProd T) (particles L ++ A)

theorem partProb_nonneg {eta : ℝ} (h0 : 0 ≤ eta) (h1 : eta ≤ 1) (W : List (List ℂ)) (b K : ℕ) (R L T : List ℕ) :
    0 ≤ partProb W b eta K R L T := lossSum_nonneg h0 h1 _ _ fun _ => lossyVal_nonneg _ _ _ _ _ _

theorem partProb_eq {eta : ℝ} (h0 : 0 ≤ eta) (h1 : eta ≤ 1) (W : List (List ℂ)) (b K : ℕ) (R L T : List ℕ)
    (hL : L.length = K) :
    expLoss eta R (fun R' => ENNReal.ofReal (lossyProb W b (L ++ R') T)) = ENNReal.ofReal (partProb W b eta K R L T) := by
  rw [partProb, ← expLoss_eq h0 h1 K R (fun A => lossyVal (colOf W) T.length b (particles T) (factProd T) (particles L ++ A))
    fun A => lossyVal_nonneg _ _ _ _ _ _]
  refine expLoss_congr eta _ _ _ fun R' _ => ?_
  rw [lossyProb_eq_val, particles, particles, particlesFrom_append, hL, Nat.zero_add]

theorem expLoss_ofReal_linear {eta : ℝ} (S : List ℕ) {ι : Type*} (s : Finset ι) (k : ℝ) (hk : 0 ≤ k)
    (F : ι → List ℕ → ℝ) (hF : ∀ v L, 0 ≤ F v L) :
    expLoss eta S (fun L => ENNReal.ofReal (k * ∑ v ∈ s, F v L))
      = ENNReal.ofReal k * ∑ v ∈ s, expLoss eta S fun L => ENNReal.ofReal (F v L) := by
  rw [← expLoss_sum]
  have : ∀ g : List ℕ → ℝ≥0∞, expLoss eta S (fun L => ENNReal.ofReal k * g L) = ENNReal.ofReal k * expLoss eta S g := by
    induction S with
    | nil => intro g; rfl
    | cons a S ih =>
      intro g
      simp only [expLoss, ih, mul_sum]
      exact sum_congr rfl fun l _ => by ring
  rw [← this]
  refine expLoss_congr eta _ _ _ fun L _ => ?_
  rw [ENNReal.ofReal_mul hk, ENNReal.ofReal_sum_of_nonneg fun v _ => hF v L]

/-- The law of `p` particles in mode 0 of the smeared network, with losses. -/
theorem hybrid_law {m b b' K : ℕ} (hK : 0 < K) (hKm : K ≤ m) {A : Matrix (Fin m) (Fin m) ℂ} {W : List (List ℂ)}
    (hW : IsDilation (rowsOf A) W m b) (W' : (Fin K → ℝ) → List (List ℂ))
    (hW' : ∀ us, IsDilation (rowsOf (A * phaseMatrix K m us * dftMatrix K m)) (W' us) m b') {eta : ℝ} (h0 : 0 ≤ eta)
    (h1 : eta ≤ 1) (p : ℕ) (R : List ℕ) (hR : R.length = m - K) (T : List ℕ) (hT : T.length = m) :
    expLoss eta (p :: List.replicate (K - 1) 0 ++ R)
        (fun L => expUniform K fun us => ENNReal.ofReal (lossyProb (W' us) b' L T))
      = ENNReal.ofReal (∑ l ∈ range (p + 1), binomialWeight p l eta *
          (1 / (K : ℝ) ^ l * ∑ v ∈ words K l, partProb W b eta K R (occOf K v) T)) := by
  rw [List.cons_append, expLoss, ENNReal.ofReal_sum_of_nonneg]
  · refine sum_congr rfl fun l _ => ?_
    rw [ENNReal.ofReal_mul (binomialWeight_nonneg _ _ h0 h1), expLoss_zeros]
    congr 1
    rw [expLoss_congr eta R _ (fun R' => ENNReal.ofReal (1 / (K : ℝ) ^ l * ∑ v ∈ words K l, lossyProb W b (occOf K v ++ R') T))
      fun R' hR' => by
        rw [← hybrid_mixture hK hKm hW W' hW' l R' (hR'.length_eq.trans hR) T hT]
        rfl,
      expLoss_ofReal_linear R (words K l) _ (by positivity) (fun v R' => lossyProb W b (occOf K v ++ R') T)
        (fun v L => lossyProb_nonneg _ _ _ _), ENNReal.ofReal_mul (by positivity),
      ENNReal.ofReal_sum_of_nonneg fun v _ => partProb_nonneg h0 h1 _ _ _ _ _ _]
    congr 1
    exact sum_congr rfl fun v _ => partProb_eq h0 h1 W b K R _ T (occOf_length K v)
  · intro l _
    have := binomialWeight_nonneg p l h0 h1
    exact mul_nonneg this (mul_nonneg (by positivity) (sum_nonneg fun v _ => partProb_nonneg h0 h1 _ _ _ _ _ _))

/-- The same law as an average over the modes the particles are thrown into, for the network with the losses. -/
theorem hybrid_thrown {m b b₁ K : ℕ} (hK : 0 < K) (hKm : K ≤ m) {A : Matrix (Fin m) (Fin m) ℂ} {W W₁ : List (List ℂ)}
    (hW : IsDilation (rowsOf A) W m b) {eta : ℝ} (h0 : 0 ≤ eta) (h1 : eta ≤ 1)
    (hW₁ : IsDilation (rowsOf (((Real.sqrt eta : ℝ) : ℂ) • A)) W₁ m b₁)
    (p : ℕ) (R : List ℕ) (hR : R.length = m - K) (T : List ℕ) (hT : T.length = m) :
    ENNReal.ofReal (∑ l ∈ range (p + 1), binomialWeight p l eta *
          (1 / (K : ℝ) ^ l * ∑ v ∈ words K l, partProb W b eta K R (occOf K v) T))
      = ENNReal.ofReal (1 / (K : ℝ) ^ p * ∑ v ∈ words K p, lossyProb W₁ b₁ (occOf K v ++ R) T) := by
  rw [← thrown_loss h0 h1 hK p (fun L => partProb W b eta K R L T) fun L => partProb_nonneg h0 h1 _ _ _ _ _ _,
    ENNReal.ofReal_mul (by positivity), ENNReal.ofReal_sum_of_nonneg fun v _ => lossyProb_nonneg _ _ _ _]
  congr 1
  refine sum_congr rfl fun v _ => ?_
  rw [← lossyProb_uniform A eta h0 h1 hW hW₁ (occOf K v ++ R) T (by rw [List.length_append, occOf_length]; omega) hT,
    expLoss_append]
  refine expLoss_congr eta _ _ _ fun L hL => ?_
  rw [partProb_eq h0 h1 W b K R L T (by rw [hL.length_eq, occOf_length])]

end Verif
