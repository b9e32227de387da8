import Verif.Props.RoundedExtraction
import Verif.Props.BobsMixture

/-! Helper lemmas: how the law of the losses depends on the transmissivity. -/
namespace Verif

open Finset Prog Matrix
open scoped ENNReal

variable {m : ℕ}

/-- One factor of a mixture. -/
theorem mix_stable {x y : ℝ} (hx0 : 0 ≤ x) (hx1 : x ≤ 1) (hy0 : 0 ≤ y) (hy1 : y ≤ 1) {F G : ℝ≥0∞} (hF : F ≤ 1) (hG : G ≤ 1) :
    ENNReal.ofReal (1 - x) * G + ENNReal.ofReal x * F
      ≤ ENNReal.ofReal (1 - y) * G + ENNReal.ofReal y * F + ENNReal.ofReal |x - y| := by
  rcases le_total x y with h | h
  · have e : ENNReal.ofReal (1 - x) = ENNReal.ofReal (1 - y) + ENNReal.ofReal |x - y| := by
      rw [abs_of_nonpos (by linarith), ← ENNReal.ofReal_add (by linarith) (by linarith)]
      congr 1
      ring
    rw [e, add_mul, add_right_comm]
    refine add_le_add (add_le_add le_rfl ?_) (mul_le_of_le_one_right' hG)
    gcongr
  · have e : ENNReal.ofReal x = ENNReal.ofReal y + ENNReal.ofReal |x - y| := by
      rw [abs_of_nonneg (by linarith), ← ENNReal.ofReal_add (by linarith) (by linarith)]
      congr 1
      ring
    rw [e, add_mul, ← add_assoc]
    refine add_le_add (add_le_add ?_ le_rfl) (mul_le_of_le_one_right' hF)
    gcongr

theorem binomial_stable {x y : ℝ} (hx0 : 0 ≤ x) (hx1 : x ≤ 1) (hy0 : 0 ≤ y) (hy1 : y ≤ 1) (a : ℕ) (f : ℕ → ℝ≥0∞)
    (hf : ∀ l, f l ≤ 1) :
    ∑ l ∈ range (a + 1), ENNReal.ofReal (binomialWeight a l x) * f l
      ≤ ∑ l ∈ range (a + 1), ENNReal.ofReal (binomialWeight a l y) * f l + ENNReal.ofReal (a * |x - y|) := by
  induction a generalizing f with
  | zero => simp [binomialWeight]
  | succ a ih =>
    have h1 := ih f hf
    have h2 := ih (fun l => f (l + 1)) fun l => hf _
    have hle : ∀ g : ℕ → ℝ≥0∞, (∀ l, g l ≤ 1) → ∑ l ∈ range (a + 1), ENNReal.ofReal (binomialWeight a l y) * g l ≤ 1 := by
      intro g hg
      calc ∑ l ∈ range (a + 1), ENNReal.ofReal (binomialWeight a l y) * g l
          ≤ ∑ l ∈ range (a + 1), ENNReal.ofReal (binomialWeight a l y) := sum_le_sum fun l _ => mul_le_of_le_one_right' (hg l)
        _ = 1 := by
          rw [← ENNReal.ofReal_sum_of_nonneg fun l _ => binomialWeight_nonneg _ _ hy0 hy1, binomialWeight_sum, ENNReal.ofReal_one]
    rw [← binomial_mix a hx0 hx1, ← binomial_mix a hy0 hy1]
    have h3 := mix_stable hx0 hx1 hy0 hy1 (hle (fun l => f (l + 1)) fun l => hf _) (hle f hf)
    have e1 : ENNReal.ofReal (1 - x) + ENNReal.ofReal x = 1 := by
      rw [← ENNReal.ofReal_add (by linarith) hx0]; simp
    have e2 : ENNReal.ofReal (((a + 1 : ℕ) : ℝ) * |x - y|) = ENNReal.ofReal |x - y| + ENNReal.ofReal (a * |x - y|) := by
      rw [← ENNReal.ofReal_add (abs_nonneg _) (by positivity)]
      congr 1
      push_cast
      ring
    calc _ ≤ ENNReal.ofReal (1 - x) * (∑ l ∈ range (a + 1), ENNReal.ofReal (binomialWeight a l y) * f l + ENNReal.ofReal (a * |x - y|))
          + ENNReal.ofReal x * (∑ l ∈ range (a + 1), ENNReal.ofReal (binomialWeight a l y) * f (l + 1) + ENNReal.ofReal (a * |x - y|)) := by
          gcongr
      _ = (ENNReal.ofReal (1 - x) * (∑ l ∈ range (a + 1), ENNReal.ofReal (binomialWeight a l y) * f l)
          + ENNReal.ofReal x * (∑ l ∈ range (a + 1), ENNReal.ofReal (binomialWeight a l y) * f (l + 1)))
          + (ENNReal.ofReal (1 - x) + ENNReal.ofReal x) * ENNReal.ofReal (a * |x - y|) := by ring
      _ ≤ _ := by
        rw [e1, one_mul, e2, ← add_assoc]
        gcongr

theorem expLoss_mono' {eta : ℝ} (S : List ℕ) {g g' : List ℕ → ℝ≥0∞} (h : ∀ L, L.length = S.length → g L ≤ g' L) :
    expLoss eta S g ≤ expLoss eta S g' := by
  induction S generalizing g g' with
  | nil => exact h [] rfl
  | cons a R ih =>
    rw [expLoss, expLoss]
    refine sum_le_sum fun l _ => ?_
    gcongr
    exact ih fun L hL => h _ (by simp [hL])

theorem expLoss_stable {x y : ℝ} (hx0 : 0 ≤ x) (hx1 : x ≤ 1) (hy0 : 0 ≤ y) (hy1 : y ≤ 1) (S : List ℕ) (g : List ℕ → ℝ≥0∞)
    (hg : ∀ L, L.length = S.length → g L ≤ 1) :
    expLoss x S g ≤ expLoss y S g + ENNReal.ofReal (S.sum * |x - y|) := by
  induction S generalizing g with
  | nil => simp [expLoss]
  | cons a S ih =>
    rw [expLoss, expLoss]
    have h1 : ∀ l, expLoss y S (fun L => g (l :: L)) ≤ 1 := fun l =>
      (expLoss_mono' S fun L hL => hg (l :: L) (by simp [hL])).trans (expLoss_const hy0 hy1 S 1).le
    calc _ ≤ ∑ l ∈ range (a + 1), ENNReal.ofReal (binomialWeight a l x)
          * (expLoss y S (fun L => g (l :: L)) + ENNReal.ofReal (S.sum * |x - y|)) := by
          refine sum_le_sum fun l _ => ?_
          gcongr
          exact ih _ fun L hL => hg (l :: L) (by simp [hL])
      _ = ∑ l ∈ range (a + 1), ENNReal.ofReal (binomialWeight a l x) * expLoss y S (fun L => g (l :: L))
          + ENNReal.ofReal (S.sum * |x - y|) := by
          simp only [mul_add, sum_add_distrib]
          rw [← sum_mul, ← ENNReal.ofReal_sum_of_nonneg fun l _ => binomialWeight_nonneg _ _ hx0 hx1, binomialWeight_sum,
            ENNReal.ofReal_one, one_mul]
      _ ≤ _ := by
        refine (add_le_add_left (binomial_stable hx0 hx1 hy0 hy1 a _ h1) _).trans (le_of_eq ?_)
        rw [add_assoc, ← ENNReal.ofReal_add (by positivity) (by positivity), List.sum_cons]
        congr 2
        push_cast
        ring

theorem expUniform_mono {k : ℕ} {f g : (Fin k → ℝ) → ℝ≥0∞} (h : ∀ us, f us ≤ g us) : expUniform k f ≤ expUniform k g := by
  induction k with
  | zero => exact h _
  | succ k ih =>
    rw [expUniform, expUniform]
    exact MeasureTheory.lintegral_mono fun u => ih fun us => h _

theorem expUniform_add_le {k : ℕ} (f g : (Fin k → ℝ) → ℝ≥0∞) :
    expUniform k f + expUniform k g ≤ expUniform k fun us => f us + g us := by
  induction k with
  | zero => exact le_rfl
  | succ k ih =>
    rw [expUniform, expUniform, expUniform]
    exact (MeasureTheory.le_lintegral_add _ _).trans (MeasureTheory.lintegral_mono fun u => ih _ _)

theorem expUniform_sum_le {k : ℕ} {ι : Type} (s : Finset ι) (f : ι → (Fin k → ℝ) → ℝ≥0∞) :
    ∑ t ∈ s, expUniform k (f t) ≤ expUniform k fun us => ∑ t ∈ s, f t us := by
  classical
  induction s using Finset.induction_on with
  | empty => simp
  | insert a s ha ih =>
    rw [sum_insert ha]
    refine (add_le_add_right ih _).trans ((expUniform_add_le _ _).trans (le_of_eq ?_))
    congr 1
    funext us
    rw [sum_insert ha]

theorem average_le {α : Type} {l : List α} (hl : l ≠ []) {f g : α → ℝ≥0∞} {ε : ℝ≥0∞} (h : ∀ a ∈ l, f a ≤ g a + ε) :
    average l f ≤ average l g + ε := by
  have h0 : (l.length : ℝ≥0∞) ≠ 0 := by
    have := List.length_pos_of_ne_nil hl
    exact_mod_cast this.ne'
  unfold average
  rw [ENNReal.div_le_iff h0 (ENNReal.natCast_ne_top _), add_mul, ENNReal.div_mul_cancel h0 (ENNReal.natCast_ne_top _)]
  clear hl h0
  induction l with
  | nil => simp
  | cons a l ih =>
    have h1 := h a (by simp)
    have h2 := ih fun b hb => h b (by simp [hb])
    simp only [List.map_cons, List.sum_cons, List.length_cons, Nat.cast_add, Nat.cast_one]
    calc f a + (l.map f).sum ≤ (g a + ε) + ((l.map g).sum + ε * l.length) := add_le_add h1 h2
      _ = _ := by ring

theorem average_sum {α ι : Type} (l : List α) (s : Finset ι) (f : ι → α → ℝ≥0∞) :
    ∑ t ∈ s, average l (f t) = average l fun a => ∑ t ∈ s, f t a := by
  unfold average
  simp only [div_eq_mul_inv]
  rw [← sum_mul]
  congr 1
  induction l with
  | nil => simp
  | cons a l ih =>
    simp only [List.map_cons, List.sum_cons, sum_add_distrib, ih]

theorem bunchedStates_sum {k p : ℕ} {S st : List ℕ} (h : st ∈ bunchedStates k p S) : st.sum ≤ p + (S.drop k).sum := by
  unfold bunchedStates at h
  split_ifs at h with h0
  · rw [List.mem_singleton] at h
    subst h; subst h0
    simp
  · obtain ⟨j, hj, rfl⟩ := List.mem_map.mp h
    simp

theorem bunchedStates_length {k p : ℕ} {S st : List ℕ} (hS : S.length = m) (hk : k ≤ m) (h : st ∈ bunchedStates k p S) :
    st.length = m := by
  unfold bunchedStates at h
  split_ifs at h with h0
  · rw [List.mem_singleton] at h
    rw [h, hS]
  · obtain ⟨j, hj, rfl⟩ := List.mem_map.mp h
    rw [List.mem_range] at hj
    simp
    omega

theorem bunchedStates_ne {k p : ℕ} (S : List ℕ) : bunchedStates k p S ≠ [] := by
  unfold bunchedStates
  split_ifs with h0
  · simp
  · simp [h0]

section

variable {A : Matrix (Fin m) (Fin m) ℂ} {d : Svd m} (hd : IsSvd A d) (hd1 : ∀ i, d.s i ≤ 1) (hm : 0 < m) {k : ℕ} (hk : k ≤ m)
  {W : (Fin k → ℝ) → List (List ℂ)} {b : ℕ}
  (hW : ∀ us, IsDilation (rowsOf (A * phaseMatrix k m us * dftMatrix k m)) (W us) m b)
  {S : List ℕ} (hS : S.length = m) (p : ℕ) (𝒯 : Finset (List ℕ)) (h𝒯 : ∀ T ∈ 𝒯, T.length = m)

include hd hd1 hm hk hW h𝒯 in
theorem inner_le {L : List ℕ} (hL : L.length = m) :
    ∑ T ∈ 𝒯, expUniform k (fun us => ENNReal.ofReal (lossyProb (W us) b L T)) ≤ 1 := by
  refine (expUniform_sum_le _ _).trans ((expUniform_mono (g := fun _ => 1) fun us => ?_).trans (expUniform_const k 1).le)
  rw [← ENNReal.ofReal_sum_of_nonneg fun T _ => lossyProb_nonneg _ _ _ _, ENNReal.ofReal_le_one]
  obtain ⟨d', hd'⟩ := svd_exists (A * phaseMatrix k m us * dftMatrix k m)
  exact lossyProb_sum_le hd' (network_le_one hd hd1 (generatePhases_eq k m hk us).2 (generateQft_eq k m hk).2 d' hd') (hW us) hm hL
    𝒯 h𝒯

include hd hd1 hm hk hW hS h𝒯 in
theorem approxLaw_stable {x y : ℝ} (hx0 : 0 ≤ x) (hx1 : x ≤ 1) (hy0 : 0 ≤ y) (hy1 : y ≤ 1) :
    ∑ T ∈ 𝒯, approxLaw k p x W b S T
      ≤ ∑ T ∈ 𝒯, approxLaw k p y W b S T + ENNReal.ofReal ((p + (S.drop k).sum : ℕ) * |x - y|) := by
  unfold approxLaw
  rw [average_sum, average_sum]
  refine average_le (bunchedStates_ne S) fun st hst => ?_
  rw [← expLoss_sum, ← expLoss_sum]
  refine (expLoss_stable hx0 hx1 hy0 hy1 st _ fun L hL => inner_le hd hd1 hm hk hW 𝒯 h𝒯
    (hL.trans (bunchedStates_length hS hk hst))).trans ?_
  gcongr
  exact bunchedStates_sum hst

include hd hd1 hm hk hW hS h𝒯 in
theorem approxLaw_le {x : ℝ} (hx0 : 0 ≤ x) (hx1 : x ≤ 1) : ∑ T ∈ 𝒯, approxLaw k p x W b S T ≤ 1 := by
  unfold approxLaw
  rw [average_sum]
  have h1 : average (bunchedStates k p S) (fun _ => (1 : ℝ≥0∞)) = 1 := average_const (bunchedStates_ne S) fun _ _ => rfl
  refine le_of_le_of_eq ?_ h1
  refine (average_le (bunchedStates_ne S) (ε := 0) fun st hst => ?_).trans_eq (add_zero _)
  rw [← expLoss_sum, add_zero]
  exact (expLoss_mono' st fun L hL => inner_le hd hd1 hm hk hW 𝒯 h𝒯 (hL.trans (bunchedStates_length hS hk hst))).trans
    (expLoss_const hx0 hx1 st 1).le

end

end Verif
