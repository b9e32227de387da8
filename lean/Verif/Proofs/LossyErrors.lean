import Verif.Proofs.NetworkErrors
import Verif.Proofs.Dilation

/-! Helper lemmas: nearby networks with losses. -/
namespace Verif

open Finset

/-- The first particle leaves through the row `r`. -/
noncomputable def leave (c : ℕ → ℕ → ℂ) (n r : ℕ) (ψ : List ℕ → ℂ) : List ℕ → ℂ := fun v => ∑ a ∈ range n, c a r * ψ (a :: v)

/-- The amplitude of a sequence of outputs for distinguishable particles in the state `ψ`. -/
noncomputable def outAmp (c : ℕ → ℕ → ℂ) (n : ℕ) : List ℕ → (List ℕ → ℂ) → ℂ
  | [], ψ => ψ []
  | r :: w, ψ => outAmp c n w (leave c n r ψ)

/-- The probability of a sequence of outputs; output `m` stands for all the `b` rows from `m` on. -/
noncomputable def outProb (c : ℕ → ℕ → ℂ) (n m b : ℕ) : List ℕ → (List ℕ → ℂ) → ℝ
  | [], ψ => Complex.normSq (ψ [])
  | x :: xs, ψ => if x < m then outProb c n m b xs (leave c n x ψ) else ∑ r ∈ range b, outProb c n m b xs (leave c n (m + r) ψ)

noncomputable def waveNorm (n k : ℕ) (ψ : List ℕ → ℂ) : ℝ := ∑ v ∈ words n k, Complex.normSq (ψ v)

theorem waveNorm_succ (n k : ℕ) (ψ : List ℕ → ℂ) : waveNorm n (k + 1) ψ = ∑ a ∈ range n, waveNorm n k fun v => ψ (a :: v) := by
  unfold waveNorm
  rw [sum_words_succ, sum_comm]

theorem waveNorm_nonneg (n k : ℕ) (ψ : List ℕ → ℂ) : 0 ≤ waveNorm n k ψ := sum_nonneg fun _ _ => Complex.normSq_nonneg _

theorem outProb_nonneg (c : ℕ → ℕ → ℂ) (n m b : ℕ) (xs : List ℕ) (ψ : List ℕ → ℂ) : 0 ≤ outProb c n m b xs ψ := by
  induction xs generalizing ψ with
  | nil => exact Complex.normSq_nonneg _
  | cons x xs ih =>
    rw [outProb]
    split
    · exact ih _
    · exact sum_nonneg fun _ _ => ih _

theorem leave_lin (c : ℕ → ℕ → ℂ) (n r : ℕ) {ι : Type*} (s : Finset ι) (z : ι → ℂ) (F : ι → List ℕ → ℂ) :
    leave c n r (fun v => ∑ i ∈ s, z i * F i v) = fun v => ∑ i ∈ s, z i * leave c n r (F i) v := by
  funext v
  unfold leave
  simp only [mul_sum]
  rw [sum_comm]
  exact sum_congr rfl fun i _ => sum_congr rfl fun a _ => by ring

theorem leave_add (c : ℕ → ℕ → ℂ) (n r : ℕ) (φ ψ : List ℕ → ℂ) (z : ℂ) :
    leave c n r (fun v => φ v + z * ψ v) = fun v => leave c n r φ v + z * leave c n r ψ v := by
  funext v
  unfold leave
  rw [mul_sum, ← sum_add_distrib]
  exact sum_congr rfl fun a _ => by ring

/-- Columns of norm one. -/
theorem OrthoCols.isometry {c : ℕ → ℕ → ℂ} {M n : ℕ} (hc : OrthoCols c M n) (y : ℕ → ℂ) :
    ∑ r ∈ range M, Complex.normSq (∑ a ∈ range n, c a r * y a) = ∑ a ∈ range n, Complex.normSq (y a) := by
  apply Complex.ofReal_injective
  push_cast
  have e : ∀ z : ℂ, ((Complex.normSq z : ℝ) : ℂ) = (starRingEnd ℂ) z * z := fun z => by rw [← Complex.normSq_eq_conj_mul_self]
  simp only [e, map_sum, map_mul]
  have : ∀ r, (∑ a ∈ range n, (starRingEnd ℂ) (c a r) * (starRingEnd ℂ) (y a)) * ∑ a ∈ range n, c a r * y a
      = ∑ a ∈ range n, ∑ a' ∈ range n, ((starRingEnd ℂ) (y a) * y a') * ((starRingEnd ℂ) (c a r) * c a' r) := fun r => by
    rw [sum_mul_sum]
    exact sum_congr rfl fun a _ => sum_congr rfl fun a' _ => by ring
  simp only [this]
  rw [sum_comm]
  refine sum_congr rfl fun a ha => ?_
  rw [sum_comm]
  simp only [← mul_sum]
  rw [sum_eq_single a]
  · rw [hc a (mem_range.mp ha) a (mem_range.mp ha)]; simp
  · intro a' ha' hne
    rw [hc a (mem_range.mp ha) a' (mem_range.mp ha')]
    simp [hne.symm]
  · intro h; exact absurd ha h

section

variable {c' : ℕ → ℕ → ℂ} {n m b' : ℕ}

/-- An isometry on a particle not looked at. -/
theorem outProb_isometry {c : ℕ → ℕ → ℂ} {M : ℕ} (hc : OrthoCols c M n) (xs : List ℕ) (F : ℕ → List ℕ → ℂ) :
    ∑ r ∈ range M, outProb c' n m b' xs (fun v => ∑ a ∈ range n, c a r * F a v) = ∑ a ∈ range n, outProb c' n m b' xs (F a) := by
  induction xs generalizing F with
  | nil => exact hc.isometry fun a => F a []
  | cons x xs ih =>
    simp only [outProb]
    split
    · simp only [leave_lin]
      exact ih _
    · simp only [leave_lin]
      rw [sum_comm, sum_comm (s := range n)]
      exact sum_congr rfl fun r _ => ih _

theorem outProb_total {b : ℕ} {c : ℕ → ℕ → ℂ} (hc : OrthoCols c (m + b) n) (k : ℕ) (ψ : List ℕ → ℂ) :
    ∑ xs ∈ words (m + 1) k, outProb c n m b xs ψ = waveNorm n k ψ := by
  induction k generalizing ψ with
  | zero => simp [words, outProb, waveNorm]
  | succ k ih =>
    rw [sum_words_succ, waveNorm_succ]
    have e : ∀ xs, ∑ x ∈ range (m + 1), outProb c n m b (x :: xs) ψ = ∑ a ∈ range n, outProb c n m b xs fun v => ψ (a :: v) := by
      intro xs
      rw [← outProb_isometry hc, sum_range_succ, sum_range_add]
      congr 1
      · refine sum_congr rfl fun x hx => ?_
        rw [outProb, if_pos (mem_range.mp hx)]
        rfl
      · rw [outProb, if_neg (lt_irrefl m)]
        rfl
    simp only [e]
    rw [sum_comm]
    exact sum_congr rfl fun a _ => ih _

/-- Young's inequality for the quadratic form `outProb`. -/
theorem outProb_diff {t : ℝ} (ht : 0 < t) (xs : List ℕ) (φ ψ : List ℕ → ℂ) :
    |outProb c' n m b' xs φ - outProb c' n m b' xs ψ|
      ≤ 1 / 2 * (t * outProb c' n m b' xs (fun v => φ v + (-1) * ψ v) + 1 / t * outProb c' n m b' xs (fun v => φ v + 1 * ψ v)) := by
  induction xs generalizing φ ψ with
  | nil =>
    simp only [outProb]
    generalize φ [] = x
    generalize ψ [] = y
    have h1 : |Complex.normSq x - Complex.normSq y| ≤ ‖x + (-1) * y‖ * ‖x + 1 * y‖ := by
      have e : Complex.normSq x - Complex.normSq y = ((x + (-1) * y) * (starRingEnd ℂ) (x + 1 * y)).re := by
        simp [Complex.normSq_apply]; ring
      rw [e]
      refine (Complex.abs_re_le_norm _).trans (le_of_eq ?_)
      rw [norm_mul, RCLike.norm_conj]
    refine h1.trans ?_
    rw [Complex.normSq_eq_norm_sq, Complex.normSq_eq_norm_sq]
    generalize ‖x + (-1) * y‖ = p
    generalize ‖x + 1 * y‖ = q
    have h2 : 0 ≤ (t * p - q) ^ 2 / t := by positivity
    have h3 : (t * p - q) ^ 2 / t = t * p ^ 2 - 2 * (p * q) + 1 / t * q ^ 2 := by field_simp; ring
    linarith
  | cons x xs ih =>
    simp only [outProb]
    split
    · simp only [leave_add]
      exact ih _ _
    · simp only [leave_add]
      rw [← sum_sub_distrib, mul_sum, mul_sum, ← sum_add_distrib, mul_sum]
      exact (abs_sum_le_sum_abs _ _).trans (sum_le_sum fun r _ => ih _ _)

end

section

variable {c c' : ℕ → ℕ → ℂ} {n m b b' : ℕ} {ε : ℝ} (hε : 0 < ε) (hc : OrthoCols c (m + b) n) (hc' : OrthoCols c' (m + b') n)
  (hd : OpLe (fun a r => c a r + (-1) * c' a r) m n ε) (hs : OpLe (fun a r => c a r + 1 * c' a r) m n 2)
include hε hc' hd hs

theorem leave_diff (k : ℕ) (ψ : List ℕ → ℂ) :
    ∑ xs ∈ words (m + 1) k, ∑ x ∈ range m, |outProb c' n m b' xs (leave c n x ψ) - outProb c' n m b' xs (leave c' n x ψ)|
      ≤ 2 * ε * waveNorm n (k + 1) ψ := by
  have ht : 0 < 2 / ε := by positivity
  have h1 : ∀ (z : ℂ) (κ : ℝ), OpLe (fun a r => c a r + z * c' a r) m n κ →
      ∑ xs ∈ words (m + 1) k, ∑ x ∈ range m, outProb c' n m b' xs (fun v => leave c n x ψ v + z * leave c' n x ψ v)
        ≤ κ ^ 2 * waveNorm n (k + 1) ψ := by
    intro z κ hz
    rw [sum_comm]
    simp only [outProb_total hc']
    unfold waveNorm
    rw [sum_comm, sum_words_succ, mul_sum]
    refine sum_le_sum fun v _ => ?_
    refine le_trans (le_of_eq (sum_congr rfl fun x _ => ?_)) (hz fun a => ψ (a :: v))
    congr 1
    show (∑ a ∈ range n, c a x * ψ (a :: v)) + z * (∑ a ∈ range n, c' a x * ψ (a :: v)) = ∑ a ∈ range n, (c a x + z * c' a x) * ψ (a :: v)
    rw [mul_sum, ← sum_add_distrib]
    exact sum_congr rfl fun a _ => by ring
  have h2 := h1 _ _ hd
  have h3 := h1 _ _ hs
  have h4 : ∑ xs ∈ words (m + 1) k, ∑ x ∈ range m, |outProb c' n m b' xs (leave c n x ψ) - outProb c' n m b' xs (leave c' n x ψ)|
      ≤ 1 / 2 * (2 / ε * (∑ xs ∈ words (m + 1) k, ∑ x ∈ range m,
          outProb c' n m b' xs (fun v => leave c n x ψ v + (-1) * leave c' n x ψ v))
        + 1 / (2 / ε) * ∑ xs ∈ words (m + 1) k, ∑ x ∈ range m,
          outProb c' n m b' xs (fun v => leave c n x ψ v + 1 * leave c' n x ψ v)) := by
    simp only [mul_sum, ← sum_add_distrib]
    exact sum_le_sum fun xs _ => sum_le_sum fun x _ => by
      refine (outProb_diff ht xs _ _).trans (le_of_eq ?_)
      ring
  refine h4.trans ?_
  have h5 := mul_le_mul_of_nonneg_left h2 ht.le
  have h6 := mul_le_mul_of_nonneg_left h3 (by positivity : 0 ≤ 1 / (2 / ε))
  have e1 : 2 / ε * (ε ^ 2 * waveNorm n (k + 1) ψ) = 2 * ε * waveNorm n (k + 1) ψ := by field_simp
  have e2 : 1 / (2 / ε) * (2 ^ 2 * waveNorm n (k + 1) ψ) = 2 * ε * waveNorm n (k + 1) ψ := by field_simp
  linarith

include hc in
theorem outProb_near (k : ℕ) (ψ : List ℕ → ℂ) :
    ∑ xs ∈ words (m + 1) k, |outProb c n m b xs ψ - outProb c' n m b' xs ψ| ≤ 4 * k * ε * waveNorm n k ψ := by
  induction k generalizing ψ with
  | zero => simp [words, outProb]
  | succ k ih =>
    rw [sum_words_succ]
    have h1 : ∀ xs, ∑ x ∈ range (m + 1), |outProb c n m b (x :: xs) ψ - outProb c' n m b' (x :: xs) ψ|
        ≤ (∑ r ∈ range (m + b), |outProb c n m b xs (leave c n r ψ) - outProb c' n m b' xs (leave c n r ψ)|)
          + 2 * ∑ x ∈ range m, |outProb c' n m b' xs (leave c n x ψ) - outProb c' n m b' xs (leave c' n x ψ)| := by
      intro xs
      rw [sum_range_succ, sum_range_add]
      have e1 : ∑ x ∈ range m, |outProb c n m b (x :: xs) ψ - outProb c' n m b' (x :: xs) ψ|
          ≤ (∑ x ∈ range m, |outProb c n m b xs (leave c n x ψ) - outProb c' n m b' xs (leave c n x ψ)|)
            + ∑ x ∈ range m, |outProb c' n m b' xs (leave c n x ψ) - outProb c' n m b' xs (leave c' n x ψ)| := by
        rw [← sum_add_distrib]
        refine sum_le_sum fun x hx => ?_
        rw [outProb, outProb, if_pos (mem_range.mp hx), if_pos (mem_range.mp hx)]
        exact abs_sub_le _ _ _
      have e2 : |outProb c n m b (m :: xs) ψ - outProb c' n m b' (m :: xs) ψ|
          ≤ (∑ r ∈ range b, |outProb c n m b xs (leave c n (m + r) ψ) - outProb c' n m b' xs (leave c n (m + r) ψ)|)
            + ∑ x ∈ range m, |outProb c' n m b' xs (leave c n x ψ) - outProb c' n m b' xs (leave c' n x ψ)| := by
        rw [outProb, outProb, if_neg (lt_irrefl m), if_neg (lt_irrefl m)]
        have i1 := outProb_isometry (c' := c') (m := m) (b' := b') hc xs (fun a v => ψ (a :: v))
        have i2 := outProb_isometry (c' := c') (m := m) (b' := b') hc' xs (fun a v => ψ (a :: v))
        rw [← i2, sum_range_add, sum_range_add] at i1
        change (∑ r ∈ range m, outProb c' n m b' xs (leave c n r ψ)) + (∑ r ∈ range b, outProb c' n m b' xs (leave c n (m + r) ψ))
          = (∑ r ∈ range m, outProb c' n m b' xs (leave c' n r ψ)) + (∑ r ∈ range b', outProb c' n m b' xs (leave c' n (m + r) ψ)) at i1
        have i3 : (∑ r ∈ range b, outProb c n m b xs (leave c n (m + r) ψ)) - ∑ r ∈ range b', outProb c' n m b' xs (leave c' n (m + r) ψ)
            = (∑ r ∈ range b, (outProb c n m b xs (leave c n (m + r) ψ) - outProb c' n m b' xs (leave c n (m + r) ψ)))
              - ∑ x ∈ range m, (outProb c' n m b' xs (leave c n x ψ) - outProb c' n m b' xs (leave c' n x ψ)) := by
          rw [sum_sub_distrib, sum_sub_distrib]
          linarith
        rw [i3]
        exact (abs_sub _ _).trans (add_le_add (abs_sum_le_sum_abs _ _) (abs_sum_le_sum_abs _ _))
      linarith
    refine (sum_le_sum fun xs _ => h1 xs).trans ?_
    rw [sum_add_distrib, ← mul_sum, sum_comm]
    have h2 := leave_diff hε hc' hd hs k ψ
    have h3 : ∑ r ∈ range (m + b), ∑ xs ∈ words (m + 1) k, |outProb c n m b xs (leave c n r ψ) - outProb c' n m b' xs (leave c n r ψ)|
        ≤ 4 * k * ε * waveNorm n (k + 1) ψ := by
      refine (sum_le_sum fun r _ => ih _).trans (le_of_eq ?_)
      rw [← mul_sum]
      congr 1
      unfold waveNorm
      rw [sum_words_succ, sum_comm]
      exact sum_congr rfl fun v _ => hc.isometry fun a => ψ (a :: v)
    push_cast
    linarith

end

/-! ### Bosons -/

theorem outAmp_lin (c : ℕ → ℕ → ℂ) (n : ℕ) (w : List ℕ) {ι : Type*} (s : Finset ι) (z : ι → ℂ) (F : ι → List ℕ → ℂ) :
    outAmp c n w (fun v => ∑ i ∈ s, z i * F i v) = ∑ i ∈ s, z i * outAmp c n w (F i) := by
  induction w generalizing F with
  | nil => rfl
  | cons r w ih =>
    simp only [outAmp, leave_lin]
    exact ih _

/-- The state of bosons in the modes `cs`. -/
noncomputable def bosonWave (cs : List ℕ) : List ℕ → ℂ :=
  fun v => if v.Perm cs then (multFact (cs : Multiset ℕ) : ℂ) else 0

theorem bosonWave_cons (cs : List ℕ) (a : ℕ) (v : List ℕ) :
    bosonWave cs (a :: v) = (cs.count a : ℂ) * bosonWave (cs.erase a) v := by
  unfold bosonWave
  by_cases ha : a ∈ cs
  · have h1 := multFact_erase (s := (cs : Multiset ℕ)) (a := a) (Multiset.mem_coe.mpr ha)
    rw [Multiset.coe_count, Multiset.coe_erase] at h1
    by_cases h : v.Perm (cs.erase a)
    · rw [if_pos (List.cons_perm_iff_perm_erase.mpr ⟨ha, h⟩), if_pos h, h1]
      push_cast
      rfl
    · rw [if_neg (fun h' => h (List.cons_perm_iff_perm_erase.mp h').2), if_neg h, mul_zero]
  · rw [if_neg (fun h' => ha (List.cons_perm_iff_perm_erase.mp h').1), List.count_eq_zero_of_not_mem ha]
    simp

theorem outAmp_boson (c : ℕ → ℕ → ℂ) (n : ℕ) (w cs : List ℕ) (hcs : ∀ a ∈ cs, a < n) :
    outAmp c n w (bosonWave cs) = amp c w cs := by
  induction w generalizing cs with
  | nil =>
    cases cs with
    | nil => simp [outAmp, bosonWave, amp, lperm, multFact]
    | cons a cs => simp [outAmp, bosonWave, amp, lperm]
  | cons r w ih =>
    rw [outAmp, amp_cons, picks_sum cs n hcs (fun a l => c a r * amp c w l) fun a as bs h => by rw [amp_perm c w h]]
    have : leave c n r (bosonWave cs) = fun v => ∑ a ∈ range n, (c a r * (cs.count a : ℂ)) * bosonWave (cs.erase a) v := by
      funext v
      unfold leave
      exact sum_congr rfl fun a _ => by rw [bosonWave_cons]; ring
    rw [this, outAmp_lin]
    refine sum_congr rfl fun a _ => ?_
    rw [ih _ (fun x hx => hcs x (List.mem_of_mem_erase hx)), nsmul_eq_mul]
    ring

theorem outProb_lost (c : ℕ → ℕ → ℂ) (n m b : ℕ) (t : List ℕ) (ht : ∀ x ∈ t, x < m) (j : ℕ) (ψ : List ℕ → ℂ) :
    outProb c n m b (t ++ List.replicate j m) ψ
      = ∑ w ∈ words b j, Complex.normSq (outAmp c n (t ++ w.map (m + ·)) ψ) := by
  induction t generalizing ψ with
  | nil =>
    simp only [List.nil_append]
    induction j generalizing ψ with
    | zero => simp [words, outProb, outAmp]
    | succ j ih =>
      rw [List.replicate_succ, outProb, if_neg (lt_irrefl m), sum_words_succ, sum_comm]
      refine sum_congr rfl fun r _ => ?_
      rw [ih]
      rfl
  | cons x t ih =>
    rw [List.cons_append, outProb, if_pos (ht x (by simp)), ih (fun y hy => ht y (by simp [hy]))]
    rfl

theorem outProb_perm (c : ℕ → ℕ → ℂ) (n m b : ℕ) {xs ys : List ℕ} (h : xs.Perm ys) (ψ : List ℕ → ℂ)
    (hψ : ∀ v w : List ℕ, v.Perm w → ψ v = ψ w) : outProb c n m b xs ψ = outProb c n m b ys ψ := by
  have hl : ∀ (r : ℕ) (ψ : List ℕ → ℂ), (∀ v w : List ℕ, v.Perm w → ψ v = ψ w) →
      ∀ v w : List ℕ, v.Perm w → leave c n r ψ v = leave c n r ψ w := fun r ψ hψ v w hvw => by
    unfold leave
    exact sum_congr rfl fun a _ => by rw [hψ _ _ (hvw.cons a)]
  induction h generalizing ψ with
  | nil => rfl
  | cons x _ ih =>
    rw [outProb, outProb]
    split
    · exact ih _ (hl x ψ hψ)
    · exact sum_congr rfl fun r _ => ih _ (hl _ ψ hψ)
  | swap x y l =>
    have e : ∀ r s, leave c n r (leave c n s ψ) = leave c n s (leave c n r ψ) := fun r s => by
      funext v
      unfold leave
      simp only [mul_sum]
      rw [sum_comm]
      exact sum_congr rfl fun a _ => sum_congr rfl fun a' _ => by
        rw [hψ _ _ (List.Perm.swap a a' v)]; ring
    simp only [outProb]
    split <;> split
    · rw [e]
    · exact sum_congr rfl fun r _ => by rw [e]
    · exact sum_congr rfl fun r _ => by rw [e]
    · rw [sum_comm]
  | trans _ _ ih1 ih2 => exact (ih1 ψ hψ).trans (ih2 ψ hψ)

theorem outAmp_total {c : ℕ → ℕ → ℂ} {M n : ℕ} (hc : OrthoCols c M n) (k : ℕ) (ψ : List ℕ → ℂ) :
    ∑ w ∈ words M k, Complex.normSq (outAmp c n w ψ) = waveNorm n k ψ := by
  induction k generalizing ψ with
  | zero => simp [words, outAmp, waveNorm]
  | succ k ih =>
    rw [sum_words_succ, sum_comm]
    simp only [outAmp, ih]
    unfold waveNorm
    rw [sum_words_succ, sum_comm]
    exact sum_congr rfl fun v _ => hc.isometry fun a => ψ (a :: v)

theorem waveNorm_boson {c : ℕ → ℕ → ℂ} {M n : ℕ} (hc : OrthoCols c M n) (k : ℕ) (cs : List ℕ) (hk : cs.length = k)
    (hcs : ∀ a ∈ cs, a < n) : waveNorm n k (bosonWave cs) = k.factorial * (multFact (cs : Multiset ℕ) : ℝ) := by
  have h := phi_total hc k cs hk hcs
  unfold phi at h
  rw [← sum_div, div_eq_iff (by exact_mod_cast (multFact_pos _).ne')] at h
  rw [← h, ← outAmp_total hc]
  exact sum_congr rfl fun w _ => by rw [outAmp_boson c n w cs hcs]

/-- The law of a lossy network. -/
theorem lossyProb_eq_out (W : List (List ℂ)) (b : ℕ) (S T : List ℕ) (h : T.sum ≤ S.sum) {n : ℕ} (hS : S.length ≤ n) :
    lossyProb W b S T = outProb (colOf W) n T.length b (particles (T ++ [S.sum - T.sum])) (bosonWave (particles S))
      / ((multFact (particles S : Multiset ℕ) : ℝ) * factProd (T ++ [S.sum - T.sum])) := by
  have hp : particles (T ++ [S.sum - T.sum]) = particles T ++ List.replicate (S.sum - T.sum) T.length := by
    have := particlesFrom_append 0 T [S.sum - T.sum]
    rw [Nat.zero_add] at this
    rw [particles, this]
    simp [particlesFrom, particles]
  rw [lossyProb_eq_words W b S T h, hp, outProb_lost _ _ _ _ _ (fun x hx => by have := particlesFrom_range hx; omega)]
  have e : ∀ w ∈ words b (S.sum - T.sum), phi (colOf W) (particles T ++ w.map (T.length + ·)) (particles S)
      = Complex.normSq (outAmp (colOf W) n (particles T ++ w.map (T.length + ·)) (bosonWave (particles S)))
        / (multFact (particles S : Multiset ℕ) : ℝ) := fun w _ => by
    rw [outAmp_boson _ _ _ _ (fun a ha => by have := particlesFrom_range ha; omega)]
    rfl
  rw [sum_congr rfl e, ← sum_div, div_div, factProd_append]
  congr 1
  have hf : factProd [S.sum - T.sum] = (S.sum - T.sum).factorial := by simp [factProd]
  rw [hf]
  push_cast
  ring

/-- The laws of two nearby lossy networks. -/
theorem lossy_diff {W W' : List (List ℂ)} {m b b' : ℕ} (S : List ℕ) {ε : ℝ} (hε : 0 < ε) (hW : Orthonormal W (m + b) m)
    (hW' : Orthonormal W' (m + b') m) (hd : OpLe (fun a r => colOf W a r + (-1) * colOf W' a r) m m ε)
    (hs : OpLe (fun a r => colOf W a r + 1 * colOf W' a r) m m 2)
    (hS : S.length ≤ m) (𝒯 : Finset (List ℕ)) (h𝒯 : ∀ T ∈ 𝒯, T.length = m ∧ T.sum ≤ S.sum) :
    1 / 2 * ∑ T ∈ 𝒯, |lossyProb W b S T - lossyProb W' b' S T| ≤ 2 * S.sum * ε := by
  set ψ := bosonWave (particles S) with hψ
  have hsym : ∀ v w : List ℕ, v.Perm w → ψ v = ψ w := fun v w h => by
    rw [hψ]
    unfold bosonWave
    have : v.Perm (particles S) ↔ w.Perm (particles S) := ⟨fun h' => h.symm.trans h', fun h' => h.trans h'⟩
    simp only [this]
  have h0 := outProb_near hε (orthoCols_of W hW) (orthoCols_of W' hW') hd hs S.sum ψ
  rw [waveNorm_boson (orthoCols_of W hW) S.sum (particles S) (particlesFrom_length _ _)
    (fun a ha => by have := particlesFrom_range ha; omega),
    sum_words_states (m + 1) S.sum (statesFin (m + 1) S.sum) (mem_statesFin _ _) _ (fun w w' h => by
      rw [outProb_perm _ _ _ _ h ψ hsym, outProb_perm _ _ _ _ h ψ hsym])] at h0
  have hF : (0 : ℝ) < S.sum.factorial := by exact_mod_cast Nat.factorial_pos _
  have hM : (0 : ℝ) < multFact (particles S : Multiset ℕ) := by exact_mod_cast multFact_pos _
  have h1 : ∑ T ∈ 𝒯, |lossyProb W b S T - lossyProb W' b' S T| = (∑ T ∈ 𝒯.image (fun T => T ++ [S.sum - T.sum]),
      (S.sum.factorial : ℝ) / factProd T * |outProb (colOf W) m m b (particles T) ψ - outProb (colOf W') m m b' (particles T) ψ|)
        / (S.sum.factorial * (multFact (particles S : Multiset ℕ) : ℝ)) := by
    rw [sum_image (fun T hT T' hT' h => (List.append_inj h (by rw [(h𝒯 T hT).1, (h𝒯 T' hT').1])).1), sum_div]
    refine sum_congr rfl fun T hT => ?_
    obtain ⟨h2, h3⟩ := h𝒯 T hT
    have h4 : (0 : ℝ) < factProd (T ++ [S.sum - T.sum]) := by exact_mod_cast factProd_pos _
    rw [lossyProb_eq_out W b S T h3 hS, lossyProb_eq_out W' b' S T h3 hS, h2, ← sub_div, abs_div,
      abs_of_pos (mul_pos hM h4), ← hψ]
    field_simp
  have h2 : ∑ T ∈ 𝒯.image (fun T => T ++ [S.sum - T.sum]), (S.sum.factorial : ℝ) / factProd T
        * |outProb (colOf W) m m b (particles T) ψ - outProb (colOf W') m m b' (particles T) ψ|
      ≤ ∑ T ∈ statesFin (m + 1) S.sum, (S.sum.factorial : ℝ) / factProd T
        * |outProb (colOf W) m m b (particles T) ψ - outProb (colOf W') m m b' (particles T) ψ| := by
    refine sum_le_sum_of_subset_of_nonneg (fun T hT => ?_) fun T _ _ => by positivity
    obtain ⟨T', hT', rfl⟩ := mem_image.mp hT
    obtain ⟨h3, h4⟩ := h𝒯 T' hT'
    rw [mem_statesFin]
    simp [h3]
    omega
  rw [h1]
  have h3 := div_le_div_of_nonneg_right (h2.trans h0) (mul_pos hF hM).le
  rw [mul_div_assoc, div_self (mul_pos hF hM).ne', mul_one] at h3
  linarith

end Verif
