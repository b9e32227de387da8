import Verif.Proofs.Prog
import Mathlib.Topology.Instances.ENNReal.Lemmas
import Mathlib.Analysis.SpecificLimits.Basic

/-! Helper lemmas: expectations as a monotone functional, loops that end with probability one. -/
namespace Verif
namespace Prog

open Finset Filter Topology
open scoped ENNReal

variable {α β σ : Type}

theorem wp_mono (p : Prog α) (f g : Py α → ℝ≥0∞) (h : ∀ r, p.Runs r → f r ≤ g r) : p.wp f ≤ p.wp g := by
  have key : ∀ (p : Prog α) (f g : Py α → ℝ≥0∞), (∀ r, f r ≤ g r) → p.wp f ≤ p.wp g := by
    intro p f g h
    induction p with
    | done r => exact h r
    | uniform k ih => exact MeasureTheory.lintegral_mono fun u => ih u
    | randint n k ih =>
      simp only [wp]
      split_ifs with hn
      · exact h _
      · exact ENNReal.div_le_div_right (sum_le_sum fun i _ => ih i) _
    | choice p k ih =>
      simp only [wp]
      split_ifs with hp
      · exact sum_le_sum fun i _ => mul_le_mul_right (ih i) _
      · exact h _
    | shuffle n k ih =>
      simp only [wp]
      exact ENNReal.div_le_div_right (sum_le_sum fun i _ => ih _) _
  have e : p.wp f = p.wp fun r => min (f r) (g r) := wp_congr p _ _ fun r hr => (min_eq_left (h r hr)).symm
  rw [e]
  exact key p _ _ fun r => min_le_right _ _

theorem wp_add_le (p : Prog α) (f g : Py α → ℝ≥0∞) : p.wp f + p.wp g ≤ p.wp fun r => f r + g r := by
  induction p with
  | done r => exact le_refl _
  | uniform k ih =>
    simp only [wp]
    exact (MeasureTheory.le_lintegral_add _ _).trans (MeasureTheory.lintegral_mono fun u => ih u)
  | randint n k ih =>
    simp only [wp]
    split_ifs with hn
    · exact le_refl _
    · rw [← ENNReal.add_div, ← sum_add_distrib]
      exact ENNReal.div_le_div_right (sum_le_sum fun i _ => ih i) _
  | choice p k ih =>
    simp only [wp]
    split_ifs with hp
    · rw [← sum_add_distrib]
      refine sum_le_sum fun i _ => ?_
      rw [← mul_add]
      exact mul_le_mul_right (ih i) _
    · exact le_refl _
  | shuffle n k ih =>
    simp only [wp]
    rw [← ENNReal.add_div, ← sum_add_distrib]
    exact ENNReal.div_le_div_right (sum_le_sum fun i _ => ih _) _

theorem wp_const_mul (p : Prog α) (c : ℝ≥0∞) (hc : c ≠ ⊤) (f : Py α → ℝ≥0∞) : (p.wp fun r => c * f r) = c * p.wp f := by
  induction p with
  | done r => rfl
  | uniform k ih =>
    simp only [wp]
    rw [← MeasureTheory.lintegral_const_mul' _ _ hc]
    exact MeasureTheory.lintegral_congr fun u => ih u
  | randint n k ih =>
    simp only [wp]
    split_ifs with hn
    · rfl
    · simp only [ih, ← mul_sum, mul_div_assoc]
  | choice p k ih =>
    simp only [wp]
    split_ifs with hp
    · simp only [ih, mul_sum]
      exact sum_congr rfl fun i _ => by ring
    · rfl
  | shuffle n k ih =>
    simp only [wp]
    simp only [ih, ← mul_sum, mul_div_assoc]

/-- Invariants of loops that end. -/
theorem loop_inv {cond : σ → Bool} {body : σ → Prog σ} (I : σ → Prop)
    (hI : ∀ s, I s → cond s = true → ∀ s', (body s).Runs (.ok s') → I s') (fuel : ℕ) (s s' : σ) (hs : I s)
    (h : (loop fuel cond body s).Runs (.ok s')) : I s' ∧ cond s' = false := by
  induction fuel generalizing s with
  | zero => cases h
  | succ fuel ih =>
    rw [loop_succ] at h
    cases hc : cond s with
    | false =>
      rw [hc] at h
      have h : (Except.ok s' : Py σ) = .ok s := h
      injection h with h
      subst h
      exact ⟨hs, hc⟩
    | true =>
      rw [hc, if_pos rfl, runs_bind] at h
      rcases h with ⟨t, h1, h2⟩ | ⟨e, h1, h2⟩
      · exact ih t (hI s hs hc t h1) h2
      · cases h2

/-- Upper bounds for the probability that a loop with `v` remaining goals is not finished after `n`
steps, if every step reaches a goal with probability at least `ε`. -/
noncomputable def waitBound (ε : ℝ) : ℕ → ℕ → ℝ
  | 0, _ => 1
  | _ + 1, 0 => 0
  | n + 1, v + 1 => (1 - ε) * waitBound ε n (v + 1) + ε * waitBound ε n v

section
variable {ε : ℝ} (h0 : 0 < ε) (h1 : ε ≤ 1)
include h0 h1

theorem waitBound_bounds (n v : ℕ) : 0 ≤ waitBound ε n v ∧ waitBound ε n v ≤ 1 := by
  induction n generalizing v with
  | zero => exact ⟨zero_le_one, le_refl _⟩
  | succ n ih =>
    cases v with
    | zero => exact ⟨le_refl _, zero_le_one⟩
    | succ v =>
      have a := ih (v + 1)
      have b := ih v
      unfold waitBound
      constructor
      · exact add_nonneg (mul_nonneg (by linarith) a.1) (mul_nonneg h0.le b.1)
      · nlinarith [mul_le_mul_of_nonneg_left a.2 (by linarith : 0 ≤ 1 - ε), mul_le_mul_of_nonneg_left b.2 h0.le]

theorem waitBound_mono (n v : ℕ) : waitBound ε n v ≤ waitBound ε n (v + 1) := by
  induction n generalizing v with
  | zero => exact le_refl _
  | succ n ih =>
    cases v with
    | zero => exact (waitBound_bounds h0 h1 (n + 1) 1).1
    | succ v =>
      have a := ih (v + 1)
      have b := ih v
      change (1 - ε) * _ + ε * _ ≤ (1 - ε) * _ + ε * _
      exact add_le_add (mul_le_mul_of_nonneg_left a (by linarith)) (mul_le_mul_of_nonneg_left b h0.le)

theorem waitBound_monotone (n : ℕ) : Monotone (waitBound ε n) := monotone_nat_of_le_succ (waitBound_mono h0 h1 n)

theorem waitBound_anti (n v : ℕ) : waitBound ε (n + 1) v ≤ waitBound ε n v := by
  cases v with
  | zero =>
    exact (waitBound_bounds h0 h1 n 0).1
  | succ v =>
    change (1 - ε) * _ + ε * _ ≤ _
    nlinarith [mul_le_mul_of_nonneg_left (waitBound_mono h0 h1 n v) h0.le]

theorem waitBound_tendsto (v : ℕ) : Tendsto (fun n => waitBound ε n v) atTop (𝓝 0) := by
  induction v with
  | zero =>
    refine tendsto_atTop_of_eventually_const (i₀ := 1) fun n hn => ?_
    obtain ⟨n, rfl⟩ : ∃ k, n = k + 1 := ⟨n - 1, by omega⟩
    rfl
  | succ v ih =>
    have hanti : Antitone fun n => waitBound ε n (v + 1) := antitone_nat_of_succ_le fun n => waitBound_anti h0 h1 n (v + 1)
    have hbdd : BddBelow (Set.range fun n => waitBound ε n (v + 1)) :=
      ⟨0, by rintro _ ⟨n, rfl⟩; exact (waitBound_bounds h0 h1 n (v + 1)).1⟩
    have hlim := tendsto_atTop_ciInf hanti hbdd
    set L := ⨅ n, waitBound ε n (v + 1) with hL
    have hlim' := hlim.comp (tendsto_add_atTop_nat 1)
    have hrec : Tendsto (fun n => (1 - ε) * waitBound ε n (v + 1) + ε * waitBound ε n v) atTop (𝓝 ((1 - ε) * L + ε * 0)) :=
      (hlim.const_mul _).add (ih.const_mul _)
    have : L = (1 - ε) * L + ε * 0 := tendsto_nhds_unique hlim' hrec
    have hL0 : L = 0 := by
      have : ε * L = 0 := by linarith
      rcases mul_eq_zero.mp this with h | h
      · linarith
      · exact h
    rw [hL0] at hlim
    exact hlim

/-- A loop that reaches one of its `V s` remaining goals with probability at least `ε` in every step. -/
theorem loop_unfinished_le {cond : σ → Bool} {body : σ → Prog σ} (I : σ → Prop) (V : σ → ℕ)
    (hok : ∀ s, I s → cond s = true → ∀ r, (body s).Runs r → ∃ s', r = .ok s' ∧ I s' ∧ V s' ≤ V s)
    (hV : ∀ s, I s → cond s = true → 0 < V s)
    (hε : ∀ s, I s → cond s = true → ENNReal.ofReal ε ≤ (body s).prob (fun r => ∃ s', r = .ok s' ∧ V s' < V s))
    (fuel : ℕ) (s : σ) (hs : I s) :
    (loop fuel cond body s).prob (fun r => ∀ s', r ≠ .ok s') ≤ ENNReal.ofReal (waitBound ε fuel (V s)) := by
  induction fuel generalizing s with
  | zero =>
    unfold prob
    refine (wp_mono _ _ (fun _ => 1) fun r _ => ?_).trans ?_
    · split_ifs <;> simp
    · rw [wp_const]
      simp [waitBound]
  | succ fuel ih =>
    rw [loop_succ]
    cases hc : cond s with
    | false =>
      have : (done (.ok s) : Prog σ).prob (fun r => ∀ s', r ≠ .ok s') = 0 := if_neg fun h => h s rfl
      simp only [Bool.false_eq_true, if_false, this]
      exact zero_le
    | true =>
      obtain ⟨v, hv⟩ : ∃ v, V s = v + 1 := ⟨V s - 1, by have := hV s hs hc; omega⟩
      rw [if_pos rfl, hv]
      unfold prob
      rw [wp_bind]
      have hd : 0 ≤ waitBound ε fuel (v + 1) - waitBound ε fuel v := by linarith [waitBound_mono h0 h1 fuel v]
      have step := wp_add_le (body s) (post (fun a => loop fuel cond body a) (fun r : Py σ => open Classical in if ∀ s', r ≠ .ok s' then 1 else 0))
        (fun r => ENNReal.ofReal (waitBound ε fuel (v + 1) - waitBound ε fuel v) *
          (open Classical in if ∃ s', r = .ok s' ∧ V s' < V s then 1 else 0))
      rw [wp_const_mul _ _ ENNReal.ofReal_ne_top] at step
      have hub : ((body s).wp fun r => post (fun a => loop fuel cond body a) (fun r : Py σ => open Classical in if ∀ s', r ≠ .ok s' then 1 else 0) r +
          ENNReal.ofReal (waitBound ε fuel (v + 1) - waitBound ε fuel v) *
          (open Classical in if ∃ s', r = .ok s' ∧ V s' < V s then 1 else 0)) ≤ ENNReal.ofReal (waitBound ε fuel (v + 1)) := by
        refine (wp_mono _ _ (fun _ => ENNReal.ofReal (waitBound ε fuel (v + 1))) fun r hr => ?_).trans (le_of_eq (wp_const _ _))
        obtain ⟨s', rfl, hI, hle⟩ := hok s hs hc r hr
        have := ih s' hI
        simp only [post]
        unfold prob at this
        refine (add_le_add_left this _).trans ?_
        by_cases hlt : V s' < V s
        · rw [if_pos ⟨s', rfl, hlt⟩, mul_one, ← ENNReal.ofReal_add (waitBound_bounds h0 h1 _ _).1 hd]
          refine ENNReal.ofReal_le_ofReal ?_
          have : waitBound ε fuel (V s') ≤ waitBound ε fuel v := waitBound_monotone h0 h1 fuel (by omega)
          linarith
        · rw [if_neg (by rintro ⟨t, ht, h⟩; injection ht with ht; subst ht; exact hlt h), mul_zero, add_zero]
          refine ENNReal.ofReal_le_ofReal ?_
          exact waitBound_monotone h0 h1 fuel (by omega)
      have hprob := hε s hs hc
      unfold prob at hprob
      have hmul : ENNReal.ofReal ((waitBound ε fuel (v + 1) - waitBound ε fuel v) * ε) ≤
          ENNReal.ofReal (waitBound ε fuel (v + 1) - waitBound ε fuel v) *
            (body s).wp fun r => open Classical in if ∃ s', r = .ok s' ∧ V s' < V s then 1 else 0 := by
        rw [ENNReal.ofReal_mul hd]
        exact mul_le_mul_right hprob _
      have htotal := (add_le_add_right hmul _).trans (step.trans hub)
      have hsplit : ENNReal.ofReal (waitBound ε fuel (v + 1)) = ENNReal.ofReal (waitBound ε (fuel + 1) (v + 1)) +
          ENNReal.ofReal ((waitBound ε fuel (v + 1) - waitBound ε fuel v) * ε) := by
        rw [← ENNReal.ofReal_add (waitBound_bounds h0 h1 _ _).1 (mul_nonneg hd h0.le)]
        congr 1
        change _ = ((1 - ε) * _ + ε * _) + _
        ring
      rw [hsplit] at htotal
      exact (ENNReal.add_le_add_iff_right ENNReal.ofReal_ne_top).mp htotal

end

end Prog
end Verif
