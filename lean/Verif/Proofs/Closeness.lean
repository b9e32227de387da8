import Verif.Spec.Closeness
import Verif.Proofs.RoundedSafe
import Verif.Proofs.ProgLoop

/-! Helper lemmas: programs with almost the same law. -/
namespace Verif

open Finset
open scoped ENNReal

namespace Prog

variable {α β : Type}

theorem wp_add_const (p : Prog α) (c : ℝ≥0∞) (f : Py α → ℝ≥0∞) : (p.wp fun r => f r + c) = p.wp f + c := by
  induction p with
  | done r => rfl
  | uniform k ih =>
    simp only [wp, ih]
    rw [MeasureTheory.lintegral_add_right _ measurable_const]
    simp
  | randint n k ih =>
    simp only [wp, ih]
    split_ifs with hn
    · rfl
    · have h0 : (n : ℝ≥0∞) ≠ 0 := by exact_mod_cast hn
      rw [sum_add_distrib, ENNReal.add_div, sum_const, card_range, nsmul_eq_mul, mul_comm (n : ℝ≥0∞), mul_div_assoc,
        ENNReal.div_self h0 (by simp), mul_one]
  | choice p k ih =>
    have hc := wp_const (.choice p fun _ => .done (.ok ())) c
    simp only [wp, ih] at hc ⊢
    split_ifs at hc ⊢ with hp
    · simp only [mul_add, sum_add_distrib]
      rw [hc]
    · rfl
  | shuffle n k ih =>
    have hc := wp_const (.shuffle n fun _ => .done (.ok ())) c
    simp only [wp, ih] at hc ⊢
    rw [sum_add_distrib, ENNReal.add_div, hc]

/-- As `Close`, for expectations of functions with values in `[0, 1]`. -/
def CloseF (p q : Prog α) (ε : ℝ≥0∞) : Prop :=
  ∀ f : Py α → ℝ≥0∞, (∀ r, f r ≤ 1) → p.wp f ≤ q.wp f + ε ∧ q.wp f ≤ p.wp f + ε

theorem wp_le_one (p : Prog α) (f : Py α → ℝ≥0∞) (h : ∀ r, f r ≤ 1) : p.wp f ≤ 1 :=
  (wp_mono p f (fun _ => 1) fun r _ => h r).trans (wp_const p 1).le

theorem post_le_one (g : α → Prog β) (f : Py β → ℝ≥0∞) (h : ∀ r, f r ≤ 1) (r : Py α) : post g f r ≤ 1 := by
  cases r with
  | ok a => exact wp_le_one _ f h
  | error e => exact h _

namespace CloseF

variable {p q : Prog α} {ε δ : ℝ≥0∞}

theorem refl (p : Prog α) : CloseF p p 0 := fun f _ => by simp

theorem mono (h : CloseF p q ε) (hle : ε ≤ δ) : CloseF p q δ := fun f hf =>
  ⟨(h f hf).1.trans (by gcongr), (h f hf).2.trans (by gcongr)⟩

theorem symm (h : CloseF p q ε) : CloseF q p ε := fun f hf => ⟨(h f hf).2, (h f hf).1⟩

theorem trans {r : Prog α} (h : CloseF p q ε) (h' : CloseF q r δ) : CloseF p r (ε + δ) := fun f hf => by
  constructor
  · calc p.wp f ≤ q.wp f + ε := (h f hf).1
      _ ≤ r.wp f + δ + ε := by gcongr; exact (h' f hf).1
      _ = _ := by ring
  · calc r.wp f ≤ q.wp f + δ := (h' f hf).2
      _ ≤ p.wp f + ε + δ := by gcongr; exact (h f hf).2
      _ = _ := by ring

/-- Continuations that are close on the values the second program can return. -/
theorem bind {I : α → Prop} {g g' : α → Prog β} (h : CloseF p q ε)
    (hI : ∀ a, q.Runs (.ok a) → I a) (hg : ∀ a, I a → CloseF (g a) (g' a) δ) : CloseF (p.bind g) (q.bind g') (ε + δ) := by
  intro f hf
  rw [wp_bind, wp_bind]
  have h1 := h (post g f) (post_le_one g f hf)
  have h2 : q.wp (post g f) ≤ q.wp (post g' f) + δ := by
    rw [← wp_add_const]
    refine wp_mono _ _ _ fun r hr => ?_
    cases r with
    | ok a => exact (hg a (hI a hr) f hf).1
    | error e => exact le_self_add
  have h3 : q.wp (post g' f) ≤ q.wp (post g f) + δ := by
    rw [← wp_add_const]
    refine wp_mono _ _ _ fun r hr => ?_
    cases r with
    | ok a => exact (hg a (hI a hr) f hf).2
    | error e => exact le_self_add
  constructor
  · calc p.wp (post g f) ≤ q.wp (post g f) + ε := h1.1
      _ ≤ q.wp (post g' f) + δ + ε := by gcongr
      _ = _ := by ring
  · calc q.wp (post g' f) ≤ q.wp (post g f) + δ := h3
      _ ≤ p.wp (post g f) + ε + δ := by gcongr; exact h1.2
      _ = _ := by ring

theorem bind_all {I : α → Prop} {E : PyErr → Prop} {g g' : α → Prog β} (h : CloseF p q ε) (hI : q.All I E)
    (hg : ∀ a, I a → CloseF (g a) (g' a) δ) : CloseF (p.bind g) (q.bind g') (ε + δ) := by
  refine h.bind (I := I) (fun a ha => ?_) hg
  rcases hI _ ha with ⟨b, h1, h2⟩ | ⟨e, h1, _⟩
  · injection h1 with h1; rw [h1]; exact h2
  · cases h1

theorem bind' {g g' : α → Prog β} (h : CloseF p q ε) (hg : ∀ a, CloseF (g a) (g' a) δ) :
    CloseF (p.bind g) (q.bind g') (ε + δ) := h.bind (I := fun _ => True) (fun _ _ => trivial) fun a _ => hg a

theorem bind_left (g : α → Prog β) (h : CloseF p q ε) : CloseF (p.bind g) (q.bind g) ε := by
  have := h.bind' (g := g) (g' := g) (δ := 0) fun a => refl _
  rwa [add_zero] at this

theorem bind_right (p : Prog α) {g g' : α → Prog β} (hg : ∀ a, CloseF (g a) (g' a) δ) :
    CloseF (p.bind g) (p.bind g') δ := by
  have := (refl p).bind' hg
  rwa [zero_add] at this

theorem bind_right_all (p : Prog α) {I : α → Prop} {E : PyErr → Prop} {g g' : α → Prog β} (hI : p.All I E)
    (hg : ∀ a, I a → CloseF (g a) (g' a) δ) : CloseF (p.bind g) (p.bind g') δ := by
  have := (refl p).bind_all hI hg
  rwa [zero_add] at this

/-- Programs that draw one index, from weights whose distance is known. -/
theorem of_sums {m : ℕ} {law w : ℕ → ℝ} {v : ℕ → Py α} {e : ℝ}
    (hp : ∀ f, p.wp f = ∑ i ∈ range m, ENNReal.ofReal (law i) * f (v i))
    (hq : ∀ f, q.wp f = ∑ i ∈ range m, ENNReal.ofReal (w i) * f (v i))
    (hl : ∀ i < m, 0 ≤ law i) (hw : ∀ i < m, 0 ≤ w i) (he : ∑ i ∈ range m, |law i - w i| ≤ e) :
    CloseF p q (ENNReal.ofReal e) := by
  intro f hf
  rw [hp, hq]
  have key : ∀ a b : ℕ → ℝ, (∀ i < m, 0 ≤ a i) → (∀ i < m, 0 ≤ b i) → (∑ i ∈ range m, |a i - b i| ≤ e) →
      ∑ i ∈ range m, ENNReal.ofReal (a i) * f (v i)
        ≤ ∑ i ∈ range m, ENNReal.ofReal (b i) * f (v i) + ENNReal.ofReal e := by
    intro a b ha hb hab
    calc ∑ i ∈ range m, ENNReal.ofReal (a i) * f (v i)
        ≤ ∑ i ∈ range m, (ENNReal.ofReal (b i) * f (v i) + ENNReal.ofReal |a i - b i|) := by
          refine sum_le_sum fun i hi => ?_
          have hi := mem_range.mp hi
          have h1 : ENNReal.ofReal (a i) ≤ ENNReal.ofReal (b i) + ENNReal.ofReal |a i - b i| := by
            rw [← ENNReal.ofReal_add (hb i hi) (abs_nonneg _)]
            exact ENNReal.ofReal_le_ofReal (by linarith [le_abs_self (a i - b i)])
          calc ENNReal.ofReal (a i) * f (v i) ≤ (ENNReal.ofReal (b i) + ENNReal.ofReal |a i - b i|) * f (v i) := by
                gcongr
            _ = ENNReal.ofReal (b i) * f (v i) + ENNReal.ofReal |a i - b i| * f (v i) := by ring
            _ ≤ _ := by
                gcongr
                exact mul_le_of_le_one_right zero_le (hf _)
      _ = ∑ i ∈ range m, ENNReal.ofReal (b i) * f (v i) + ENNReal.ofReal (∑ i ∈ range m, |a i - b i|) := by
          rw [sum_add_distrib, ENNReal.ofReal_sum_of_nonneg fun i _ => abs_nonneg _]
      _ ≤ _ := by gcongr
  refine ⟨key law w hl hw he, key w law hw hl ?_⟩
  refine le_trans (le_of_eq (sum_congr rfl fun i _ => abs_sub_comm _ _)) he

theorem close {e : ℝ} (h : CloseF p q (ENNReal.ofReal e)) (he : 0 ≤ e) : Close p q e := by
  classical
  intro Q
  have h1 := h (fun r => if Q r then 1 else 0) fun r => by split <;> simp
  change p.prob Q ≤ q.prob Q + _ ∧ q.prob Q ≤ p.prob Q + _ at h1
  have hp : p.prob Q ≤ 1 := wp_le_one p _ fun r => by split <;> simp
  have hq : q.prob Q ≤ 1 := wp_le_one q _ fun r => by split <;> simp
  have hp' : p.prob Q ≠ ⊤ := ne_top_of_le_ne_top ENNReal.one_ne_top hp
  have hq' : q.prob Q ≠ ⊤ := ne_top_of_le_ne_top ENNReal.one_ne_top hq
  have a := ENNReal.toReal_mono (ENNReal.add_ne_top.mpr ⟨hq', ENNReal.ofReal_ne_top⟩) h1.1
  have b := ENNReal.toReal_mono (ENNReal.add_ne_top.mpr ⟨hp', ENNReal.ofReal_ne_top⟩) h1.2
  rw [ENNReal.toReal_add hq' ENNReal.ofReal_ne_top, ENNReal.toReal_ofReal he] at a
  rw [ENNReal.toReal_add hp' ENNReal.ofReal_ne_top, ENNReal.toReal_ofReal he] at b
  rw [abs_le]
  constructor <;> linarith

end CloseF
end Prog
end Verif
