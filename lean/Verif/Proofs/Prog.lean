import Verif.Prog
import Verif.Proofs.PyLemmas

/-! Helper lemmas: semantics of programs with random draws. -/
namespace Verif

open Finset
open scoped ENNReal

namespace Prog

variable {α β : Type}

@[simp] theorem bind_eq (p : Prog α) (g : α → Prog β) : (p >>= g) = p.bind g := rfl

@[simp] theorem pure_eq (a : α) : (pure a : Prog α) = .done (.ok a) := rfl

@[simp] theorem lift_eq (r : Py α) : (liftM r : Prog α) = .done r := rfl

@[simp] theorem monadLift_eq (r : Py α) : (MonadLift.monadLift r : Prog α) = .done r := rfl

@[simp] theorem done_ok_bind (a : α) (g : α → Prog β) : (done (.ok a)).bind g = g a := rfl

@[simp] theorem done_error_bind (e : PyErr) (g : α → Prog β) :
    (done (.error e) : Prog α).bind g = .done (.error e) := rfl

theorem bind_assoc {γ : Type} (p : Prog α) (g : α → Prog β) (h : β → Prog γ) :
    (p.bind g).bind h = p.bind fun a => (g a).bind h := by
  induction p with
  | done r => cases r <;> rfl
  | uniform k ih => simp only [bind, ih]
  | randint n k ih => simp only [bind, ih]
  | choice p k ih => simp only [bind, ih]
  | shuffle n k ih => simp only [bind, ih]

/-- The continuation of a post-expectation. -/
noncomputable def post (g : α → Prog β) (f : Py β → ℝ≥0∞) : Py α → ℝ≥0∞
  | .ok a => (g a).wp f
  | .error e => f (.error e)

theorem wp_bind (p : Prog α) (g : α → Prog β) (f : Py β → ℝ≥0∞) :
    (p.bind g).wp f = p.wp (post g f) := by
  induction p with
  | done r => cases r <;> rfl
  | uniform k ih => simp only [bind, wp, ih]
  | randint n k ih => simp only [bind, wp, ih]; rfl
  | choice p k ih => simp only [bind, wp, ih]; rfl
  | shuffle n k ih => simp only [bind, wp, ih]

theorem runs_bind (p : Prog α) (g : α → Prog β) (r : Py β) :
    (p.bind g).Runs r ↔ (∃ a, p.Runs (.ok a) ∧ (g a).Runs r) ∨ ∃ e, p.Runs (.error e) ∧ r = .error e := by
  induction p with
  | done x =>
    cases x with
    | ok a =>
      simp only [bind, Runs, Except.ok.injEq, reduceCtorEq, false_and, exists_false, or_false]
      exact ⟨fun h => ⟨a, rfl, h⟩, fun ⟨b, h1, h2⟩ => h1 ▸ h2⟩
    | error e =>
      simp only [bind, Runs, reduceCtorEq, false_and, exists_false, Except.error.injEq, false_or]
      exact ⟨fun h => ⟨e, rfl, h⟩, fun ⟨b, h1, h2⟩ => h1 ▸ h2⟩
  | uniform k ih =>
    simp only [bind, Runs, ih]
    constructor
    · rintro ⟨u, h0, h1, ⟨a, h⟩ | ⟨e, h⟩⟩
      · exact .inl ⟨a, ⟨u, h0, h1, h.1⟩, h.2⟩
      · exact .inr ⟨e, ⟨u, h0, h1, h.1⟩, h.2⟩
    · rintro (⟨a, ⟨u, h0, h1, h⟩, h'⟩ | ⟨e, ⟨u, h0, h1, h⟩, h'⟩)
      · exact ⟨u, h0, h1, .inl ⟨a, h, h'⟩⟩
      · exact ⟨u, h0, h1, .inr ⟨e, h, h'⟩⟩
  | randint n k ih =>
    simp only [bind, Runs, ih]
    constructor
    · rintro (⟨h0, h1⟩ | ⟨i, hi, ⟨a, h⟩ | ⟨e, h⟩⟩)
      · exact .inr ⟨_, .inl ⟨h0, rfl⟩, h1⟩
      · exact .inl ⟨a, .inr ⟨i, hi, h.1⟩, h.2⟩
      · exact .inr ⟨e, .inr ⟨i, hi, h.1⟩, h.2⟩
    · rintro (⟨a, ⟨-, h⟩ | ⟨i, hi, h⟩, h'⟩ | ⟨e, ⟨h0, h⟩ | ⟨i, hi, h⟩, h'⟩)
      · cases h
      · exact .inr ⟨i, hi, .inl ⟨a, h, h'⟩⟩
      · exact .inl ⟨h0, by injection h with h; rw [h', h]⟩
      · exact .inr ⟨i, hi, .inr ⟨e, h, h'⟩⟩
  | choice p k ih =>
    simp only [bind, Runs, ih]
    constructor
    · rintro (⟨h0, h1⟩ | ⟨hp, i, hi, hpos, ⟨a, h⟩ | ⟨e, h⟩⟩)
      · exact .inr ⟨_, .inl ⟨h0, rfl⟩, h1⟩
      · exact .inl ⟨a, .inr ⟨hp, i, hi, hpos, h.1⟩, h.2⟩
      · exact .inr ⟨e, .inr ⟨hp, i, hi, hpos, h.1⟩, h.2⟩
    · rintro (⟨a, ⟨-, h⟩ | ⟨hp, i, hi, hpos, h⟩, h'⟩ | ⟨e, ⟨h0, h⟩ | ⟨hp, i, hi, hpos, h⟩, h'⟩)
      · cases h
      · exact .inr ⟨hp, i, hi, hpos, .inl ⟨a, h, h'⟩⟩
      · exact .inl ⟨h0, by injection h with h; rw [h', h]⟩
      · exact .inr ⟨hp, i, hi, hpos, .inr ⟨e, h, h'⟩⟩
  | shuffle n k ih =>
    simp only [bind, Runs, ih]
    constructor
    · rintro ⟨l, hl, ⟨a, h⟩ | ⟨e, h⟩⟩
      · exact .inl ⟨a, ⟨l, hl, h.1⟩, h.2⟩
      · exact .inr ⟨e, ⟨l, hl, h.1⟩, h.2⟩
    · rintro (⟨a, ⟨l, hl, h⟩, h'⟩ | ⟨e, ⟨l, hl, h⟩, h'⟩)
      · exact ⟨l, hl, .inl ⟨a, h, h'⟩⟩
      · exact ⟨l, hl, .inr ⟨e, h, h'⟩⟩

/-- Expectations only depend on the possible results. -/
theorem wp_congr (p : Prog α) (f g : Py α → ℝ≥0∞) (h : ∀ r, p.Runs r → f r = g r) : p.wp f = p.wp g := by
  induction p with
  | done r => exact h r rfl
  | uniform k ih =>
    simp only [wp]
    refine MeasureTheory.setLIntegral_congr_fun measurableSet_Ico fun u hu => ?_
    exact ih u fun r hr => h r ⟨u, hu.1, hu.2, hr⟩
  | randint n k ih =>
    simp only [wp]
    split_ifs with hn
    · exact h _ (.inl ⟨hn, rfl⟩)
    · congr 1
      exact sum_congr rfl fun i hi => ih i fun r hr => h r (.inr ⟨i, mem_range.mp hi, hr⟩)
  | choice p k ih =>
    simp only [wp]
    split_ifs with hp
    · refine sum_congr rfl fun i hi => ?_
      by_cases h0 : 0 < p.getD i 0
      · rw [ih i fun r hr => h r (.inr ⟨hp, i, mem_range.mp hi, h0, hr⟩)]
      · rw [ENNReal.ofReal_of_nonpos (not_lt.mp h0), zero_mul, zero_mul]
    · exact h _ (.inl ⟨hp, rfl⟩)
  | shuffle n k ih =>
    simp only [wp]
    congr 1
    refine sum_congr rfl fun σ _ => ih _ fun r hr => h r ⟨_, ?_, hr⟩
    have : (List.ofFn fun i => (σ i : ℕ)) = (List.ofFn σ).map Fin.val := by rw [List.map_ofFn]; rfl
    rw [this, ← List.map_coe_finRange_eq_range]
    exact (σ.ofFn_comp_perm id).map _ |>.trans (by rw [List.ofFn_id])

/-- The expectation of a constant: every program ends with some result. -/
theorem wp_const (p : Prog α) (c : ℝ≥0∞) : p.wp (fun _ => c) = c := by
  induction p with
  | done r => rfl
  | uniform k ih => simp only [wp, ih, MeasureTheory.setLIntegral_const, Real.volume_Ico]; simp
  | randint n k ih =>
    simp only [wp, ih, sum_const, card_range, nsmul_eq_mul]
    split_ifs with hn
    · rfl
    · rw [mul_comm, mul_div_assoc, ENNReal.div_self (by exact_mod_cast hn) (by simp), mul_one]
  | choice p k ih =>
    simp only [wp, ih]
    split_ifs with hp
    · rw [← sum_mul, ← ENNReal.ofReal_sum_of_nonneg]
      · have : ∑ i ∈ range p.length, p.getD i 0 = p.sum := by
          rw [sum_range, ← Fin.sum_univ_getElem]
          exact sum_congr rfl fun i _ => by simp
        rw [this, hp.2]; simp
      · intro i hi
        rw [getD_of_lt _ _ (mem_range.mp hi)]
        exact hp.1 _ (List.getElem_mem _)
    · rfl
  | shuffle n k ih =>
    simp only [wp, ih, sum_const, card_univ, Fintype.card_perm, Fintype.card_fin, nsmul_eq_mul]
    have : ((n.factorial : ℕ) : ℝ≥0∞) ≠ 0 := by exact_mod_cast (Nat.factorial_pos n).ne'
    rw [mul_comm, mul_div_assoc, ENNReal.div_self this (by simp), mul_one]

theorem loop_succ {σ : Type} (fuel : ℕ) (cond : σ → Bool) (body : σ → Prog σ) (s : σ) :
    loop (fuel + 1) cond body s = if cond s then (body s).bind (loop fuel cond body) else .done (.ok s) := rfl

end Prog

end Verif
