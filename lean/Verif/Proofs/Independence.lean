import Verif.Proofs.Statistics
import Verif.Proofs.FixedLossRuns
import Verif.Proofs.ProgLoop

/-! Helper lemmas for C70: the joint law of repeated draws. -/
namespace Verif

open Finset
open scoped ENNReal

open Classical in
/-- Repeating a program yields the list `l` with the product of the single probabilities. -/
theorem Prog.repeatN_joint {α : Type} (p : Prog α) (l : List α) :
    (p.repeatN l.length).prob (fun r => r = .ok l) = (l.map fun x => p.prob fun r => r = .ok x).prod := by
  unfold Prog.prob
  induction l with
  | nil => simp [Prog.repeatN, Prog.wp, Prog.pure_eq]
  | cons x l ih =>
    rw [List.length_cons, Prog.repeatN, Prog.bind_eq, Prog.wp_bind, List.map_cons, List.prod_cons, ← ih,
      mul_comm, ← Prog.wp_const_mul _ _ (ne_top_of_le_ne_top ENNReal.one_ne_top ?_)]
    swap
    · exact (Prog.wp_mono _ _ (fun _ => 1) fun r _ => by split_ifs <;> simp).trans (Prog.wp_const _ _).le
    refine Prog.wp_congr _ _ _ fun r _ => ?_
    cases r with
    | error e => simp [Prog.post]
    | ok a =>
      rw [Prog.post, Prog.bind_eq, Prog.wp_bind]
      by_cases h : a = x
      · subst h
        rw [if_pos rfl, mul_one]
        refine Prog.wp_congr _ _ _ fun r' _ => ?_
        cases r' <;> simp [Prog.post, Prog.wp, Prog.pure_eq]
      · rw [if_neg (by simpa using h), mul_zero]
        refine Eq.trans (Prog.wp_congr _ _ (fun _ => 0) fun r' _ => ?_) (Prog.wp_const _ _)
        cases r' <;> simp [Prog.post, Prog.wp, Prog.pure_eq, h]

open Classical in
/-- The joint law of a function of independent samples. -/
theorem expIid_indicator_map (𝒯 : Finset (List ℕ)) (p : List ℕ → ℝ≥0∞) (f : List ℕ → List ℕ) (l : List (List ℕ)) :
    expIid 𝒯 p l.length (fun l' => if l'.map f = l then 1 else 0)
      = (l.map fun T => ∑ T' ∈ 𝒯, p T' * if f T' = T then 1 else 0).prod := by
  induction l with
  | nil => simp [expIid]
  | cons T l ih =>
    rw [List.length_cons, expIid, List.map_cons, List.prod_cons, sum_mul, ← ih]
    refine sum_congr rfl fun T' _ => ?_
    simp only [List.map_cons, List.cons.injEq]
    by_cases h : f T' = T
    · simp [h]
    · simp only [h, false_and, if_false, mul_zero, zero_mul]
      have : ∀ n, expIid 𝒯 p n (fun _ => 0) = 0 := by
        intro n
        induction n with
        | zero => rfl
        | succ n ih => simp [expIid, ih]
      rw [this, mul_zero]

end Verif
