import Verif.Py
import Mathlib.MeasureTheory.Measure.Lebesgue.Basic
import Mathlib.Data.Fintype.Perm

/-!
Programs with random draws.  A program is a tree whose nodes are the calls of the random sources
used by the code and whose leaves are results (values or exceptions).  Two semantics are given:
`wp` computes expectations of functions of the result (probabilities for indicator functions),
`Runs` says which results are possible.
-/
namespace Verif

open Finset
open scoped ENNReal

/-- A Python computation with random draws. -/
inductive Prog (α : Type) : Type
  /-- no draw: a value or an exception -/
  | done (r : Py α)
  /-- `random()`: uniform on `[0, 1)` -/
  | uniform (k : ℝ → Prog α)
  /-- `randint(0, n)`: uniform on `0, …, n - 1`; `ValueError` if `n = 0` -/
  | randint (n : ℕ) (k : ℕ → Prog α)
  /-- `numpy.random.choice(range(len(p)), p=p)`: `ValueError` unless `p` is a probability vector -/
  | choice (p : List ℝ) (k : ℕ → Prog α)
  /-- `numpy.random.permutation(n)` / `shuffle`: a uniform permutation of `0, …, n - 1` -/
  | shuffle (n : ℕ) (k : List ℕ → Prog α)

namespace Prog

/-- Sequential composition; exceptions propagate. -/
def bind {α β : Type} : Prog α → (α → Prog β) → Prog β
  | .done (.ok a), f => f a
  | .done (.error e), _ => .done (.error e)
  | .uniform k, f => .uniform fun u => (k u).bind f
  | .randint n k, f => .randint n fun i => (k i).bind f
  | .choice p k, f => .choice p fun i => (k i).bind f
  | .shuffle n k, f => .shuffle n fun l => (k l).bind f

instance : Monad Prog where
  pure a := .done (.ok a)
  bind := Prog.bind

/-- Deterministic Python code inside a program with draws. -/
instance : MonadLift (Except PyErr) Prog := ⟨Prog.done⟩

/-- `random()` -/
def random : Prog ℝ := .uniform fun u => pure u

/-- `randint(0, n)` -/
def randBelow (n : ℕ) : Prog ℕ := .randint n fun i => pure i

/-- `choice(range(len(p)), p=p)` -/
def categorical (p : List ℝ) : Prog ℕ := .choice p fun i => pure i

/-- `permutation(n)` -/
def permutation (n : ℕ) : Prog (List ℕ) := .shuffle n fun l => pure l

/-- The check of `numpy.random.choice` on its argument `p` (in exact arithmetic; numpy accepts
deviations of the sum from 1 of the size of rounding errors). -/
def IsProbVector (p : List ℝ) : Prop := (∀ x ∈ p, 0 ≤ x) ∧ p.sum = 1

open Classical in
/-- Expectation of `f` applied to the result. -/
noncomputable def wp {α : Type} : Prog α → (Py α → ℝ≥0∞) → ℝ≥0∞
  | .done r, f => f r
  | .uniform k, f => ∫⁻ u in Set.Ico (0 : ℝ) 1, (k u).wp f
  | .randint n k, f => if n = 0 then f (.error .valueError) else (∑ i ∈ range n, (k i).wp f) / n
  | .choice p k, f =>
    if IsProbVector p then ∑ i ∈ range p.length, ENNReal.ofReal (p.getD i 0) * (k i).wp f
    else f (.error .valueError)
  | .shuffle n k, f =>
    (∑ σ : Equiv.Perm (Fin n), (k (List.ofFn fun i => (σ i : ℕ))).wp f) / n.factorial

open Classical in
/-- The probability that the result satisfies `P`. -/
noncomputable def prob {α : Type} (p : Prog α) (P : Py α → Prop) : ℝ≥0∞ :=
  p.wp fun r => if P r then 1 else 0

/-- `p.Runs r`: some sequence of draws lets `p` end with `r`. -/
def Runs {α : Type} : Prog α → Py α → Prop
  | .done r', r => r = r'
  | .uniform k, r => ∃ u : ℝ, 0 ≤ u ∧ u < 1 ∧ (k u).Runs r
  | .randint n k, r => (n = 0 ∧ r = .error .valueError) ∨ ∃ i < n, (k i).Runs r
  | .choice p k, r =>
    (¬ IsProbVector p ∧ r = .error .valueError) ∨
      (IsProbVector p ∧ ∃ i < p.length, 0 < p.getD i 0 ∧ (k i).Runs r)
  | .shuffle n k, r => ∃ l : List ℕ, l.Perm (List.range n) ∧ (k l).Runs r

/-- `while cond(s): s = body(s)`, giving up with `outOfFuel` after `fuel` iterations. -/
def loop {σ : Type} : ℕ → (σ → Bool) → (σ → Prog σ) → σ → Prog σ
  | 0, _, _, _ => .done (.error .outOfFuel)
  | fuel + 1, cond, body, s =>
    if cond s then do
      let s' ← body s
      loop fuel cond body s'
    else
      pure s

end Prog

end Verif
