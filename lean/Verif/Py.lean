/-
Python semantics used throughout the model: exceptions as values, list indexing with
Python's negative indices, checked subtraction on naturals, and `while` loops with fuel.
-/
namespace Verif

/-- The exceptions the modelled code can raise, plus two model-level outcomes:
`outOfFuel` (a `while` loop was not given enough iterations) and `negative` (a Python
integer that the model represents by a natural number would have become negative).
Every theorem that claims a normal result thereby also claims that neither happens. -/
inductive PyErr where
  | indexError
  | valueError
  | attributeError
  | assertionError
  | zeroDivisionError
  | typeError
  | nameError
  | importError
  | keyError
  | outOfFuel
  | negative
  deriving DecidableEq, Repr

/-- A Python computation: a value or an exception. -/
abbrev Py (α : Type _) := Except PyErr α

/-- Resolution of a Python index against a sequence of length `n`
(language semantics: `-n ≤ i < n`, negative indices count from the end). -/
def pyIdx (n : Nat) (i : Int) : Option Nat :=
  if 0 ≤ i then (if i < (n : Int) then some i.toNat else none)
  else if -(n : Int) ≤ i then some (i + (n : Int)).toNat else none

/-- `l[i]`, raising `IndexError` when out of range. -/
def pyGet {α : Type _} (l : List α) (i : Int) : Py α :=
  match pyIdx l.length i with
  | none => .error .indexError
  | some k => match l[k]? with
    | none => .error .indexError
    | some a => .ok a

/-- `l[i]` for a non-negative index. -/
def pyGetN {α : Type _} (l : List α) (i : Nat) : Py α :=
  match l[i]? with
  | none => .error .indexError
  | some a => .ok a

/-- `l[i] = v`, raising `IndexError` when out of range. -/
def pySet {α : Type _} (l : List α) (i : Int) (v : α) : Py (List α) :=
  match pyIdx l.length i with
  | none => .error .indexError
  | some k => .ok (l.set k v)

/-- `l[i] = v` for a non-negative index. -/
def pySetN {α : Type _} (l : List α) (i : Nat) (v : α) : Py (List α) :=
  if i < l.length then .ok (l.set i v) else .error .indexError

/-- `range(a, b)` on integers. -/
def pyRange (a b : Int) : List Int :=
  (List.range (b - a).toNat).map fun (i : Nat) => a + (i : Int)

/-- Subtraction of Python integers that the model keeps in `Nat`. -/
def natSub (a b : Nat) : Py Nat :=
  if b ≤ a then .ok (a - b) else .error .negative

/-- `while cond(s): s = body(s)`, giving up with `outOfFuel` after `fuel` iterations. -/
def pyWhile {σ : Type _} : Nat → (σ → Py Bool) → (σ → Py σ) → σ → Py σ
  | 0, _, _, _ => .error .outOfFuel
  | fuel + 1, cond, body, s => do
    if ← cond s then
      let s' ← body s
      pyWhile fuel cond body s'
    else
      pure s

/-- `a / b` where the denominator is a Python integer: `ZeroDivisionError` when it is 0. -/
def pyDivInt {K : Type _} [Div K] [IntCast K] (a : K) (b : Int) : Py K :=
  if b = 0 then .error .zeroDivisionError else .ok (a / (b : K))

end Verif
