import Verif.Prog

/-! Specification: programs with almost the same law. -/
namespace Verif
namespace Prog

open scoped ENNReal

/-- Whatever set of results is considered (values and exceptions), the probabilities that the results of
`p` and of `q` belong to it differ by at most `ε`. -/
def Close {α : Type} (p q : Prog α) (ε : ℝ) : Prop :=
  ∀ Q : Py α → Prop, |(p.prob Q).toReal - (q.prob Q).toReal| ≤ ε

end Prog
end Verif
