import Verif.Model.UniformBobsLevels
import Verif.Proofs.UniformBobsRuns

/-! Helper lemmas: hierarchy levels of the uniform-loss sampler with approximated modes. -/
namespace Verif

variable {m k : ℕ}

/-- The object of `Verif.Model.UniformBobs` for a level in the range. -/
def UAnyObj.toObj (o : UAnyObj m m) : UBobsObj m :=
  { h := o.h.toNat, eta := o.eta, threads := o.threads, U := o.U, qft := o.qft }

theorem uAnyApproximated_eq (m : ℕ) (h : ℤ) (h0 : 0 ≤ h) (eta : ℝ) (part : List ℕ) :
    uAnyApproximated m h eta part = uBobsApproximated m h.toNat eta part := by
  unfold uAnyApproximated uBobsApproximated
  by_cases hm : h < m
  · rw [if_neg (by omega), if_neg (by omega)]
  · rw [if_pos (by omega), if_pos (by omega)]

theorem uAnyMatrix_eq (o : UAnyObj m m) (h0 : 0 ≤ o.h) (hm : o.h ≤ m) : uAnyMatrix o = uBobsMatrix o.toObj := by
  unfold uAnyMatrix uBobsMatrix
  rw [if_neg (by omega)]
  simp only [UAnyObj.toObj, dif_pos]
  rw [show ((m : ℤ) - o.h).toNat = m - o.h.toNat by omega]

theorem uAnySimulate_eq (hash : List ℕ → ℤ) (sub : CalcCfg ℂ → Py (List ℂ)) (fuel : ℕ) (o : UAnyObj m m)
    (h0 : 0 ≤ o.h) (hm : o.h ≤ m) (S : List ℕ) (N : ℤ) :
    uAnySimulate hash sub fuel o S N = uBobsSimulate hash sub fuel o.toObj S N := by
  have hs : ∀ a b c d, uAnySample sub fuel o a b c d = uBobsSample sub fuel o.toObj a b c d := by
    intro a b c d
    unfold uAnySample uBobsSample
    rw [uAnyMatrix_eq o h0 hm]
  rw [uBobsSimulate_def]
  unfold uAnySimulate
  rw [uAnyApproximated_eq _ _ h0, pyTake, pyDrop, if_pos h0, if_pos h0]
  simp only [hs]
  rfl

theorem uAnyInit_eq (U : Matrix (Fin m) (Fin m) ℂ) (cpu : ℕ) (eta : ℝ) (h t : ℤ) (h0 : 0 ≤ h) (hm : h ≤ m)
    (o : UAnyObj m m) (ho : uAnyInit m U cpu eta h t = .ok o) :
    o.h = h ∧ uBobsInit U cpu eta h.toNat t = .ok o.toObj := by
  unfold uAnyInit generateQftInt at ho
  rw [if_neg (by omega), show ((m : ℤ) - h).toNat = m - h.toNat by omega] at ho
  unfold uBobsInit
  cases hQ : generateQft (m - h.toNat) m with
  | error e => rw [hQ] at ho; cases ho
  | ok Q =>
    rw [hQ] at ho
    injection ho with ho
    subst ho
    exact ⟨rfl, rfl⟩

theorem uAnyInit_fields {U : Matrix (Fin m) (Fin m) ℂ} {cpu : ℕ} {eta : ℝ} {h t : ℤ} {o : UAnyObj m k}
    (ho : uAnyInit k U cpu eta h t = .ok o) : o.h = h ∧ o.threads = uBobsThreadsNumber cpu t := by
  unfold uAnyInit at ho
  cases hQ : generateQftInt (k - h) k with
  | error e => rw [hQ] at ho; cases ho
  | ok Q =>
    rw [hQ] at ho
    injection ho with ho
    subst ho
    exact ⟨rfl, rfl⟩

/-- With a calculator of another size no sampling matrix is built. -/
theorem uAnyMatrix_raises (o : UAnyObj m k) (hk : m ≠ k) : (uAnyMatrix o).All (fun _ => False) fun _ => True := by
  unfold uAnyMatrix
  split_ifs
  · exact Prog.all_done_error trivial
  · have any : ∀ {α : Type} (p : Prog α), p.All (fun _ => True) fun _ => True := by
      intro α p r _
      cases r with
      | ok a => exact .inl ⟨a, rfl, trivial⟩
      | error e => exact .inr ⟨e, rfl, trivial⟩
    refine Prog.all_bind (any _) fun us _ => Prog.all_bind (any _) fun P _ => Prog.all_bind (any _) fun σ _ => ?_
    exact Prog.all_done_error trivial

theorem uAnySimulate_raises (hash : List ℕ → ℤ) (sub : CalcCfg ℂ → Py (List ℂ)) (fuel : ℕ) (o : UAnyObj m k)
    (hk : m ≠ k) (ht : 0 < o.threads) (S : List ℕ) (N : ℤ) (hN : 1 ≤ N) :
    (uAnySimulate hash sub fuel o S N).All (fun _ => False) fun _ => True := by
  have any : ∀ {α : Type} (p : Prog α), p.All (fun _ => True) fun _ => True := by
    intro α p r _
    cases r with
    | ok a => exact .inl ⟨a, rfl, trivial⟩
    | error e => exact .inr ⟨e, rfl, trivial⟩
  unfold uAnySimulate
  rw [if_neg (by omega)]
  refine Prog.all_bind (any _) fun a _ => Prog.all_bind (any _) fun b _ => Prog.all_bind (any _) fun c _ => ?_
  rw [distributeUniformly_ok _ _ ht]
  simp only [Prog.lift_def, Prog.bind_eq, Prog.done_ok_bind]
  rw [uBobsPool_eq, distribute_sum _ _ ht]
  refine repeatN_raise ?_ _ (by omega)
  unfold uAnySample
  refine Prog.all_bind (any _) fun st _ => Prog.all_bind (uAnyMatrix_raises o hk) ?_
  intro B hB
  exact hB.elim

end Verif
