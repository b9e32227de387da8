import Verif.Model.ApproxCalc
import Verif.Props.Distributions
import Verif.Proofs.Dilation
import Verif.Proofs.LossyNet
import Verif.Proofs.FixedLossRuns
import Verif.Props.QuantumUtilities

/-! Lemmas about the calculator for approximations by separable states. -/
namespace Verif

open Finset
open scoped ENNReal

variable {m : ℕ}

/-- The bunching loop after `j` steps. -/
theorem bunchLoop_ok (S : List ℕ) (j : ℕ) (hj : j ≤ S.length) :
    (List.range j).foldlM (fun (st : List ℕ × ℕ) i => do
        let x ← pyGetN st.1 i
        let state ← pySetN st.1 i 0
        pure (state, st.2 + x)) (S, 0)
      = (.ok (List.replicate j 0 ++ S.drop j, (S.take j).sum) : Py (List ℕ × ℕ)) := by
  induction j with
  | zero => simp [pure, Except.pure]
  | succ j ih =>
    have hlt : j < S.length := hj
    rw [List.range_succ, List.foldlM_append, ih (by omega), ok_bind, List.foldlM_cons]
    have h1 : (List.replicate j 0 ++ S.drop j)[j]? = some S[j] := by
      rw [List.getElem?_append_right (by simp), List.getElem?_drop]
      simp
    simp only [pyGetN, h1, pySetN]
    rw [if_pos (by simp; omega)]
    simp only [bind, Except.bind, pure, Except.pure, List.foldlM_nil]
    rw [List.take_succ_eq_append_getElem hlt, List.sum_append, List.sum_singleton]
    congr 2
    rw [List.set_append_right _ _ (by simp), List.length_replicate, Nat.sub_self,
      List.drop_eq_getElem_cons hlt, List.set_cons_zero, List.replicate_succ', List.append_assoc]
    rfl

theorem zeroExtend_ok (S : List ℕ) (hS : S.length = m) : zeroExtend m S = .ok (S ++ List.replicate m 0) :=
  if_pos hS

theorem approxInitialState_ok (o : ApproxObj m) (c : ApproxCfg m) (k : ℕ) (ho : o.config = some c)
    (hc : c.approximatedModes = some k) (hS : c.initialState.length = m) (h1 : 1 ≤ k) (hk : k ≤ m) :
    approxInitialState o = .ok (List.replicate (k - 1) 0 ++ (c.initialState.take (k - 1)).sum :: c.initialState.drop k
      ++ List.replicate m 0) := by
  unfold approxInitialState
  rw [ho, attr, ok_bind, hc, zeroExtend_ok _ hS, ok_bind, attr, ok_bind]
  rw [bunchLoop_ok _ _ (by simp; omega), ok_bind]
  simp only [pySet]
  have hlt : k - 1 < c.initialState.length := by omega
  rw [List.take_append_of_le_length hlt.le, List.drop_append_of_le_length hlt.le]
  have : pyIdx (List.replicate (k - 1) 0 ++ (c.initialState.drop (k - 1) ++ List.replicate m 0)).length ((k : ℤ) - 1)
      = some (k - 1) := by
    unfold pyIdx
    rw [if_pos (by omega), if_pos (by simp; omega)]
    congr 1
    omega
  rw [this]
  simp only
  rw [List.set_append_right _ _ (by simp), List.length_replicate, Nat.sub_self,
    List.drop_eq_getElem_cons hlt, List.cons_append, List.set_cons_zero, show k - 1 + 1 = k by omega]
  simp

/-- With no approximated modes the last mode of the environment is set to what it is: empty. -/
theorem approxInitialState_zero (o : ApproxObj m) (c : ApproxCfg m) (ho : o.config = some c) (hm : 0 < m)
    (hc : c.approximatedModes = some 0) (hS : c.initialState.length = m) :
    approxInitialState o = .ok (c.initialState ++ List.replicate m 0) := by
  unfold approxInitialState
  rw [ho, attr, ok_bind, hc, zeroExtend_ok _ hS, ok_bind, attr, ok_bind]
  rw [bunchLoop_ok _ _ (by simp), ok_bind]
  simp only [pySet, Nat.zero_sub, List.replicate_zero, List.nil_append, List.drop_zero, List.take_zero, List.sum_nil]
  have : pyIdx (c.initialState ++ List.replicate m 0).length (((0 : ℕ) : ℤ) - 1) = some (m + m - 1) := by
    unfold pyIdx
    rw [if_neg (by omega), if_pos (by simp; omega)]
    congr 1
    simp [hS]
    omega
  rw [this]
  simp only
  rw [List.set_append_right _ _ (by omega), hS]
  congr 2
  obtain ⟨n, rfl⟩ : ∃ n, m = n + 1 := ⟨m - 1, by omega⟩
  rw [show n + 1 + (n + 1) - 1 - (n + 1) = n by omega]
  apply List.ext_getElem
  · simp
  · intro i h1 h2
    rw [List.getElem_set]
    split_ifs <;> simp

theorem rowsOf_length {a b : ℕ} (A : Matrix (Fin a) (Fin b) ℂ) : (rowsOf A).length = a := by simp [rowsOf]

theorem rowsOf_row {a b : ℕ} (A : Matrix (Fin a) (Fin b) ℂ) : ∀ r ∈ rowsOf A, r.length = b := by
  intro r hr
  obtain ⟨i, rfl⟩ := List.mem_ofFn.mp hr
  simp

/-- The states considered for an outcome. -/
theorem approxOutcomes_ok (o : ApproxObj m) (c : ApproxCfg m) (ho : o.config = some c) (hm : 0 < m) (T : List ℕ)
    (hs : T.sum ≤ c.initialNumber) (fuel : ℕ) (hf : genFuel (m - 1) (c.initialNumber - T.sum) ≤ fuel) :
    approxOutcomes fuel o T = .ok ((allStates (m - 1) (c.initialNumber - T.sum) false).map fun e => T ++ e) := by
  unfold approxOutcomes
  rw [ho]
  have := generatePossibleStates_ok fuel (c.initialNumber - T.sum) (m - 1) false hf
  rw [show m - 1 + 1 = m by omega, Nat.cast_sub hs] at this
  rw [attr, ok_bind, this, ok_bind]
  rfl

theorem genFuel_mono (m : ℕ) {a b : ℕ} (h : a ≤ b) : genFuel m a ≤ genFuel m b := by
  unfold genFuel
  obtain ⟨d, rfl⟩ := Nat.exists_eq_add_of_le h
  rw [show a + d + 1 = a + 1 + d by omega, List.range_add (n := a + 1) (m := d), List.map_append, List.sum_append]
  omega

theorem approxOutcome_ok (gray : ℕ → List ℕ) (hgray : ∀ n, IsGrayCode n (gray n)) (t : ℤ) (hash : List ℕ → ℤ)
    (o : ApproxObj m) (c : ApproxCfg m) (ho : o.config = some c) (hm : 0 < m) (st : List ℕ)
    (hst : o.initialState = some st) (hlen : st.length = m + m) (hn : st.sum = c.initialNumber)
    (hinj : ∀ a b : List ℕ, StateLE a st → a.sum = st.sum → StateLE b st → b.sum = st.sum → hash a = hash b → a = b)
    (B : Matrix (Fin (m + m)) (Fin (m + m)) ℂ) (T : List ℕ) (hT : T.length = m) (hs : T.sum ≤ st.sum) (fuel : ℕ)
    (hf : genFuel (m - 1) (c.initialNumber - T.sum) ≤ fuel) (hf' : (st.map (· + 1)).prod ≤ fuel) :
    approxOutcome (factoryPermanent gray t fuel) hash fuel o T B = .ok (lossyProb (rowsOf B) m st T) := by
  unfold approxOutcome
  rw [approxOutcomes_ok o c ho hm T (by omega) fuel hf, ok_bind, ho, attr, ok_bind, hst, attr, ok_bind]
  simp only
  have hne : st ≠ [] := by rintro rfl; simp at hlen; omega
  unfold fixedLossProbabilities
  have key : ∀ T' ∈ (allStates (m - 1) (c.initialNumber - T.sum) false).map (fun e => T ++ e),
      fixedLossOutcome Complex.normSq (factoryPermanent gray t fuel) hash
        (⟨rowsOf B, st, c.initialNumber, 2 * m, 0, c.initialNumber, 1⟩ : ExpConfig ℂ ℝ) T'
        = .ok (bosonProb (rowsOf B) st T') := by
    intro T' hT'
    obtain ⟨e, he, rfl⟩ := List.mem_map.mp hT'
    rw [mem_allStates] at he
    simp only [Bool.false_eq_true, if_false] at he
    have hsum : (T ++ e).sum = st.sum := by rw [List.sum_append]; omega
    have hl : (T ++ e).length = m + m := by rw [List.length_append]; omega
    rw [fixedLossOutcome_ok _ hash ⟨rowsOf B, st, c.initialNumber, 2 * m, 0, c.initialNumber, 1⟩ (T ++ e)
      (fun l hl' hs' => factory_perm gray hgray t (rowsOf B) st (T ++ e)
        (by rw [rowsOf_length]; exact rowsOf_row B) (by rw [hlen, hl]) (by rw [hlen, rowsOf_length]) hne fuel hf' l hl'
        (by rw [hs', hsum, ← hn]))
      hn.symm (by simp only; omega) (by simp only; omega)
      (by simp only; rw [← hn]; exact hinj)]
    simp only
    rw [← hn, fixedLossProb_full]
  rw [mapM_ok (f := fixedLossOutcome Complex.normSq (factoryPermanent gray t fuel) hash
        (⟨rowsOf B, st, c.initialNumber, 2 * m, 0, c.initialNumber, 1⟩ : ExpConfig ℂ ℝ))
      (g := bosonProb (rowsOf B) st) _ key, ok_bind, lossyProb_eq_states _ _ _ _ hs]
  simp only [pure, Except.pure, List.map_map]
  congr 1
  rw [← List.sum_toFinset _ (allStates_nodup _ _ _)]
  refine sum_congr ?_ fun _ _ => rfl
  ext e
  rw [List.mem_toFinset, mem_allStates, mem_statesFin]
  simp only [Bool.false_eq_true, if_false]
  omega

end Verif
