import Verif.Model.Distributions
import Verif.Proofs.FockStates
import Verif.Proofs.PermFinal
import Verif.Proofs.Generate

/-! Helper lemmas: the exact distribution calculators. -/
namespace Verif

open Finset

theorem floatDiv_ok {x y : ℝ} (h : y ≠ 0) : floatDiv x y = .ok (x / y) := by
  rw [floatDiv, if_neg h]

theorem fact_ne (n : ℕ) : ((n.factorial : ℕ) : ℝ) ≠ 0 := by exact_mod_cast (Nat.factorial_pos n).ne'

theorem foldlM_floatDiv (l : List ℕ) (x : ℝ) :
    l.foldlM (fun (sub : ℝ) (o : Nat) => floatDiv sub (o.factorial : ℝ)) x
      = .ok (x / factProd l) := by
  induction l generalizing x with
  | nil => simp [factProd, pure_eq_ok]
  | cons a l ih =>
    rw [List.foldlM_cons, floatDiv_ok (fact_ne a), ok_bind, ih, factProd, factProd, List.map_cons,
      List.prod_cons, Nat.cast_mul, div_div]

theorem foldlM_floatDiv_range (T : List ℕ) (p : ℝ) :
    (List.range T.length).foldlM
      (fun (p : ℝ) i => do
        let t ← pyGetN T i
        floatDiv p ((t.factorial : Nat) : ℝ)) p
      = .ok (p / factProd T) := by
  have key : ∀ k, k ≤ T.length → (List.range k).foldlM (fun (p : ℝ) i => (do
        let t ← pyGetN T i
        floatDiv p ((t.factorial : Nat) : ℝ) : Py ℝ)) p = .ok (p / factProd (T.take k)) := by
    intro k
    induction k with
    | zero => intro _; simp [factProd, pure_eq_ok]
    | succ k ih =>
      intro hk
      rw [List.range_succ, List.foldlM_append, ih (by omega), ok_bind]
      simp only [List.foldlM_cons, List.foldlM_nil]
      rw [pyGetN_ok (by omega), ok_bind, floatDiv_ok (fact_ne _), ok_bind, pure_eq_ok,
        List.take_succ_eq_append_getElem (by omega), div_div, factProd, factProd, List.map_append,
        List.prod_append]
      simp
  have := key T.length (le_refl _)
  rwa [List.take_length] at this

theorem foldl_last {α : Type*} (g : α → ℝ) (L : List α) (x : ℝ) (o : Option α) :
    L.foldl (fun (st : ℝ × Option α) l => (st.1 + g l, some l)) (x, o)
      = (x + (L.map g).sum, L.getLast?.or o) := by
  induction L generalizing x o with
  | nil => simp
  | cons a L ih =>
    rw [List.foldl_cons, ih, List.map_cons, List.sum_cons, add_assoc]
    cases L with
    | nil => simp
    | cons b L => simp [List.getLast?_eq_some_getLast]

/-- The generated lossy inputs, for every input and every possible particle number. -/
theorem lossy_spec (hash : List Nat → Int) (s : List Nat) (k : Nat) (hk : k ≤ s.sum)
    (hinj : ∀ a b : List Nat, StateLE a s → a.sum = k → StateLE b s → b.sum = k →
      hash a = hash b → a = b) :
    ∃ L, generateLossyNParticleInputStates hash s k = .ok L ∧ L.Nodup ∧ L ≠ [] ∧
      ∀ l : List Nat, l ∈ L ↔ StateLE l s ∧ l.sum = k := by
  by_cases hs : s.sum = 0
  · refine ⟨[s], ?_, by simp, by simp, fun l => ?_⟩
    · unfold generateLossyNParticleInputStates
      rw [foldlM_range_get s (fun acc i c => pure (acc ++ List.replicate c i))]
      rw [foldlM_ok (fun (acc : List Nat) (p : Nat × Nat) => pure (acc ++ List.replicate p.1 p.2))
        (fun acc p => acc ++ List.replicate p.1 p.2) _ _ (fun _ _ _ => rfl)]
      simp [hs]
    · rw [List.mem_singleton]
      constructor
      · rintro rfl
        exact ⟨List.forall₂_same.mpr fun _ _ => le_refl _, by omega⟩
      · rintro ⟨h, -⟩
        have hz : ∀ x ∈ s, x = 0 := List.sum_eq_zero_iff.mp hs
        refine List.ext_getElem h.length_eq fun i h1 h2 => ?_
        have := (List.forall₂_iff_get.mp h).2 i h1 h2
        have h0 := hz _ (List.getElem_mem h2)
        simp only [List.get_eq_getElem] at this
        omega
  · refine ⟨_, generateLossy_ok hash s k hs, ?_⟩
    obtain ⟨h1, h2⟩ := hashDedup_spec hash ((itCombinations (particles s) k).map (occOf s.length)) (by
      intro a ha b hb
      rw [mem_occ_combs] at ha hb
      exact hinj a b ha.1 ha.2 hb.1 hb.2)
    refine ⟨h1, ?_, fun l => by rw [h2, mem_occ_combs]⟩
    intro h
    have hne : itCombinations (particles s) k ≠ [] := by
      intro e
      have := itCombinations_length (particles s) k
      rw [e, particlesFrom_length] at this
      have := Nat.choose_pos hk
      simp_all
    obtain ⟨c, hc⟩ := List.exists_mem_of_ne_nil _ hne
    have := (h2 _).mpr (List.mem_map_of_mem (f := occOf s.length) hc)
    rw [h] at this
    simp at this

theorem prod_succ_mono {l s : List ℕ} (h : StateLE l s) :
    (l.map (· + 1)).prod ≤ (s.map (· + 1)).prod := by
  induction h with
  | nil => simp
  | cons h _ ih => simp only [List.map_cons, List.prod_cons]; exact Nat.mul_le_mul (by omega) ih

theorem fixedLossOutcome_ok (perm : CalcCfg ℂ → Py ℂ) (hash : List Nat → Int)
    (c : ExpConfig ℂ ℝ) (T : List ℕ)
    (hperm : ∀ l, StateLE l c.initialState → l.sum = c.left →
      perm ⟨c.matrix, l, T⟩ = .ok (scatteringPermanent c.matrix l T))
    (hn : c.initialNumber = c.initialState.sum) (hm : c.modes = T.length)
    (hk : c.left ≤ c.initialState.sum)
    (hinj : ∀ a b : List Nat, StateLE a c.initialState → a.sum = c.left → StateLE b c.initialState →
      b.sum = c.left → hash a = hash b → a = b) :
    fixedLossOutcome Complex.normSq perm hash c T
      = .ok (fixedLossProb c.matrix c.initialState c.left T) := by
  obtain ⟨L, hL, hnd, hne, hmem⟩ := lossy_spec hash c.initialState c.left hk hinj
  unfold fixedLossOutcome probabilityForIndistinguishable
  rw [hL, ok_bind]
  rw [foldlM_ok (fun (st : ℝ × Option (List Nat)) lossyInput => (do
      let mult ← lossyInputMultiplicity c.initialState lossyInput
      let x ← perm ⟨c.matrix, lossyInput, T⟩
      let sub ← lossyInput.foldlM (fun (sub : ℝ) (o : Nat) => floatDiv sub (o.factorial : ℝ))
        (Complex.normSq x)
      pure (st.1 + sub * (mult : ℝ), some lossyInput) : Py _))
    (fun st l => (st.1 + Complex.normSq (scatteringPermanent c.matrix l T) / factProd l *
      ((List.zipWith Nat.choose c.initialState l).prod : ℝ), some l)) L _ (by
      intro st l hl
      obtain ⟨h1, h2⟩ := (hmem l).mp hl
      rw [lossyInputMultiplicity_ok h1, ok_bind, hperm l h1 h2, ok_bind, foldlM_floatDiv, ok_bind]
      rfl)]
  rw [ok_bind, foldl_last (fun l => Complex.normSq (scatteringPermanent c.matrix l T) / factProd l *
      ((List.zipWith Nat.choose c.initialState l).prod : ℝ)), List.getLast?_eq_some_getLast hne]
  have hlast := ((hmem _).mp (List.getLast_mem hne)).2
  have hch : ((c.initialNumber.choose c.left : ℕ) : ℝ) ≠ 0 := by
    rw [hn]; exact_mod_cast (Nat.choose_pos hk).ne'
  simp only [Option.some_or, hlast]
  rw [floatDiv_ok (fact_ne _), ok_bind, floatDiv_ok hch, ok_bind, hm, foldlM_floatDiv_range]
  congr 1
  unfold fixedLossProb
  rw [sum_stateOf c.initialState c.left L.toFinset (fun l => by rw [List.mem_toFinset, hmem])
    (fun l => bosonProb c.matrix l T), List.sum_toFinset _ hnd, hn]
  have hk0 := fact_ne c.left
  have hsum : (L.map fun l => ((List.zipWith Nat.choose c.initialState l).prod : ℝ) *
      bosonProb c.matrix l T).sum = (L.map fun l =>
        Complex.normSq (scatteringPermanent c.matrix l T) / factProd l *
      ((List.zipWith Nat.choose c.initialState l).prod : ℝ)).sum * (factProd T : ℝ)⁻¹ := by
    rw [← List.sum_map_mul_right]
    congr 1
    refine List.map_congr_left fun l _ => ?_
    unfold bosonProb
    rw [← div_div]
    ring
  rw [hsum, zero_add]
  field_simp

end Verif
