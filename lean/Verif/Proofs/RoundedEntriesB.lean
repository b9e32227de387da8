import Verif.Proofs.RoundedNormal
import Verif.Proofs.RoundedSubmatrix
import Verif.Proofs.RoundedSquares
import Verif.Proofs.CliffordsB
import Verif.Proofs.Distributions

/-! Helper lemmas: the entries of the pmf of version B in floating-point arithmetic. -/
namespace Verif

open Finset

variable (R : Rounding) (A : ComplexArith)

theorem ComplexArith.foldl_add_close {ι : Type} (L : List ι) (f' f : ι → ℂ) (w : ι → ℝ) {k : ℕ}
    (hw : ∀ j ∈ L, (2 : ℝ) ^ (-1000 : ℤ) ≤ w j) (hf : ∀ j ∈ L, Close k (w j) (f' j) (f j)) :
    ∀ {X : ℝ} {a' a : ℂ} {d : ℕ}, Close (k + d) X a' a →
      Close (k + d + L.length) (X + (L.map w).sum) (L.foldl (fun acc j => A.add acc (f' j)) a') (a + (L.map f).sum) := by
  induction L with
  | nil => intro X a' a d h; simpa using h
  | cons j L ih =>
    intro X a' a d h
    have h1 := A.add_close h ((hf j (by simp)).mono (Nat.le_add_right k d))
      ((hw j (by simp)).trans (le_add_of_nonneg_left h.bound_nonneg))
    have h2 := ih (fun i hi => hw i (by simp [hi])) (fun i hi => hf i (by simp [hi])) (d := d + 1) h1
    simp only [List.foldl_cons, List.map_cons, List.sum_cons, List.length_cons]
    rw [← add_assoc X, ← add_assoc a, Nat.add_comm L.length 1, ← Nat.add_assoc (k + d)]
    exact h2

/-- One entry of the pmf before normalisation. -/
noncomputable def entryVal (U : List (List ℂ)) (l T : List ℕ) (j : ℕ) : ℝ :=
  Complex.normSq (amp (colOf U) (j :: particles T) (particles l))

theorem gccbEntryR_near {e k n : ℕ} {U' U : List (List ℂ)} {l T : List ℕ} {perms : List ℂ} {Y : ℝ} (hY : 1 ≤ Y)
    (hrows : ∀ r ∈ U', r.length = n) (hT : T.length ≤ U'.length) (hn : l.length ≤ n) (hm : l.length ≤ 2 ^ 20)
    (hU : MatClose e U' U) (hs : l.sum = T.sum + 1)
    (hp : ListClose l.length k (fun _ => Y) perms fun i => (subResult U l T).getD i 0) (j : ℕ) (hj : j < T.length) :
    ∃ y, gccbEntryR R A U' l perms j = .ok y ∧ (IsFloat y ∧ 0 ≤ y) ∧
      |y - entryVal U l T j| ≤ (qf ^ (2 * (k + e + 2 + l.length) + 3) - 1) * (((l.sum : ℝ) + 1) * Y) ^ 2 := by
  have hjU : j < U'.length := by omega
  have hstep : ∀ (acc : ℂ), ∀ i ∈ List.range l.length,
      ((do
        let c ← pyGetN l i
        let p ← pyGetN perms i
        let row ← pyGetN U' j
        let x ← pyGetN row i
        pure (A.add acc (A.mul (A.mul (c : ℂ) p) x))) : Py ℂ)
      = .ok (A.add acc (A.mul (A.mul ((l.getD i 0 : ℕ) : ℂ) (perms.getD i 0)) (mget U' j i))) := by
    intro acc i hi
    have hi := List.mem_range.mp hi
    have hrow : (U'[j]).length = n := hrows _ (List.getElem_mem hjU)
    have hip : i < perms.length := by rw [hp.1]; exact hi
    rw [pyGetN_ok hi, ok_bind, pyGetN_ok hip, ok_bind, pyGetN_ok hjU, ok_bind, pyGetN_ok (by omega), ok_bind,
      getD_of_lt _ _ hi, getD_of_lt _ _ hip]
    unfold mget
    rw [getD_of_lt _ _ hjU, getD_of_lt _ _ (by omega)]
    rfl
  set m := l.length with hmdef
  have hpos : 0 < m := by
    rw [hmdef]
    refine List.length_pos_iff.mpr fun h => ?_
    rw [h] at hs
    simp at hs
  have hmR : (0 : ℝ) < m := by exact_mod_cast hpos
  -- weights of the summands
  set w : ℕ → ℝ := fun i => (if l.getD i 0 = 0 then (1 / m : ℝ) else (l.getD i 0 : ℝ)) * Y * 1 with hw
  have hw0 : ∀ i ∈ List.range m, (2 : ℝ) ^ (-1000 : ℤ) ≤ (if l.getD i 0 = 0 then (1 / m : ℝ) else (l.getD i 0 : ℝ)) * Y := by
    intro i _
    have h1 : (1 : ℝ) / m ≤ if l.getD i 0 = 0 then (1 / m : ℝ) else (l.getD i 0 : ℝ) := by
      split
      · exact le_rfl
      · rename_i h0
        have h2 : (1 : ℝ) ≤ (l.getD i 0 : ℝ) := by exact_mod_cast Nat.one_le_iff_ne_zero.mpr h0
        refine le_trans ?_ h2
        rw [div_le_one hmR]
        exact_mod_cast hpos
    have h2 : (2 : ℝ) ^ (-1000 : ℤ) ≤ 1 / m := by
      have h3 : (2 : ℝ) ^ (-1000 : ℤ) ≤ 2 ^ (-20 : ℤ) := zpow_le_zpow_right₀ (by norm_num) (by norm_num)
      refine h3.trans ?_
      rw [le_div_iff₀ hmR, zpow_neg, inv_mul_le_iff₀ (by positivity)]
      have : (m : ℝ) ≤ 2 ^ 20 := by exact_mod_cast hm
      norm_num at this ⊢
      exact_mod_cast this
    have h3 := h2.trans h1
    refine h3.trans (le_mul_of_one_le_right ((by positivity : (0 : ℝ) ≤ 1 / m).trans h1) hY)
  have hterm : ∀ i ∈ List.range m, Close (k + e + 2) (w i)
      (A.mul (A.mul ((l.getD i 0 : ℕ) : ℂ) (perms.getD i 0)) (mget U' j i))
      ((l.getD i 0 : ℂ) * (subResult U l T).getD i 0 * mget U j i) := by
    intro i hi
    have hi' := List.mem_range.mp hi
    have h1 : Close 0 (if l.getD i 0 = 0 then (1 / m : ℝ) else (l.getD i 0 : ℝ)) ((l.getD i 0 : ℕ) : ℂ) ((l.getD i 0 : ℕ) : ℂ) := by
      refine .exact ?_
      rw [Complex.norm_natCast]
      split
      · rename_i h0; rw [h0]; simp
      · exact le_rfl
    have h2 := A.mul_close h1 (hp.2 i hi') (hw0 i hi)
    have h3 := A.mul_close h2 (hU j i) (by rw [mul_one]; exact hw0 i hi)
    exact h3.mono (by omega)
  have hfold := A.foldl_add_close (List.range m)
    (fun i => A.mul (A.mul ((l.getD i 0 : ℕ) : ℂ) (perms.getD i 0)) (mget U' j i))
    (fun i => (l.getD i 0 : ℂ) * (subResult U l T).getD i 0 * mget U j i) w (k := k + e + 2)
    (fun i hi => by rw [hw]; simp only; rw [mul_one]; exact hw0 i hi) hterm (X := 0) (a' := 0) (a := 0) (d := 0)
    ((Close.exact (by simp)).mono (Nat.zero_le _))
  rw [zero_add, zero_add, add_zero, List.length_range] at hfold
  have hsumw : ((List.range m).map w).sum ≤ ((l.sum : ℝ) + 1) * Y := by
    rw [list_sum_range]
    calc ∑ i ∈ range m, w i ≤ ∑ i ∈ range m, ((l.getD i 0 : ℝ) + 1 / m) * Y := by
          refine sum_le_sum fun i _ => ?_
          rw [hw]
          simp only
          rw [mul_one]
          refine mul_le_mul_of_nonneg_right ?_ (by linarith)
          split
          · rename_i h0; rw [h0]; simp
          · have : (0 : ℝ) ≤ 1 / m := by positivity
            linarith
      _ = _ := by
          rw [← sum_mul, sum_add_distrib, sum_const, card_range, nsmul_eq_mul, mul_one_div, div_self hmR.ne']
          congr 2
          rw [← Nat.cast_sum, sum_getD_eq]
  have hval : ((List.range m).map fun i => (l.getD i 0 : ℂ) * (subResult U l T).getD i 0 * mget U j i).sum
      = amp (colOf U) (j :: particles T) (particles l) := by
    rw [list_sum_range, ← laplace_entry U l T j hs]
  rw [hval] at hfold
  have h1 := hfold.mono' hsumw
  have hB : 1 ≤ ((l.sum : ℝ) + 1) * Y :=
    one_le_mul_of_one_le_of_one_le (by have : (0 : ℝ) ≤ l.sum := Nat.cast_nonneg _; linarith) hY
  have h2 := squared_near R A h1 hB
  refine ⟨_, ?_, ⟨R.isFloat _, R.nonneg (sq_nonneg _)⟩, h2.2⟩
  unfold gccbEntryR
  rw [foldlM_ok _ _ _ _ hstep, ok_bind]
  rfl

/-- What the sampler needs: the computed entries are floats with an absolute error of at most `ε`. -/
def EntriesNear (sub : CalcCfg ℂ → Py (List ℂ)) (U' U : List (List ℂ)) (S : List ℕ) (ε : ℝ) : Prop :=
  ∀ l T, StateLE l S → T.length = S.length → l.sum = T.sum + 1 →
    ∃ perms y, sub ⟨U', l, T⟩ = .ok perms ∧ (List.range T.length).mapM (gccbEntryR R A U' l perms) = .ok y ∧
      Weights y ∧ y.length = S.length ∧ ∀ j < S.length, |y.getD j 0 - entryVal U l T j| ≤ ε

/-- The number of operations of an entry. -/
def entryOps (e : ℕ) (S : List ℕ) : ℕ :=
  2 * ((3 * (S.map (· + 1)).prod + 4 + (S.sum - 1) * ((S.map (· + 1)).prod * (e + 2) + 2)) + e + 2 + S.length) + 3

/-- The error of an entry. -/
noncomputable def entryErr (e : ℕ) (S : List ℕ) : ℝ :=
  (qf ^ entryOps e S - 1) * (((S.sum : ℝ) + 1) * (2 * xmax S.sum) ^ (S.sum - 1)) ^ 2

theorem entryErr_nonneg (e : ℕ) (S : List ℕ) : 0 ≤ entryErr e S :=
  mul_nonneg (sub_nonneg.mpr (one_le_qf_pow _)) (sq_nonneg _)

theorem stateLE_sum_le {l S : List ℕ} (h : StateLE l S) : l.sum ≤ S.sum := by
  induction h with
  | nil => simp
  | cons h _ ih => simp only [List.sum_cons]; omega

theorem entriesNear_ryser {e n : ℕ} {U' U : List (List ℂ)} {S : List ℕ} (hrows : ∀ r ∈ U', r.length = n)
    (hlen : S.length ≤ U'.length) (hn : S.length ≤ n) (hm : S.length ≤ 2 ^ 20) (hsum : S.sum ≤ 1000)
    (hU : MatClose e U' U) (fuel : ℕ) (hf : (S.map (· + 1)).prod ≤ fuel) :
    EntriesNear R A (ryserSubPermanentsR R A fuel) U' U S (entryErr e S) := by
  intro l T hl hT hs
  have hll : l.length = S.length := hl.length_eq
  have hle := stateLE_sum_le hl
  have hbox : (l.map (· + 1)).prod ≤ (S.map (· + 1)).prod := prod_succ_mono hl
  have hlne : l ≠ [] := fun h => by rw [h] at hs; simp at hs
  obtain ⟨perms, hp, hc⟩ := ryserSubR_near R A (U' := U') (U := U) (S := l) (T := T) (n := n)
    ⟨hrows, by omega, by omega, hlne⟩ hU hs (by omega) fuel (hbox.trans hf)
  have hX := one_le_xmax l.sum
  set Y : ℝ := 2 ^ T.sum * xmax l.sum ^ T.sum with hYdef
  have hY : 1 ≤ Y := one_le_mul_of_one_le_of_one_le (one_le_pow₀ (by norm_num)) (one_le_pow₀ hX)
  have hc' : ListClose l.length (ryserSubOps e l T) (fun _ => Y) perms fun i => (subResult U l T).getD i 0 := by
    refine ⟨hc.1, fun j hj => (hc.2 j hj).mono' ?_⟩
    simp only
    split
    · linarith
    · exact le_rfl
  have hent := fun j (hj : j < T.length) => gccbEntryR_near R A hY hrows (by omega) (by omega) (by omega) hU hs hc' j hj
  choose! f hf1 hf2 hf3 using hent
  refine ⟨perms, (List.range T.length).map f, hp, mapM_ok _ f _ fun j hj => hf1 j (List.mem_range.mp hj), ?_, by simp [hT],
    fun j hj => ?_⟩
  · intro x hx
    obtain ⟨j, hj, rfl⟩ := List.mem_map.mp hx
    exact hf2 j (List.mem_range.mp hj)
  · rw [getD_of_lt _ _ (by simp; omega), List.getElem_map, List.getElem_range]
    refine (hf3 j (by omega)).trans ?_
    unfold entryErr
    have h1 : 2 * (ryserSubOps e l T + e + 2 + l.length) + 3 ≤ entryOps e S := by
      unfold entryOps ryserSubOps subOps
      rw [Nat.zero_add, hll]
      have h2 : T.sum ≤ S.sum - 1 := by omega
      have h3 : T.sum * ((l.map (· + 1)).prod * (e + 2) + 2) ≤ (S.sum - 1) * ((S.map (· + 1)).prod * (e + 2) + 2) := by
        gcongr
      omega
    have h2 : ((l.sum : ℝ) + 1) * Y ≤ ((S.sum : ℝ) + 1) * (2 * xmax S.sum) ^ (S.sum - 1) := by
      have h3 : (l.sum : ℝ) ≤ S.sum := by exact_mod_cast hle
      have h4 : Y ≤ (2 * xmax S.sum) ^ (S.sum - 1) := by
        rw [hYdef, ← mul_pow]
        refine (pow_le_pow_left₀ (by linarith) (mul_le_mul_of_nonneg_left (xmax_mono hle) (by norm_num)) _).trans ?_
        exact pow_le_pow_right₀ (by have := one_le_xmax S.sum; linarith) (by omega)
      have h5 : (0 : ℝ) ≤ l.sum := Nat.cast_nonneg _
      refine mul_le_mul (by linarith) h4 (by linarith) (by linarith)
    have h3 : (0 : ℝ) ≤ ((l.sum : ℝ) + 1) * Y := mul_nonneg (by positivity) (by linarith)
    refine mul_le_mul (sub_le_sub_right (qf_pow_mono h1) 1) (pow_le_pow_left₀ h3 h2 2) (sq_nonneg _)
      (sub_nonneg.mpr (one_le_qf_pow _))

end Verif
