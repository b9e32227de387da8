import Verif.Proofs.RoundedCalc

/-! Helper lemmas: the Glynn and classic calculators in floating-point arithmetic. -/
namespace Verif

open Finset

variable (A : ComplexArith)

theorem mget_scatter_out (U : List (List ℂ)) (S T : List ℕ) {a b : ℕ} (h : ¬ (a < T.sum ∧ b < S.sum)) :
    mget (scatter U S T) a b = 0 := by
  have hd : ∀ {α : Type} (l : List α) (d : α) (i : ℕ), ¬ i < l.length → l.getD i d = d := fun l d i h => by
    rw [List.getD_eq_getElem?_getD, List.getElem?_eq_none (by omega)]; rfl
  unfold mget scatter
  by_cases ha : a < T.sum
  · have hb : ¬ b < S.sum := fun hb => h ⟨ha, hb⟩
    have e : ((particles T).map fun i => (particles S).map fun j => mget U i j).getD a []
        = (particles S).map fun j => mget U ((particles T).getD a 0) j := by
      have ha' : a < (particles T).length := by rw [particles_length]; exact ha
      rw [getD_of_lt _ _ (by rw [List.length_map]; exact ha'), List.getElem_map, getD_of_lt _ _ ha']
    change (((particles T).map fun i => (particles S).map fun j => mget U i j).getD a []).getD b 0 = 0
    rw [e, hd _ _ _ (by rw [List.length_map, particles_length]; exact hb)]
  · rw [hd _ _ a (by rw [List.length_map, particles_length]; exact ha)]
    rfl

theorem MatClose.scatter {e : ℕ} {U' U : List (List ℂ)} (h : MatClose e U' U) (S T : List ℕ) :
    MatClose e (scatter U' S T) (scatter U S T) := by
  intro i j
  by_cases hij : i < T.sum ∧ j < S.sum
  · rw [mget_scatter U' S T hij.1 hij.2, mget_scatter U S T hij.1 hij.2]
    exact h _ _
  · rw [mget_scatter_out U' S T hij, mget_scatter_out U S T hij]
    exact (Close.exact (by simp)).mono (Nat.zero_le e)

/-! ### Glynn -/

variable {a' a : List (List ℂ)} {n c e : ℕ}

theorem glynnW_eq (a : List (List ℂ)) (m : ℕ) (p : List Bool) (hp : p.length = m) (j : ℕ) :
    glynnW a (m + 1) p j = ∑ i ∈ range (m + 1), (((1 : Int) - 2 * (bits p).getD i 0 : Int) : ℂ) * mget a i j := by
  have h0 : (bits p).getD m 0 = 0 := by
    rw [bits_getD, List.getD_eq_getElem?_getD, List.getElem?_eq_none (by omega)]; rfl
  unfold glynnW boxSum
  rw [Nat.add_sub_cancel, sum_range_succ, sum_range_succ, h0, add_right_comm, ← sum_add_distrib]
  congr 1
  · refine sum_congr rfl fun ν _ => ?_
    push_cast
    ring
  · simp

theorem glynnW_le (ha : MatClose e a' a) (p : List Bool) (hp : p.length + 1 = n) (j : ℕ) :
    ‖glynnW a n p j‖ ≤ n := by
  obtain rfl : n = p.length + 1 := hp.symm
  rw [glynnW_eq a p.length p rfl]
  refine (norm_sum_le _ _).trans ?_
  have : ∀ i ∈ range (p.length + 1), ‖(((1 : Int) - 2 * (bits p).getD i 0 : Int) : ℂ) * mget a i j‖ ≤ 1 := by
    intro i _
    rw [norm_mul, Complex.norm_intCast]
    have h1 : |(((1 : Int) - 2 * (bits p).getD i 0 : Int) : ℝ)| = 1 := by
      rw [bits_getD]; split <;> norm_num
    rw [h1, one_mul]
    exact (ha i j).1
  exact (sum_le_sum this).trans (by simp)

/-- The state after `t` steps. -/
structure GlynnInv (a : List (List ℂ)) (n e t : ℕ) (p : List Bool) (w : ℕ → ℂ) : Prop where
  len : p.length + 1 = n
  sums : ∀ j < n, Close (n * (e + 2) + t * (2 * e + 3)) n (w j) (glynnW a n p j)

/-- The sign of a pattern. -/
def signZ (n : ℕ) (p : List Bool) : ℤ := ∏ ν ∈ range (n - 1), (-1) ^ ((bits p).getD ν 0).toNat

theorem signZ_cast (n : ℕ) (p : List Bool) : ((signZ n p : ℤ) : ℂ) = boxProd (n - 1) signF (bits p) := by
  unfold signZ boxProd signF
  push_cast
  rfl

theorem signZ_abs (n : ℕ) (p : List Bool) : |((signZ n p : ℤ) : ℝ)| = 1 := by
  unfold signZ
  push_cast
  rw [Finset.abs_prod]
  simp

/-- The number of operations in an addend after `t` steps. -/
def glops (n e t : ℕ) : ℕ := n * (n * (e + 2) + t * (2 * e + 3) + 1) + 1

theorem glops_mono (n e : ℕ) {t t' : ℕ} (h : t ≤ t') : glops n e t ≤ glops n e t' := by
  unfold glops
  have h1 : t * (2 * e + 3) ≤ t' * (2 * e + 3) := Nat.mul_le_mul_right _ h
  have h2 : n * (n * (e + 2) + t * (2 * e + 3) + 1) ≤ n * (n * (e + 2) + t' * (2 * e + 3) + 1) :=
    Nat.mul_le_mul_left n (by omega)
  omega

theorem glynnTerm_near {t : ℕ} {p : List Bool} {w : ℕ → ℂ} (hI : GlynnInv a n e t p w) :
    Close (glops n e t) ((n : ℝ) ^ n)
      (A.mul (signZ n p : ℂ) (((List.range n).map w).foldl A.mul 1)) (glynnTerm a n p) := by
  have hn : (1 : ℝ) ≤ n := by have := hI.len; exact_mod_cast (by omega : 1 ≤ n)
  have h1 : Close 0 1 (1 : ℂ) 1 := .exact (by simp)
  have h2 := A.foldl_close (List.range n) w (glynnW a n p) (fun _ => n * (e + 2) + t * (2 * e + 3)) (fun _ => (n : ℝ))
    (fun _ _ => hn) (fun j hj => hI.sums j (List.mem_range.mp hj)) h1 (small_of_one le_rfl)
  have h3 : ((List.range n).map fun _ => (n : ℝ)).prod = (n : ℝ) ^ n := by simp
  have h4 : ((List.range n).map fun _ => n * (e + 2) + t * (2 * e + 3) + 1).sum
      = n * (n * (e + 2) + t * (2 * e + 3) + 1) := by simp
  rw [h3, h4, one_mul, one_mul, zero_add] at h2
  have h5 : Close 0 1 (signZ n p : ℂ) (boxProd (n - 1) signF (bits p)) := by
    rw [← signZ_cast]
    exact .exact (by rw [Complex.norm_intCast, signZ_abs])
  have hp : (1 : ℝ) ≤ (n : ℝ) ^ n := one_le_pow₀ hn
  have := A.mul_close h5 h2 (by rw [one_mul]; exact small_of_one hp)
  rw [one_mul] at this
  exact this.mono (by unfold glops; omega)

theorem glynnStepR_near (hn : a'.length = n) (hc : ∀ r ∈ a', r.length = c) (hnc : n ≤ c) (ha : MatClose e a' a)
    {t : ℕ} {p : List Bool} {w : ℕ → ℂ} (hI : GlynnInv a n e t p w) (acc : ℂ) (i : ℕ) (hi : i < p.length) :
    ∃ w', glynnStepR A a' (signZ n p, deltaOf p, (List.range n).map w, acc) i
      = .ok (signZ n (p.set i (!p.getD i false)), deltaOf (p.set i (!p.getD i false)), (List.range n).map w',
          A.add acc (A.mul (signZ n (p.set i (!p.getD i false)) : ℂ) (((List.range n).map w').foldl A.mul 1))) ∧
        GlynnInv a n e (t + 1) (p.set i (!p.getD i false)) w' := by
  have hp := hI.len
  obtain ⟨b, hb⟩ : ∃ b, b = p.getD i false := ⟨_, rfl⟩
  obtain ⟨δ, hδ⟩ : ∃ δ : Int, δ = if b then -1 else 1 := ⟨_, rfl⟩
  have hδ' : δ = 1 ∨ δ = -1 := by cases b <;> simp [hδ]
  have hbits : bits (p.set i (!b)) = (bits p).set i ((bits p).getD i 0 + δ) := by
    rw [bits_getD, ← hb]
    unfold bits
    rw [List.map_set]
    congr 1
    cases b <;> simp [hδ]
  have hdelta : deltaOf (p.set i (!b)) = (deltaOf p).set i (-δ) := by
    unfold deltaOf
    rw [List.map_set, List.set_append_left _ _ (by simpa using hi)]
    congr 2
    cases b <;> simp [hδ]
  have hget : (deltaOf p)[i]'(by simp [deltaOf]; omega) = δ := by
    have : p[i] = b := by rw [hb, getD_of_lt _ _ hi]
    simp [deltaOf, List.getElem_append_left, hi, this, hδ]
  have hbl : (bits p).length = n - 1 := by simp [bits]; omega
  have h0 : 0 ≤ (bits p).getD i 0 := by rw [bits_getD]; split <;> simp
  have h1 : 0 ≤ (bits p).getD i 0 + δ := by
    rw [bits_getD, ← hb]; cases b <;> simp [hδ]
  have hW : ∀ j, glynnW a n (p.set i (!b)) j = glynnW a n p j + ((2 * -δ : Int) : ℂ) * mget a i j := by
    intro j
    unfold glynnW
    rw [hbits, boxSum_set _ _ _ _ _ (by omega) hbl]
    push_cast; ring
  have hsign : signZ n (p.set i (!b)) = - signZ n p := by
    have h2 : boxProd (n - 1) (signF (K := ℂ)) (bits (p.set i (!b))) = - boxProd (n - 1) signF (bits p) := by
      rw [hbits, sign_set _ _ _ _ (by omega) hbl hδ' h0 h1]
    rw [← signZ_cast, ← signZ_cast] at h2
    exact_mod_cast h2
  refine ⟨fun j => A.add (w j) (A.mul ((2 * -δ : Int) : ℂ) (mget a' i j)), ?_, ?_⟩
  · unfold glynnStepR
    simp only [← hb]
    rw [pyGetN_ok (by simp [deltaOf]; omega), ok_bind, hget, pySetN_ok (by simp [deltaOf]; omega), ok_bind,
      ← hdelta]
    have hget' : pyGetN (deltaOf (p.set i (!b))) i = .ok (-δ) := by
      rw [hdelta, pyGetN_ok (by simp [deltaOf]; omega)]; simp
    rw [hget']
    have := foldlM_set_range (α := ℂ) (fun j w => (do
        let u ← matGet a' i j
        pure (A.add w (A.mul ((2 * -δ : Int) : ℂ) u)) : Py ℂ)) (fun j w => A.add w (A.mul ((2 * -δ : Int) : ℂ) (mget a' i j)))
        ((List.range n).map w) (fun j hj x => by
          rw [matGet_ok a' hc (by omega) (by simp at hj; omega)]; rfl)
    simp only [bind_assoc, pure_bind] at this
    simp only [ok_bind]
    rw [this, ok_bind, hsign]
    have e : ((List.range n).map w).mapIdx (fun j w => A.add w (A.mul ((2 * -δ : Int) : ℂ) (mget a' i j)))
        = (List.range n).map fun j => A.add (w j) (A.mul ((2 * -δ : Int) : ℂ) (mget a' i j)) := by
      apply List.ext_getElem
      · simp
      · intro j h1 h2
        simp
    rw [e]
    rfl
  · rw [← hb]
    refine ⟨by simpa using hp, fun j hj => ?_⟩
    have hn1 : (1 : ℝ) ≤ n := by exact_mod_cast (by omega : 1 ≤ n)
    have e2 := int_mul_close A ha (2 * -δ) (Y := 2) (by rcases hδ' with rfl | rfl <;> norm_num) (by norm_num) i j
    have e3 := glynnW_le (n := n) ha (p.set i (!b)) (by simpa using hp) j
    rw [hW] at e3 ⊢
    exact (A.add_double (hI.sums j hj) e2 e3 hn1).mono (by rw [Nat.add_mul]; omega)

theorem glynnLoopR_near (hn : a'.length = n) (hc : ∀ r ∈ a', r.length = c) (hnc : n ≤ c) (ha : MatClose e a' a)
    (κ : ℕ) (idx : List ℕ) : ∀ {t : ℕ} {p : List Bool} {w : ℕ → ℂ}, GlynnInv a n e t p w → (∀ i ∈ idx, i < p.length) →
    glops n e (t + idx.length) ≤ κ → ∀ {P : ℝ} {acc' acc : ℂ}, Close (κ + t) P acc' acc →
    ∃ st, idx.foldlM (glynnStepR A a') (signZ n p, deltaOf p, (List.range n).map w, acc') = .ok st ∧
      Close (κ + t + idx.length) (P + idx.length * (n : ℝ) ^ n) st.2.2.2
        (acc + ((flipVisits idx p).tail.map (glynnTerm a n)).sum) := by
  induction idx with
  | nil => intro t p w _ _ _ P acc' acc h; exact ⟨_, rfl, by simpa [flipVisits] using h⟩
  | cons i idx ih =>
    intro t p w hI hi hκ P acc' acc h
    obtain ⟨w', h1, hI'⟩ := glynnStepR_near A hn hc hnc ha hI acc' i (hi i (by simp))
    have hterm := glynnTerm_near A hI'
    have hn1 : (1 : ℝ) ≤ n := by have := hI.len; exact_mod_cast (by omega : 1 ≤ n)
    have hp : (1 : ℝ) ≤ (n : ℝ) ^ n := one_le_pow₀ hn1
    have hk : glops n e (t + 1) ≤ κ := (glops_mono n e (by simp)).trans hκ
    have h2 := A.add_close h (hterm.mono (show glops n e (t + 1) ≤ κ + t by omega))
      (small_of_one (by linarith [h.bound_nonneg]))
    obtain ⟨st, h3, h4⟩ := ih hI' (fun j hj => by simpa using hi j (by simp [hj]))
      ((glops_mono n e (by simp only [List.length_cons]; omega)).trans hκ) (h2.mono (show κ + t + 1 ≤ κ + (t + 1) by omega))
    refine ⟨st, ?_, ?_⟩
    · rw [List.foldlM_cons, h1, ok_bind, h3]
    · have e1 : acc + ((flipVisits (i :: idx) p).tail.map (glynnTerm a n)).sum
          = acc + glynnTerm a n (p.set i (!p.getD i false))
            + ((flipVisits idx (p.set i (!p.getD i false))).tail.map (glynnTerm a n)).sum := by
        simp only [flipVisits, List.tail_cons]
        cases idx <;> simp [flipVisits, add_assoc]
      have e2 : P + ((i :: idx).length : ℕ) * (n : ℝ) ^ n = P + (n : ℝ) ^ n + idx.length * (n : ℝ) ^ n := by
        push_cast [List.length_cons]
        ring
      rw [e1, e2]
      refine h4.mono ?_
      simp only [List.length_cons]
      omega

theorem glynnR_first (hn : a'.length = n) (hc : ∀ r ∈ a', r.length = c) (hnc : n ≤ c) (ha : MatClose e a' a)
    (j : ℕ) (hj : j < n) (m : ℕ) (hm : m ≤ n) :
    ∃ w, (List.range m).foldlM (fun (acc : ℂ) i => do
        let d ← pyGetN (List.replicate n (1 : Int)) i
        let u ← matGet a' i j
        pure (A.add acc (A.mul (d : ℂ) u))) 0 = .ok w ∧
      Close (m * (e + 2)) n w (∑ i ∈ range m, mget a i j) := by
  have hn1 : (1 : ℝ) ≤ n := by exact_mod_cast (by omega : 1 ≤ n)
  induction m with
  | zero => exact ⟨0, rfl, by simpa using (Close.exact (by rw [norm_zero]; linarith))⟩
  | succ m ih =>
    obtain ⟨w, hw, hc'⟩ := ih (by omega)
    rw [List.range_succ, List.foldlM_append, hw, ok_bind]
    simp only [List.foldlM_cons, List.foldlM_nil]
    rw [pyGetN_ok (by simp; omega), ok_bind, matGet_ok a' hc (by omega) (by omega), ok_bind]
    refine ⟨_, rfl, ?_⟩
    rw [sum_range_succ]
    have e2 := int_mul_close A ha 1 (Y := 1) (by norm_num) le_rfl m j
    have e3 : ‖∑ i ∈ range m, mget a i j + mget a m j‖ ≤ n := by
      rw [← sum_range_succ]
      refine (norm_sum_le _ _).trans ((sum_le_sum fun i _ => (ha i j).1).trans ?_)
      rw [sum_const, card_range, nsmul_eq_mul, mul_one]
      exact_mod_cast hm
    have e4 : (((1 : Int) : Int) : ℂ) * mget a m j = mget a m j := by simp
    rw [e4] at e2
    simp only [List.getElem_replicate]
    exact (A.add_fixed hc' e2 hn1 e3 hn1).mono (by rw [Nat.succ_mul]; omega)

theorem glynnR_ok (gray : ℕ → List ℕ) (U : List (List ℂ)) (S T : List ℕ) (m : ℕ)
    (hsc : effectiveScatteringMatrix U S T = .ok a') (hn : a'.length = m + 1)
    (hc : ∀ r ∈ a', r.length = c) (hnc : m + 1 ≤ c) (ha : MatClose e a' a) (hgray : IsGrayCode m (gray m)) :
    ∃ y, glynnPermanentR A gray ⟨U, S, T⟩ = .ok y ∧
      Close (glops (m + 1) e (2 ^ m) + 2 ^ m) (((m + 1 : ℕ) : ℝ) ^ (m + 1)) y
        (lperm (List.range (m + 1)) ((List.range (m + 1)).map fun i j => mget a i j)) := by
  classical
  choose w hw hwc using fun j : {j // j < m + 1} => glynnR_first A hn hc hnc ha j.1 j.2 (m + 1) le_rfl
  let w' : ℕ → ℂ := fun j => if hj : j < m + 1 then w ⟨j, hj⟩ else 0
  have hw' : ∀ j (hj : j < m + 1), w' j = w ⟨j, hj⟩ := fun j hj => dif_pos hj
  have hsums : (List.range (m + 1)).foldlM (fun (sums : List ℂ) j => do
      let w ← (List.range (m + 1)).foldlM (fun (acc : ℂ) i => do
        let d ← pyGetN (List.replicate (m + 1) (1 : Int)) i
        let u ← matGet a' i j
        pure (A.add acc (A.mul (d : ℂ) u))) 0
      pure (sums ++ [w])) [] = .ok ((List.range (m + 1)).map w') := by
    rw [foldlM_ok (fun (sums : List ℂ) (j : ℕ) => (do
      let w ← (List.range (m + 1)).foldlM (fun (acc : ℂ) i => do
        let d ← pyGetN (List.replicate (m + 1) (1 : Int)) i
        let u ← matGet a' i j
        pure (A.add acc (A.mul (d : ℂ) u))) 0
      pure (sums ++ [w]) : Py _)) (fun sums j => sums ++ [w' j])]
    · congr 1
      generalize List.range (m + 1) = l
      have : ∀ acc : List ℂ, l.foldl (fun sums j => sums ++ [w' j]) acc = acc ++ l.map w' := by
        induction l with
        | nil => simp
        | cons x l ih => intro acc; rw [List.foldl_cons, ih]; simp
      simpa using this []
    · intro sums j hj
      have hj' := List.mem_range.mp hj
      rw [hw ⟨j, hj'⟩, ok_bind, hw' j hj']
      rfl
  have hb : bits (List.replicate m false) = List.replicate m 0 := by simp [bits]
  have hsign : signZ (m + 1) (List.replicate m false) = 1 := by
    have : ((signZ (m + 1) (List.replicate m false) : ℤ) : ℂ) = 1 := by
      rw [signZ_cast, Nat.add_sub_cancel, hb, boxProd_zero _ _ _ (by simp [signF])]
    exact_mod_cast this
  have hI : GlynnInv a (m + 1) e 0 (List.replicate m false) w' := by
    refine ⟨by simp, fun j hj => ?_⟩
    rw [hw' j hj]
    have h1 : glynnW a (m + 1) (List.replicate m false) j = ∑ i ∈ range (m + 1), mget a i j := by
      simp only [glynnW, hb, boxSum_zero, add_zero]
    rw [h1]
    simpa using hwc ⟨j, hj⟩
  have hlen : (gray m).length + 1 = 2 ^ m := by
    have h1 := (gray_perm hgray).length_eq
    rw [List.length_map, ibox_length] at h1
    have h2 : ∀ (idx : List ℕ) (p : List Bool), (flipVisits idx p).length = idx.length + 1 := by
      intro idx
      induction idx with
      | nil => intro p; rfl
      | cons i idx ih => intro p; simp [flipVisits, ih]
    rw [h2] at h1
    simpa using h1
  have hterm := glynnTerm_near A hI
  obtain ⟨st, hst, hclose⟩ := glynnLoopR_near A hn hc hnc ha (glops (m + 1) e (2 ^ m)) (gray m) hI
    (fun i hi => by simpa using hgray.range i hi) (glops_mono _ _ (by omega))
    (hterm.mono (show _ ≤ glops (m + 1) e (2 ^ m) + 0 from glops_mono _ _ (Nat.zero_le _)))
  have hsum : glynnTerm a (m + 1) (List.replicate m false)
      + ((flipVisits (gray m) (List.replicate m false)).tail.map (glynnTerm a (m + 1))).sum
      = ((flipVisits (gray m) (List.replicate m false)).map (glynnTerm a (m + 1))).sum := by
    cases gray m <;> simp [flipVisits]
  rw [hsum, glynn_sum a m _ (gray_perm hgray)] at hclose
  have hX : (((m + 1 : ℕ) : ℝ) ^ (m + 1) + (gray m).length * ((m + 1 : ℕ) : ℝ) ^ (m + 1))
      = 2 ^ m * ((m + 1 : ℕ) : ℝ) ^ (m + 1) := by
    have : ((gray m).length : ℝ) + 1 = 2 ^ m := by exact_mod_cast hlen
    rw [← this]
    ring
  rw [hX] at hclose
  have h2 : (0 : ℝ) < 2 ^ m := by positivity
  have hp : (1 : ℝ) ≤ ((m + 1 : ℕ) : ℝ) ^ (m + 1) := one_le_pow₀ (by exact_mod_cast Nat.succ_le_succ (Nat.zero_le m))
  have hdiv := A.div_close hclose h2 (by rw [mul_div_cancel_left₀ _ h2.ne']; exact small_of_one hp)
  rw [mul_div_cancel_left₀ _ h2.ne'] at hdiv
  have h2c : (((2 : ℝ) ^ m : ℝ) : ℂ) ≠ 0 := by exact_mod_cast h2.ne'
  have e1 : ∀ z : ℂ, (2 : ℂ) ^ m * z / (((2 : ℝ) ^ m : ℝ) : ℂ) = z := by
    intro z
    rw [show (2 : ℂ) ^ m = (((2 : ℝ) ^ m : ℝ) : ℂ) by push_cast; rfl, mul_div_cancel_left₀ _ h2c]
  rw [e1] at hdiv
  refine ⟨_, ?_, hdiv.mono (by omega)⟩
  unfold glynnPermanentR
  rw [hsc, ok_bind, if_neg (by omega), hn]
  simp only [Nat.add_sub_cancel, List.length_replicate]
  rw [hsums, ok_bind]
  have hs : ((1 : ℤ), List.replicate (m + 1) (1 : Int), (List.range (m + 1)).map w',
      A.mul 1 (((List.range (m + 1)).map w').foldl A.mul 1))
      = (signZ (m + 1) (List.replicate m false), deltaOf (List.replicate m false), (List.range (m + 1)).map w',
        A.mul (signZ (m + 1) (List.replicate m false) : ℂ) (((List.range (m + 1)).map w').foldl A.mul 1)) := by
    rw [hsign]
    have : deltaOf (List.replicate m false) = List.replicate (m + 1) (1 : Int) := by
      simp [deltaOf, List.replicate_succ']
    rw [this]
    push_cast
    rfl
  rw [hs, hst, ok_bind]
  rfl

theorem glynnR_near {U' U : List (List ℂ)} {S T : List ℕ} (gray : ℕ → List ℕ) (hgray : ∀ n, IsGrayCode n (gray n))
    (hc : ∀ r ∈ U', r.length = c) (hS : S.length ≤ c) (hT : T.length ≤ U'.length) (hU : MatClose e U' U)
    (hs : S.sum = T.sum) :
    ∃ y, glynnPermanentR A gray ⟨U', S, T⟩ = .ok y ∧
      Close (glops T.sum e (2 ^ (T.sum - 1)) + 2 ^ (T.sum - 1)) (xmax T.sum ^ T.sum) y (scatteringPermanent U S T) := by
  by_cases h0 : T.sum = 0
  · rw [scatteringPermanent_vacuum _ _ _ h0]
    refine ⟨1, by simp [glynnPermanentR, effectiveScatteringMatrix, h0, pure_eq_ok, ok_bind], ?_⟩
    exact (Close.exact (by rw [h0]; simp)).mono (Nat.zero_le _)
  · obtain ⟨m, hm⟩ : ∃ m, T.sum = m + 1 := ⟨T.sum - 1, by omega⟩
    have hsc := effectiveScatteringMatrix_ok U' S T c hc hS hT (by omega) h0
    have hl : (scatter U' S T).length = m + 1 := by simp [scatter, particles_length, hm]
    have hr : ∀ r ∈ scatter U' S T, r.length = m + 1 := by
      intro r hr
      obtain ⟨i, -, rfl⟩ := List.mem_map.mp hr
      simp [particles_length, hs, hm]
    obtain ⟨y, hy, hyc⟩ := glynnR_ok A gray U' S T m hsc hl hr le_rfl (hU.scatter S T) (hgray m)
    refine ⟨y, hy, ?_⟩
    rw [← hm, lperm_scatter_rows U S T hs] at hyc
    have : xmax T.sum = (T.sum : ℝ) := max_eq_right (by exact_mod_cast (by omega : 1 ≤ T.sum))
    rw [this, show T.sum - 1 = m by omega]
    exact hyc

/-! ### Classic -/

/-- The number of operations of the classic calculator. -/
def clops (e : ℕ) : ℕ → ℕ
  | 0 => 0
  | n + 1 => clops e n + e + 1 + (n + 1)

theorem foldlM_filter_near (l : List ℕ) (selected : List ℕ) (f : ℕ → Py ℂ) (g : ℕ → ℂ) (k : ℕ) (Y : ℝ)
    (hY : (2 : ℝ) ^ (-1000 : ℤ) ≤ Y) (h : ∀ i ∈ l, i ∉ selected → ∃ y, f i = .ok y ∧ Close k Y y (g i)) :
    ∀ {t : ℕ} {P : ℝ} {z' z : ℂ}, Close (k + t) P z' z →
    ∃ y, l.foldlM (fun (result : ℂ) row => if row ∈ selected then pure result else do
      let x ← f row
      pure (A.add result x)) z' = .ok y ∧
      Close (k + t + (l.filter (fun i => decide (i ∉ selected))).length)
        (P + (l.filter (fun i => decide (i ∉ selected))).length * Y) y
        (z + ((l.filter (fun i => decide (i ∉ selected))).map g).sum) := by
  induction l with
  | nil => intro t P z' z hz; exact ⟨z', rfl, by simpa using hz⟩
  | cons i l ih =>
    intro t P z' z hz
    rw [List.foldlM_cons]
    by_cases hi : i ∈ selected
    · simp only [if_pos hi, pure_eq_ok, ok_bind]
      obtain ⟨y, h1, h2⟩ := ih (fun j hj => h j (by simp [hj])) hz
      simp only [pure_eq_ok] at h1
      refine ⟨y, h1, ?_⟩
      rw [List.filter_cons_of_neg (by simpa using hi)]
      exact h2
    · simp only [if_neg hi]
      obtain ⟨x, hx, hxc⟩ := h i (by simp) hi
      have h3 := A.add_close hz (hxc.mono (show k ≤ k + t by omega)) (by linarith [hz.bound_nonneg])
      obtain ⟨y, h1, h2⟩ := ih (fun j hj => h j (by simp [hj])) (h3.mono (show k + t + 1 ≤ k + (t + 1) by omega))
      rw [hx]
      simp only [ok_bind, pure_eq_ok] at h1 ⊢
      refine ⟨y, h1, ?_⟩
      rw [List.filter_cons_of_pos (by simpa using hi), List.map_cons, List.sum_cons, ← add_assoc, List.length_cons]
      push_cast
      rw [add_mul, one_mul, add_comm _ Y, ← add_assoc P]
      exact h2.mono (by omega)

theorem classicRecR_near (rows cols : ℕ) (hn : a'.length = rows)
    (hc : ∀ r ∈ a', r.length = cols) (ha : MatClose e a' a) (todo : ℕ) (htc : todo ≤ cols) :
    ∀ (selected : List ℕ) {k : ℕ} {X : ℝ} {prod' prod : ℂ}, (avail rows selected).length = todo →
    Close k X prod' prod → (2 : ℝ) ^ (-1000 : ℤ) ≤ X →
    ∃ y, classicRecR A a' rows cols todo selected prod' = .ok y ∧
      Close (k + clops e todo) (X * todo.factorial) y
        (prod * lperm (List.range' (cols - todo) todo) ((avail rows selected).map fun i j => mget a i j)) := by
  induction todo with
  | zero =>
    intro selected k X prod' prod hav hp _
    have : avail rows selected = [] := List.eq_nil_of_length_eq_zero (by omega)
    exact ⟨prod', rfl, by simpa [this, lperm, clops] using hp⟩
  | succ todo ih =>
    intro selected k X prod' prod hav hp hX
    rw [classicRecR]
    have hY : (2 : ℝ) ^ (-1000 : ℤ) ≤ X * todo.factorial :=
      hX.trans (le_mul_of_one_le_right hp.bound_nonneg (by exact_mod_cast Nat.factorial_pos todo))
    obtain ⟨y, h1, h2⟩ := foldlM_filter_near A (List.range rows) selected (fun row => (do
      let u ← matGet a' row (cols - (todo + 1))
      classicRecR A a' rows cols todo (selected ++ [row]) (A.mul prod' u) : Py ℂ))
      (fun row => prod * (mget a row (cols - (todo + 1)) * lperm (List.range' (cols - todo) todo)
        ((avail rows (selected ++ [row])).map fun i j => mget a i j))) (k + e + 1 + clops e todo) (X * todo.factorial) hY
        (fun i hi hsel => by
          have hi' := List.mem_range.mp hi
          rw [matGet_ok a' hc (by omega) (by omega), ok_bind]
          have hm := A.mul_close hp (ha i (cols - (todo + 1))) (by rw [mul_one]; exact hX)
          rw [mul_one] at hm
          have := ih (by omega) (selected ++ [i]) (by
            rw [← avail_erase, List.length_erase_of_mem]
            · omega
            · simp [avail, hi', hsel]) hm hX
          rw [← mul_assoc]
          exact this) (t := 0) (P := 0) (z' := 0) (z := 0) ⟨by simp, by simp⟩
    simp only [bind_assoc] at h1
    refine ⟨y, h1, ?_⟩
    rw [zero_add, zero_add] at h2
    have hlen : ((List.range rows).filter fun i => decide (i ∉ selected)).length = todo + 1 := hav
    rw [hlen] at h2
    have e1 : (X * (todo + 1).factorial : ℝ) = ((todo + 1 : ℕ) : ℝ) * (X * todo.factorial) := by
      rw [Nat.factorial_succ]; push_cast; ring
    have e2 : prod * lperm (List.range' (cols - (todo + 1)) (todo + 1)) ((avail rows selected).map fun i j => mget a i j)
        = (((List.range rows).filter (fun i => decide (i ∉ selected))).map fun row =>
          prod * (mget a row (cols - (todo + 1)) * lperm (List.range' (cols - todo) todo)
        ((avail rows (selected ++ [row])).map fun i j => mget a i j))).sum := by
      rw [List.range'_succ, lperm, picks_map,
        picks_nodup (avail rows selected) (List.Nodup.filter _ List.nodup_range),
        List.map_map, List.map_map, ← List.sum_map_mul_left]
      congr 1
      refine List.map_congr_left fun x _ => ?_
      simp only [Function.comp]
      rw [← avail_erase, show cols - (todo + 1) + 1 = cols - todo by omega]
    rw [e1, e2]
    exact h2.mono (by simp only [clops]; omega)

theorem classicR_near {U' U : List (List ℂ)} {S T : List ℕ} (hc : ∀ r ∈ U', r.length = c) (hS : S.length ≤ c)
    (hT : T.length ≤ U'.length) (hU : MatClose e U' U) (hs : S.sum = T.sum) :
    ∃ y, classicPermanentR A ⟨U', S, T⟩ = .ok y ∧
      Close (clops e T.sum) T.sum.factorial y (scatteringPermanent U S T) := by
  by_cases h0 : T.sum = 0
  · rw [scatteringPermanent_vacuum _ _ _ h0]
    have : S.sum = 0 := by omega
    refine ⟨1, by simp [classicPermanentR, h0, this, pure_eq_ok], ?_⟩
    exact (Close.exact (by rw [h0]; simp)).mono (Nat.zero_le _)
  · have hsc := effectiveScatteringMatrix_ok U' S T c hc hS hT (by omega) h0
    have hl : (scatter U' S T).length = T.sum := by simp [scatter, particles_length]
    have hr : ∀ r ∈ scatter U' S T, r.length = S.sum := by
      intro r hr
      obtain ⟨i, -, rfl⟩ := List.mem_map.mp hr
      simp [particles_length]
    have hav : avail T.sum [] = List.range T.sum := by simp [avail]
    obtain ⟨y, hy, hyc⟩ := classicRecR_near A T.sum S.sum hl hr (hU.scatter S T) S.sum le_rfl [] (k := 0) (X := 1)
      (prod' := 1) (prod := 1) (by rw [hav]; simpa using hs.symm) (.exact (by simp)) (small_of_one le_rfl)
    refine ⟨y, ?_, ?_⟩
    · unfold classicPermanentR
      simp only
      rw [if_neg (by omega), hsc, ok_bind]
      cases hsc' : scatter U' S T with
      | nil => rw [hsc'] at hl; simp at hl; omega
      | cons r rs =>
        have hrl : r.length = S.sum := hr r (by rw [hsc']; simp)
        simp only
        rw [← hsc', hrl, hl]
        exact hy
    · rw [hav, one_mul, one_mul, Nat.sub_self, ← List.range_eq_range', zero_add, hs, lperm_scatter_rows U S T hs] at hyc
      exact hyc

end Verif
