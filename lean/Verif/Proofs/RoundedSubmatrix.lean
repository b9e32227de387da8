import Verif.Model.RoundedSubmatrix
import Verif.Proofs.RoundedCalc

/-! Helper lemmas: the submatrix permanent calculators in floating-point arithmetic. -/
namespace Verif

open Finset

variable (R : Rounding) (A : ComplexArith) {U U' : List (List ℂ)} {S T : List ℕ} {n : ℕ}

/-! ### Lists changed entry by entry -/

theorem foldlM_mapAt (m : ℕ) (step : List ℂ → ℕ → Py (List ℂ)) (g : ℕ → ℂ → ℂ)
    (h : ∀ l : List ℂ, l.length = m → ∀ j < m, step l j = .ok (l.set j (g j (l.getD j 0))))
    (l : List ℂ) (hl : l.length = m) :
    (List.range m).foldlM step l = .ok ((List.range m).map fun i => g i (l.getD i 0)) := by
  have key : ∀ k ≤ m, (List.range k).foldlM step l
      = .ok ((List.range m).map fun i => if i < k then g i (l.getD i 0) else l.getD i 0) := by
    intro k
    induction k with
    | zero =>
      intro _
      simp only [List.range_zero, List.foldlM_nil, pure_eq_ok, Except.ok.injEq, Nat.not_lt_zero, if_false]
      apply List.ext_getElem
      · simp [hl]
      · intro i h1 h2
        simp [h1]
    | succ k ih =>
      intro hk
      rw [List.range_succ, List.foldlM_append, ih (by omega), ok_bind, List.foldlM_cons,
        h _ (by simp) k (by omega), ok_bind, List.foldlM_nil]
      simp only [pure_eq_ok, Except.ok.injEq]
      apply List.ext_getElem
      · simp
      · intro i h1 h2
        have hi : i < m := by simpa using h2
        rw [List.getElem_set]
        by_cases hik : k = i
        · subst hik
          rw [if_pos rfl, getD_of_lt _ _ (by simpa using hi)]
          simp
        · rw [if_neg hik]
          have : i < k ↔ i < k + 1 := by omega
          simp [this]
  rw [key m (le_refl _)]
  congr 1
  refine List.map_congr_left fun i hi => ?_
  rw [if_pos (List.mem_range.mp hi)]

/-! ### The binomials of the reduced state -/

theorem inBox_decAt {r : List Int} (hr : InBox r S) (j : ℕ) (hj : j < S.length) (h0 : S.getD j 0 ≠ 0)
    (he : r.getD j 0 ≠ (S.getD j 0 : Int)) : InBox r (decAt S j) := by
  refine List.forall₂_iff_get.mpr ⟨by rw [decAt_length]; exact hr.length_eq, fun i hi hi' => ?_⟩
  have h1 := forall₂_getD hr i
  have h2 := decAt_getD S j i hj
  rw [getD_of_lt _ _ hi'] at h2
  rw [getD_of_lt _ _ hi] at h1
  simp only [List.get_eq_getElem]
  rw [h2]
  split
  · rename_i hij
    subst hij
    rw [getD_of_lt _ _ hi] at he
    omega
  · exact h1

theorem binQuot_close {r : List Int} {k : ℕ} {b : ℝ} (hr : InBox r S) (j : ℕ) (hj : j < S.length) (h0 : S.getD j 0 ≠ 0)
    (he : r.getD j 0 ≠ (S.getD j 0 : Int))
    (hb : Close k (boxProd S.length (binF S) r) b (boxProd S.length (binF S) r)) :
    Close (k + 2) (boxProd S.length (binF (decAt S j)) r)
      (R.rnd (b / R.rnd ((S.getD j 0 : ℝ) / (((S.getD j 0 : Int) - r.getD j 0 : Int) : ℝ))))
      (boxProd S.length (binF (decAt S j)) r) := by
  have hB := boxProd_bin_ge (inBox_decAt hr j hj h0 he)
  rw [decAt_length] at hB
  have hrj := forall₂_getD hr j
  have e0 := bin_decAt (K := ℝ) S r j hj hr h0 he
  set q : ℝ := (S.getD j 0 : ℝ) / (((S.getD j 0 : Int) - r.getD j 0 : Int) : ℝ) with hq
  have hd : (0 : ℝ) < (((S.getD j 0 : Int) - r.getD j 0 : Int) : ℝ) := by
    have : 0 < (S.getD j 0 : Int) - r.getD j 0 := by omega
    exact_mod_cast this
  have hq1 : 1 ≤ q := by
    rw [hq, le_div_iff₀ hd, one_mul]
    have : (S.getD j 0 : Int) - r.getD j 0 ≤ (S.getD j 0 : Int) := by omega
    exact_mod_cast this
  have herr := R.error (x := q) ((zpow_le_one_of_nonpos₀ (by norm_num) (by norm_num)).trans hq1)
  have hq0 : 0 < q := by linarith
  have hqh : q * (1 - 1 / 2 ^ 53) ≤ R.rnd q := by
    have := (abs_le.mp herr).1
    linarith
  have hqh0 : 0 < R.rnd q := lt_of_lt_of_le (mul_pos hq0 (by norm_num)) hqh
  have e1 : Close 1 (1 / q) (1 / R.rnd q) (1 / q) := by
    refine ⟨by rw [Real.norm_eq_abs, abs_of_pos (by positivity)], ?_⟩
    rw [Real.norm_eq_abs, pow_one]
    have e2 : 1 / R.rnd q - 1 / q = -(R.rnd q - q) / (R.rnd q * q) := by field_simp; ring
    rw [e2, abs_div, abs_neg, abs_of_pos (mul_pos hqh0 hq0), div_le_iff₀ (mul_pos hqh0 hq0)]
    have e3 : (qf - 1) * (1 / q) * (R.rnd q * q) = 1 / 2 ^ 48 * R.rnd q := by
      unfold qf; field_simp; ring
    rw [e3]
    refine herr.trans ?_
    nlinarith
  have e4 := hb.mul_exact e1
  rw [mul_one_div, mul_one_div, ← e0] at e4
  exact (R.close e4 (small_of_one hB)).mono (by omega)

/-! ### The loop -/

/-- The entries of a list are close to given numbers. -/
def ListClose (m k : ℕ) (P : ℕ → ℝ) (l : List ℂ) (p : ℕ → ℂ) : Prop :=
  l.length = m ∧ ∀ j < m, Close k (P j) (l.getD j 0) (p j)

/-- The state of a submatrix calculator after `t` steps, when the vector is `r`. -/
structure SInvR (c : CalcCfg ℂ) (W : List Int → ℕ → ℂ) (m0 X : ℝ) (k0 d t : ℕ) (r u : List Int)
    (s : SubScratchR) : Prop where
  rv : s.guan.rVector = r
  cu : s.guan.codeUpdate = u
  lim : s.guan.limits = c.input.map fun (x : ℕ) => (x : Int)
  mult : s.multiplier = m0 * boxProd c.input.length signF r
  bin : Close (2 * t) (boxProd c.input.length (binF c.input) r) s.binomials (boxProd c.input.length (binF c.input) r)
  sums : ∃ w : ℕ → ℂ, s.sums = ((npNonzero c.output).map fun j => (j, w j)) ∧
    ∀ j ∈ npNonzero c.output, Close (k0 + t * d) X (w j) (W r j)
  cons : s.considered = npNonzero c.output

/-- One step of a method: sums move to the new vector, permanents grow by its addends. -/
def SubStepNear (meth : SubMethodR) (c : CalcCfg ℂ) (W : List Int → ℕ → ℂ) (m0 X : ℝ) (k0 d κ N : ℕ)
    (size : List Int → ℕ → ℝ) (term : List Int → ℕ → ℂ) : Prop :=
  ∀ (s : SubScratchR) (r : List Int) (i : ℕ) (u : Int) (r' : List Int) (t : ℕ) (P : ℕ → ℝ) (p : ℕ → ℂ) (w : ℕ → ℂ),
    t + 1 ≤ N → i < c.input.length → InBox r c.input → (u = 1 ∨ u = -1) → r' = r.set i (r.getD i 0 + u) →
    InBox r' c.input → s.guan.rVector = r' → s.guan.index = i → s.guan.last = r.getD i 0 →
    s.sums = ((npNonzero c.output).map fun j => (j, w j)) →
    (∀ j ∈ npNonzero c.output, Close (k0 + t * d) X (w j) (W r j)) →
    s.considered = npNonzero c.output → s.multiplier = m0 * boxProd c.input.length signF r' →
    Close (2 * (t + 1)) (boxProd c.input.length (binF c.input) r') s.binomials
      (boxProd c.input.length (binF c.input) r') →
    ListClose c.input.length (κ + t + 1) P s.permanents p →
    ∃ (w' : ℕ → ℂ) (pr : ℂ) (l : List ℂ),
      (meth.updateSums c s >>= fun s => meth.updatePermanents c s) = .ok { s with
        sums := (npNonzero c.output).map fun j => (j, w' j), prod := pr, permanents := l } ∧
      (∀ j ∈ npNonzero c.output, Close (k0 + (t + 1) * d) X (w' j) (W r' j)) ∧
      ListClose c.input.length (κ + (t + 1) + 1) (fun j => P j + size r' j) l (fun j => p j + term r' j)

theorem subMainR_near (meth : SubMethodR) (c : CalcCfg ℂ) (W : List Int → ℕ → ℂ) (m0 X : ℝ) (k0 d κ N : ℕ)
    (size : List Int → ℕ → ℝ) (term : List Int → ℕ → ℂ) (hW : SubStepNear meth c W m0 X k0 d κ N size term)
    (hne : c.input ≠ []) (hn : c.input.sum ≤ 1000) (L : List (List Int)) (r u : List Int)
    (hV : Visits (c.input.map fun (x : ℕ) => (x : Int)) r u L) :
    ∀ (s : SubScratchR) (fuel t : ℕ) (P : ℕ → ℝ) (p : ℕ → ℂ), SInvR c W m0 X k0 d t r u s → InBox r c.input →
      u.length = c.input.length → (∀ x ∈ u, x = 1 ∨ x = -1) → L.length ≤ fuel → t + L.length ≤ N + 1 →
      ListClose c.input.length (κ + t + 1) P s.permanents p →
      ∃ s', subMainR R meth c fuel s = .ok s' ∧
        ListClose c.input.length (κ + t + L.length) (fun j => P j + (L.tail.map fun r => size r j).sum) s'.permanents
          (fun j => p j + (L.tail.map fun r => term r j).sum) := by
  induction hV with
  | @stop r u hg =>
    intro s fuel t P p hI hr hul hud hf hN hp
    obtain ⟨fuel, rfl⟩ : ∃ k, fuel = k + 1 := ⟨fuel - 1, by simp at hf; omega⟩
    obtain ⟨a, b, ha, hb, hab⟩ := last_le hr hne
    have hrl := hr.length_eq
    have hpos := List.length_pos_of_ne_nil hne
    have hrne : r ≠ [] := List.ne_nil_of_length_pos (by omega)
    rw [subMainR, hI.rv, hI.lim, ha, ok_bind, hb, ok_bind, if_pos hab,
      updateGuanCode_eq _ (by rw [hI.lim, hI.rv]; simp [hrl]) (by rw [hI.cu, hI.rv]; omega)
        (by rw [hI.rv]; exact hrne), hI.rv, hI.lim, hI.cu, hg, ok_bind]
    simp only [if_true]
    exact ⟨_, rfl, by simpa using hp⟩
  | @step r u q L hg hV ih =>
    intro s fuel t P p hI hr hul hud hf hN hp
    obtain ⟨fuel, rfl⟩ : ∃ k, fuel = k + 1 := ⟨fuel - 1, by simp at hf; omega⟩
    obtain ⟨a, b, ha, hb, hab⟩ := last_le hr hne
    have hrl := hr.length_eq
    have hpos := List.length_pos_of_ne_nil hne
    have hrne : r ≠ [] := List.ne_nil_of_length_pos (by omega)
    have hgl := gstep_length hg
    obtain ⟨hset, hs0, hs1⟩ := gstep_set hg
    have hgd := gstep_dirs hg hud
    obtain ⟨i, hi⟩ : ∃ i, i = q.2.2 := ⟨_, rfl⟩
    rw [← hi] at hset hs0 hs1 hgl
    have hud' := getD_dir hud (i := i) (by omega)
    have hlim : (c.input.map fun (x : ℕ) => (x : Int)).getD i 0 = (c.input.getD i 0 : Int) := by
      rw [getD_of_lt _ _ (by simp; omega), getD_of_lt _ _ (by omega)]; simp
    rw [hlim] at hs1
    have hr0 := forall₂_getD hr i
    have hbox := forall₂_set hr i ⟨hs0, hs1⟩
    rw [← hset] at hbox
    have hsg := sign_set (K := ℝ) _ _ _ _ (by omega) hrl hud' hr0.1 hs0
    rw [← hset] at hsg
    obtain ⟨b', e2, hb'⟩ := updateBinomialsR_near R c.input hn
      ⟨q.1, q.2.1, c.input.map fun (x : ℕ) => (x : Int), i, r.getD i 0⟩ r s.binomials i
      (u.getD i 0) (2 * t) (by omega) hr hset rfl rfl hud' hs0 hs1 hI.bin
    rw [← hset] at hb'
    obtain ⟨L', rfl⟩ := hV.head
    obtain ⟨w, hw, hwc⟩ := hI.sums
    obtain ⟨w', pr, l, e3, hw', hl'⟩ := hW { s with
      guan := ⟨q.1, q.2.1, c.input.map fun (x : ℕ) => (x : Int), i, r.getD i 0⟩
      multiplier := -s.multiplier
      binomials := b' } r i (u.getD i 0) q.1 t P p w (by simp only [List.length_cons] at hN; omega) (by omega)
      hr hud' hset hbox rfl rfl rfl hw hwc hI.cons (by simp only [hI.mult, hsg]; ring) (by rw [Nat.mul_add]; exact hb') hp
    rw [subMainR, hI.rv, hI.lim, ha, ok_bind, hb, ok_bind, if_pos hab,
      updateGuanCode_eq _ (by rw [hI.lim, hI.rv]; simp [hrl]) (by rw [hI.cu, hI.rv]; omega)
        (by rw [hI.rv]; exact hrne), hI.rv, hI.lim, hI.cu, hg, ok_bind, ← hi]
    simp only
    rw [if_neg (by omega), e2, ok_bind, ← bind_assoc, e3, ok_bind]
    generalize hst : SubScratchR.mk _ _ _ _ _ _ _ = st
    have hinv : SInvR c W m0 X k0 d (t + 1) q.1 q.2.1 st := by
      subst hst
      exact { rv := rfl
              cu := rfl
              lim := rfl
              mult := by simp only [hI.mult, hsg]; ring
              bin := by simpa only [Nat.mul_add] using hb'
              sums := ⟨w', rfl, hw'⟩
              cons := hI.cons }
    obtain ⟨s', hs', hp'⟩ := ih st fuel (t + 1) _ _ hinv hbox (by omega) hgd (by simpa using hf)
      (by simp only [List.length_cons] at hN ⊢; omega) (by subst hst; exact hl')
    refine ⟨s', hs', hp'.1, fun j hj => ?_⟩
    have := hp'.2 j hj
    simp only [List.tail_cons, List.map_cons, List.sum_cons, List.length_cons] at this ⊢
    rw [← add_assoc (P j), ← add_assoc (p j)]
    exact this.mono (by omega)

/-! ### The addends -/

/-- The size of the addend of `r` to the `j`-th permanent. -/
noncomputable def subSize (S T : List ℕ) (m0 X : ℝ) (r : List Int) (j : ℕ) : ℝ :=
  if S.getD j 0 = 0 then 0 else |m0| * boxProd S.length (binF (decAt S j)) r * X ^ T.sum

/-- The number of operations in the addend after `t` steps. -/
def subOps (n k0 d t : ℕ) : ℕ := 2 * t + 4 + n * (k0 + t * d + 2)

theorem subOps_mono (n k0 d : ℕ) {t t' : ℕ} (h : t ≤ t') : subOps n k0 d t ≤ subOps n k0 d t' := by
  unfold subOps
  have h1 : t * d ≤ t' * d := Nat.mul_le_mul_right d h
  have h2 : n * (k0 + t * d + 2) ≤ n * (k0 + t' * d + 2) := Nat.mul_le_mul_left n (by omega)
  omega

theorem pow_factors (X : ℝ) : ((npNonzero T).map fun j => X ^ T.getD j 0).prod = X ^ T.sum := by
  rw [← npNonzero_sum T]
  generalize npNonzero T = l
  induction l with
  | nil => simp
  | cons a l ih => rw [List.map_cons, List.prod_cons, ih, List.map_cons, List.sum_cons, pow_add]

theorem ops_factors (K : ℕ) : ((npNonzero T).map fun j => T.getD j 0 * (K + 1) + 1).sum ≤ T.sum * (K + 2) := by
  have h1 := npNonzero_length_le T
  have h2 : ((npNonzero T).map fun j => T.getD j 0 * (K + 1) + 1).sum
      = ((npNonzero T).map fun j => T.getD j 0).sum * (K + 1) + (npNonzero T).length := by
    generalize npNonzero T = l
    induction l with
    | nil => simp
    | cons a l ih => simp only [List.map_cons, List.sum_cons, ih, List.length_cons]; ring
  rw [h2, npNonzero_sum]
  nlinarith

/-- The product of the powers of the sums. -/
theorem factors_close {K k : ℕ} {X Y : ℝ} {w v : ℕ → ℂ} {a' a : ℂ} (hX : 1 ≤ X)
    (hw : ∀ j ∈ npNonzero T, Close K X (w j) (v j)) (ha : Close k Y a' a) (hY : (2 : ℝ) ^ (-1000 : ℤ) ≤ Y) :
    Close (k + T.sum * (K + 2)) (Y * X ^ T.sum)
      (((npNonzero T).map fun j => A.pow (w j) (T.getD j 0)).foldl A.mul a')
      (a * ((npNonzero T).map fun j => v j ^ T.getD j 0).prod) := by
  have e3 := A.foldl_close (npNonzero T) (fun j => A.pow (w j) (T.getD j 0))
    (fun j => v j ^ T.getD j 0) (fun j => T.getD j 0 * (K + 1)) (fun j => X ^ T.getD j 0)
    (fun j _ => one_le_pow₀ hX) (fun j hj => A.pow_close (hw j hj) hX _) ha hY
  rw [pow_factors] at e3
  exact e3.mono (Nat.add_le_add_left (ops_factors K) k)

theorem subSize_nonneg (S T : List ℕ) (m0 : ℝ) {X : ℝ} (hX : 0 ≤ X) (r : List Int) (j : ℕ) : 0 ≤ subSize S T m0 X r j := by
  unfold subSize
  split
  · exact le_rfl
  · have : 0 ≤ boxProd S.length (binF (K := ℝ) (decAt S j)) r := by
      unfold boxProd binF
      positivity
    positivity

theorem subSize_sum (S T : List ℕ) (m0 X : ℝ) (j : ℕ) (hj : j < S.length) (h0 : S.getD j 0 ≠ 0) :
    ((ibox S).map fun r => subSize S T m0 X r j).sum = |m0| * 2 ^ (S.sum - 1) * X ^ T.sum := by
  have e := sum_ibox_mono (K := ℝ) (decAt_le S j) (fun _ => |m0| * X ^ T.sum)
  have hd := decAt_sum S j hj h0
  have e1 : ((ibox (decAt S j)).map fun r => boxProd (decAt S j).length (binF (K := ℝ) (decAt S j)) r
      * (|m0| * X ^ T.sum)).sum = 2 ^ (S.sum - 1) * (|m0| * X ^ T.sum) := by
    rw [List.sum_map_mul_right, boxProd_bin_sum, show (decAt S j).sum = S.sum - 1 by omega]
  rw [e1, decAt_length] at e
  unfold subSize
  simp only [if_neg h0]
  have e2 : (fun r => |m0| * boxProd S.length (binF (K := ℝ) (decAt S j)) r * X ^ T.sum)
      = fun r => boxProd S.length (binF (K := ℝ) (decAt S j)) r * (|m0| * X ^ T.sum) := by
    funext r; ring
  rw [e2, e]
  ring

theorem subSize_sum_eq (S T : List ℕ) (m0 X : ℝ) (j : ℕ) (hj : j < S.length) :
    ((ibox S).map fun r => subSize S T m0 X r j).sum
      = if S.getD j 0 = 0 then 0 else |m0| * 2 ^ (S.sum - 1) * X ^ T.sum := by
  by_cases h0 : S.getD j 0 = 0
  · simp only [subSize, if_pos h0, List.map_const', List.sum_replicate, smul_zero]
  · rw [if_neg h0]
    exact subSize_sum S T m0 X j hj h0

/-! ### The Ryser method -/

theorem foldlM_ryserSumsR (l : List (ℕ × ℂ)) (f : ℕ × ℂ → Py ℂ) (g : ℕ × ℂ → ℂ) (t : ℕ × ℂ → Py ℕ)
    (t' : ℕ × ℂ → ℕ) (hf : ∀ p ∈ l, f p = .ok (g p)) (ht : ∀ p ∈ l, t p = .ok (t' p))
    (a : List (ℕ × ℂ)) (b : ℂ) :
    l.foldlM (fun (st : List (ℕ × ℂ) × ℂ) p => (do
      let w ← f p
      let e ← t p
      pure (st.1 ++ [(p.1, w)], A.mul st.2 (A.pow w e)) : Py _)) (a, b)
      = .ok (a ++ l.map (fun p => (p.1, g p)), (l.map fun p => A.pow (g p) (t' p)).foldl A.mul b) := by
  induction l generalizing a b with
  | nil => simp
  | cons p l ih =>
    rw [List.foldlM_cons, hf p (by simp), ok_bind, ht p (by simp), ok_bind, pure_eq_ok, ok_bind,
      ih (fun q hq => hf q (by simp [hq])) (fun q hq => ht q (by simp [hq]))]
    simp

theorem ryserSubR_step {e : ℕ} (h : SubFits U' S T n) (hU : MatClose e U' U) (m0 : ℝ) (hm0 : |m0| = 1) (κ N : ℕ)
    (hκ : subOps T.sum 0 (e + 2) N ≤ κ) :
    SubStepNear (ryserSubMethodR R A) ⟨U', S, T⟩ (ryserW ⟨U, S, T⟩) m0 (xmax S.sum) 0 (e + 2) κ N
      (subSize S T m0 (xmax S.sum)) (ryserSubTerm ⟨U, S, T⟩ (m0 : ℂ)) := by
  intro s r i u r' t P p w hN hi hr hu hr' hbox hrv hidx hlast hs hw hcons hmult hbin hperm
  simp only at hi hr hbox hmult hbin hperm hcons hs hw ⊢
  have hrl := hr.length_eq
  have hrl' : r'.length = S.length := hbox.length_eq
  have hri : r'[i]'(by omega) = r.getD i 0 + u := by simp [hr']
  have hX := one_le_xmax S.sum
  set w' : ℕ → ℂ := fun j => A.add (w j) (A.mul (u : ℂ) (mget U' j i)) with hw'
  set pr : ℂ := A.mul (((npNonzero T).map fun k => A.pow (w' k) (T.getD k 0)).foldl A.mul 1) (s.multiplier : ℂ) with hpr
  have hwc : ∀ j ∈ npNonzero T, Close (0 + (t + 1) * (e + 2)) (xmax S.sum) (w' j) (ryserW ⟨U, S, T⟩ r' j) := by
    intro j hj
    have e1 : ryserW ⟨U, S, T⟩ r' j = ryserW ⟨U, S, T⟩ r j + (u : ℂ) * mget U j i := by
      unfold ryserW
      rw [hr']
      exact boxSum_set _ _ _ _ _ hi hrl
    have e2 := int_mul_close A hU u (Y := 1) (by rcases hu with rfl | rfl <;> norm_num) le_rfl j i
    have e3 := ryserW_le (T := T) hU hbox j
    rw [e1] at e3 ⊢
    exact (A.add_fixed (hw j hj) e2 hX e3 hX).mono (by rw [Nat.add_mul]; omega)
  have hsums : (ryserSubMethodR R A).updateSums ⟨U', S, T⟩ s = .ok { s with
      sums := (npNonzero T).map fun j => (j, w' j)
      prod := pr } := by
    simp only [ryserSubMethodR, hs, hrv, hidx, hlast]
    have := foldlM_ryserSumsR A ((npNonzero T).map fun j => (j, w j)) (fun p => (do
      let x ← pyGetN r' i
      let v ← matGet U' p.1 i
      pure (A.add p.2 (A.mul ((x - r.getD i 0 : Int) : ℂ) v)) : Py ℂ))
      (fun p => A.add p.2 (A.mul (u : ℂ) (mget U' p.1 i)))
      (fun p => pyGetN T p.1) (fun p => T.getD p.1 0) (by
        intro p hp
        obtain ⟨j, hj, rfl⟩ := List.mem_map.mp hp
        have hj' := ((mem_npNonzero _ _).mp hj).1
        rw [pyGetN_ok (by omega), ok_bind, h.matGet hj' hi, ok_bind, hri, add_sub_cancel_left]
        rfl) (by
        intro p hp
        obtain ⟨j, hj, rfl⟩ := List.mem_map.mp hp
        have hj' := ((mem_npNonzero _ _).mp hj).1
        rw [pyGetN_ok hj', getD_of_lt _ _ hj']) [] 1
    simp only [bind_assoc, pure_bind, List.map_map, Function.comp_def, List.nil_append] at this
    rw [this]
    rfl
  have hprc : Close (T.sum * (0 + (t + 1) * (e + 2) + 2) + 1) (xmax S.sum ^ T.sum) pr
      (((npNonzero T).map fun k => ryserW ⟨U, S, T⟩ r' k ^ T.getD k 0).prod
        * ((m0 * boxProd S.length (signF (K := ℝ)) r' : ℝ) : ℂ)) := by
    have e1 := factors_close A (T := T) hX hwc (Close.exact (a := (1 : ℂ)) (X := 1) (by simp)) (small_of_one le_rfl)
    rw [one_mul, one_mul, Nat.zero_add] at e1
    have e2 : Close 0 1 (s.multiplier : ℂ) ((m0 * boxProd S.length (signF (K := ℝ)) r' : ℝ) : ℂ) := by
      rw [hmult]
      refine .exact ?_
      rw [Complex.norm_real, Real.norm_eq_abs, abs_mul, sign_abs, hm0, mul_one]
    have := A.mul_close e1 e2 (by rw [mul_one]; exact small_of_one (one_le_pow₀ hX))
    rwa [mul_one, Nat.add_zero] at this
  have hops : subOps T.sum 0 (e + 2) (t + 1) ≤ κ := (subOps_mono _ _ _ hN).trans hκ
  set g : ℕ → ℂ → ℂ := fun j x => if S.getD j 0 = 0 ∨ r'.getD j 0 = (S.getD j 0 : Int) then x else
    A.add x (A.mul pr ((R.rnd (s.binomials / R.rnd ((S.getD j 0 : ℝ) / (((S.getD j 0 : Int) - r'.getD j 0 : Int) : ℝ)))
      : ℝ) : ℂ)) with hg
  refine ⟨w', pr, (List.range S.length).map fun j => g j (s.permanents.getD j 0), ?_, hwc, by simp, ?_⟩
  · rw [hsums, ok_bind]
    simp only [ryserSubMethodR]
    rw [hperm.1, foldlM_mapAt S.length _ g ?_ s.permanents hperm.1]
    · rfl
    · intro l hl j hj
      unfold ryserSubStepR
      simp only
      rw [pyGetN_ok hj, ok_bind, hrv, pyGetN_ok (by omega), ok_bind]
      have hS : S[j] = S.getD j 0 := (getD_of_lt _ _ hj).symm
      have hR : r'[j]'(by omega) = r'.getD j 0 := (getD_of_lt _ _ (by omega)).symm
      rw [hS, hR]
      simp only [hg]
      by_cases hc : S.getD j 0 = 0 ∨ r'.getD j 0 = (S.getD j 0 : Int)
      · rw [if_pos hc, if_pos hc, getD_of_lt _ _ (by omega)]
        simp
      · rw [if_neg hc, if_neg hc]
        unfold pyDivInt
        rw [if_neg (by push Not at hc; omega), ok_bind, pyGetN_ok (by omega), ok_bind, pySetN_ok (by omega),
          getD_of_lt _ _ (show j < l.length by omega)]
  · intro j hj
    rw [getD_of_lt _ _ (by simpa using hj)]
    simp only [List.getElem_map, List.getElem_range, hg]
    have hpj := hperm.2 j hj
    by_cases h0 : S.getD j 0 = 0
    · rw [if_pos (Or.inl h0)]
      simp only [subSize, ryserSubTerm, if_pos h0, add_zero]
      exact hpj.mono (by omega)
    · by_cases he : r'.getD j 0 = (S.getD j 0 : Int)
      · rw [if_pos (Or.inr he)]
        simp only [subSize, ryserSubTerm, if_neg h0]
        rw [bin_decAt_full S r' j hj h0 he, bin_decAt_full S r' j hj h0 he]
        simp only [mul_zero, zero_mul, add_zero]
        exact hpj.mono (by omega)
      · rw [if_neg (by tauto)]
        have hq := (binQuot_close R hbox j hj h0 he hbin).ofReal
        have hB := boxProd_bin_ge (inBox_decAt hbox j hj h0 he)
        rw [decAt_length] at hB
        have hsz : 1 ≤ xmax S.sum ^ T.sum * boxProd S.length (binF (K := ℝ) (decAt S j)) r' :=
          one_le_mul_of_one_le_of_one_le (one_le_pow₀ hX) hB
        have e1 := A.mul_close hprc hq (small_of_one hsz)
        have e2 : subSize S T m0 (xmax S.sum) r' j
            = xmax S.sum ^ T.sum * boxProd S.length (binF (K := ℝ) (decAt S j)) r' := by
          simp only [subSize, if_neg h0, hm0]; ring
        have e3 : ryserSubTerm ⟨U, S, T⟩ (m0 : ℂ) r' j
            = ((npNonzero T).map fun k => ryserW ⟨U, S, T⟩ r' k ^ T.getD k 0).prod
              * ((m0 * boxProd S.length (signF (K := ℝ)) r' : ℝ) : ℂ)
              * ((boxProd S.length (binF (K := ℝ) (decAt S j)) r' : ℝ) : ℂ) := by
          simp only [ryserSubTerm, if_neg h0]
          have := bin_ofReal (decAt S j) r'
          rw [decAt_length] at this
          rw [this, Complex.ofReal_mul, sign_ofReal]
          ring
        rw [← e2, ← e3] at e1
        have hle : T.sum * (0 + (t + 1) * (e + 2) + 2) + 1 + (2 * (t + 1) + 2) + 1 ≤ κ + t + 1 := by
          unfold subOps at hops; omega
        exact A.add_close hpj (e1.mono hle)
          (small_of_one (hsz.trans (e2 ▸ le_add_of_nonneg_left hpj.bound_nonneg)))

/-! ### The Chin–Huh method -/

theorem ComplexArith.sub_fixed {k l : ℕ} {X Y : ℝ} {a a' b b' : ℂ} (h : Close k X a' a) (h' : Close l Y b' b)
    (hY : Y ≤ X) (hs : ‖a - b‖ ≤ X) (hX : 1 ≤ X) : Close (k + l + 1) X (A.sub a' b') (a - b) := by
  have h1 := h.add_err (h'.mono' hY).neg.2 (by rwa [← sub_eq_add_neg])
  rw [← sub_eq_add_neg, ← sub_eq_add_neg] at h1
  exact h1.op (small_of_one hX) h1.norm_le (A.sub_err a' b')

theorem chSubW_le {e : ℕ} (hU : MatClose e U' U) {r : List Int} (hr : InBox r S) (j : ℕ) (hj : j < S.length)
    (h0 : S.getD j 0 ≠ 0) (he : r.getD j 0 ≠ (S.getD j 0 : Int)) (k : ℕ) :
    ‖chinHuhW ⟨U, S, T⟩ r k - mget U k j‖ ≤ xmax S.sum := by
  have e1 : chinHuhW ⟨U, S, T⟩ r k - mget U k j = chinHuhW ⟨U, decAt S j, T⟩ r k := by
    simp only [chinHuhW]
    rw [decAt_length, boxSum_decAt _ _ hj h0]
    ring
  rw [e1]
  refine (chinHuhW_le (T := T) hU (inBox_decAt hr j hj h0 he) k).trans ?_
  have := decAt_sum S j hj h0
  unfold xmax
  exact max_le_max le_rfl (by exact_mod_cast (by omega : (decAt S j).sum ≤ S.sum))

theorem chSubUpdateR {e : ℕ} (h : SubFits U' S T n) (hU : MatClose e U' U) (m0 : ℝ)
    (hm0 : (2 : ℝ) ^ (-1000 : ℤ) ≤ |m0|) (s : SubScratchR) (r' : List Int) (k0 kb κ : ℕ) (P : ℕ → ℝ) (p w : ℕ → ℂ)
    (hbox : InBox r' S) (hrv : s.guan.rVector = r')
    (hs : s.sums = (npNonzero T).map fun j => (j, w j))
    (hw : ∀ j ∈ npNonzero T, Close k0 (xmax S.sum) (w j) (chinHuhW ⟨U, S, T⟩ r' j))
    (hcons : s.considered = npNonzero T) (hmult : s.multiplier = m0 * boxProd S.length signF r')
    (hbin : Close kb (boxProd S.length (binF S) r') s.binomials (boxProd S.length (binF S) r'))
    (hκ : kb + 3 + T.sum * (k0 + e + 1 + 2) ≤ κ) (hperm : ListClose S.length κ P s.permanents p) :
    ∃ l, chSubUpdatePermanentsR R A ⟨U', S, T⟩ s = .ok { s with permanents := l } ∧
      ListClose S.length (κ + 1) (fun j => P j + subSize S T m0 (xmax S.sum) r' j) l
        (fun j => p j + chSubTerm ⟨U, S, T⟩ (m0 : ℂ) r' j) := by
  have hrl' : r'.length = S.length := hbox.length_eq
  have hX := one_le_xmax S.sum
  set g : ℕ → ℂ → ℂ := fun j x => if S.getD j 0 = 0 ∨ (S.getD j 0 : Int) = r'.getD j 0 then x else
    A.add x (((npNonzero T).map fun k => A.pow (A.sub (w k) (mget U' k j)) (T.getD k 0)).foldl A.mul
      (R.rnd (s.multiplier * R.rnd (s.binomials /
        R.rnd ((S.getD j 0 : ℝ) / (((S.getD j 0 : Int) - r'.getD j 0 : Int) : ℝ)))) : ℝ)) with hg
  refine ⟨(List.range S.length).map fun j => g j (s.permanents.getD j 0), ?_, by simp, ?_⟩
  · unfold chSubUpdatePermanentsR
    simp only
    rw [foldlM_mapAt S.length _ g ?_ s.permanents hperm.1]
    · rfl
    · intro l hl j hj
      unfold chSubStepR
      simp only
      rw [pyGetN_ok hj, ok_bind, hrv, pyGetN_ok (by omega), ok_bind]
      have hS : S[j] = S.getD j 0 := (getD_of_lt _ _ hj).symm
      have hR : r'[j]'(by omega) = r'.getD j 0 := (getD_of_lt _ _ (by omega)).symm
      rw [hS, hR]
      simp only [hg]
      by_cases hc : S.getD j 0 = 0 ∨ (S.getD j 0 : Int) = r'.getD j 0
      · rw [if_pos hc, if_pos hc, getD_of_lt _ _ (by omega)]
        simp
      · rw [if_neg hc, if_neg hc, hcons]
        rw [foldlM_ok (fun (d : List (ℕ × ℂ)) (k : ℕ) => (do
            let w ← dictGet s.sums k
            let v ← matGet U' k j
            pure (dictSet d k (A.sub w v)) : Py _))
          (fun d k => dictSet d k (A.sub (w k) (mget U' k j)))]
        · rw [ok_bind, foldl_dictSet _ _ _ (npNonzero_nodup T) (by simp), List.nil_append]
          unfold pyDivInt
          rw [if_neg (by push Not at hc; omega), ok_bind, mapM_ok _
            (fun k => A.pow (A.sub (w k) (mget U' k j)) (T.getD k 0))]
          · rw [ok_bind, pyGetN_ok (by omega), ok_bind, pySetN_ok (by omega),
              getD_of_lt _ _ (show j < l.length by omega)]
          · intro k hk
            have hk' := ((mem_npNonzero _ _).mp hk).1
            rw [dictGet_map _ _ hk, ok_bind, pyGetN_ok hk', ok_bind, getD_of_lt _ _ hk']
            rfl
        · intro d k hk
          have hk' := ((mem_npNonzero _ _).mp hk).1
          rw [hs, dictGet_map _ _ hk, ok_bind, h.matGet hk' hj, ok_bind]
          rfl
  · intro j hj
    rw [getD_of_lt _ _ (by simpa using hj)]
    simp only [List.getElem_map, List.getElem_range, hg]
    have hpj := hperm.2 j hj
    by_cases h0 : S.getD j 0 = 0
    · rw [if_pos (Or.inl h0)]
      simp only [subSize, chSubTerm, if_pos h0, add_zero]
      exact hpj.mono (by omega)
    · by_cases he : r'.getD j 0 = (S.getD j 0 : Int)
      · rw [if_pos (Or.inr he.symm)]
        simp only [subSize, chSubTerm, if_neg h0]
        rw [bin_decAt_full S r' j hj h0 he, bin_decAt_full S r' j hj h0 he]
        simp only [mul_zero, zero_mul, add_zero]
        exact hpj.mono (by omega)
      · rw [if_neg (by rintro (h | h); exact h0 h; exact he h.symm)]
        have hq := binQuot_close R hbox j hj h0 he hbin
        have hB := boxProd_bin_ge (inBox_decAt hbox j hj h0 he)
        rw [decAt_length] at hB
        have em : Close 0 |m0| s.multiplier (m0 * boxProd S.length (signF (K := ℝ)) r') := by
          rw [hmult]
          refine .exact ?_
          rw [Real.norm_eq_abs, abs_mul, sign_abs, mul_one]
        have hmB : (2 : ℝ) ^ (-1000 : ℤ) ≤ |m0| * boxProd S.length (binF (K := ℝ) (decAt S j)) r' :=
          hm0.trans (le_mul_of_one_le_right (abs_nonneg m0) hB)
        have e1 := (R.close (em.mul_exact hq) hmB).ofReal
        have hv : ∀ k ∈ npNonzero T, Close (k0 + e + 1) (xmax S.sum) (A.sub (w k) (mget U' k j))
            (chinHuhW ⟨U, S, T⟩ r' k - mget U k j) := fun k hk =>
          A.sub_fixed (hw k hk) (hU k j) hX (chSubW_le hU hbox j hj h0 he k) hX
        have e2 := factors_close A (T := T) hX hv e1 hmB
        have e3 : subSize S T m0 (xmax S.sum) r' j
            = |m0| * boxProd S.length (binF (K := ℝ) (decAt S j)) r' * xmax S.sum ^ T.sum := by
          simp only [subSize, if_neg h0]
        have e4 : chSubTerm ⟨U, S, T⟩ (m0 : ℂ) r' j
            = ((m0 * boxProd S.length (signF (K := ℝ)) r' * boxProd S.length (binF (K := ℝ) (decAt S j)) r' : ℝ) : ℂ)
              * ((npNonzero T).map fun k => (chinHuhW ⟨U, S, T⟩ r' k - mget U k j) ^ T.getD k 0).prod := by
          simp only [chSubTerm, if_neg h0]
          have := bin_ofReal (decAt S j) r'
          rw [decAt_length] at this
          rw [Complex.ofReal_mul, this, Complex.ofReal_mul, sign_ofReal]
        rw [← e3, ← e4] at e2
        refine A.add_close hpj (e2.mono (by omega)) ?_
        have h5 : (2 : ℝ) ^ (-1000 : ℤ) ≤ subSize S T m0 (xmax S.sum) r' j := by
          rw [e3]
          exact hmB.trans (le_mul_of_one_le_right (by positivity) (one_le_pow₀ hX))
        exact h5.trans (le_add_of_nonneg_left hpj.bound_nonneg)

theorem chSubR_step {e : ℕ} (h : SubFits U' S T n) (hU : MatClose e U' U) (m0 : ℝ)
    (hm0 : (2 : ℝ) ^ (-1000 : ℤ) ≤ |m0|) (k0 κ N : ℕ) (hκ : subOps T.sum (k0 + e + 1) (2 * e + 3) N ≤ κ) :
    SubStepNear (chSubMethodR R A) ⟨U', S, T⟩ (chinHuhW ⟨U, S, T⟩) m0 (xmax S.sum) k0 (2 * e + 3) κ N
      (subSize S T m0 (xmax S.sum)) (chSubTerm ⟨U, S, T⟩ (m0 : ℂ)) := by
  intro s r i u r' t P p w hN hi hr hu hr' hbox hrv hidx hlast hs hw hcons hmult hbin hperm
  simp only at hi hr hbox hmult hbin hperm hcons hs hw ⊢
  have hrl := hr.length_eq
  have hrl' : r'.length = S.length := hbox.length_eq
  have hri : r'[i]'(by omega) = r.getD i 0 + u := by simp [hr']
  have hX := one_le_xmax S.sum
  set w' : ℕ → ℂ := fun j => A.sub (w j) (A.mul ((2 * u : Int) : ℂ) (mget U' j i)) with hw'
  have hwc : ∀ j ∈ npNonzero T, Close (k0 + (t + 1) * (2 * e + 3)) (xmax S.sum) (w' j) (chinHuhW ⟨U, S, T⟩ r' j) := by
    intro j hj
    have e1 : chinHuhW ⟨U, S, T⟩ r' j = chinHuhW ⟨U, S, T⟩ r j - ((2 * u : Int) : ℂ) * mget U j i := by
      unfold chinHuhW
      simp only
      rw [hr', boxSum_set _ _ _ _ _ hi hrl]
      push_cast
      ring
    have e2 := int_mul_close A hU (2 * u) (Y := 2) (by rcases hu with rfl | rfl <;> norm_num) (by norm_num) j i
    have e3 := chinHuhW_le (T := T) hU hbox j
    rw [e1] at e3 ⊢
    exact (A.sub_double (hw j hj) e2 e3 hX).mono (by rw [Nat.add_mul]; omega)
  have hsums : (chSubMethodR R A).updateSums ⟨U', S, T⟩ s = .ok { s with
      sums := (npNonzero T).map fun j => (j, w' j) } := by
    simp only [chSubMethodR, hs, hrv, hidx, hlast]
    rw [mapM_ok _ (fun p => (p.1, A.sub p.2 (A.mul ((2 * u : Int) : ℂ) (mget U' p.1 i))))]
    · rw [ok_bind, List.map_map]
      rfl
    · intro p hp
      obtain ⟨j, hj, rfl⟩ := List.mem_map.mp hp
      have hj' := ((mem_npNonzero _ _).mp hj).1
      rw [pyGetN_ok (by omega), ok_bind, h.matGet hj' hi, ok_bind, hri, add_sub_cancel_left]
      rfl
  have hops : subOps T.sum (k0 + e + 1) (2 * e + 3) (t + 1) ≤ κ := (subOps_mono _ _ _ hN).trans hκ
  obtain ⟨l, hl, hlc⟩ := chSubUpdateR R A h hU m0 hm0 { s with sums := (npNonzero T).map fun j => (j, w' j) } r'
    (k0 + (t + 1) * (2 * e + 3)) (2 * (t + 1)) (κ + t + 1) P p w' hbox hrv rfl hwc hcons hmult hbin
    (by
      unfold subOps at hops
      have : T.sum * (k0 + (t + 1) * (2 * e + 3) + e + 1 + 2) = T.sum * (k0 + e + 1 + (t + 1) * (2 * e + 3) + 2) := by
        congr 1; omega
      rw [this]; omega) hperm
  refine ⟨w', s.prod, l, ?_, hwc, hlc⟩
  rw [hsums, ok_bind]
  exact hl

/-! ### Results -/

theorem subResult_getD (j : ℕ) (hj : j < S.length) : (subResult U S T).getD j 0
    = if S.getD j 0 = 0 then 0 else scatteringPermanent U (decAt S j) T := by
  rw [getD_of_lt _ _ (by simpa [subResult] using hj)]
  simp [subResult]

theorem subOneR (hS : S.sum = 1) (hT : T.sum = 0) (k : ℕ) {Y : ℝ} (hY : 1 ≤ Y) :
    ListClose S.length k (fun j => if S.getD j 0 = 0 then 0 else Y) (S.map fun (v : ℕ) => (v : ℂ))
      fun j => (subResult U S T).getD j 0 := by
  rw [subResult_one U hS hT]
  refine ⟨by simp [subResult], fun j hj => ?_⟩
  refine (Close.exact ?_).mono (Nat.zero_le k)
  rw [subResult_getD j hj]
  simp only
  split
  · rw [norm_zero]
  · rw [scatteringPermanent_vacuum _ _ _ hT, norm_one]
    exact hY

/-- The number of operations of the Ryser submatrix calculator. -/
def ryserSubOps (e : ℕ) (S T : List ℕ) : ℕ := subOps T.sum 0 (e + 2) (S.map (· + 1)).prod + (S.map (· + 1)).prod

/-- The number of operations of the Chin–Huh submatrix calculator. -/
def chSubOps (e : ℕ) (S T : List ℕ) : ℕ :=
  subOps T.sum (S.length * (e + 2) + e + 1) (2 * e + 3) (S.map (· + 1)).prod + (S.map (· + 1)).prod

theorem ryserSubR_near {e : ℕ} (h : SubFits U' S T n) (hU : MatClose e U' U) (hsum : S.sum = T.sum + 1)
    (hn : S.sum ≤ 1000) (fuel : ℕ) (hf : (S.map (· + 1)).prod ≤ fuel) :
    ∃ l, ryserSubPermanentsR R A fuel ⟨U', S, T⟩ = .ok l ∧
      ListClose S.length (ryserSubOps e S T) (fun j => if S.getD j 0 = 0 then 0 else 2 ^ T.sum * xmax S.sum ^ T.sum) l
        fun j => (subResult U S T).getD j 0 := by
  have hX := one_le_xmax S.sum
  unfold ryserSubPermanentsR computePermanentsR
  simp only
  by_cases h1 : S.sum = 1
  · rw [if_pos h1]
    exact ⟨_, rfl, subOneR h1 (by omega) _ (one_le_mul_of_one_le_of_one_le (one_le_pow₀ (by norm_num)) (one_le_pow₀ hX))⟩
  · rw [if_neg h1]
    obtain ⟨L, hL, hp, hl⟩ := visits_init S
    have habs : |((-1) ^ T.sum : ℝ)| = 1 := by rw [abs_pow, abs_neg, abs_one, one_pow]
    have hinit : (ryserSubMethodR R A).init ⟨U', S, T⟩ = .ok { subInitBaseR ⟨U', S, T⟩ with
        sums := (npNonzero T).map fun j => (j, 0) } := by
      simp only [ryserSubMethodR, subInitBaseR]
      rw [foldl_dictSet _ (fun _ => (0 : ℂ)) _ (npNonzero_nodup T) (by simp), List.nil_append]
      rfl
    rw [hinit, ok_bind]
    obtain ⟨s', hs', hp'⟩ := subMainR_near R (ryserSubMethodR R A) ⟨U', S, T⟩ (ryserW ⟨U, S, T⟩) ((-1) ^ T.sum) (xmax S.sum)
      0 (e + 2) (subOps T.sum 0 (e + 2) L.length) L.length _ _
      (ryserSubR_step R A h hU ((-1) ^ T.sum) habs _ L.length le_rfl) h.pos hn L _ _ hL
      { subInitBaseR ⟨U', S, T⟩ with sums := (npNonzero T).map fun j => (j, 0) } fuel 0 (fun _ => 0) (fun _ => 0)
      { rv := rfl
        cu := rfl
        lim := rfl
        mult := by rw [boxProd_zero _ _ _ (by simp [signF]), mul_one]; rfl
        bin := by rw [boxProd_zero _ _ _ (by simp [binF])]; exact .exact (by simp [subInitBaseR])
        sums := ⟨fun _ => 0, rfl, fun j _ => by
          have : ryserW ⟨U, S, T⟩ (List.replicate S.length 0) j = 0 := by simp [ryserW, boxSum_zero]
          rw [this]
          exact (Close.exact (by rw [norm_zero]; linarith)).mono (Nat.zero_le _)⟩
        cons := rfl } (zeros_box S) (by simp) (by simp) (by omega) (by omega)
      ⟨by simp [subInitBaseR], fun j hj => by
        have : (subInitBaseR ⟨U', S, T⟩).permanents.getD j 0 = 0 := by
          simp only [subInitBaseR]
          rw [getD_of_lt _ _ (by simpa using hj)]; simp
        simp only [this]
        exact (Close.exact (by simp)).mono (Nat.zero_le _)⟩
    rw [hs', ok_bind]
    refine ⟨_, rfl, hp'.1, fun j hj => ?_⟩
    have hj' : j < S.length := hj
    have := hp'.2 j hj
    simp only [zero_add] at this
    push_cast at this
    rw [ryserSub_sum hsum (by omega) hL hp j hj', ← subResult_getD j hj'] at this
    unfold ryserSubOps
    rw [← hl]
    refine (this.mono' ?_).mono (by omega)
    have hs : ((L.map fun r => subSize S T ((-1) ^ T.sum) (xmax S.sum) r j)).sum
        = if S.getD j 0 = 0 then 0 else 2 ^ T.sum * xmax S.sum ^ T.sum := by
      rw [(hp.map _).sum_eq, subSize_sum_eq S T _ _ j hj', habs, one_mul, hsum, Nat.add_sub_cancel]
    refine le_of_le_of_eq ?_ hs
    conv_rhs => rw [zero_mem_visits hL, List.map_cons, List.sum_cons]
    exact le_add_of_nonneg_left (subSize_nonneg _ _ _ (by linarith) _ _)

theorem chSubR_near {e : ℕ} (h : SubFits U' S T n) (hU : MatClose e U' U) (hsum : S.sum = T.sum + 1)
    (hn : S.sum ≤ 1000) (fuel : ℕ) (hf : (S.map (· + 1)).prod ≤ fuel) :
    ∃ l, chSubPermanentsR R A fuel ⟨U', S, T⟩ = .ok l ∧
      ListClose S.length (chSubOps e S T) (fun j => if S.getD j 0 = 0 then 0 else xmax S.sum ^ T.sum) l fun j => (subResult U S T).getD j 0 := by
  classical
  have hX := one_le_xmax S.sum
  unfold chSubPermanentsR computePermanentsR
  simp only
  by_cases h1 : S.sum = 1
  · rw [if_pos h1]
    exact ⟨_, rfl, subOneR h1 (by omega) _ (one_le_pow₀ hX)⟩
  · rw [if_neg h1]
    obtain ⟨L, hL, hp, hl⟩ := visits_init S
    have hmul : ∀ K : Type, ∀ [Field K], chSubMultiplier (K := K) S.sum = 1 / 2 ^ T.sum := by
      intro K _
      unfold chSubMultiplier
      rw [show (S.sum : Int) - 1 = (T.sum : Int) by omega, zpow_natCast]
    have habs : |(1 / 2 ^ T.sum : ℝ)| = 1 / 2 ^ T.sum := abs_of_pos (by positivity)
    have hm0 : (2 : ℝ) ^ (-1000 : ℤ) ≤ |(1 / 2 ^ T.sum : ℝ)| := by
      rw [habs, one_div, ← zpow_natCast, ← zpow_neg]
      exact zpow_le_zpow_right₀ (by norm_num) (by omega)
    have hrnd : R.rnd (1 / 2 ^ T.sum) = 1 / 2 ^ T.sum := by
      have hpow : (1 : ℝ) / 2 ^ T.sum = ((1 : ℤ) : ℝ) * 2 ^ (-(T.sum : ℤ)) := by
        rw [Int.cast_one, one_mul, zpow_neg, zpow_natCast, one_div]
      rw [hpow]
      exact R.eq_self (isFloat_mul (by norm_num) (by omega))
    choose w hw hc using fun i : {i // i < T.length} => chinHuhR_first A h.matGet hU i.1 i.2 S.length le_rfl
    let w' : ℕ → ℂ := fun i => if hi : i < T.length then w ⟨i, hi⟩ else 0
    have hw' : ∀ j ∈ npNonzero T, Close (S.length * (e + 2)) (xmax S.sum) (w' j)
        (chinHuhW ⟨U, S, T⟩ (List.replicate S.length 0) j) := by
      intro j hj
      have hj' := ((mem_npNonzero _ _).mp hj).1
      have := hc ⟨j, hj'⟩
      have e1 : w' j = w ⟨j, hj'⟩ := dif_pos hj'
      rw [e1]
      have e2 : chinHuhW ⟨U, S, T⟩ (List.replicate S.length 0) j
          = ∑ ν ∈ range S.length, ((S.getD ν 0 : ℕ) : ℂ) * mget U j ν := by
        rw [chinHuhW_eq]
        refine sum_congr rfl fun ν _ => ?_
        have : (List.replicate S.length (0 : Int)).getD ν 0 = 0 := by
          rw [List.getD_eq_getElem?_getD, List.getElem?_replicate]
          split <;> rfl
        rw [this]
        push_cast
        ring
      rw [e2]
      exact this
    set κ := subOps T.sum (S.length * (e + 2) + e + 1) (2 * e + 3) L.length with hκ
    obtain ⟨l0, hl0, hlc⟩ := chSubUpdateR R A h hU (1 / 2 ^ T.sum) hm0 { subInitBaseR ⟨U', S, T⟩ with
        multiplier := 1 / 2 ^ T.sum
        sums := (npNonzero T).map fun j => (j, w' j) } (List.replicate S.length 0) (S.length * (e + 2)) 0 κ
      (fun _ => 0) (fun _ => 0) w' (zeros_box S) rfl rfl hw' rfl
      (by rw [boxProd_zero _ _ _ (by simp [signF]), mul_one])
      (by rw [boxProd_zero _ _ _ (by simp [binF])]; exact .exact (by simp [subInitBaseR]))
      (by
        refine le_trans ?_ (subOps_mono _ _ _ (Nat.zero_le L.length))
        unfold subOps
        simp only [Nat.zero_mul, Nat.mul_zero, Nat.add_zero]
        omega)
      ⟨by simp [subInitBaseR], fun j hj => by
        have : (subInitBaseR ⟨U', S, T⟩).permanents.getD j 0 = 0 := by
          simp only [subInitBaseR]
          rw [getD_of_lt _ _ (by simpa using hj)]; simp
        simp only [this]
        exact (Close.exact (by simp)).mono (Nat.zero_le _)⟩
    have hinit : (chSubMethodR R A).init ⟨U', S, T⟩ = .ok { subInitBaseR ⟨U', S, T⟩ with
        multiplier := 1 / 2 ^ T.sum
        sums := (npNonzero T).map fun j => (j, w' j)
        permanents := l0 } := by
      simp only [chSubMethodR]
      rw [hmul ℝ, hrnd]
      have e0 : (subInitBaseR ⟨U', S, T⟩).considered = npNonzero T := rfl
      have e1 : (subInitBaseR ⟨U', S, T⟩).sums = [] := rfl
      rw [e0, e1]
      rw [foldlM_ok (fun (d : List (ℕ × ℂ)) (i : ℕ) => (do
          let w ← (List.range S.length).foldlM (fun (acc : ℂ) j => do
            let x ← pyGetN S j
            let u ← matGet U' i j
            pure (A.add acc (A.mul (x : ℂ) u))) 0
          pure (dictSet d i w) : Py _)) (fun d j => dictSet d j (w' j)), ok_bind,
        foldl_dictSet _ _ _ (npNonzero_nodup T) (by simp), List.nil_append]
      · exact hl0
      · intro d i hi
        have hi' := ((mem_npNonzero _ _).mp hi).1
        rw [hw ⟨i, hi'⟩, ok_bind]
        have e1 : w' i = w ⟨i, hi'⟩ := dif_pos hi'
        rw [e1]
        rfl
    rw [hinit, ok_bind]
    obtain ⟨s', hs', hp'⟩ := subMainR_near R (chSubMethodR R A) ⟨U', S, T⟩ (chinHuhW ⟨U, S, T⟩) (1 / 2 ^ T.sum) (xmax S.sum)
      (S.length * (e + 2)) (2 * e + 3) κ L.length _ _
      (chSubR_step R A h hU (1 / 2 ^ T.sum) hm0 _ _ L.length le_rfl) h.pos hn L _ _ hL
      { subInitBaseR ⟨U', S, T⟩ with
        multiplier := 1 / 2 ^ T.sum
        sums := (npNonzero T).map fun j => (j, w' j)
        permanents := l0 } fuel 0 _ _
      { rv := rfl
        cu := rfl
        lim := rfl
        mult := by rw [boxProd_zero _ _ _ (by simp [signF]), mul_one]
        bin := by rw [boxProd_zero _ _ _ (by simp [binF])]; exact .exact (by simp [subInitBaseR])
        sums := ⟨w', rfl, fun j hj => (hw' j hj).mono (by omega)⟩
        cons := rfl } (zeros_box S) (by simp) (by simp) (by omega) (by omega) hlc
    rw [hs', ok_bind]
    refine ⟨_, rfl, hp'.1, fun j hj => ?_⟩
    have hj' : j < S.length := hj
    have := hp'.2 j hj
    simp only [zero_add] at this
    have e1 : ∀ f : List Int → ℝ, f (List.replicate S.length 0) + (L.tail.map f).sum = (L.map f).sum := by
      intro f
      conv_rhs => rw [zero_mem_visits hL, List.map_cons, List.sum_cons]
    have e2 : ∀ f : List Int → ℂ, f (List.replicate S.length 0) + (L.tail.map f).sum = (L.map f).sum := by
      intro f
      conv_rhs => rw [zero_mem_visits hL, List.map_cons, List.sum_cons]
    rw [e1 (fun r => subSize S T (1 / 2 ^ T.sum) (xmax S.sum) r j),
      e2 (fun r => chSubTerm ⟨U, S, T⟩ ((1 / 2 ^ T.sum : ℝ) : ℂ) r j)] at this
    have e3 : ((1 / 2 ^ T.sum : ℝ) : ℂ) = chSubMultiplier S.sum := by rw [hmul ℂ]; push_cast; rfl
    rw [e3, chSub_sum hsum hp j hj', ← subResult_getD j hj'] at this
    unfold chSubOps
    rw [← hl]
    refine (this.mono' ?_).mono (by omega)
    rw [(hp.map _).sum_eq, subSize_sum_eq S T _ _ j hj', habs, hsum, Nat.add_sub_cancel]
    refine le_of_eq ?_
    congr 1
    field_simp

end Verif
