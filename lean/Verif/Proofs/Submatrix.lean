import Verif.Model.SubmatrixPermanents
import Verif.Proofs.GuanCalc
import Mathlib.Algebra.BigOperators.Group.Finset.Basic

/-! Helper lemmas: the submatrix permanent calculators. -/
namespace Verif

open Finset

variable {K : Type _} [Field K]

/-- The state with one particle removed from mode `i`. -/
def decAt (S : List ℕ) (i : ℕ) : List ℕ := S.set i (S.getD i 0 - 1)

theorem decAt_length (S : List ℕ) (i : ℕ) : (decAt S i).length = S.length := by simp [decAt]

theorem decAt_getD (S : List ℕ) (i ν : ℕ) (hi : i < S.length) :
    (decAt S i).getD ν 0 = if ν = i then S.getD i 0 - 1 else S.getD ν 0 := by
  unfold decAt
  rcases eq_or_ne ν i with rfl | h
  · rw [if_pos rfl, getD_of_lt _ _ (by simpa using hi)]; simp
  · rw [if_neg h, List.getD_eq_getElem?_getD, List.getD_eq_getElem?_getD,
      List.getElem?_set_ne (Ne.symm h), List.getD_eq_getElem?_getD]

theorem decAt_sum (S : List ℕ) (i : ℕ) (hi : i < S.length) (h : S.getD i 0 ≠ 0) :
    (decAt S i).sum + 1 = S.sum := by
  induction S generalizing i with
  | nil => simp at hi
  | cons s S ih =>
    cases i with
    | zero => simp [decAt] at h ⊢; omega
    | succ i =>
      have := ih i (by simpa using hi) (by simpa using h)
      simp only [decAt, List.set_cons_succ, List.getD_cons_succ, List.sum_cons] at this ⊢
      omega

theorem ibox_mono {S S' : List ℕ} (h : List.Forall₂ (· ≤ ·) S' S) {r : List Int} (hr : r ∈ ibox S') :
    r ∈ ibox S := by
  rw [mem_ibox] at hr ⊢
  induction hr generalizing S with
  | nil => cases h; exact List.Forall₂.nil
  | cons h1 _ ih => cases h with
    | cons h2 h3 => exact List.Forall₂.cons ⟨h1.1, h1.2.trans (by exact_mod_cast h2)⟩ (ih h3)

theorem decAt_le (S : List ℕ) (i : ℕ) : List.Forall₂ (· ≤ ·) (decAt S i) S := by
  induction S generalizing i with
  | nil => exact List.Forall₂.nil
  | cons s S ih =>
    cases i with
    | zero => exact List.Forall₂.cons (by simp) (List.forall₂_same.mpr fun _ _ => le_refl _)
    | succ i => exact List.Forall₂.cons (le_refl _) (ih i)

/-- Sums over a bigger box with the binomials of a smaller one. -/
theorem sum_ibox_mono {S S' : List ℕ} (h : List.Forall₂ (· ≤ ·) S' S) (f : List Int → K) :
    ((ibox S).map fun r => boxProd S'.length (binF S') r * f r).sum
      = ((ibox S').map fun r => boxProd S'.length (binF S') r * f r).sum := by
  classical
  rw [← List.sum_toFinset _ (nodup_ibox S), ← List.sum_toFinset _ (nodup_ibox S')]
  symm
  refine sum_subset (fun r hr => ?_) fun r hr hn => ?_
  · exact List.mem_toFinset.mpr (ibox_mono h (List.mem_toFinset.mp hr))
  · have hr' := (mem_ibox _ _).mp (List.mem_toFinset.mp hr)
    have hn' : r ∉ ibox S' := fun hh => hn (List.mem_toFinset.mpr hh)
    have hl : r.length = S'.length := by rw [hr'.length_eq, h.length_eq]
    have : ∃ ν < S'.length, S'.getD ν 0 < (r.getD ν 0).toNat := by
      by_contra hcon
      push Not at hcon
      refine hn' ((mem_ibox _ _).mpr (List.forall₂_iff_get.mpr ⟨hl, fun i hi hi' => ?_⟩))
      have h1 := hcon i hi'
      have h2 := forall₂_getD hr' i
      rw [getD_of_lt _ _ hi'] at h1
      rw [getD_of_lt _ _ hi] at h1 h2
      simp only [List.get_eq_getElem]
      omega
    obtain ⟨ν, hν, hlt⟩ := this
    have : boxProd S'.length (binF (K := K) S') r = 0 :=
      prod_eq_zero (mem_range.mpr hν) (by simp only [binF]; rw [Nat.choose_eq_zero_of_lt hlt]; simp)
    rw [this, zero_mul]

theorem foldlM_addAt (m : ℕ) (step : List K → ℕ → Py (List K)) (t : ℕ → K)
    (h : ∀ l : List K, l.length = m → ∀ j < m, step l j = .ok (l.set j (l.getD j 0 + t j)))
    (l : List K) (hl : l.length = m) :
    (List.range m).foldlM step l = .ok ((List.range m).map fun i => l.getD i 0 + t i) := by
  have key : ∀ k ≤ m, (List.range k).foldlM step l
      = .ok ((List.range m).map fun i => l.getD i 0 + if i < k then t i else 0) := by
    intro k
    induction k with
    | zero =>
      intro _
      simp only [List.range_zero, List.foldlM_nil, pure_eq_ok, Except.ok.injEq, Nat.not_lt_zero,
        if_false, add_zero]
      apply List.ext_getElem
      · simp [hl]
      · intro i h1 h2
        simp [h1]
    | succ k ih =>
      intro hk
      rw [List.range_succ, List.foldlM_append, ih (by omega), ok_bind, List.foldlM_cons,
        h _ (by simp) k (by omega), ok_bind, List.foldlM_nil]
      simp only [pure_eq_ok, Except.ok.injEq]
      apply List.ext_getElem
      · simp
      · intro i h1 h2
        have hi : i < m := by simpa using h2
        rw [List.getElem_set]
        by_cases hik : k = i
        · subst hik
          rw [if_pos rfl, getD_of_lt _ _ (by simpa using hi)]
          simp
        · rw [if_neg hik]
          have : i < k ↔ i < k + 1 := by omega
          simp [this]
  rw [key m (le_refl _)]
  congr 1
  refine List.map_congr_left fun i hi => ?_
  rw [if_pos (List.mem_range.mp hi)]

/-- The state of a submatrix calculator when the vector is `r`. -/
structure SInv (c : CalcCfg K) (W : List Int → ℕ → K) (m0 : K) (r u : List Int)
    (s : SubScratch K) : Prop where
  rv : s.guan.rVector = r
  cu : s.guan.codeUpdate = u
  lim : s.guan.limits = c.input.map fun (x : ℕ) => (x : Int)
  mult : s.multiplier = m0 * boxProd c.input.length signF r
  bin : s.binomials = boxProd c.input.length (binF c.input) r
  sums : s.sums = (npNonzero c.output).map fun j => (j, W r j)
  cons : s.considered = npNonzero c.output
  len : s.permanents.length = c.input.length

/-- One step of a method: sums move to the new vector, permanents grow by its addends. -/
def SubStepOK (meth : SubMethod K) (c : CalcCfg K) (W : List Int → ℕ → K) (m0 : K)
    (term : List Int → ℕ → K) : Prop :=
  ∀ (s : SubScratch K) (r : List Int) (i : ℕ) (u : Int) (r' : List Int), i < c.input.length →
    r.length = c.input.length → r' = r.set i (r.getD i 0 + u) →
    List.Forall₂ (fun (x : Int) (s : ℕ) => 0 ≤ x ∧ x ≤ s) r' c.input →
    s.guan.rVector = r' → s.guan.index = i →
    s.guan.last = r.getD i 0 → s.sums = ((npNonzero c.output).map fun j => (j, W r j)) →
    s.considered = npNonzero c.output → s.multiplier = m0 * boxProd c.input.length signF r' →
    s.binomials = boxProd c.input.length (binF c.input) r' → s.permanents.length = c.input.length →
    ∃ pr, (meth.updateSums c s >>= fun s => meth.updatePermanents c s) = .ok { s with
      sums := (npNonzero c.output).map fun j => (j, W r' j)
      prod := pr
      permanents := (List.range c.input.length).map fun j => s.permanents.getD j 0 + term r' j }

theorem subMain_ok [CharZero K] (meth : SubMethod K) (c : CalcCfg K) (W : List Int → ℕ → K) (m0 : K)
    (term : List Int → ℕ → K) (hW : SubStepOK meth c W m0 term) (hne : c.input ≠ [])
    (L : List (List Int)) (r u : List Int)
    (hV : Visits (c.input.map fun (x : ℕ) => (x : Int)) r u L) :
    ∀ (s : SubScratch K) (fuel : ℕ), SInv c W m0 r u s →
      List.Forall₂ (fun (x : Int) (s : ℕ) => 0 ≤ x ∧ x ≤ s) r c.input →
      u.length = c.input.length → (∀ x ∈ u, x = 1 ∨ x = -1) → L.length ≤ fuel →
      ∃ s', subMain meth c fuel s = .ok s' ∧
        s'.permanents = (List.range c.input.length).map fun j =>
          s.permanents.getD j 0 + (L.tail.map fun t => term t j).sum := by
  induction hV with
  | @stop r u hg =>
    intro s fuel hI hr hul hud hf
    obtain ⟨fuel, rfl⟩ : ∃ k, fuel = k + 1 := ⟨fuel - 1, by simp at hf; omega⟩
    obtain ⟨a, b, ha, hb, hab⟩ := last_le hr hne
    have hrl := hr.length_eq
    have hpos := List.length_pos_of_ne_nil hne
    have hrne : r ≠ [] := List.ne_nil_of_length_pos (by omega)
    rw [subMain, hI.rv, hI.lim, ha, ok_bind, hb, ok_bind, if_pos hab,
      updateGuanCode_eq _ (by rw [hI.lim, hI.rv]; simp [hrl]) (by rw [hI.cu, hI.rv]; omega)
        (by rw [hI.rv]; exact hrne), hI.rv, hI.lim, hI.cu, hg, ok_bind]
    simp only [if_true]
    refine ⟨_, rfl, ?_⟩
    simp only [List.tail_cons, List.map_nil, List.sum_nil, add_zero]
    apply List.ext_getElem
    · simp [hI.len]
    · intro i h1 h2
      simp [h1]
  | @step r u p L hg hV ih =>
    intro s fuel hI hr hul hud hf
    obtain ⟨fuel, rfl⟩ : ∃ k, fuel = k + 1 := ⟨fuel - 1, by simp at hf; omega⟩
    obtain ⟨a, b, ha, hb, hab⟩ := last_le hr hne
    have hrl := hr.length_eq
    have hpos := List.length_pos_of_ne_nil hne
    have hrne : r ≠ [] := List.ne_nil_of_length_pos (by omega)
    have hgl := gstep_length hg
    obtain ⟨hset, hs0, hs1⟩ := gstep_set hg
    have hgd := gstep_dirs hg hud
    obtain ⟨i, hi⟩ : ∃ i, i = p.2.2 := ⟨_, rfl⟩
    rw [← hi] at hset hs0 hs1 hgl
    have hud' := getD_dir hud (i := i) (by omega)
    have hlim : (c.input.map fun (x : ℕ) => (x : Int)).getD i 0 = (c.input.getD i 0 : Int) := by
      rw [getD_of_lt _ _ (by simp; omega), getD_of_lt _ _ (by omega)]; simp
    rw [hlim] at hs1
    have hr0 := forall₂_getD hr i
    have hbox := forall₂_set hr i ⟨hs0, hs1⟩
    rw [← hset] at hbox
    have hsg := sign_set (K := K) _ _ _ _ (by omega) hrl hud' hr0.1 hs0
    rw [← hset] at hsg
    have e2 := updateBinomials_ok c.input
      ⟨p.1, p.2.1, c.input.map fun (x : ℕ) => (x : Int), i, r.getD i 0⟩ r s.binomials i
      (u.getD i 0) (by omega) (by omega) hset rfl rfl hud' hr0.1 hr0.2 hs0 hs1 hI.bin
    rw [← hset] at e2
    obtain ⟨pr, e3⟩ := hW { s with
      guan := ⟨p.1, p.2.1, c.input.map fun (x : ℕ) => (x : Int), i, r.getD i 0⟩
      multiplier := -s.multiplier
      binomials := boxProd c.input.length (binF c.input) p.1 } r i (u.getD i 0) p.1 (by omega)
      (by omega) hset hbox rfl rfl rfl hI.sums hI.cons (by simp only [hI.mult, hsg]; ring) rfl hI.len
    rw [subMain, hI.rv, hI.lim, ha, ok_bind, hb, ok_bind, if_pos hab,
      updateGuanCode_eq _ (by rw [hI.lim, hI.rv]; simp [hrl]) (by rw [hI.cu, hI.rv]; omega)
        (by rw [hI.rv]; exact hrne), hI.rv, hI.lim, hI.cu, hg, ok_bind, ← hi]
    simp only
    rw [if_neg (by omega), e2, ok_bind, ← bind_assoc, e3, ok_bind]
    generalize hst : SubScratch.mk _ _ _ _ _ _ _ = st
    have hinv : SInv c W m0 p.1 p.2.1 st := by
      subst hst
      exact { rv := rfl
              cu := rfl
              lim := rfl
              mult := by simp only [hI.mult, hsg]; ring
              bin := rfl
              sums := rfl
              cons := hI.cons
              len := by simp }
    obtain ⟨s', hs', hp'⟩ := ih st fuel hinv hbox (by omega) hgd (by simpa using hf)
    refine ⟨s', hs', ?_⟩
    rw [hp', ← hst]
    obtain ⟨L', rfl⟩ := hV.head
    simp only [List.tail_cons, List.map_cons, List.sum_cons]
    refine List.map_congr_left fun j hj => ?_
    have hj' := List.mem_range.mp hj
    rw [getD_of_lt _ _ (by simpa using hj')]
    simp [add_assoc]

/-! ### The two methods -/

theorem bin_decAt [CharZero K] (S : List ℕ) (r : List Int) (i : ℕ) (hi : i < S.length)
    (hr : List.Forall₂ (fun (x : Int) (s : ℕ) => 0 ≤ x ∧ x ≤ s) r S) (h0 : S.getD i 0 ≠ 0)
    (hne : r.getD i 0 ≠ (S.getD i 0 : Int)) :
    boxProd S.length (binF (K := K) (decAt S i)) r
      = boxProd S.length (binF S) r / ((S.getD i 0 : K) / (((S.getD i 0 : Int) - r.getD i 0 : Int) : K)) := by
  have hb := forall₂_getD hr i
  unfold boxProd
  rw [← mul_prod_erase (range S.length) _ (mem_range.mpr hi),
    ← mul_prod_erase (range S.length) (fun ν => binF S ν (r.getD ν 0).toNat) (mem_range.mpr hi)]
  have e1 : ∀ ν ∈ (range S.length).erase i, binF (K := K) (decAt S i) ν (r.getD ν 0).toNat
      = binF S ν (r.getD ν 0).toNat := by
    intro ν hν
    simp only [binF]
    rw [decAt_getD _ _ _ hi, if_neg (ne_of_mem_erase hν)]
  rw [prod_congr rfl e1]
  have e2 : binF (K := K) (decAt S i) i (r.getD i 0).toNat = binF S i (r.getD i 0).toNat
      / ((S.getD i 0 : K) / (((S.getD i 0 : Int) - r.getD i 0 : Int) : K)) := by
    simp only [binF]
    rw [decAt_getD _ _ _ hi, if_pos rfl]
    generalize r.getD i 0 = x at *
    generalize S.getD i 0 = s at *
    obtain ⟨n, rfl⟩ := Int.eq_ofNat_of_zero_le hb.1
    obtain ⟨k, rfl⟩ : ∃ k, s = k + 1 := ⟨s - 1, by omega⟩
    have hnk : n ≤ k := by omega
    simp only [Nat.add_sub_cancel, Int.toNat_natCast]
    have key := congrArg (Nat.cast : ℕ → K) (Nat.choose_mul_succ_eq k n)
    push_cast [Nat.cast_sub (show n ≤ k + 1 by omega)] at key ⊢
    have h1 : (k : K) + 1 ≠ 0 := by exact_mod_cast Nat.succ_ne_zero k
    have h2 : (k : K) + 1 - n ≠ 0 := by
      have : ((k + 1 - n : ℕ) : K) ≠ 0 := by exact_mod_cast (by omega : k + 1 - n ≠ 0)
      rwa [Nat.cast_sub (by omega), Nat.cast_add, Nat.cast_one] at this
    rw [div_div_eq_mul_div, eq_div_iff h1]
    exact key
  rw [e2]
  ring

theorem bin_decAt_full (S : List ℕ) (r : List Int) (i : ℕ) (hi : i < S.length)
    (h0 : S.getD i 0 ≠ 0) (he : r.getD i 0 = (S.getD i 0 : Int)) :
    boxProd S.length (binF (K := K) (decAt S i)) r = 0 := by
  refine prod_eq_zero (mem_range.mpr hi) ?_
  simp only [binF]
  rw [decAt_getD _ _ _ hi, if_pos rfl, he, Int.toNat_natCast, Nat.choose_eq_zero_of_lt (by omega)]
  simp

/-- Addend of `r` to the `j`-th permanent of the Ryser submatrix calculator. -/
def ryserSubTerm (c : CalcCfg K) (m0 : K) (r : List Int) (j : ℕ) : K :=
  if c.input.getD j 0 = 0 then 0 else
  m0 * boxProd c.input.length signF r * boxProd c.input.length (binF (decAt c.input j)) r *
    ((npNonzero c.output).map fun k => ryserW c r k ^ c.output.getD k 0).prod

/-- Addend of `r` to the `j`-th permanent of the Chin–Huh submatrix calculator. -/
def chSubTerm (c : CalcCfg K) (m0 : K) (r : List Int) (j : ℕ) : K :=
  if c.input.getD j 0 = 0 then 0 else
  m0 * boxProd c.input.length signF r * boxProd c.input.length (binF (decAt c.input j)) r *
    ((npNonzero c.output).map fun k => (chinHuhW c r k - mget c.matrix k j) ^ c.output.getD k 0).prod

/-- Shapes the submatrix calculators need (they have no guard). -/
structure SubFits (U : List (List K)) (S T : List ℕ) (n : ℕ) : Prop where
  rows : ∀ r ∈ U, r.length = n
  lenT : T.length ≤ U.length
  lenS : S.length ≤ n
  pos : S ≠ []

variable {U : List (List K)} {S T : List ℕ} {n : ℕ}

theorem SubFits.matGet (h : SubFits U S T n) {i j : ℕ} (hi : i < T.length) (hj : j < S.length) :
    matGet U i j = .ok (mget U i j) := by
  have := h.lenT
  have := h.lenS
  exact matGet_ok U h.rows (by omega) (by omega)

theorem foldlM_ryserSums (l : List (ℕ × K)) (f : ℕ × K → Py K) (g : ℕ × K → K) (t : ℕ × K → Py ℕ)
    (t' : ℕ × K → ℕ) (hf : ∀ p ∈ l, f p = .ok (g p)) (ht : ∀ p ∈ l, t p = .ok (t' p))
    (a : List (ℕ × K)) (b : K) :
    l.foldlM (fun (st : List (ℕ × K) × K) p => (do
      let w ← f p
      let e ← t p
      pure (st.1 ++ [(p.1, w)], st.2 * w ^ e) : Py _)) (a, b)
      = .ok (a ++ l.map (fun p => (p.1, g p)), b * (l.map fun p => g p ^ t' p).prod) := by
  induction l generalizing a b with
  | nil => simp
  | cons p l ih =>
    rw [List.foldlM_cons, hf p (by simp), ok_bind, ht p (by simp), ok_bind, pure_eq_ok, ok_bind,
      ih (fun q hq => hf q (by simp [hq])) (fun q hq => ht q (by simp [hq]))]
    simp [mul_assoc]

theorem ryserSub_step [CharZero K] (h : SubFits U S T n) (m0 : K) :
    SubStepOK ryserSubMethod ⟨U, S, T⟩ (ryserW ⟨U, S, T⟩) m0 (ryserSubTerm ⟨U, S, T⟩ m0) := by
  intro s r i u r' hi hr hr' hbox hrv hidx hlast hs hcons hmult hbin hlen
  simp only at hi hr hbox hmult hbin hlen hcons
  have hrl' : r'.length = S.length := hbox.length_eq
  have hw : ∀ k, ryserW ⟨U, S, T⟩ r k + (u : K) * mget U k i = ryserW ⟨U, S, T⟩ r' k := by
    intro k
    simp only [ryserW]
    rw [hr', boxSum_set _ _ _ _ _ hi hr]
  have hri : r'[i]'(by omega) = r.getD i 0 + u := by simp [hr']
  have hsums : ryserSubMethod.updateSums ⟨U, S, T⟩ s = .ok { s with
      sums := (npNonzero T).map fun j => (j, ryserW ⟨U, S, T⟩ r' j)
      prod := 1 * ((npNonzero T).map fun k => ryserW ⟨U, S, T⟩ r' k ^ T.getD k 0).prod * s.multiplier } := by
    simp only [ryserSubMethod, hs, hrv, hidx, hlast]
    have := foldlM_ryserSums ((npNonzero T).map fun j => (j, ryserW ⟨U, S, T⟩ r j)) (fun p => (do
      let x ← pyGetN r' i
      let v ← matGet U p.1 i
      pure (p.2 + ((x - r.getD i 0 : Int) : K) * v) : Py K)) (fun p => p.2 + (u : K) * mget U p.1 i)
      (fun p => pyGetN T p.1) (fun p => T.getD p.1 0) (by
        intro p hp
        obtain ⟨j, hj, rfl⟩ := List.mem_map.mp hp
        have hj' := ((mem_npNonzero _ _).mp hj).1
        rw [pyGetN_ok (by omega), ok_bind, h.matGet hj' hi, ok_bind, hri, add_sub_cancel_left]
        rfl) (by
        intro p hp
        obtain ⟨j, hj, rfl⟩ := List.mem_map.mp hp
        have hj' := ((mem_npNonzero _ _).mp hj).1
        rw [pyGetN_ok hj', getD_of_lt _ _ hj']) [] 1
    simp only [bind_assoc, pure_bind, List.map_map, Function.comp_def, hw, List.nil_append] at this
    rw [this]
    rfl
  refine ⟨1 * ((npNonzero T).map fun k => ryserW ⟨U, S, T⟩ r' k ^ T.getD k 0).prod * s.multiplier, ?_⟩
  rw [hsums, ok_bind]
  simp only [ryserSubMethod]
  rw [hlen]
  rw [foldlM_addAt S.length _ (ryserSubTerm ⟨U, S, T⟩ m0 r') ?_ s.permanents hlen]
  · rfl
  · intro l hl j hj
    unfold ryserSubStep
    simp only
    rw [pyGetN_ok hj, ok_bind, hrv, pyGetN_ok (by omega), ok_bind]
    have hS : S[j] = S.getD j 0 := (getD_of_lt _ _ hj).symm
    have hR : r'[j]'(by omega) = r'.getD j 0 := (getD_of_lt _ _ (by omega)).symm
    have hset0 : l.set j (l.getD j 0 + 0) = l := by
      rw [add_zero, getD_of_lt _ _ (by omega)]; simp
    rw [hS, hR]
    by_cases h0 : S.getD j 0 = 0
    · rw [if_pos (Or.inl h0)]
      simp only [ryserSubTerm, if_pos h0]
      rw [hset0]; rfl
    · by_cases he : r'.getD j 0 = (S.getD j 0 : Int)
      · rw [if_pos (Or.inr he)]
        simp only [ryserSubTerm, if_neg h0]
        rw [bin_decAt_full S r' j hj h0 he, mul_zero, zero_mul, hset0]; rfl
      · rw [if_neg (by tauto)]
        unfold pyDivInt
        rw [if_neg (by omega), ok_bind, pyGetN_ok (by omega), ok_bind, pySetN_ok (by omega),
          getD_of_lt _ _ (show j < l.length by omega)]
        congr 3
        simp only [ryserSubTerm, if_neg h0]
        rw [bin_decAt S r' j hj hbox h0 he, hmult, hbin]
        ring

theorem chSubUpdate_ok [CharZero K] (h : SubFits U S T n) (m0 : K) (s : SubScratch K) (r' : List Int)
    (hbox : List.Forall₂ (fun (x : Int) (s : ℕ) => 0 ≤ x ∧ x ≤ s) r' S)
    (hrv : s.guan.rVector = r')
    (hs : s.sums = (npNonzero T).map fun j => (j, chinHuhW ⟨U, S, T⟩ r' j))
    (hcons : s.considered = npNonzero T) (hmult : s.multiplier = m0 * boxProd S.length signF r')
    (hbin : s.binomials = boxProd S.length (binF S) r') (hlen : s.permanents.length = S.length) :
    chSubUpdatePermanents ⟨U, S, T⟩ s = .ok { s with
      permanents := (List.range S.length).map fun j =>
        s.permanents.getD j 0 + chSubTerm ⟨U, S, T⟩ m0 r' j } := by
  have hrl' : r'.length = S.length := hbox.length_eq
  unfold chSubUpdatePermanents
  simp only
  rw [foldlM_addAt S.length _ (chSubTerm ⟨U, S, T⟩ m0 r') ?_ s.permanents hlen]
  · rfl
  · intro l hl j hj
    unfold chSubStep
    simp only
    rw [pyGetN_ok hj, ok_bind, hrv, pyGetN_ok (by omega), ok_bind]
    have hS : S[j] = S.getD j 0 := (getD_of_lt _ _ hj).symm
    have hR : r'[j]'(by omega) = r'.getD j 0 := (getD_of_lt _ _ (by omega)).symm
    have hset0 : l.set j (l.getD j 0 + 0) = l := by
      rw [add_zero, getD_of_lt _ _ (by omega)]; simp
    rw [hS, hR]
    by_cases h0 : S.getD j 0 = 0
    · rw [if_pos (Or.inl h0)]
      simp only [chSubTerm, if_pos h0]
      rw [hset0]; rfl
    · by_cases he : r'.getD j 0 = (S.getD j 0 : Int)
      · rw [if_pos (Or.inr he.symm)]
        simp only [chSubTerm, if_neg h0]
        rw [bin_decAt_full S r' j hj h0 he, mul_zero, zero_mul, hset0]; rfl
      · rw [if_neg (by rintro (h | h); exact h0 h; exact he h.symm), hcons]
        rw [foldlM_ok (fun (d : List (ℕ × K)) (k : ℕ) => (do
            let w ← dictGet s.sums k
            let v ← matGet U k j
            pure (dictSet d k (w - v)) : Py _))
          (fun d k => dictSet d k (chinHuhW ⟨U, S, T⟩ r' k - mget U k j))]
        · rw [ok_bind, foldl_dictSet _ _ _ (npNonzero_nodup T) (by simp), List.nil_append]
          unfold pyDivInt
          rw [if_neg (by omega), ok_bind, mapM_ok _
            (fun k => (chinHuhW ⟨U, S, T⟩ r' k - mget U k j) ^ T.getD k 0)]
          · rw [ok_bind, pyGetN_ok (by omega), ok_bind, pySetN_ok (by omega),
              getD_of_lt _ _ (show j < l.length by omega), foldl_mul_eq]
            congr 3
            simp only [chSubTerm, if_neg h0]
            rw [bin_decAt S r' j hj hbox h0 he, hmult, hbin]
          · intro k hk
            have hk' := ((mem_npNonzero _ _).mp hk).1
            rw [dictGet_map _ _ hk, ok_bind, pyGetN_ok hk', ok_bind, getD_of_lt _ _ hk']
            rfl
        · intro d k hk
          have hk' := ((mem_npNonzero _ _).mp hk).1
          rw [hs, dictGet_map _ _ hk, ok_bind, h.matGet hk' hj, ok_bind]
          rfl

theorem chSub_step [CharZero K] (h : SubFits U S T n) (m0 : K) :
    SubStepOK chSubMethod ⟨U, S, T⟩ (chinHuhW ⟨U, S, T⟩) m0 (chSubTerm ⟨U, S, T⟩ m0) := by
  intro s r i u r' hi hr hr' hbox hrv hidx hlast hs hcons hmult hbin hlen
  simp only at hi hr hbox hmult hbin hlen hcons
  have hrl' : r'.length = S.length := hbox.length_eq
  have hri : r'[i]'(by omega) = r.getD i 0 + u := by simp [hr']
  have hw : ∀ k, chinHuhW ⟨U, S, T⟩ r k - 2 * (u : K) * mget U k i = chinHuhW ⟨U, S, T⟩ r' k := by
    intro k
    simp only [chinHuhW]
    rw [hr', boxSum_set _ _ _ _ _ hi hr]
    ring
  have hsums : chSubMethod.updateSums ⟨U, S, T⟩ s = .ok { s with
      sums := (npNonzero T).map fun j => (j, chinHuhW ⟨U, S, T⟩ r' j) } := by
    simp only [chSubMethod, hs, hrv, hidx, hlast]
    rw [mapM_ok _ (fun p => (p.1, p.2 - 2 * (u : K) * mget U p.1 i))]
    · rw [ok_bind, List.map_map]
      simp only [Function.comp_def, hw]
      rfl
    · intro p hp
      obtain ⟨j, hj, rfl⟩ := List.mem_map.mp hp
      have hj' := ((mem_npNonzero _ _).mp hj).1
      rw [pyGetN_ok (by omega), ok_bind, h.matGet hj' hi, ok_bind, hri, add_sub_cancel_left]
      rfl
  refine ⟨s.prod, ?_⟩
  rw [hsums, ok_bind]
  exact chSubUpdate_ok h m0 _ r' hbox hrv rfl hcons hmult hbin hlen

/-! ### Results -/

theorem ibox_length (S : List ℕ) : (ibox S).length = (S.map (· + 1)).prod := by
  induction S with
  | nil => rfl
  | cons s S ih =>
    rw [ibox, List.length_flatMap]
    simp [ih, mul_comm]

theorem scatteringPermanent_vacuum (U : List (List K)) (S T : List ℕ) (h : T.sum = 0) :
    scatteringPermanent U S T = 1 := by
  unfold scatteringPermanent
  have : IsEmpty (Fin T.sum) := by rw [h]; infer_instance
  simp [Matrix.permanent]

theorem lperm_sum_eq (S' : List ℕ) (h : S'.sum = T.sum) (m0 : K) (hm0 : m0 = (-1) ^ T.sum) :
    ((ibox S').map fun r => m0 * boxProd S'.length signF r * boxProd S'.length (binF S') r *
      ((npNonzero T).map fun k => boxSum S'.length (fun ν => mget U k ν) r ^ T.getD k 0).prod).sum
      = scatteringPermanent U S' T := by
  have := ryser_sum (U := U) (S := S') (T := T) (ibox S') (List.Perm.refl _) h
  rw [← this, hm0, ← h]
  rfl

theorem zero_mem_visits {L : List (List Int)} (hL : Visits (S.map fun (x : ℕ) => (x : Int))
    (List.replicate S.length 0) (List.replicate S.length 1) L) :
    L = List.replicate S.length 0 :: L.tail := by
  obtain ⟨L', rfl⟩ := hL.head
  rfl

theorem ryserSub_sum (hsum : S.sum = T.sum + 1) (hT : T.sum ≠ 0)
    {L : List (List Int)} (hL : Visits (S.map fun (x : ℕ) => (x : Int))
      (List.replicate S.length 0) (List.replicate S.length 1) L) (hp : L.Perm (ibox S)) (j : ℕ)
    (hj : j < S.length) :
    (L.tail.map fun t => ryserSubTerm ⟨U, S, T⟩ ((-1) ^ T.sum) t j).sum
      = if S.getD j 0 = 0 then 0 else scatteringPermanent U (decAt S j) T := by
  by_cases h0 : S.getD j 0 = 0
  · rw [if_pos h0]
    simp only [ryserSubTerm, if_pos h0]
    simp
  · rw [if_neg h0]
    have hz : ryserSubTerm ⟨U, S, T⟩ ((-1) ^ T.sum) (List.replicate S.length 0) j = 0 := by
      simp only [ryserSubTerm, if_neg h0]
      have : ((npNonzero T).map fun k => ryserW ⟨U, S, T⟩ (List.replicate S.length 0) k ^ T.getD k 0).prod = 0 := by
        have hex : ∃ k ∈ npNonzero T, True := by
          by_contra hcon
          push Not at hcon
          apply hT
          rw [List.sum_eq_zero_iff]
          intro x hx
          obtain ⟨k, hk, rfl⟩ := List.getElem_of_mem hx
          by_contra hx0
          refine (hcon k ((mem_npNonzero _ _).mpr ⟨hk, ?_⟩)).elim
          rw [getD_of_lt _ _ hk]; exact hx0
        obtain ⟨k, hk, -⟩ := hex
        refine List.prod_eq_zero (List.mem_map.mpr ⟨k, hk, ?_⟩)
        simp only [ryserW]
        rw [boxSum_zero, zero_pow ((mem_npNonzero _ _).mp hk).2]
      rw [this, mul_zero]
    have e1 : (L.tail.map fun t => ryserSubTerm ⟨U, S, T⟩ ((-1) ^ T.sum) t j).sum
        = (L.map fun t => ryserSubTerm ⟨U, S, T⟩ ((-1) ^ T.sum) t j).sum := by
      conv_rhs => rw [zero_mem_visits hL, List.map_cons, List.sum_cons, hz, zero_add]
    rw [e1, (hp.map _).sum_eq]
    have hd := decAt_sum S j hj h0
    have := lperm_sum_eq (U := U) (T := T) (decAt S j) (by omega) _ rfl
    rw [← this]
    have e2 := sum_ibox_mono (K := K) (decAt_le S j) (fun r => (-1) ^ T.sum * boxProd S.length signF r *
      ((npNonzero T).map fun k => boxSum S.length (fun ν => mget U k ν) r ^ T.getD k 0).prod)
    rw [decAt_length] at e2 ⊢
    simp only [ryserSubTerm, if_neg h0, ryserW]
    have e3 : ∀ a b c d : K, a * b * c * d = c * (a * b * d) := by intros; ring
    simp only [e3]
    exact e2

theorem boxSum_decAt (x : ℕ → K) (i : ℕ) (hi : i < S.length) (h0 : S.getD i 0 ≠ 0) :
    boxSum S.length x ((decAt S i).map fun (y : ℕ) => (y : Int))
      = boxSum S.length x (S.map fun (y : ℕ) => (y : Int)) - x i := by
  have e : (decAt S i).map (fun (y : ℕ) => (y : Int))
      = (S.map fun (y : ℕ) => (y : Int)).set i ((S.map fun (y : ℕ) => (y : Int)).getD i 0 + (-1)) := by
    unfold decAt
    rw [List.map_set, getD_of_lt _ _ hi, getD_of_lt _ _ (by simpa using hi)]
    rw [getD_of_lt _ _ hi] at h0
    congr 1
    simp only [List.getElem_map]
    omega
  rw [e, boxSum_set _ _ _ _ _ hi (by simp)]
  push_cast
  ring

theorem chSub_sum [CharZero K] (hsum : S.sum = T.sum + 1)
    {L : List (List Int)} (hp : L.Perm (ibox S)) (j : ℕ) (hj : j < S.length) :
    (L.map fun t => chSubTerm ⟨U, S, T⟩ (chSubMultiplier S.sum) t j).sum
      = if S.getD j 0 = 0 then 0 else scatteringPermanent U (decAt S j) T := by
  by_cases h0 : S.getD j 0 = 0
  · rw [if_pos h0]
    simp only [chSubTerm, if_pos h0]
    simp
  · rw [if_neg h0, (hp.map _).sum_eq]
    have hd := decAt_sum S j hj h0
    have := chinHuh_sum (U := U) (S := decAt S j) (T := T) (ibox (decAt S j)) (List.Perm.refl _) (by omega)
    rw [← this]
    have hm : chSubMultiplier (K := K) S.sum = 1 / 2 ^ (decAt S j).sum := by
      unfold chSubMultiplier
      rw [show (S.sum : Int) - 1 = ((decAt S j).sum : Int) by omega, zpow_natCast]
    have e2 := sum_ibox_mono (K := K) (decAt_le S j) (fun r => 1 / 2 ^ (decAt S j).sum * boxProd S.length signF r *
      ((npNonzero T).map fun k => chinHuhW ⟨U, decAt S j, T⟩ r k ^ T.getD k 0).prod)
    rw [decAt_length] at e2
    have hg : gterm ⟨U, decAt S j, T⟩ (chinHuhW ⟨U, decAt S j, T⟩) (1 / 2 ^ (decAt S j).sum)
        = fun r => 1 / 2 ^ (decAt S j).sum * boxProd S.length signF r *
          boxProd S.length (binF (decAt S j)) r *
          ((npNonzero T).map fun k => chinHuhW ⟨U, decAt S j, T⟩ r k ^ T.getD k 0).prod := by
      funext r
      simp only [gterm, decAt_length]
    rw [hg]
    simp only [chSubTerm, if_neg h0, hm]
    have e3 : ∀ a b c d : K, a * b * c * d = c * (a * b * d) := by intros; ring
    simp only [e3]
    rw [← e2]
    congr 1
    refine List.map_congr_left fun r _ => ?_
    congr 3
    refine List.map_congr_left fun k _ => ?_
    congr 1
    simp only [chinHuhW]
    rw [decAt_length, boxSum_decAt _ _ hj h0]
    ring

/-- The list returned by a submatrix calculator. -/
def subResult (U : List (List K)) (S T : List ℕ) : List K :=
  (List.range S.length).map fun j =>
    if S.getD j 0 = 0 then 0 else scatteringPermanent U (decAt S j) T

theorem subResult_one (U : List (List K)) (hS : S.sum = 1) (hT : T.sum = 0) :
    S.map (fun (v : ℕ) => (v : K)) = subResult U S T := by
  unfold subResult
  apply List.ext_getElem
  · simp
  · intro j h1 h2
    have hj : j < S.length := by simpa using h1
    simp only [List.getElem_map, List.getElem_range]
    rw [scatteringPermanent_vacuum _ _ _ hT, getD_of_lt _ _ hj]
    have hle : S[j] ≤ S.sum := List.le_sum_of_mem (List.getElem_mem hj)
    by_cases h0 : S[j] = 0
    · simp [h0]
    · have : S[j] = 1 := by omega
      simp [this]

theorem ryserSub_ok [CharZero K] (h : SubFits U S T n) (hsum : S.sum = T.sum + 1) (s : SubScratch K)
    (fuel : ℕ) (hf : (S.map (· + 1)).prod ≤ fuel) :
    ∃ s', computePermanents ryserSubMethod fuel ⟨U, S, T⟩ s = .ok (subResult U S T, s') := by
  unfold computePermanents
  simp only
  by_cases h1 : S.sum = 1
  · rw [if_pos h1, ← subResult_one U h1 (by omega)]
    exact ⟨s, rfl⟩
  · rw [if_neg h1]
    obtain ⟨L, hL, hp⟩ := visits_fresh S _ _ (fresh_init S)
    have hinit : ryserSubMethod.init ⟨U, S, T⟩ s = .ok { subInitBase ⟨U, S, T⟩ s with
        sums := (npNonzero T).map fun j => (j, ryserW ⟨U, S, T⟩ (List.replicate S.length 0) j) } := by
      simp only [ryserSubMethod, subInitBase]
      rw [foldl_dictSet _ (fun _ => (0 : K)) _ (npNonzero_nodup T) (by simp), List.nil_append]
      simp [ryserW, boxSum_zero]
    rw [hinit, ok_bind]
    obtain ⟨s', hs', hp'⟩ := subMain_ok ryserSubMethod ⟨U, S, T⟩ (ryserW ⟨U, S, T⟩) ((-1) ^ T.sum)
      (ryserSubTerm ⟨U, S, T⟩ ((-1) ^ T.sum)) (ryserSub_step h _) h.pos L _ _ hL
      { subInitBase ⟨U, S, T⟩ s with
        sums := (npNonzero T).map fun j => (j, ryserW ⟨U, S, T⟩ (List.replicate S.length 0) j) } fuel
      { rv := rfl
        cu := rfl
        lim := rfl
        mult := by rw [boxProd_zero _ _ _ (by simp [signF]), mul_one]; rfl
        bin := by rw [boxProd_zero _ _ _ (by simp [binF])]; rfl
        sums := rfl
        cons := rfl
        len := by simp [subInitBase] } (zeros_box S) (by simp) (by simp)
      (by rw [hp.length_eq, ibox_length]; exact hf)
    refine ⟨s', ?_⟩
    rw [hs', ok_bind, hp']
    simp only [pure_eq_ok, Except.ok.injEq, Prod.mk.injEq, and_true]
    unfold subResult
    refine List.map_congr_left fun j hj => ?_
    have hj' := List.mem_range.mp hj
    have hz : (subInitBase ⟨U, S, T⟩ s).permanents.getD j 0 = 0 := by
      simp only [subInitBase]
      rw [getD_of_lt _ _ (by simpa using hj')]; simp
    simp only [hz, zero_add]
    exact ryserSub_sum hsum (by omega) hL hp j hj'

theorem chSub_ok [CharZero K] (h : SubFits U S T n) (hsum : S.sum = T.sum + 1) (s : SubScratch K)
    (fuel : ℕ) (hf : (S.map (· + 1)).prod ≤ fuel) :
    ∃ s', computePermanents chSubMethod fuel ⟨U, S, T⟩ s = .ok (subResult U S T, s') := by
  unfold computePermanents
  simp only
  by_cases h1 : S.sum = 1
  · rw [if_pos h1, ← subResult_one U h1 (by omega)]
    exact ⟨s, rfl⟩
  · rw [if_neg h1]
    obtain ⟨L, hL, hp⟩ := visits_fresh S _ _ (fresh_init S)
    have hinit : chSubMethod.init ⟨U, S, T⟩ s = .ok { subInitBase ⟨U, S, T⟩ s with
        multiplier := chSubMultiplier S.sum
        sums := (npNonzero T).map fun j => (j, chinHuhW ⟨U, S, T⟩ (List.replicate S.length 0) j)
        permanents := (List.range S.length).map fun j => (subInitBase ⟨U, S, T⟩ s).permanents.getD j 0
          + chSubTerm ⟨U, S, T⟩ (chSubMultiplier S.sum) (List.replicate S.length 0) j } := by
      simp only [chSubMethod]
      have := chinHuh_initSums_aux (U := U) (S := S) (T := T) h.matGet
      simp only [subInitBase] at this ⊢
      rw [this, ok_bind]
      exact chSubUpdate_ok h (chSubMultiplier S.sum) _ (List.replicate S.length 0) (zeros_box S) rfl rfl rfl
        (by rw [boxProd_zero _ _ _ (by simp [signF]), mul_one])
        (by rw [boxProd_zero _ _ _ (by simp [binF])]) (by simp)
    rw [hinit, ok_bind]
    obtain ⟨s', hs', hp'⟩ := subMain_ok chSubMethod ⟨U, S, T⟩ (chinHuhW ⟨U, S, T⟩) (chSubMultiplier S.sum)
      (chSubTerm ⟨U, S, T⟩ (chSubMultiplier S.sum)) (chSub_step h _) h.pos L _ _ hL
      { subInitBase ⟨U, S, T⟩ s with
        multiplier := chSubMultiplier S.sum
        sums := (npNonzero T).map fun j => (j, chinHuhW ⟨U, S, T⟩ (List.replicate S.length 0) j)
        permanents := (List.range S.length).map fun j => (subInitBase ⟨U, S, T⟩ s).permanents.getD j 0
          + chSubTerm ⟨U, S, T⟩ (chSubMultiplier S.sum) (List.replicate S.length 0) j } fuel
      { rv := rfl
        cu := rfl
        lim := rfl
        mult := by rw [boxProd_zero _ _ _ (by simp [signF]), mul_one]
        bin := by rw [boxProd_zero _ _ _ (by simp [binF])]; rfl
        sums := rfl
        cons := rfl
        len := by simp } (zeros_box S) (by simp) (by simp)
      (by rw [hp.length_eq, ibox_length]; exact hf)
    refine ⟨s', ?_⟩
    rw [hs', ok_bind, hp']
    simp only [pure_eq_ok, Except.ok.injEq, Prod.mk.injEq, and_true]
    unfold subResult
    refine List.map_congr_left fun j hj => ?_
    have hj' := List.mem_range.mp hj
    have hz : (subInitBase ⟨U, S, T⟩ s).permanents.getD j 0 = 0 := by
      simp only [subInitBase]
      rw [getD_of_lt _ _ (by simpa using hj')]; simp
    rw [getD_of_lt _ _ (by simpa using hj')]
    simp only [List.getElem_map, List.getElem_range, hz, zero_add]
    rw [← chSub_sum hsum hp j hj']
    conv_rhs => rw [zero_mem_visits hL, List.map_cons, List.sum_cons]

end Verif
