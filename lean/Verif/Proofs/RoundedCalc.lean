import Verif.Proofs.RoundedGuan

/-! Helper lemmas: the Ryser and Chin–Huh calculators in floating-point arithmetic. -/
namespace Verif

open Finset

variable (R : Rounding) (A : ComplexArith) {U U' : List (List ℂ)} {S T : List ℕ}

/-- The matrix `U'` is entrywise close to `U`, whose entries are at most one. -/
def MatClose (e : ℕ) (U' U : List (List ℂ)) : Prop := ∀ i j, Close e 1 (mget U' i j) (mget U i j)

/-- A bound on the sums. -/
noncomputable def xmax (n : ℕ) : ℝ := max 1 n

theorem one_le_xmax (n : ℕ) : 1 ≤ xmax n := le_max_left _ _

theorem le_xmax (n : ℕ) : (n : ℝ) ≤ xmax n := le_max_right _ _

theorem sum_getD_eq (S : List ℕ) : ∑ ν ∈ range S.length, S.getD ν 0 = S.sum := by
  induction S with
  | nil => simp
  | cons s S ih =>
    rw [List.length_cons, sum_range_succ', List.sum_cons]
    simp only [List.getD_cons_succ, List.getD_cons_zero]
    rw [ih, add_comm]

theorem ryserW_le {e : ℕ} (hU : MatClose e U' U) {r : List Int} (hr : InBox r S) (j : ℕ) :
    ‖ryserW ⟨U, S, T⟩ r j‖ ≤ xmax S.sum := by
  refine le_trans ?_ (le_xmax _)
  unfold ryserW boxSum
  refine (norm_sum_le _ _).trans ?_
  rw [← sum_getD_eq]
  push_cast
  refine sum_le_sum fun ν _ => ?_
  have h1 := (hU j ν).1
  have h2 := forall₂_getD hr ν
  rw [norm_mul, Complex.norm_intCast]
  have h3 : |((r.getD ν 0 : Int) : ℝ)| ≤ (S.getD ν 0 : ℕ) := by
    rw [abs_of_nonneg (by exact_mod_cast h2.1)]
    exact_mod_cast h2.2
  calc |((r.getD ν 0 : Int) : ℝ)| * ‖mget U j ν‖ ≤ (S.getD ν 0 : ℕ) * 1 :=
        mul_le_mul h3 h1 (norm_nonneg _) (by positivity)
    _ = _ := mul_one _

theorem chinHuhW_eq (r : List Int) (j : ℕ) : chinHuhW ⟨U, S, T⟩ r j
    = ∑ ν ∈ range S.length, (((S.getD ν 0 : Int) - 2 * r.getD ν 0 : Int) : ℂ) * mget U j ν := by
  unfold chinHuhW boxSum
  rw [← sum_add_distrib]
  refine sum_congr rfl fun ν hν => ?_
  have hν' := mem_range.mp hν
  have e1 : (S.map fun (x : ℕ) => (x : Int)).getD ν 0 = ((S.getD ν 0 : ℕ) : Int) := by
    rw [getD_of_lt _ _ (by simpa using hν'), getD_of_lt _ _ (by simpa using hν')]; simp
  simp only [e1]
  push_cast
  ring

theorem chinHuhW_le {e : ℕ} (hU : MatClose e U' U) {r : List Int} (hr : InBox r S) (j : ℕ) :
    ‖chinHuhW ⟨U, S, T⟩ r j‖ ≤ xmax S.sum := by
  refine le_trans ?_ (le_xmax _)
  rw [chinHuhW_eq]
  refine (norm_sum_le _ _).trans ?_
  rw [← sum_getD_eq]
  push_cast
  refine sum_le_sum fun ν _ => ?_
  have h1 := (hU j ν).1
  have h2 := forall₂_getD hr ν
  rw [norm_mul]
  have h3 : ‖((S.getD ν 0 : ℕ) : ℂ) - 2 * ((r.getD ν 0 : Int) : ℂ)‖ ≤ (S.getD ν 0 : ℕ) := by
    have : ((S.getD ν 0 : ℕ) : ℂ) - 2 * ((r.getD ν 0 : Int) : ℂ) = (((S.getD ν 0 : Int) - 2 * r.getD ν 0 : Int) : ℂ) := by
      push_cast; ring
    rw [this, Complex.norm_intCast]
    have h4 : |(S.getD ν 0 : Int) - 2 * r.getD ν 0| ≤ (S.getD ν 0 : Int) := abs_le.mpr ⟨by omega, by omega⟩
    exact_mod_cast h4
  calc _ ≤ ((S.getD ν 0 : ℕ) : ℝ) * 1 := mul_le_mul h3 h1 (norm_nonneg _) (by positivity)
    _ = _ := mul_one _

/-- An integer times an entry. -/
theorem int_mul_close {e : ℕ} (hU : MatClose e U' U) (z : Int) {Y : ℝ} (hz : |(z : ℝ)| ≤ Y) (hY : 1 ≤ Y) (i j : ℕ) :
    Close (e + 1) Y (A.mul (z : ℂ) (mget U' i j)) ((z : ℂ) * mget U i j) := by
  have h1 : Close 0 Y (z : ℂ) (z : ℂ) := .exact (by rw [Complex.norm_intCast]; exact hz)
  have := A.mul_close h1 (hU i j) (by rw [mul_one]; exact small_of_one hY)
  rw [mul_one] at this
  exact this.mono (by omega)

theorem ryserR_sums {e : ℕ} (h : Fits U' S T) (hU : MatClose e U' U) :
    SumsNear (ryserMethodR R A) ⟨U', S, T⟩ (ryserW ⟨U, S, T⟩) (xmax S.sum) (e + 2) := by
  intro s r i u k w hi hr hu hr' hrv hidx hlast hs hw
  simp only at hi hr hr' hw
  have hrl := hr.length_eq
  refine ⟨fun j => A.add (w j) (A.mul (u : ℂ) (mget U' j i)), ?_, ?_⟩
  · simp only [ryserMethodR, hs, hrv, hidx, hlast]
    rw [mapM_ok _ (fun p => (p.1, A.add p.2 (A.mul (u : ℂ) (mget U' p.1 i))))]
    · rw [ok_bind, List.map_map]; rfl
    · intro p hp
      obtain ⟨j, hj, rfl⟩ := List.mem_map.mp hp
      have hj' := ((mem_npNonzero _ _).mp hj).1
      rw [pyGetN_ok (by simpa using (by omega : i < r.length)), ok_bind, h.matGet hj' hi, ok_bind]
      simp
  · intro j hj
    have e1 : ryserW ⟨U, S, T⟩ (r.set i (r.getD i 0 + u)) j = ryserW ⟨U, S, T⟩ r j + (u : ℂ) * mget U j i := by
      unfold ryserW
      exact boxSum_set _ _ _ _ _ hi hrl
    have e2 := int_mul_close A hU u (Y := 1) (by rcases hu with rfl | rfl <;> norm_num) le_rfl j i
    have e3 := ryserW_le (T := T) hU hr' j
    rw [e1] at e3 ⊢
    exact (A.add_fixed (hw j hj) e2 (one_le_xmax _) e3 (one_le_xmax _)).mono (by omega)

theorem chinHuhR_sums {e : ℕ} (h : Fits U' S T) (hU : MatClose e U' U) :
    SumsNear (chinHuhMethodR R A) ⟨U', S, T⟩ (chinHuhW ⟨U, S, T⟩) (xmax S.sum) (2 * e + 3) := by
  intro s r i u k w hi hr hu hr' hrv hidx hlast hs hw
  simp only at hi hr hr' hw
  have hrl := hr.length_eq
  have hx := one_le_xmax S.sum
  refine ⟨fun j => A.sub (w j) (A.mul ((2 * u : Int) : ℂ) (mget U' j i)), ?_, ?_⟩
  · simp only [chinHuhMethodR, hs, hrv, hidx, hlast]
    rw [mapM_ok _ (fun p => (p.1, A.sub p.2 (A.mul ((2 * u : Int) : ℂ) (mget U' p.1 i))))]
    · rw [ok_bind, List.map_map]; rfl
    · intro p hp
      obtain ⟨j, hj, rfl⟩ := List.mem_map.mp hp
      have hj' := ((mem_npNonzero _ _).mp hj).1
      rw [pyGetN_ok (by simpa using (by omega : i < r.length)), ok_bind, h.matGet hj' hi, ok_bind]
      simp
  · intro j hj
    have e1 : chinHuhW ⟨U, S, T⟩ (r.set i (r.getD i 0 + u)) j
        = chinHuhW ⟨U, S, T⟩ r j - ((2 * u : Int) : ℂ) * mget U j i := by
      unfold chinHuhW
      simp only
      rw [boxSum_set _ _ _ _ _ hi hrl]
      push_cast
      ring
    have e2 := int_mul_close A hU (2 * u) (Y := 2) (by rcases hu with rfl | rfl <;> norm_num) (by norm_num) j i
    have e3 := chinHuhW_le (T := T) hU hr' j
    rw [e1] at e3 ⊢
    exact (A.sub_double (hw j hj) e2 e3 hx).mono (by omega)

/-! ### The first addend -/

theorem firstR_near (c : CalcCfg ℂ) (W : List Int → ℕ → ℂ) (m0 X : ℝ) (k0 d : ℕ) (r u : List Int) (s : GuanScratchR)
    (hI : GInvR c W m0 X k0 d 0 r u s) (hp : s.permanent = 0) (hr : InBox r c.input) (hX : 1 ≤ X)
    (hm : (2 : ℝ) ^ (-1000 : ℤ) ≤ |m0|) :
    ∃ s', updatePermanentR R A c s = .ok s' ∧ GInvR c W m0 X k0 d 0 r u s' ∧
      Close (gops c.output.sum k0 d 0 + 1) (gsize c m0 X r) s'.permanent (gterm c W m0 r) := by
  obtain ⟨w, hw, hwc⟩ := hI.sums
  have h1 := gterm_near R A c W m0 X k0 d 0 r u s hI hr hX hm w hwc
  refine ⟨_, updatePermanentR_ok R A c s w hw hI.cons, ⟨hI.rv, hI.cu, hI.lim, hI.mult, hI.bin, hI.sums, hI.cons⟩, ?_⟩
  have h0 : Close (gops c.output.sum k0 d 0) 0 (0 : ℂ) 0 := ⟨by simp, by simp⟩
  have h2 := A.add_close h0 h1 (by rw [zero_add]; exact hm.trans (gsize_ge c m0 X r hr hX))
  rw [zero_add, zero_add] at h2
  simp only [hp]
  exact h2

theorem ryserR_init (e : ℕ) :
    ∃ s', (ryserMethodR R A).init ⟨U', S, T⟩ = .ok s' ∧
      GInvR ⟨U', S, T⟩ (ryserW ⟨U, S, T⟩) ((-1) ^ S.sum) (xmax S.sum) 0 (e + 2) 0 (List.replicate S.length 0)
        (List.replicate S.length 1) s' ∧
      Close (gops T.sum 0 (e + 2) 0 + 1) (gsize ⟨U', S, T⟩ ((-1) ^ S.sum) (xmax S.sum) (List.replicate S.length 0))
        s'.permanent (gterm ⟨U', S, T⟩ (ryserW ⟨U, S, T⟩) (((-1) ^ S.sum : ℝ) : ℂ) (List.replicate S.length 0)) := by
  simp only [ryserMethodR, initBaseR]
  rw [foldl_dictSet _ (fun _ => (0 : ℂ)) _ (npNonzero_nodup T) (by simp), List.nil_append]
  refine firstR_near R A ⟨U', S, T⟩ _ _ _ _ _ _ _ _ ⟨rfl, rfl, rfl, ?_, ?_, ⟨fun _ => 0, rfl, fun j _ => ?_⟩, rfl⟩ rfl
    (zeros_box S) (one_le_xmax _) ?_
  · rw [boxProd_zero _ _ _ (by simp [signF]), mul_one]
  · rw [boxProd_zero _ _ _ (by simp [binF])]
    exact .exact (by simp)
  · have : ryserW ⟨U, S, T⟩ (List.replicate S.length 0) j = 0 := by simp [ryserW, boxSum_zero]
    rw [this]
    exact (Close.exact (by rw [norm_zero]; linarith [one_le_xmax S.sum])).mono (Nat.zero_le _)
  · rw [abs_pow, abs_neg, abs_one, one_pow]
    exact small_of_one le_rfl

/-- The first sums of the Chin–Huh calculator. -/
theorem chinHuhR_first {e : ℕ} (h : ∀ {i j : ℕ}, i < T.length → j < S.length → matGet U' i j = .ok (mget U' i j))
    (hU : MatClose e U' U) (i : ℕ) (hi : i < T.length) (m : ℕ) (hm : m ≤ S.length) :
    ∃ w, (List.range m).foldlM (fun (acc : ℂ) j => do
        let x ← pyGetN S j
        let u ← matGet U' i j
        pure (A.add acc (A.mul (x : ℂ) u))) 0 = .ok w ∧
      Close (m * (e + 2)) (xmax S.sum) w (∑ ν ∈ range m, ((S.getD ν 0 : ℕ) : ℂ) * mget U i ν) := by
  induction m with
  | zero => exact ⟨0, rfl, by simpa using (Close.exact (by rw [norm_zero]; linarith [one_le_xmax S.sum]))⟩
  | succ m ih =>
    obtain ⟨w, hw, hc⟩ := ih (by omega)
    rw [List.range_succ, List.foldlM_append, hw, ok_bind]
    simp only [List.foldlM_cons, List.foldlM_nil]
    rw [pyGetN_ok (by omega), ok_bind, h hi (by omega), ok_bind]
    refine ⟨_, rfl, ?_⟩
    rw [sum_range_succ]
    have hs : S.getD m 0 ≤ S.sum := by
      rw [getD_of_lt _ _ (by omega)]
      exact List.single_le_sum (by simp) _ (List.getElem_mem _)
    have e2 := int_mul_close A hU (S.getD m 0 : ℕ) (Y := xmax S.sum) (by
      rw [abs_of_nonneg (by positivity)]
      exact le_trans (Int.cast_natCast (R := ℝ) _ ▸ Nat.cast_le.mpr hs) (le_xmax S.sum)) (one_le_xmax _) i m
    have e3 : ‖∑ ν ∈ range m, ((S.getD ν 0 : ℕ) : ℂ) * mget U i ν + ((S.getD m 0 : ℕ) : ℂ) * mget U i m‖ ≤ xmax S.sum := by
      rw [← sum_range_succ]
      refine le_trans ((norm_sum_le _ _).trans ?_) (le_xmax _)
      calc ∑ ν ∈ range (m + 1), ‖((S.getD ν 0 : ℕ) : ℂ) * mget U i ν‖ ≤ ∑ ν ∈ range (m + 1), ((S.getD ν 0 : ℕ) : ℝ) := by
            refine sum_le_sum fun ν _ => ?_
            rw [norm_mul, Complex.norm_natCast]
            exact mul_le_of_le_one_right (by positivity) (hU i ν).1
        _ ≤ ∑ ν ∈ range S.length, ((S.getD ν 0 : ℕ) : ℝ) :=
            sum_le_sum_of_subset_of_nonneg (range_subset_range.mpr hm) fun _ _ _ => by positivity
        _ = _ := by rw [← Nat.cast_sum, sum_getD_eq]
    push_cast at e2
    rw [getD_of_lt S 0 (show m < S.length by omega)] at e2 e3 ⊢
    exact (A.add_fixed hc e2 le_rfl e3 (one_le_xmax _)).mono (by rw [Nat.succ_mul]; omega)

theorem chinHuhR_init {e : ℕ} (h : Fits U' S T) (hU : MatClose e U' U) (hn : S.sum ≤ 1000) :
    ∃ s', (chinHuhMethodR R A).init ⟨U', S, T⟩ = .ok s' ∧
      GInvR ⟨U', S, T⟩ (chinHuhW ⟨U, S, T⟩) (1 / 2 ^ S.sum) (xmax S.sum) (S.length * (e + 2)) (2 * e + 3) 0
        (List.replicate S.length 0) (List.replicate S.length 1) s' ∧
      Close (gops T.sum (S.length * (e + 2)) (2 * e + 3) 0 + 1)
        (gsize ⟨U', S, T⟩ (1 / 2 ^ S.sum) (xmax S.sum) (List.replicate S.length 0))
        s'.permanent (gterm ⟨U', S, T⟩ (chinHuhW ⟨U, S, T⟩) ((1 / 2 ^ S.sum : ℝ) : ℂ) (List.replicate S.length 0)) := by
  classical
  have hpow : (1 : ℝ) / 2 ^ S.sum = ((1 : ℤ) : ℝ) * 2 ^ (-(S.sum : ℤ)) := by
    rw [Int.cast_one, one_mul, zpow_neg, zpow_natCast, one_div]
  have hrnd : R.rnd (1 / 2 ^ S.sum) = 1 / 2 ^ S.sum := by
    rw [hpow]
    exact R.eq_self (isFloat_mul (by norm_num) (by omega))
  choose w hw hc using fun i : {i // i < T.length} => chinHuhR_first A h.matGet hU i.1 i.2 S.length le_rfl
  let w' : ℕ → ℂ := fun i => if hi : i < T.length then w ⟨i, hi⟩ else 0
  simp only [chinHuhMethodR, initBaseR]
  rw [foldlM_ok (fun (d : List (ℕ × ℂ)) (i : ℕ) => (do
      let w ← (List.range S.length).foldlM (fun (acc : ℂ) j => do
        let x ← pyGetN S j
        let u ← matGet U' i j
        pure (A.add acc (A.mul (x : ℂ) u))) 0
      pure (dictSet d i w) : Py _)) (fun d j => dictSet d j (w' j)), ok_bind,
    foldl_dictSet _ _ _ (npNonzero_nodup T) (by simp), List.nil_append]
  · refine firstR_near R A ⟨U', S, T⟩ _ _ _ _ _ _ _ _ ⟨rfl, rfl, rfl, ?_, ?_, ⟨w', rfl, fun j hj => ?_⟩, rfl⟩ rfl
      (zeros_box S) (one_le_xmax _) ?_
    · rw [boxProd_zero _ _ _ (by simp [signF]), mul_one]
      exact hrnd
    · rw [boxProd_zero _ _ _ (by simp [binF])]
      exact .exact (by simp)
    · have hj' := ((mem_npNonzero _ _).mp hj).1
      have := hc ⟨j, hj'⟩
      have e1 : w' j = w ⟨j, hj'⟩ := dif_pos hj'
      rw [e1]
      have e2 : chinHuhW ⟨U, S, T⟩ (List.replicate S.length 0) j
          = ∑ ν ∈ range S.length, ((S.getD ν 0 : ℕ) : ℂ) * mget U j ν := by
        rw [chinHuhW_eq]
        refine sum_congr rfl fun ν _ => ?_
        have : (List.replicate S.length (0 : Int)).getD ν 0 = 0 := by
          rw [List.getD_eq_getElem?_getD, List.getElem?_replicate]
          split <;> rfl
        rw [this]
        push_cast
        ring
      rw [e2]
      simpa using this
    · rw [abs_of_pos (by positivity), one_div, ← zpow_natCast, ← zpow_neg]
      exact zpow_le_zpow_right₀ (by norm_num) (by omega)
  · intro d i hi
    have hi' := ((mem_npNonzero _ _).mp hi).1
    rw [hw ⟨i, hi'⟩, ok_bind]
    have e1 : w' i = w ⟨i, hi'⟩ := dif_pos hi'
    rw [e1]
    rfl

theorem ryserR_near {e : ℕ} (h : Fits U' S T) (hU : MatClose e U' U) (hs : S.sum = T.sum) (hn : S.sum ≤ 1000) (fuel : ℕ)
    (hf : (S.map (· + 1)).prod ≤ fuel) :
    ∃ y, ryserPermanentR R A fuel ⟨U', S, T⟩ = .ok y ∧
      Close (gops T.sum 0 (e + 2) (S.map (· + 1)).prod + (S.map (· + 1)).prod) (2 ^ S.sum * xmax S.sum ^ T.sum) y
        (scatteringPermanent U S T) := by
  obtain ⟨L, hL, hp, hl⟩ := visits_init S
  have habs : |((-1) ^ S.sum : ℝ)| = 1 := by rw [abs_pow, abs_neg, abs_one, one_pow]
  obtain ⟨y, hy, hc⟩ := computeR_near R A (ryserMethodR R A) (ryserW ⟨U, S, T⟩) ((-1) ^ S.sum) (xmax S.sum) 0 (e + 2) U' S T h
    (ryserR_sums R A h hU) hn (one_le_xmax _) (by rw [habs]; exact small_of_one le_rfl) (ryserR_init R A e) L hL hp fuel (by omega)
  refine ⟨y, hy, ?_⟩
  rw [habs, one_mul, hl] at hc
  have := ryser_sum (U := U) (S := S) (T := T) L hp hs
  rw [← this]
  push_cast at hc
  exact hc

theorem chinHuhR_near {e : ℕ} (h : Fits U' S T) (hU : MatClose e U' U) (hs : S.sum = T.sum) (hn : S.sum ≤ 1000) (fuel : ℕ)
    (hf : (S.map (· + 1)).prod ≤ fuel) :
    ∃ y, chinHuhPermanentR R A fuel ⟨U', S, T⟩ = .ok y ∧
      Close (gops T.sum (S.length * (e + 2)) (2 * e + 3) (S.map (· + 1)).prod + (S.map (· + 1)).prod) (xmax S.sum ^ T.sum) y
        (scatteringPermanent U S T) := by
  obtain ⟨L, hL, hp, hl⟩ := visits_init S
  have habs : |(1 / 2 ^ S.sum : ℝ)| = 1 / 2 ^ S.sum := abs_of_pos (by positivity)
  obtain ⟨y, hy, hc⟩ := computeR_near R A (chinHuhMethodR R A) (chinHuhW ⟨U, S, T⟩) (1 / 2 ^ S.sum) (xmax S.sum) _ _ U' S T h
    (chinHuhR_sums R A h hU) hn (one_le_xmax _) (by
      rw [habs, one_div, ← zpow_natCast, ← zpow_neg]
      exact zpow_le_zpow_right₀ (by norm_num) (by omega)) (chinHuhR_init R A h hU hn) L hL hp fuel (by omega)
  refine ⟨y, hy, ?_⟩
  have h2 : (1 / 2 ^ S.sum : ℝ) * 2 ^ S.sum = 1 := by field_simp
  rw [habs, h2, one_mul, hl] at hc
  have := chinHuh_sum (U := U) (S := S) (T := T) L hp hs
  rw [← this]
  push_cast at hc
  exact hc

end Verif
