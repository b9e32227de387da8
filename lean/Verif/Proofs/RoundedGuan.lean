import Verif.Model.RoundedPermanents
import Verif.Proofs.ComplexFloats
import Verif.Proofs.PermFinal

/-! Helper lemmas: the Guan-code calculators in floating-point arithmetic. -/
namespace Verif

open Finset

variable (R : Rounding) (A : ComplexArith)

/-! ### Products of binomial coefficients -/

/-- The entries of `r` are between zero and those of `S`. -/
abbrev InBox (r : List Int) (S : List ℕ) : Prop := List.Forall₂ (fun (x : Int) (s : ℕ) => 0 ≤ x ∧ x ≤ s) r S

theorem boxProd_bin_ge {r : List Int} {S : List ℕ} (h : InBox r S) : (1 : ℝ) ≤ boxProd S.length (binF S) r := by
  unfold boxProd
  have : ∀ ν ∈ range S.length, (1 : ℝ) ≤ binF S ν (r.getD ν 0).toNat := by
    intro ν _
    have := forall₂_getD h ν
    unfold binF
    have h1 : 0 < (S.getD ν 0).choose (r.getD ν 0).toNat := Nat.choose_pos (by omega)
    exact_mod_cast h1
  refine Finset.prod_induction _ (fun x => (1 : ℝ) ≤ x) (fun a b ha hb => ?_) le_rfl this
  exact one_le_mul_of_one_le_of_one_le ha hb

theorem prod_two_pow (S : List ℕ) : (∏ ν ∈ range S.length, (2 : ℝ) ^ S.getD ν 0) = 2 ^ S.sum := by
  rw [Finset.prod_pow_eq_pow_sum]
  congr 1
  induction S with
  | nil => simp
  | cons s S ih =>
    rw [List.length_cons, sum_range_succ', List.sum_cons]
    simp only [List.getD_cons_succ, List.getD_cons_zero]
    rw [ih, add_comm]

theorem boxProd_bin_le {r : List Int} {S : List ℕ} : boxProd S.length (binF S) r ≤ (2 : ℝ) ^ S.sum := by
  rw [← prod_two_pow]
  unfold boxProd
  refine Finset.prod_le_prod (fun ν _ => by unfold binF; positivity) fun ν _ => ?_
  unfold binF
  exact_mod_cast Nat.choose_le_two_pow (S.getD ν 0) _

theorem boxProd_bin_sum (S : List ℕ) : ((ibox S).map (boxProd S.length (binF (K := ℝ) S))).sum = 2 ^ S.sum := by
  induction S with
  | nil => simp [ibox, boxProd]
  | cons s S ih =>
    rw [ibox, sum_map_flatMap]
    simp only [List.map_map, Function.comp_def, list_sum_range, List.length_cons, boxProd_cons]
    have e2 : (fun ν => binF (K := ℝ) (s :: S) (ν + 1)) = binF S := by
      funext ν y; simp [binF]
    simp only [e2, ← Finset.sum_mul]
    have e3 : ∑ x ∈ range (s + 1), binF (K := ℝ) (s :: S) 0 (x : Int).toNat = 2 ^ s := by
      simp only [binF, List.getD_cons_zero, Int.toNat_natCast]
      exact_mod_cast Nat.sum_range_choose s
    rw [e3, List.sum_map_mul_left, ih, List.sum_cons, pow_add]

theorem boxProd_ofReal (m : ℕ) (f : ℕ → ℕ → ℝ) (r : List Int) :
    ((boxProd m f r : ℝ) : ℂ) = boxProd m (fun ν x => (f ν x : ℂ)) r := by
  simp [boxProd]

theorem bin_ofReal (S : List ℕ) (r : List Int) :
    ((boxProd S.length (binF S) r : ℝ) : ℂ) = boxProd S.length (binF S) r := by
  rw [boxProd_ofReal]
  simp only [boxProd, binF, Complex.ofReal_natCast]

theorem sign_ofReal (m : ℕ) (r : List Int) : ((boxProd m (signF (K := ℝ)) r : ℝ) : ℂ) = boxProd m signF r := by
  rw [boxProd_ofReal]
  simp only [boxProd, signF, Complex.ofReal_pow, Complex.ofReal_neg, Complex.ofReal_one]

theorem sign_abs (m : ℕ) (r : List Int) : |boxProd m (signF (K := ℝ)) r| = 1 := by
  unfold boxProd signF
  rw [Finset.abs_prod]
  simp

/-! ### The update of the binomials -/

/-- The quotient by which `_update_binomials_product` multiplies. -/
noncomputable def binQuot (input : List ℕ) (g : GuanVars) : Py ℝ := do
  let r ← pyGetN g.rVector g.index
  let s ← pyGetN input g.index
  if r > g.last then pyDivInt (((s : Int) - g.last : Int) : ℝ) r
  else pyDivInt ((g.last : Int) : ℝ) ((s : Int) - r)

theorem updateBinomials_quot (input : List ℕ) (g : GuanVars) (b : ℝ) :
    updateBinomials input g b = (binQuot input g >>= fun q => pure (b * q) : Py ℝ) := by
  unfold updateBinomials binQuot
  simp only [bind_assoc]
  congr 1; funext r
  congr 1; funext s
  split <;> rfl

theorem updateBinomialsR_quot (input : List ℕ) (g : GuanVars) (b : ℝ) :
    updateBinomialsR R input g b = (binQuot input g >>= fun q => pure (R.rnd (b * R.rnd q)) : Py ℝ) := by
  unfold updateBinomialsR binQuot
  simp only [bind_assoc]
  congr 1; funext r
  congr 1; funext s
  split <;> rfl

theorem updateBinomialsR_near (S : List ℕ) (hn : S.sum ≤ 1000) (g : GuanVars) (r : List Int) (b : ℝ) (i : ℕ) (u : Int)
    (k : ℕ) (hi : i < S.length) (hbox : InBox r S) (hg : g.rVector = r.set i (r.getD i 0 + u))
    (hgi : g.index = i) (hl : g.last = r.getD i 0) (hu : u = 1 ∨ u = -1)
    (h2 : 0 ≤ r.getD i 0 + u) (h3 : r.getD i 0 + u ≤ (S.getD i 0 : Int))
    (hb : Close k (boxProd S.length (binF S) r) b (boxProd S.length (binF S) r)) :
    ∃ b', updateBinomialsR R S g b = .ok b' ∧ Close (k + 2) (boxProd S.length (binF S) (r.set i (r.getD i 0 + u))) b'
      (boxProd S.length (binF S) (r.set i (r.getD i 0 + u))) := by
  have hr0 := forall₂_getD hbox i
  have h := updateBinomials_ok S g r (boxProd S.length (binF (K := ℝ) S) r) i u hi hbox.length_eq hg hgi hl hu hr0.1 hr0.2
    h2 h3 rfl
  rw [updateBinomials_quot] at h
  cases hq : binQuot S g with
  | error e => rw [hq] at h; cases h
  | ok q =>
    rw [hq, ok_bind, pure_eq_ok] at h
    have h' : boxProd S.length (binF (K := ℝ) S) r * q = _ := Except.ok.inj h
    have hB := boxProd_bin_ge hbox
    have hB2 := boxProd_bin_le (r := r) (S := S)
    have hB' := boxProd_bin_ge (forall₂_set hbox i ⟨h2, h3⟩)
    rw [← h'] at hB' ⊢
    set B := boxProd S.length (binF (K := ℝ) S) r
    have hq0 : 0 < q := by
      by_contra hc
      push Not at hc
      nlinarith
    have hq1 : (2 : ℝ) ^ (-1000 : ℤ) ≤ q := by
      have h1 : (2 : ℝ) ^ (-1000 : ℤ) * 2 ^ S.sum ≤ 1 := by
        rw [← zpow_natCast, ← zpow_add₀ (by norm_num)]
        exact zpow_le_one_of_nonpos₀ (by norm_num) (by omega)
      have h2 : (1 : ℝ) ≤ 2 ^ S.sum * q := hB'.trans (mul_le_mul_of_nonneg_right hB2 hq0.le)
      have h3 : (0 : ℝ) < 2 ^ S.sum := by positivity
      nlinarith
    refine ⟨_, by rw [updateBinomialsR_quot, hq, ok_bind]; rfl, ?_⟩
    have e1 : Close 0 q q q := .exact (by rw [Real.norm_eq_abs, abs_of_pos hq0])
    exact R.close (hb.mul_exact (R.close e1 hq1)) (small_of_one hB')

/-! ### The loop -/

theorem updatePermanentR_ok (c : CalcCfg ℂ) (s : GuanScratchR) (w : ℕ → ℂ)
    (hs : s.sums = (npNonzero c.output).map fun j => (j, w j)) (hc : s.considered = npNonzero c.output) :
    updatePermanentR R A c s = .ok { s with
      permanent := A.add s.permanent (((npNonzero c.output).map fun j => A.pow (w j) (c.output.getD j 0)).foldl A.mul
        (R.rnd (s.multiplier * s.binomials) : ℝ)) } := by
  unfold updatePermanentR
  rw [hc, mapM_ok _ (fun j => A.pow (w j) (c.output.getD j 0))]
  · rw [ok_bind]; rfl
  · intro j hj
    have hj' := ((mem_npNonzero _ _).mp hj).1
    rw [hs, dictGet_map _ _ hj, ok_bind, pyGetN_ok hj', ok_bind, getD_of_lt _ _ hj']
    rfl

/-- The sums update of a method moves the sums from one vector to the next, with `d` more operations. -/
def SumsNear (meth : GuanMethodR) (c : CalcCfg ℂ) (W : List Int → ℕ → ℂ) (X : ℝ) (d : ℕ) : Prop :=
  ∀ (s : GuanScratchR) (r : List Int) (i : ℕ) (u : Int) (k : ℕ) (w : ℕ → ℂ), i < c.input.length →
    InBox r c.input → (u = 1 ∨ u = -1) → InBox (r.set i (r.getD i 0 + u)) c.input →
    s.guan.rVector = r.set i (r.getD i 0 + u) → s.guan.index = i →
    s.guan.last = r.getD i 0 → s.sums = ((npNonzero c.output).map fun j => (j, w j)) →
    (∀ j ∈ npNonzero c.output, Close k X (w j) (W r j)) →
    ∃ w' : ℕ → ℂ, meth.updateSums c s = .ok { s with sums := (npNonzero c.output).map fun j => (j, w' j) } ∧
      ∀ j ∈ npNonzero c.output, Close (k + d) X (w' j) (W (r.set i (r.getD i 0 + u)) j)

/-- The state of the calculator after `t` steps, when the vector is `r`. -/
structure GInvR (c : CalcCfg ℂ) (W : List Int → ℕ → ℂ) (m0 X : ℝ) (k0 d t : ℕ) (r u : List Int)
    (s : GuanScratchR) : Prop where
  rv : s.guan.rVector = r
  cu : s.guan.codeUpdate = u
  lim : s.guan.limits = c.input.map fun (x : ℕ) => (x : Int)
  mult : s.multiplier = m0 * boxProd c.input.length signF r
  bin : Close (2 * t) (boxProd c.input.length (binF c.input) r) s.binomials (boxProd c.input.length (binF c.input) r)
  sums : ∃ w : ℕ → ℂ, s.sums = ((npNonzero c.output).map fun j => (j, w j)) ∧
    ∀ j ∈ npNonzero c.output, Close (k0 + t * d) X (w j) (W r j)
  cons : s.considered = npNonzero c.output

/-- The size of the addend of the vector `r`. -/
noncomputable def gsize (c : CalcCfg ℂ) (m0 X : ℝ) (r : List Int) : ℝ :=
  |m0| * boxProd c.input.length (binF c.input) r * X ^ c.output.sum

/-- The number of operations in the addend after `t` steps. -/
def gops (n k0 d t : ℕ) : ℕ := 2 * t + 1 + n * (k0 + t * d + 2)

theorem gops_mono (n k0 d : ℕ) {t t' : ℕ} (h : t ≤ t') : gops n k0 d t ≤ gops n k0 d t' := by
  unfold gops
  have h1 : t * d ≤ t' * d := Nat.mul_le_mul_right d h
  have h2 : n * (k0 + t * d + 2) ≤ n * (k0 + t' * d + 2) := Nat.mul_le_mul_left n (by omega)
  omega

theorem npNonzero_sum (T : List ℕ) : ((npNonzero T).map fun j => T.getD j 0).sum = T.sum := by
  have h1 : ∀ l : List ℕ, ((l.filter fun i => T.getD i 0 != 0).map fun j => T.getD j 0).sum
      = (l.map fun j => T.getD j 0).sum := by
    intro l
    induction l with
    | nil => rfl
    | cons a l ih =>
      rw [List.filter_cons]
      by_cases hp : T.getD a 0 = 0
      · simp only [hp, bne_self_eq_false, Bool.false_eq_true, if_false, List.map_cons, List.sum_cons, ih]; omega
      · simp only [bne_iff_ne, ne_eq, hp, not_false_eq_true, if_true, List.map_cons, List.sum_cons, ih]
  unfold npNonzero
  rw [h1]
  congr 1
  apply List.ext_getElem
  · simp
  · intro i h1 h2
    simp at h1
    simp [h1]

theorem npNonzero_length_le (T : List ℕ) : (npNonzero T).length ≤ T.sum := by
  rw [← npNonzero_sum T]
  have : ∀ l : List ℕ, (∀ j ∈ l, 1 ≤ T.getD j 0) → l.length ≤ (l.map fun j => T.getD j 0).sum := by
    intro l
    induction l with
    | nil => simp
    | cons a l ih =>
      intro h
      have h1 := h a (by simp)
      have h2 := ih fun j hj => h j (by simp [hj])
      simp only [List.length_cons, List.map_cons, List.sum_cons]
      omega
  refine this _ fun j hj => ?_
  have := ((mem_npNonzero _ _).mp hj).2
  omega

theorem gsize_ge (c : CalcCfg ℂ) (m0 X : ℝ) (r : List Int) (hr : InBox r c.input) (hX : 1 ≤ X) :
    |m0| ≤ gsize c m0 X r := by
  unfold gsize
  have h1 := boxProd_bin_ge hr
  have h2 : 1 ≤ X ^ c.output.sum := one_le_pow₀ hX
  have h3 := abs_nonneg m0
  calc |m0| = |m0| * 1 * 1 := by ring
    _ ≤ _ := mul_le_mul (mul_le_mul_of_nonneg_left h1 h3) h2 (by norm_num) (by positivity)

/-- The addend as it is computed. -/
theorem gterm_near (c : CalcCfg ℂ) (W : List Int → ℕ → ℂ) (m0 X : ℝ) (k0 d t : ℕ) (r u : List Int) (s : GuanScratchR)
    (hI : GInvR c W m0 X k0 d t r u s) (hr : InBox r c.input) (hX : 1 ≤ X) (hm : (2 : ℝ) ^ (-1000 : ℤ) ≤ |m0|)
    (w : ℕ → ℂ) (hw : ∀ j ∈ npNonzero c.output, Close (k0 + t * d) X (w j) (W r j)) :
    Close (gops c.output.sum k0 d t) (gsize c m0 X r)
      (((npNonzero c.output).map fun j => A.pow (w j) (c.output.getD j 0)).foldl A.mul
        (R.rnd (s.multiplier * s.binomials) : ℝ)) (gterm c W m0 r) := by
  have hB := boxProd_bin_ge hr
  set B := boxProd c.input.length (binF (K := ℝ) c.input) r with hBdef
  have hm0 := abs_nonneg m0
  have e1 : Close 0 |m0| s.multiplier (m0 * boxProd c.input.length (signF (K := ℝ)) r) := by
    rw [hI.mult]
    refine .exact ?_
    rw [Real.norm_eq_abs, abs_mul, sign_abs, mul_one]
  have hmB : (2 : ℝ) ^ (-1000 : ℤ) ≤ |m0| * B := hm.trans (le_mul_of_one_le_right hm0 hB)
  have e2 := (R.close (e1.mul_exact hI.bin) hmB).ofReal
  have e3 := A.foldl_close (npNonzero c.output) (fun j => A.pow (w j) (c.output.getD j 0))
    (fun j => W r j ^ c.output.getD j 0) (fun j => c.output.getD j 0 * (k0 + t * d + 1)) (fun j => X ^ c.output.getD j 0)
    (fun j _ => one_le_pow₀ hX) (fun j hj => A.pow_close (hw j hj) hX _) e2 hmB
  have hp : ((npNonzero c.output).map fun j => X ^ c.output.getD j 0).prod = X ^ c.output.sum := by
    rw [← npNonzero_sum c.output]
    generalize npNonzero c.output = l
    induction l with
    | nil => simp
    | cons a l ih => rw [List.map_cons, List.prod_cons, ih, List.map_cons, List.sum_cons, pow_add]
  have hs : ((npNonzero c.output).map fun j => c.output.getD j 0 * (k0 + t * d + 1) + 1).sum
      ≤ c.output.sum * (k0 + t * d + 2) := by
    have h1 := npNonzero_length_le c.output
    have h2 : ((npNonzero c.output).map fun j => c.output.getD j 0 * (k0 + t * d + 1) + 1).sum
        = ((npNonzero c.output).map fun j => c.output.getD j 0).sum * (k0 + t * d + 1) + (npNonzero c.output).length := by
      generalize npNonzero c.output = l
      induction l with
      | nil => simp
      | cons a l ih => simp only [List.map_cons, List.sum_cons, ih, List.length_cons]; ring
    rw [h2, npNonzero_sum]
    nlinarith
  rw [hp] at e3
  have e4 : gterm c W m0 r = ((m0 * boxProd c.input.length (signF (K := ℝ)) r * B : ℝ) : ℂ)
      * ((npNonzero c.output).map fun j => W r j ^ c.output.getD j 0).prod := by
    unfold gterm
    push_cast
    rw [hBdef, bin_ofReal, sign_ofReal]
  rw [e4]
  exact e3.mono (by unfold gops; omega)

/-- The main loop adds the addends of all vectors visited after the current one. -/
theorem guanMainR_near (meth : GuanMethodR) (c : CalcCfg ℂ) (W : List Int → ℕ → ℂ) (m0 X : ℝ) (k0 d κ : ℕ)
    (hW : SumsNear meth c W X d) (hne : c.input ≠ []) (hn : c.input.sum ≤ 1000) (hX : 1 ≤ X)
    (hm : (2 : ℝ) ^ (-1000 : ℤ) ≤ |m0|) (L : List (List Int)) (r u : List Int)
    (hV : Visits (c.input.map fun (x : ℕ) => (x : Int)) r u L) :
    ∀ (s : GuanScratchR) (fuel t : ℕ) (P : ℝ) (p : ℂ), GInvR c W m0 X k0 d t r u s → InBox r c.input →
      u.length = c.input.length → (∀ x ∈ u, x = 1 ∨ x = -1) → L.length ≤ fuel →
      gops c.output.sum k0 d (t + L.length) ≤ κ → Close (κ + t + 1) P s.permanent p →
      ∃ s', guanMainR R A meth c fuel s = .ok s' ∧
        Close (κ + t + L.length) (P + (L.tail.map (gsize c m0 X)).sum) s'.permanent
          (p + (L.tail.map (gterm c W m0)).sum) := by
  induction hV with
  | @stop r u hg =>
    intro s fuel t P p hI hr hul hud hf hκ hp
    obtain ⟨fuel, rfl⟩ : ∃ k, fuel = k + 1 := ⟨fuel - 1, by simp at hf; omega⟩
    obtain ⟨a, b, ha, hb, hab⟩ := last_le hr hne
    have hrl := hr.length_eq
    have hpos := List.length_pos_of_ne_nil hne
    have hrne : r ≠ [] := List.ne_nil_of_length_pos (by omega)
    rw [guanMainR, hI.rv, hI.lim, ha, ok_bind, hb, ok_bind, if_pos hab,
      updateGuanCode_eq _ (by rw [hI.lim, hI.rv]; simp [hrl]) (by rw [hI.cu, hI.rv]; omega)
        (by rw [hI.rv]; exact hrne), hI.rv, hI.lim, hI.cu, hg, ok_bind]
    simpa [pure_eq_ok] using hp
  | @step r u q L hg hV ih =>
    intro s fuel t P p hI hr hul hud hf hκ hp
    obtain ⟨fuel, rfl⟩ : ∃ k, fuel = k + 1 := ⟨fuel - 1, by simp at hf; omega⟩
    obtain ⟨a, b, ha, hb, hab⟩ := last_le hr hne
    have hrl := hr.length_eq
    have hpos := List.length_pos_of_ne_nil hne
    have hrne : r ≠ [] := List.ne_nil_of_length_pos (by omega)
    have hgl := gstep_length hg
    obtain ⟨hset, hs0, hs1⟩ := gstep_set hg
    have hgd := gstep_dirs hg hud
    obtain ⟨i, hi⟩ : ∃ i, i = q.2.2 := ⟨_, rfl⟩
    rw [← hi] at hset hs0 hs1 hgl
    have hud' := getD_dir hud (i := i) (by omega)
    have hlim : (c.input.map fun (x : ℕ) => (x : Int)).getD i 0 = (c.input.getD i 0 : Int) := by
      rw [getD_of_lt _ _ (by simp; omega), getD_of_lt _ _ (by omega)]; simp
    rw [hlim] at hs1
    have hr0 := forall₂_getD hr i
    have hbox := forall₂_set hr i ⟨hs0, hs1⟩
    rw [guanMainR, hI.rv, hI.lim, ha, ok_bind, hb, ok_bind, if_pos hab,
      updateGuanCode_eq _ (by rw [hI.lim, hI.rv]; simp [hrl]) (by rw [hI.cu, hI.rv]; omega)
        (by rw [hI.rv]; exact hrne), hI.rv, hI.lim, hI.cu, hg, ok_bind, ← hi]
    simp only
    rw [if_neg (by omega)]
    obtain ⟨w, hw, hwc⟩ := hI.sums
    obtain ⟨w', e1, hw'⟩ := hW { s with
      guan := ⟨q.1, q.2.1, c.input.map fun (x : ℕ) => (x : Int), i, r.getD i 0⟩
      multiplier := -s.multiplier } r i (u.getD i 0) _ w (by omega) hr hud' hbox hset rfl rfl hw hwc
    rw [e1, ok_bind]
    simp only
    obtain ⟨b', e2, hb'⟩ := updateBinomialsR_near R c.input hn
      ⟨q.1, q.2.1, c.input.map fun (x : ℕ) => (x : Int), i, r.getD i 0⟩ r s.binomials i
      (u.getD i 0) (2 * t) (by omega) hr hset rfl rfl hud' hs0 hs1 hI.bin
    rw [e2, ok_bind, updatePermanentR_ok R A _ _ w' rfl (by exact hI.cons), ok_bind]
    rw [← hset] at hbox hw' hb'
    generalize hst : GuanScratchR.mk _ _ _ _ _ _ = st
    have hinv : GInvR c W m0 X k0 d (t + 1) q.1 q.2.1 st := by
      subst hst
      exact { rv := rfl
              cu := rfl
              lim := rfl
              mult := by
                simp only [hI.mult, hset]
                rw [sign_set _ _ _ _ (by omega) (by omega) hud' hr0.1 hs0]; ring
              bin := by simpa only [Nat.mul_add] using hb'
              sums := ⟨w', rfl, fun j hj => (hw' j hj).mono (by rw [Nat.add_mul]; omega)⟩
              cons := hI.cons }
    have hterm := gterm_near R A c W m0 X k0 d (t + 1) q.1 q.2.1 st hinv hbox hX hm w'
      (fun j hj => (hw' j hj).mono (by rw [Nat.add_mul]; omega))
    obtain ⟨L', rfl⟩ := hV.head
    have hk : gops c.output.sum k0 d (t + 1) ≤ κ :=
      (gops_mono _ _ _ (by simp only [List.length_cons]; omega)).trans hκ
    have hge := gsize_ge c m0 X q.1 hbox hX
    have hperm : Close (κ + (t + 1) + 1) (P + gsize c m0 X q.1) st.permanent (p + gterm c W m0 q.1) := by
      have := A.add_close hp (hterm.mono (show gops c.output.sum k0 d (t + 1) ≤ κ + t + 1 by omega))
        (hm.trans (hge.trans (le_add_of_nonneg_left hp.bound_nonneg)))
      subst hst
      exact this
    obtain ⟨s', hs', hp'⟩ := ih st fuel (t + 1) _ _ hinv hbox (by omega) hgd (by simpa using hf)
      ((gops_mono _ _ _ (by simp only [List.length_cons]; omega)).trans hκ) hperm
    refine ⟨s', hs', ?_⟩
    simp only [List.tail_cons, List.map_cons, List.sum_cons, List.length_cons] at hp' ⊢
    rw [← add_assoc P, ← add_assoc p]
    refine hp'.mono ?_
    omega

/-- Both calculators return nearly the sum of the addends. -/
theorem computeR_near (meth : GuanMethodR) (W : List Int → ℕ → ℂ) (m0 X : ℝ) (k0 d : ℕ) (U : List (List ℂ))
    (S T : List ℕ) (h : Fits U S T)
    (hW : SumsNear meth ⟨U, S, T⟩ W X d) (hn : S.sum ≤ 1000) (hX : 1 ≤ X) (hm : (2 : ℝ) ^ (-1000 : ℤ) ≤ |m0|)
    (hinit : ∃ s', meth.init ⟨U, S, T⟩ = .ok s' ∧
      GInvR ⟨U, S, T⟩ W m0 X k0 d 0 (List.replicate S.length 0) (List.replicate S.length 1) s' ∧
      Close (gops T.sum k0 d 0 + 1) (gsize ⟨U, S, T⟩ m0 X (List.replicate S.length 0)) s'.permanent
        (gterm ⟨U, S, T⟩ W m0 (List.replicate S.length 0)))
    (L : List (List Int)) (hL : Visits (S.map fun (x : ℕ) => (x : Int)) (List.replicate S.length 0)
      (List.replicate S.length 1) L) (hp : L.Perm (ibox S)) (fuel : ℕ) (hf : L.length ≤ fuel) :
    ∃ y, computePermanentR R A meth fuel ⟨U, S, T⟩ = .ok y ∧
      Close (gops T.sum k0 d L.length + L.length) (|m0| * 2 ^ S.sum * X ^ T.sum) y
        (L.map (gterm ⟨U, S, T⟩ W m0)).sum := by
  obtain ⟨s1, h1, hI, hp1⟩ := hinit
  obtain ⟨s2, h2, hp2⟩ := guanMainR_near R A meth ⟨U, S, T⟩ W m0 X k0 d (gops T.sum k0 d L.length) hW h.pos hn hX hm L _ _ hL
    s1 fuel 0 _ _ hI (zeros_box S) (by simp) (by simp) hf (by simp)
    (hp1.mono (by have := gops_mono T.sum k0 d (Nat.zero_le L.length); omega))
  refine ⟨s2.permanent, ?_, ?_⟩
  · unfold computePermanentR
    rw [h.can, ok_bind, if_pos rfl, h1, ok_bind, h2, ok_bind]
    rfl
  · have hsum : (L.map (gsize ⟨U, S, T⟩ m0 X)).sum = |m0| * 2 ^ S.sum * X ^ T.sum := by
      rw [(hp.map _).sum_eq]
      have : gsize ⟨U, S, T⟩ m0 X = fun r => boxProd S.length (binF S) r * (|m0| * X ^ T.sum) := by
        funext r; unfold gsize; ring
      rw [this, List.sum_map_mul_right, boxProd_bin_sum]
      ring
    obtain ⟨L', rfl⟩ := hL.head
    rw [← hsum]
    simpa using hp2

end Verif
