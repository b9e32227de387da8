import Verif.Proofs.Guan
import Verif.Proofs.Dict
import Mathlib.Algebra.BigOperators.Ring.Finset
import Mathlib.Algebra.BigOperators.Group.Finset.Basic
import Mathlib.Algebra.CharZero.Defs
import Mathlib.Data.Nat.Cast.Field
import Mathlib.Data.Nat.Choose.Basic
import Mathlib.Tactic.FieldSimp
import Mathlib.Tactic.Ring
import Mathlib.Tactic.LinearCombination
import Mathlib.Tactic.Push

/-! Helper lemmas: the accumulation loop of the Guan-code calculators. -/
namespace Verif

variable {K : Type _} [Field K] [CharZero K]

open Finset

/-- Product over the modes of a per-mode weight of the entry of `r`. -/
def boxProd (m : ℕ) (f : ℕ → ℕ → K) (r : List Int) : K :=
  ∏ ν ∈ range m, f ν (r.getD ν 0).toNat

/-- Weighted sum of the entries of `r`. -/
def boxSum (m : ℕ) (x : ℕ → K) (r : List Int) : K := ∑ ν ∈ range m, ((r.getD ν 0 : Int) : K) * x ν

theorem getD_set' (r : List Int) (i ν : ℕ) (y : Int) (hi : i < r.length) :
    (r.set i y).getD ν 0 = if ν = i then y else r.getD ν 0 := by
  rcases eq_or_ne ν i with rfl | h
  · rw [if_pos rfl, getD_of_lt _ _ (by simpa using hi)]; simp
  · rw [if_neg h, List.getD_eq_getElem?_getD, List.getD_eq_getElem?_getD,
      List.getElem?_set_ne (Ne.symm h)]

omit [CharZero K] in
theorem boxSum_set (m : ℕ) (x : ℕ → K) (r : List Int) (i : ℕ) (u : Int) (hi : i < m)
    (hr : r.length = m) :
    boxSum m x (r.set i (r.getD i 0 + u)) = boxSum m x r + (u : K) * x i := by
  unfold boxSum
  have : ∀ ν ∈ range m, (((r.set i (r.getD i 0 + u)).getD ν 0 : Int) : K) * x ν
      = ((r.getD ν 0 : Int) : K) * x ν + if ν = i then (u : K) * x i else 0 := by
    intro ν _
    rw [getD_set' _ _ _ _ (by omega)]
    split
    · subst_vars; push_cast; ring
    · simp
  rw [sum_congr rfl this, sum_add_distrib, sum_ite_eq' (range m) i, if_pos (mem_range.mpr hi)]

omit [CharZero K] in
theorem boxProd_set (m : ℕ) (f : ℕ → ℕ → K) (r : List Int) (i : ℕ) (y : Int) (q : K) (hi : i < m)
    (hr : r.length = m) (hq : f i y.toNat = f i (r.getD i 0).toNat * q) :
    boxProd m f (r.set i y) = boxProd m f r * q := by
  unfold boxProd
  rw [← mul_prod_erase (range m) _ (mem_range.mpr hi), ← mul_prod_erase (range m) (fun ν =>
    f ν (r.getD ν 0).toNat) (mem_range.mpr hi)]
  rw [getD_set' _ _ _ _ (by omega), if_pos rfl, hq]
  have : ∀ ν ∈ (range m).erase i, f ν ((r.set i y).getD ν 0).toNat = f ν (r.getD ν 0).toNat := by
    intro ν hν
    rw [getD_set' _ _ _ _ (by omega), if_neg (ne_of_mem_erase hν)]
  rw [prod_congr rfl this]
  ring

def signF : ℕ → ℕ → K := fun _ x => (-1) ^ x
def binF (S : List Nat) : ℕ → ℕ → K := fun ν x => ((S.getD ν 0).choose x : K)

/-- The addend of the vector `r`. -/
def gterm (c : CalcCfg K) (W : List Int → Nat → K) (m0 : K) (r : List Int) : K :=
  m0 * boxProd c.input.length signF r * boxProd c.input.length (binF c.input) r *
    ((npNonzero c.output).map fun j => W r j ^ c.output.getD j 0).prod

/-- The state of the calculator when the vector is `r`. -/
structure GInv (c : CalcCfg K) (W : List Int → Nat → K) (m0 : K) (r u : List Int)
    (s : GuanScratch K) : Prop where
  rv : s.guan.rVector = r
  cu : s.guan.codeUpdate = u
  lim : s.guan.limits = c.input.map fun (x : Nat) => (x : Int)
  mult : s.multiplier = m0 * boxProd c.input.length signF r
  bin : s.binomials = boxProd c.input.length (binF c.input) r
  sums : s.sums = (npNonzero c.output).map fun j => (j, W r j)
  cons : s.considered = npNonzero c.output

omit [CharZero K] in
theorem updatePermanent_ok (c : CalcCfg K) (s : GuanScratch K) (w : Nat → K)
    (hs : s.sums = (npNonzero c.output).map fun j => (j, w j))
    (hc : s.considered = npNonzero c.output) :
    updatePermanent c s = .ok { s with permanent := s.permanent + s.multiplier * s.binomials *
      ((npNonzero c.output).map fun j => w j ^ c.output.getD j 0).prod } := by
  unfold updatePermanent
  rw [hc, mapM_ok _ (fun j => w j ^ c.output.getD j 0)]
  · rw [ok_bind, foldl_mul_eq]; rfl
  · intro j hj
    have hj' := ((mem_npNonzero _ _).mp hj).1
    rw [hs, dictGet_map _ _ hj, ok_bind, pyGetN_ok hj', ok_bind, getD_of_lt _ _ hj']
    rfl

theorem updateBinomials_ok (S : List Nat) (g : GuanVars) (r : List Int) (b : K) (i : ℕ) (u : Int)
    (hi : i < S.length) (hr : r.length = S.length) (hg : g.rVector = r.set i (r.getD i 0 + u))
    (hgi : g.index = i) (hl : g.last = r.getD i 0) (hu : u = 1 ∨ u = -1)
    (h0 : 0 ≤ r.getD i 0) (h1 : r.getD i 0 ≤ (S.getD i 0 : Int)) (h2 : 0 ≤ r.getD i 0 + u)
    (h3 : r.getD i 0 + u ≤ (S.getD i 0 : Int)) (hb : b = boxProd S.length (binF S) r) :
    updateBinomials S g b = .ok (boxProd S.length (binF S) (r.set i (r.getD i 0 + u))) := by
  unfold updateBinomials
  have hget : g.rVector[g.index]'(by rw [hg, hgi]; simp; omega) = r.getD i 0 + u := by
    simp [hg, hgi]
  rw [pyGetN_ok (by rw [hg, hgi]; simp; omega), ok_bind, hget, pyGetN_ok (by omega), ok_bind, hl]
  have hS : S[g.index]'(by omega) = S.getD i 0 := by simp [hgi, hi]
  rw [hS, hb]
  clear hget hg hl hS
  generalize hx : r.getD i 0 = x at *
  generalize hs : S.getD i 0 = s at *
  obtain ⟨n, rfl⟩ := Int.eq_ofNat_of_zero_le h0
  rcases hu with rfl | rfl
  · rw [if_pos (by omega)]
    have hne : ((n : Int) + 1) ≠ 0 := by omega
    unfold pyDivInt
    rw [if_neg hne, ok_bind, boxProd_set (i := i) (q := (((s : Int) - n : Int) : K) / (((n : Int) + 1 : Int) : K))
      S.length _ r _ hi hr]
    · rfl
    · rw [hx]
      simp only [binF, hs, Int.toNat_natCast]
      have e : ((n : Int) + 1).toNat = n + 1 := by omega
      rw [e]
      have hle : n ≤ s := by omega
      have key := congrArg (Nat.cast : ℕ → K) (Nat.choose_succ_right_eq s n)
      push_cast [Nat.cast_sub hle] at key ⊢
      have hnn : (n : K) + 1 ≠ 0 := by exact_mod_cast Nat.succ_ne_zero n
      field_simp
      linear_combination key
  · rw [if_neg (by omega)]
    obtain ⟨k, rfl⟩ : ∃ k, n = k + 1 := ⟨n - 1, by omega⟩
    have hks : k + 1 ≤ s := by omega
    have hne : (s : Int) - (((k + 1 : ℕ) : Int) + -1) ≠ 0 := by omega
    unfold pyDivInt
    rw [if_neg hne, ok_bind, boxProd_set (i := i)
      (q := ((((k + 1 : ℕ) : Int)) : K) / (((s : Int) - (((k + 1 : ℕ) : Int) + -1) : Int) : K))
      S.length _ r _ hi hr]
    · rfl
    · rw [hx]
      simp only [binF, hs, Int.toNat_natCast]
      have e : (((k + 1 : ℕ) : Int) + -1).toNat = k := by omega
      rw [e]
      have key := congrArg (Nat.cast : ℕ → K) (Nat.choose_succ_right_eq s k)
      have hd : ((s - k : ℕ) : K) ≠ 0 := by
        have : s - k ≠ 0 := by omega
        exact_mod_cast this
      rw [Nat.cast_sub (by omega)] at hd
      push_cast [Nat.cast_sub (show k ≤ s by omega)] at key ⊢
      have e2 : (s : K) - ((k : K) + 1 + -1) = s - k := by ring
      rw [e2, mul_div_assoc', eq_div_iff hd]
      linear_combination -key

/-- The sums update of a method moves the sums from one vector to the next. -/
def SumsOK (meth : GuanMethod K) (c : CalcCfg K) (W : List Int → Nat → K) : Prop :=
  ∀ (s : GuanScratch K) (r : List Int) (i : ℕ) (u : Int), i < c.input.length →
    r.length = c.input.length → s.guan.rVector = r.set i (r.getD i 0 + u) → s.guan.index = i →
    s.guan.last = r.getD i 0 → s.sums = ((npNonzero c.output).map fun j => (j, W r j)) →
    meth.updateSums c s = .ok { s with
      sums := (npNonzero c.output).map fun j => (j, W (r.set i (r.getD i 0 + u)) j) }

theorem forall₂_getD {r : List Int} {S : List Nat}
    (h : List.Forall₂ (fun (x : Int) (s : Nat) => 0 ≤ x ∧ x ≤ s) r S) (i : ℕ) :
    0 ≤ r.getD i 0 ∧ r.getD i 0 ≤ (S.getD i 0 : Int) := by
  induction h generalizing i with
  | nil => simp
  | cons h1 _ ih => cases i with
    | zero => simpa using h1
    | succ i => simpa using ih i

theorem forall₂_set {r : List Int} {S : List Nat} {y : Int}
    (h : List.Forall₂ (fun (x : Int) (s : Nat) => 0 ≤ x ∧ x ≤ s) r S) (i : ℕ)
    (hy : 0 ≤ y ∧ y ≤ (S.getD i 0 : Int)) :
    List.Forall₂ (fun (x : Int) (s : Nat) => 0 ≤ x ∧ x ≤ s) (r.set i y) S := by
  induction h generalizing i with
  | nil => exact List.Forall₂.nil
  | cons h1 h2 ih => cases i with
    | zero => exact List.Forall₂.cons (by simpa using hy) h2
    | succ i => exact List.Forall₂.cons h1 (ih i (by simpa using hy))

omit [CharZero K] in
theorem sign_set (m : ℕ) (r : List Int) (i : ℕ) (u : Int) (hi : i < m) (hr : r.length = m)
    (hu : u = 1 ∨ u = -1) (h0 : 0 ≤ r.getD i 0) (h2 : 0 ≤ r.getD i 0 + u) :
    boxProd m (signF (K := K)) (r.set i (r.getD i 0 + u)) = - boxProd m signF r := by
  rw [boxProd_set (i := i) (q := -1) m _ r _ hi hr]
  · ring
  · simp only [signF]
    generalize r.getD i 0 = x at *
    obtain ⟨n, rfl⟩ := Int.eq_ofNat_of_zero_le h0
    rcases hu with rfl | rfl
    · have : ((n : Int) + 1).toNat = n + 1 := by omega
      rw [this, Int.toNat_natCast, pow_succ]
    · obtain ⟨k, rfl⟩ : ∃ k, n = k + 1 := ⟨n - 1, by omega⟩
      have : (((k + 1 : ℕ) : Int) + -1).toNat = k := by omega
      rw [this, Int.toNat_natCast, pow_succ]; ring

omit [CharZero K] in
theorem getD_dir {us : List Int} (hu : ∀ u ∈ us, u = 1 ∨ u = -1) {i : ℕ} (hi : i < us.length) :
    us.getD i 0 = 1 ∨ us.getD i 0 = -1 := by
  rw [getD_of_lt _ _ hi]; exact hu _ (List.getElem_mem hi)

theorem last_le {r : List Int} {S : List Nat}
    (h : List.Forall₂ (fun (x : Int) (s : Nat) => 0 ≤ x ∧ x ≤ s) r S) (hne : S ≠ []) :
    ∃ a b, pyGet r (-1) = .ok a ∧ pyGet (S.map fun (x : Nat) => (x : Int)) (-1) = .ok b ∧ a ≤ b := by
  have hlen := h.length_eq
  have hpos := List.length_pos_of_ne_nil hne
  have key : ∀ (l : List Int) (hl : l ≠ []), pyGet l (-1) = .ok (l.getLast hl) := by
    intro l hl
    conv_lhs => rw [← List.dropLast_append_getLast hl]
    exact pyGet_last _ _
  have h1 := key r (List.ne_nil_of_length_pos (by omega))
  have h2 := key (S.map fun (x : Nat) => (x : Int)) (by simpa using hne)
  refine ⟨_, _, h1, h2, ?_⟩
  have := (forall₂_getD h (S.length - 1)).2
  rw [getD_of_lt _ _ (by omega), getD_of_lt _ _ (by omega)] at this
  rw [List.getLast_eq_getElem, List.getLast_eq_getElem, List.getElem_map]
  simpa [hlen] using this

/-- The main loop adds the addends of all vectors visited after the current one. -/
theorem guanMain_ok (meth : GuanMethod K) (c : CalcCfg K) (W : List Int → Nat → K) (m0 : K)
    (hW : SumsOK meth c W) (hne : c.input ≠ []) (L : List (List Int)) (r u : List Int)
    (hV : Visits (c.input.map fun (x : Nat) => (x : Int)) r u L) :
    ∀ (s : GuanScratch K) (fuel : ℕ), GInv c W m0 r u s →
      List.Forall₂ (fun (x : Int) (s : Nat) => 0 ≤ x ∧ x ≤ s) r c.input →
      u.length = c.input.length → (∀ x ∈ u, x = 1 ∨ x = -1) → L.length ≤ fuel →
      ∃ s', guanMain meth c fuel s = .ok s' ∧
        s'.permanent = s.permanent + (L.tail.map (gterm c W m0)).sum := by
  induction hV with
  | @stop r u hg =>
    intro s fuel hI hr hul hud hf
    obtain ⟨fuel, rfl⟩ : ∃ k, fuel = k + 1 := ⟨fuel - 1, by simp at hf; omega⟩
    obtain ⟨a, b, ha, hb, hab⟩ := last_le hr hne
    have hrl := hr.length_eq
    have hpos := List.length_pos_of_ne_nil hne
    have hrne : r ≠ [] := List.ne_nil_of_length_pos (by omega)
    rw [guanMain, hI.rv, hI.lim, ha, ok_bind, hb, ok_bind, if_pos hab,
      updateGuanCode_eq _ (by rw [hI.lim, hI.rv]; simp [hrl]) (by rw [hI.cu, hI.rv]; omega)
        (by rw [hI.rv]; exact hrne), hI.rv, hI.lim, hI.cu, hg, ok_bind]
    simp
  | @step r u p L hg hV ih =>
    intro s fuel hI hr hul hud hf
    obtain ⟨fuel, rfl⟩ : ∃ k, fuel = k + 1 := ⟨fuel - 1, by simp at hf; omega⟩
    obtain ⟨a, b, ha, hb, hab⟩ := last_le hr hne
    have hrl := hr.length_eq
    have hpos := List.length_pos_of_ne_nil hne
    have hrne : r ≠ [] := List.ne_nil_of_length_pos (by omega)
    have hgl := gstep_length hg
    obtain ⟨hset, hs0, hs1⟩ := gstep_set hg
    have hgd := gstep_dirs hg hud
    obtain ⟨i, hi⟩ : ∃ i, i = p.2.2 := ⟨_, rfl⟩
    rw [← hi] at hset hs0 hs1 hgl
    have hud' := getD_dir hud (i := i) (by omega)
    have hlim : (c.input.map fun (x : Nat) => (x : Int)).getD i 0 = (c.input.getD i 0 : Int) := by
      rw [getD_of_lt _ _ (by simp; omega), getD_of_lt _ _ (by omega)]; simp
    rw [hlim] at hs1
    have hr0 := forall₂_getD hr i
    rw [guanMain, hI.rv, hI.lim, ha, ok_bind, hb, ok_bind, if_pos hab,
      updateGuanCode_eq _ (by rw [hI.lim, hI.rv]; simp [hrl]) (by rw [hI.cu, hI.rv]; omega)
        (by rw [hI.rv]; exact hrne), hI.rv, hI.lim, hI.cu, hg, ok_bind, ← hi]
    simp only
    rw [if_neg (by omega)]
    have e1 := hW { s with
      guan := ⟨p.1, p.2.1, c.input.map fun (x : Nat) => (x : Int), i, r.getD i 0⟩
      multiplier := -s.multiplier } r i (u.getD i 0) (by omega) (by omega) hset rfl rfl hI.sums
    rw [e1, ok_bind]
    simp only
    have e2 := updateBinomials_ok c.input
      ⟨p.1, p.2.1, c.input.map fun (x : Nat) => (x : Int), i, r.getD i 0⟩ r s.binomials i
      (u.getD i 0) (by omega) (by omega) hset rfl rfl hud' hr0.1 hr0.2 hs0 hs1 hI.bin
    rw [e2, ok_bind, updatePermanent_ok _ _ (W (r.set i (r.getD i 0 + u.getD i 0))) rfl
      (by exact hI.cons), ok_bind]
    have hbox := forall₂_set hr i ⟨hs0, hs1⟩
    rw [← hset] at hbox ⊢
    generalize hst : GuanScratch.mk _ _ _ _ _ _ = st
    have hinv : GInv c W m0 p.1 p.2.1 st := by
      subst hst
      exact { rv := rfl
              cu := rfl
              lim := rfl
              mult := by
                simp only [hI.mult, hset]
                rw [sign_set _ _ _ _ (by omega) (by omega) hud' hr0.1 hs0]; ring
              bin := by simp only [hset]
              sums := by simp only [hset]
              cons := hI.cons }
    obtain ⟨s', hs', hp'⟩ := ih st fuel hinv hbox (by omega) hgd (by simpa using hf)
    refine ⟨s', hs', ?_⟩
    rw [hp', ← hst]
    obtain ⟨L', rfl⟩ := hV.head
    simp only [List.tail_cons, List.map_cons, List.sum_cons, gterm]
    rw [hset, sign_set _ _ _ _ (by omega) (by omega) hud' hr0.1 hs0, hI.mult]
    ring

end Verif
