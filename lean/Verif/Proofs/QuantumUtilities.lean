import Verif.Model.QuantumUtilities
import Verif.Proofs.PyLemmas
import Mathlib.Algebra.Order.BigOperators.Group.List
import Mathlib.LinearAlgebra.UnitaryGroup
import Mathlib.RingTheory.RootsOfUnity.Complex
import Mathlib.Algebra.BigOperators.Field
import Mathlib.Tactic.FieldSimp

/-! Lemmas about distances, sample bounds and unitary matrices. -/
namespace Verif

section Tvd
variable {R : Type} [Field R] [LinearOrder R]

theorem countTvd_ok (d1 d2 : List R) (h : d1.length = d2.length) :
    countTvd d1 d2 = .ok ((List.zipWith (fun a b => |a - b|) d1 d2).sum / 2) := by
  unfold countTvd
  rw [if_neg (not_not.mpr h)]
  have key : ∀ (n : ℕ) (hn : n ≤ d1.length),
      (List.range n).foldlM (fun (acc : R) i => (do
        let a ← pyGetN d1 i
        let b ← pyGetN d2 i
        pure (acc + |a - b|) : Py R)) 0
      = .ok ((List.zipWith (fun a b => |a - b|) d1 d2).take n).sum := by
    intro n
    induction n with
    | zero => intro _; rfl
    | succ n ih =>
      intro hn
      rw [List.range_succ, List.foldlM_append, ih (by omega), ok_bind]
      simp only [List.foldlM_cons, List.foldlM_nil]
      rw [pyGetN_ok (show n < d1.length by omega), ok_bind, pyGetN_ok (show n < d2.length by omega),
        ok_bind, List.take_succ_eq_append_getElem (by rw [List.length_zipWith]; omega), List.sum_append]
      simp
  rw [key d1.length le_rfl]
  rw [List.take_of_length_le (by rw [List.length_zipWith]; omega)]
  rfl

theorem zipWith_map_same {α β γ δ : Type} (f : β → γ → δ) (g : α → β) (h : α → γ) (l : List α) :
    List.zipWith f (l.map g) (l.map h) = l.map fun a => f (g a) (h a) := by
  induction l with
  | nil => rfl
  | cons a l ih => simp [ih]

omit [LinearOrder R] in
theorem dictGetZero_absent {κ : Type} [DecidableEq κ] (d : List (κ × R)) (k : κ)
    (h : k ∉ d.map Prod.fst) : dictGetZero d k = 0 := by
  induction d with
  | nil => rfl
  | cons p d ih =>
    simp only [List.map_cons, List.mem_cons, not_or] at h
    rw [dictGetZero, if_neg (fun e => h.1 e.symm), ih h.2]

omit [LinearOrder R] in
theorem sum_cover {κ : Type} [DecidableEq κ] (l outs : List κ) (f : κ → R) (hl : l.Nodup)
    (ho : outs.Nodup) (hsub : ∀ k ∈ l, k ∈ outs) (hz : ∀ k, k ∉ l → f k = 0) :
    (outs.map f).sum = (l.map f).sum := by
  rw [← List.sum_toFinset _ ho, ← List.sum_toFinset _ hl]
  refine (Finset.sum_subset (fun k hk => ?_) fun k _ hk => hz k (by simpa using hk)).symm
  simpa using hsub k (by simpa using hk)

end Tvd

theorem qft_orthogonal (n : ℕ) (i j : Fin n) :
    ∑ k : Fin n, star (computeQft n k i) * computeQft n k j = if i = j then 1 else 0 := by
  have hn : n ≠ 0 := by have := i.2; omega
  have hnC : (n : ℂ) ≠ 0 := by exact_mod_cast hn
  set w : ℂ := Complex.exp (2 * Complex.I * Real.pi / n) with hw
  have hw' : w = Complex.exp (2 * Real.pi * Complex.I / n) := by rw [hw]; congr 1; ring
  have hprim : IsPrimitiveRoot w n := by rw [hw']; exact Complex.isPrimitiveRoot_exp n hn
  have hw0 : w ≠ 0 := hprim.ne_zero hn
  have hstar : star w = w⁻¹ := by
    rw [hw, Complex.star_def, ← Complex.exp_conj, ← Complex.exp_neg]
    congr 1
    simp only [map_div₀, map_mul, Complex.conj_ofReal, Complex.conj_I, Complex.conj_ofNat,
      Complex.conj_natCast]
    ring
  have hsq : star ((Real.sqrt n : ℝ) : ℂ) * ((Real.sqrt n : ℝ) : ℂ) = n := by
    rw [Complex.star_def, Complex.conj_ofReal, ← Complex.ofReal_mul,
      Real.mul_self_sqrt (Nat.cast_nonneg n), Complex.ofReal_natCast]
  have hterm : ∀ k : Fin n, star (computeQft n k i) * computeQft n k j
      = ((w⁻¹) ^ i.1 * w ^ j.1) ^ k.1 / n := by
    intro k
    simp only [computeQft, horizontalRange, Matrix.transpose_apply, Matrix.of_apply, ← hw]
    rw [star_div₀, star_pow, hstar, div_mul_div_comm, hsq, mul_pow, ← pow_mul, ← pow_mul]
  rw [Finset.sum_congr rfl fun k _ => hterm k, ← Finset.sum_div,
    Fin.sum_univ_eq_sum_range (fun k => ((w⁻¹) ^ i.1 * w ^ j.1) ^ k) n]
  by_cases hij : i = j
  · subst hij
    rw [if_pos rfl, inv_pow, inv_mul_cancel₀ (pow_ne_zero _ hw0)]
    simp [hnC]
  · rw [if_neg hij]
    set z := (w⁻¹) ^ i.1 * w ^ j.1 with hz
    have hzn : z ^ n = 1 := by
      rw [hz, mul_pow, ← pow_mul, ← pow_mul, mul_comm i.1, mul_comm j.1, pow_mul, pow_mul,
        inv_pow, hprim.pow_eq_one]
      simp
    have hz1 : z ≠ 1 := by
      intro h1
      apply hij
      have : w ^ j.1 = w ^ i.1 := by
        have h2 : w ^ i.1 * z = w ^ i.1 := by rw [h1, mul_one]
        rwa [hz, ← mul_assoc, inv_pow, mul_inv_cancel₀ (pow_ne_zero _ hw0), one_mul] at h2
      exact Fin.ext (hprim.pow_inj i.2 j.2 this.symm)
    have hg := mul_geom_sum z n
    rw [hzn, sub_self] at hg
    rcases mul_eq_zero.mp hg with h | h
    · exact absurd (sub_eq_zero.mp h) hz1
    · rw [h, zero_div]

theorem qft_unitary (n : ℕ) : computeQft n ∈ Matrix.unitaryGroup (Fin n) ℂ := by
  rw [Matrix.mem_unitaryGroup_iff']
  ext i j
  rw [Matrix.mul_apply, Matrix.one_apply, ← qft_orthogonal n i j]
  rfl

/-- The matrix that acts as `b` on the first modes and as the identity on the others. -/
theorem corner_unitary {M m : ℕ} (hm : m ≤ M) (b : Matrix (Fin m) (Fin m) ℂ)
    (hb : b ∈ Matrix.unitaryGroup (Fin m) ℂ) :
    setCorner (M := M) (1 : Matrix (Fin M) (Fin M) ℂ) b ∈ Matrix.unitaryGroup (Fin M) ℂ := by
  obtain ⟨d, rfl⟩ := Nat.exists_eq_add_of_le hm
  have hb' : ∀ i j : Fin m, ∑ k, star (b k i) * b k j = if i = j then 1 else 0 := by
    intro i j
    have := congrFun (congrFun (Matrix.mem_unitaryGroup_iff'.mp hb) i) j
    rwa [Matrix.mul_apply, Matrix.one_apply] at this
  rw [Matrix.mem_unitaryGroup_iff']
  ext i j
  rw [Matrix.mul_apply, Matrix.one_apply]
  simp only [Matrix.star_apply]
  rw [Fin.sum_univ_add]
  refine Fin.addCases (fun i => ?_) (fun i => ?_) i <;>
    refine Fin.addCases (fun j => ?_) (fun j => ?_) j
  · have h1 : ∀ k : Fin m, setCorner (M := m + d) (1 : Matrix (Fin (m + d)) (Fin (m + d)) ℂ) b
        (Fin.castAdd d k) (Fin.castAdd d i) = b k i := by
      intro k; simp [setCorner, Matrix.one_apply]
    have h2 : ∀ (k : Fin d) (i : Fin m), setCorner (M := m + d)
        (1 : Matrix (Fin (m + d)) (Fin (m + d)) ℂ) b (Fin.natAdd m k) (Fin.castAdd d i) = 0 := by
      intro k i
      have : Fin.natAdd m k ≠ Fin.castAdd d i := by
        intro h; have := congrArg Fin.val h; simp at this; have := i.2; omega
      simp [setCorner, Matrix.one_apply, this]
    have h3 : ∀ k : Fin m, setCorner (M := m + d) (1 : Matrix (Fin (m + d)) (Fin (m + d)) ℂ) b
        (Fin.castAdd d k) (Fin.castAdd d j) = b k j := by
      intro k; simp [setCorner, Matrix.one_apply]
    simp only [h1, h2, h3]
    rw [hb']
    simp [Fin.ext_iff]
  · have hne : ∀ a : Fin m, Fin.castAdd d a ≠ Fin.natAdd m j := by
      intro a h; have := congrArg Fin.val h; simp at this; have := a.2; omega
    have hne' : ∀ a : Fin d, Fin.natAdd m a ≠ Fin.castAdd d i := by
      intro a h; have := congrArg Fin.val h; simp at this; have := i.2; omega
    simp [setCorner, Matrix.one_apply, hne, hne']
  · have hne : ∀ a : Fin m, Fin.castAdd d a ≠ Fin.natAdd m i := by
      intro a h; have := congrArg Fin.val h; simp at this; have := a.2; omega
    have hne' : ∀ a : Fin d, Fin.natAdd m a ≠ Fin.castAdd d j := by
      intro a h; have := congrArg Fin.val h; simp at this; have := j.2; omega
    simp [setCorner, Matrix.one_apply, hne, hne']
  · have hne : ∀ (a : Fin m) (k : Fin d), Fin.castAdd d a ≠ Fin.natAdd m k := by
      intro a k h; have := congrArg Fin.val h; simp at this; have := a.2; omega
    have h1 : ∀ k i : Fin d, setCorner (M := m + d) (1 : Matrix (Fin (m + d)) (Fin (m + d)) ℂ) b
        (Fin.natAdd m k) (Fin.natAdd m i) = if k = i then 1 else 0 := by
      intro k i; simp [setCorner, Matrix.one_apply, Fin.ext_iff]
    have h2 : ∀ (k : Fin m) (i : Fin d), setCorner (M := m + d)
        (1 : Matrix (Fin (m + d)) (Fin (m + d)) ℂ) b (Fin.castAdd d k) (Fin.natAdd m i) = 0 := by
      intro k i; simp [setCorner, Matrix.one_apply, hne]
    simp only [h1, h2]
    by_cases hij : i = j
    · subst hij; simp [apply_ite]
    · have : Fin.natAdd m i ≠ Fin.natAdd m j := fun h => hij (by simpa [Fin.ext_iff] using h)
      simp [hij, this, eq_comm]

end Verif
