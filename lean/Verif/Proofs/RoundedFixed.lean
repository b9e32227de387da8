import Verif.Proofs.RoundedPhases
import Verif.Props.FixedLoss

/-! Helper lemmas: the fixed-loss sampler in floating-point arithmetic. -/
namespace Verif

open Finset Prog Matrix
open scoped ENNReal

namespace Prog

theorem CloseF.trivial {α : Type} (p q : Prog α) {e : ℝ≥0∞} (h : 1 ≤ e) : CloseF p q e := fun f hf =>
  ⟨(wp_le_one p f hf).trans (h.trans le_add_self), (wp_le_one q f hf).trans (h.trans le_add_self)⟩

theorem CloseF.repeatN {α : Type} {p q : Prog α} {e : ℝ} (he : 0 ≤ e) (h : CloseF p q (ENNReal.ofReal e)) (n : ℕ) :
    CloseF (p.repeatN n) (q.repeatN n) (ENNReal.ofReal (n * e)) := by
  induction n with
  | zero => exact (CloseF.refl _).mono zero_le
  | succ n ih =>
    rw [Prog.repeatN, Prog.repeatN]
    have := h.bind' (g := fun s => (p.repeatN n).bind fun l => .done (.ok (s :: l)))
      (g' := fun s => (q.repeatN n).bind fun l => .done (.ok (s :: l))) fun s => ih.bind_left _
    refine this.mono (le_of_eq ?_)
    rw [← ENNReal.ofReal_add he (by positivity)]
    congr 1
    push_cast
    ring

end Prog

/-! ### The prepared state -/

theorem norm_exp_sub_le (a b : ℝ) : ‖Complex.exp (a * Complex.I) - Complex.exp (b * Complex.I)‖ ≤ |a - b| := by
  have e : Complex.exp (a * Complex.I) - Complex.exp (b * Complex.I)
      = Complex.exp (b * Complex.I) * (Complex.exp (Complex.I * ((a - b : ℝ) : ℂ)) - 1) := by
    rw [mul_sub, ← Complex.exp_add, mul_one]
    congr 2
    push_cast
    ring
  rw [e, norm_mul, Complex.norm_exp_ofReal_mul_I, one_mul]
  exact Real.norm_exp_I_mul_ofReal_sub_one_le

variable (R : Rounding) (C : ComplexArith) (Φ : PhaseArith)

theorem phase_close {u' u : ℝ} (h : CellOf u' u) :
    ‖Φ.phase u' - Complex.exp (2 * Real.pi * u * Complex.I)‖ ≤ 1 / 2 ^ 47 := by
  obtain ⟨⟨k, hk, rfl⟩, h1, h2⟩ := h
  have hk' : (k : ℝ) / 2 ^ 53 < 1 := by
    rw [div_lt_one (by positivity)]
    exact_mod_cast hk
  have a := Φ.phase_err ((k : ℝ) / 2 ^ 53) (by positivity) hk'
  have b := norm_exp_sub_le (2 * Real.pi * ((k : ℝ) / 2 ^ 53)) (2 * Real.pi * u)
  have hpi := Real.pi_le_four
  have hpi0 := Real.pi_pos
  have c : |2 * Real.pi * ((k : ℝ) / 2 ^ 53) - 2 * Real.pi * u| ≤ 8 * (1 / 2 ^ 53) := by
    rw [← mul_sub, abs_mul, abs_of_pos (by positivity)]
    refine mul_le_mul (by linarith) ?_ (abs_nonneg _) (by norm_num)
    rw [abs_le]
    constructor <;> linarith
  have e : Φ.phase ((k : ℝ) / 2 ^ 53) - Complex.exp (2 * Real.pi * u * Complex.I)
      = (Φ.phase ((k : ℝ) / 2 ^ 53) - Complex.exp (2 * Real.pi * ((k : ℝ) / 2 ^ 53 : ℝ) * Complex.I))
        + (Complex.exp (2 * Real.pi * ((k : ℝ) / 2 ^ 53 : ℝ) * Complex.I) - Complex.exp (2 * Real.pi * u * Complex.I)) := by
    ring
  rw [e]
  refine (norm_add_le _ _).trans ?_
  push_cast at a b ⊢
  have : (1 : ℝ) / 2 ^ 48 + 8 * (1 / 2 ^ 53) ≤ 1 / 2 ^ 47 := by norm_num
  linarith

/-- The entry `1 / sqrt(n)`. -/
theorem amplitude_close {n : ℕ} (hn : 1 ≤ n) :
    |R.rnd (1 / R.rnd (Real.sqrt n)) - 1 / Real.sqrt n| ≤ 4 / 2 ^ 53 * (1 / Real.sqrt n) + 2 ^ (-1074 : ℤ) := by
  have hn' : (1 : ℝ) ≤ n := by exact_mod_cast hn
  set q := Real.sqrt n with hq
  have hq1 : 1 ≤ q := by rw [hq]; exact Real.one_le_sqrt.mpr hn'
  have hq0 : 0 < q := by linarith
  have h1 : |R.rnd q - q| ≤ q / 2 ^ 53 :=
    R.error ((zpow_le_one_of_nonpos₀ (by norm_num) (by norm_num)).trans hq1)
  set s := R.rnd q with hs
  have hs2 : q / 2 ≤ s := by
    have := (abs_le.mp h1).1
    have : q / 2 ^ 53 ≤ q / 2 := by gcongr; norm_num
    linarith
  have hs0 : 0 < s := by linarith
  have h2 : 1 / s ≤ 2 * (1 / q) := by
    rw [mul_one_div, div_le_div_iff₀ hs0 hq0]
    linarith
  have h3 : |1 / s - 1 / q| ≤ 2 / 2 ^ 53 * (1 / q) := by
    have e : 1 / s - 1 / q = -(s - q) * (1 / s) * (1 / q) := by field_simp; ring
    rw [e, abs_mul, abs_mul, abs_neg, abs_of_pos (by positivity : 0 < 1 / s), abs_of_pos (by positivity : 0 < 1 / q)]
    refine mul_le_mul_of_nonneg_right ?_ (by positivity)
    calc |s - q| * (1 / s) ≤ q / 2 ^ 53 * (2 * (1 / q)) := mul_le_mul h1 h2 (by positivity) (by positivity)
      _ = 2 / 2 ^ 53 := by field_simp
  have h4 := R.abs_error (1 / s)
  rw [abs_of_pos (by positivity : 0 < 1 / s)] at h4
  have e : R.rnd (1 / s) - 1 / q = (R.rnd (1 / s) - 1 / s) + (1 / s - 1 / q) := by ring
  rw [e]
  refine (abs_add_le _ _).trans ?_
  have h5 : 1 / 2 ^ 53 * (1 / s) ≤ 1 / 2 ^ 53 * (2 * (1 / q)) := by gcongr
  have h6 : 4 / 2 ^ 53 * (1 / q) = 1 / 2 ^ 53 * (2 * (1 / q)) + 2 / 2 ^ 53 * (1 / q) := by ring
  linarith

/-- The entries of the prepared state. -/
theorem entry_close {n : ℕ} (hn : 1 ≤ n) {u' u : ℝ} (h : CellOf u' u) (i : ℕ) :
    ‖C.mul (Φ.phase u') ((R.rnd ((if i < n then 1 else 0) / R.rnd (Real.sqrt n)) : ℝ) : ℂ)
      - (if i < n then Complex.exp (2 * Real.pi * u * Complex.I) / Real.sqrt n else 0)‖
      ≤ (if i < n then 1 / 2 ^ 46 * (1 / Real.sqrt n) else 0) + 2 ^ (-1069 : ℤ) := by
  have ht := two_zpow_pos (-1074)
  have t70 : (2 : ℝ) ^ (-1070 : ℤ) = 16 * 2 ^ (-1074 : ℤ) := by
    rw [show (-1070 : ℤ) = 4 + -1074 by norm_num, zpow_add₀ (by norm_num)]; norm_num
  have t69 : (2 : ℝ) ^ (-1069 : ℤ) = 32 * 2 ^ (-1074 : ℤ) := by
    rw [show (-1069 : ℤ) = 5 + -1074 by norm_num, zpow_add₀ (by norm_num)]; norm_num
  split_ifs with hi
  · have hp := phase_close Φ h
    have ha := amplitude_close R hn
    have hn' : (1 : ℝ) ≤ n := by exact_mod_cast hn
    have hq0 : 0 < Real.sqrt n := Real.sqrt_pos.mpr (by linarith)
    set p := Complex.exp (2 * Real.pi * u * Complex.I) with hpdef
    have hp1 : ‖p‖ = 1 := by
      rw [hpdef]
      have := Complex.norm_exp_ofReal_mul_I (2 * Real.pi * u)
      push_cast at this
      exact this
    set p' := Φ.phase u' with hp'
    have hp2 : ‖p'‖ ≤ 2 := by
      calc ‖p'‖ = ‖(p' - p) + p‖ := by rw [sub_add_cancel]
        _ ≤ 1 / 2 ^ 47 + 1 := (norm_add_le _ _).trans (by rw [hp1]; linarith)
        _ ≤ 2 := by norm_num
    set a := R.rnd (1 / R.rnd (Real.sqrt n)) with hadef
    obtain ⟨r, hr⟩ : ∃ r : ℝ, r = 1 / Real.sqrt n := ⟨_, rfl⟩
    rw [← hr] at ha ⊢
    have hr0 : 0 < r := by rw [hr]; positivity
    obtain ⟨t, htd⟩ : ∃ t : ℝ, t = 2 ^ (-1074 : ℤ) := ⟨_, rfl⟩
    rw [← htd] at ht t70 t69 ha
    rw [t69]
    have ha2 : |a| ≤ 2 * r + t := by
      calc |a| = |(a - r) + r| := by rw [sub_add_cancel]
        _ ≤ (4 / 2 ^ 53 * r + t) + r := (abs_add_le _ _).trans (by rw [abs_of_pos hr0]; linarith)
        _ ≤ 2 * r + t := by
          have : (4 : ℝ) / 2 ^ 53 * r ≤ 1 * r := by gcongr; norm_num
          linarith
    have hm := C.mul_err p' (a : ℂ)
    rw [Complex.norm_real, Real.norm_eq_abs, t70] at hm
    have hm2 : ‖p'‖ * |a| ≤ 2 * (2 * r + t) := mul_le_mul hp2 ha2 (abs_nonneg _) (by norm_num)
    have e : C.mul p' (a : ℂ) - p / (Real.sqrt n : ℂ)
        = (C.mul p' (a : ℂ) - p' * (a : ℂ)) + p' * ((a - r : ℝ) : ℂ) + (p' - p) * (r : ℂ) := by
      rw [hr]; push_cast; ring
    rw [e]
    refine (norm_add₃_le).trans ?_
    rw [norm_mul, norm_mul, Complex.norm_real, Complex.norm_real, Real.norm_eq_abs, Real.norm_eq_abs, abs_of_pos hr0]
    have h3 : ‖p'‖ * |a - r| ≤ 2 * (4 / 2 ^ 53 * r + t) := mul_le_mul hp2 ha (abs_nonneg _) (by norm_num)
    have h4 : ‖p' - p‖ * r ≤ 1 / 2 ^ 47 * r := mul_le_mul_of_nonneg_right hp hr0.le
    have h5 : (1 : ℝ) / 2 ^ 50 * (‖p'‖ * |a|) ≤ 1 / 2 ^ 50 * (2 * (2 * r + t)) := mul_le_mul_of_nonneg_left hm2 (by norm_num)
    calc _ ≤ (1 / 2 ^ 50 * (2 * (2 * r + t)) + 16 * t) + 2 * (4 / 2 ^ 53 * r + t) + 1 / 2 ^ 47 * r := by linarith
      _ = (1 / 2 ^ 50 * 4 + 8 / 2 ^ 53 + 1 / 2 ^ 47) * r + (1 / 2 ^ 50 * 2 + 18) * t := by ring
      _ ≤ 1 / 2 ^ 46 * r + 32 * t := by
        refine add_le_add (mul_le_mul_of_nonneg_right (by norm_num) hr0.le) (mul_le_mul_of_nonneg_right (by norm_num) ht.le)
  · have := C.mul_err (Φ.phase u') 0
    rw [zero_div, R.zero, Complex.ofReal_zero]
    rw [norm_zero, mul_zero, mul_zero, mul_zero, zero_add] at this
    rw [zero_add]
    rw [t70] at this
    rw [t69]
    linarith

/-! ### The evolved state -/

variable {m : ℕ}

theorem normSq_add_le (a b : ℂ) : Complex.normSq (a + b) ≤ 3 / 2 * Complex.normSq a + 3 * Complex.normSq b := by
  rw [Complex.normSq_eq_norm_sq, Complex.normSq_eq_norm_sq, Complex.normSq_eq_norm_sq]
  have h := norm_add_le a b
  have h1 : ‖a + b‖ ^ 2 ≤ (‖a‖ + ‖b‖) ^ 2 := pow_le_pow_left₀ (norm_nonneg _) h 2
  nlinarith [sq_nonneg (‖a‖ - 2 * ‖b‖)]

/-- The whole prepared state. -/
theorem state_close (hm : m ≤ 2 ^ 40) {n : ℕ} (hn : 1 ≤ n) {us' us : Fin m → ℝ} (h : ∀ i, CellOf (us' i) (us i)) :
    ∃ x' : Fin m → ℂ, withPhasesR C Φ (List.ofFn us')
        ((List.range m).map fun i => R.rnd ((if i < n then 1 else 0) / R.rnd (Real.sqrt n))) = List.ofFn x' ∧
      ∑ j, Complex.normSq (x' j) ≤ 2 ∧ ∑ j, Complex.normSq (x' j - smeared m n us j) ≤ 1 / 2 ^ 90 := by
  refine ⟨fun j => C.mul (Φ.phase (us' j)) ((R.rnd ((if (j : ℕ) < n then 1 else 0) / R.rnd (Real.sqrt n)) : ℝ) : ℂ), ?_, ?_⟩
  · refine List.ext_getElem (by simp [withPhasesR]) fun i h1 h2 => ?_
    simp [withPhasesR]
  · set x' : Fin m → ℂ := fun j =>
      C.mul (Φ.phase (us' j)) ((R.rnd ((if (j : ℕ) < n then 1 else 0) / R.rnd (Real.sqrt n)) : ℝ) : ℂ) with hx'
    have hn' : (1 : ℝ) ≤ n := by exact_mod_cast hn
    have hd : ∀ j, Complex.normSq (x' j - smeared m n us j)
        ≤ 2 * (1 / 2 ^ 92) * Complex.normSq (smeared m n us j) + 2 * (2 ^ (-1069 : ℤ)) ^ 2 := by
      intro j
      have h1 := entry_close R C Φ hn (h j) (j : ℕ)
      have e : (if (j : ℕ) < n then Complex.exp (2 * Real.pi * us j * Complex.I) / Real.sqrt n else 0) = smeared m n us j := rfl
      rw [e] at h1
      rw [normSq_smeared, Complex.normSq_eq_norm_sq]
      refine (pow_le_pow_left₀ (norm_nonneg _) h1 2).trans ?_
      obtain ⟨t, ht⟩ : ∃ t : ℝ, t = 2 ^ (-1069 : ℤ) := ⟨_, rfl⟩
      rw [← ht]
      split_ifs
      · have e2 : (1 / Real.sqrt n) ^ 2 = 1 / (n : ℝ) := by rw [div_pow, one_pow, Real.sq_sqrt (by linarith)]
        rw [← e2]
        generalize 1 / Real.sqrt n = r
        nlinarith [sq_nonneg (1 / 2 ^ 46 * r - t)]
      · rw [zero_add, mul_zero, zero_add]
        nlinarith [sq_nonneg t]
    have ht2 : (2 : ℝ) ^ (-1069 : ℤ) ≤ 1 / 2 ^ 100 := by
      refine (zpow_le_zpow_right₀ (n := -100) (by norm_num) (by norm_num)).trans (le_of_eq ?_)
      rw [_root_.zpow_neg, one_div]
      norm_cast
    have ht0 := two_zpow_pos (-1069)
    have hm' : (m : ℝ) ≤ 2 ^ 40 := by exact_mod_cast hm
    have hD : ∑ j, Complex.normSq (x' j - smeared m n us j) ≤ 1 / 2 ^ 90 := by
      calc ∑ j, Complex.normSq (x' j - smeared m n us j)
          ≤ ∑ j, (2 * (1 / 2 ^ 92) * Complex.normSq (smeared m n us j) + 2 * (2 ^ (-1069 : ℤ)) ^ 2) := sum_le_sum fun j _ => hd j
        _ = 2 * (1 / 2 ^ 92) * ∑ j, Complex.normSq (smeared m n us j) + m * (2 * (2 ^ (-1069 : ℤ)) ^ 2) := by
            rw [sum_add_distrib, ← mul_sum, sum_const, card_univ, Fintype.card_fin, nsmul_eq_mul]
        _ ≤ 2 * (1 / 2 ^ 92) * 1 + 2 ^ 40 * (2 * (1 / 2 ^ 100) ^ 2) := by
            gcongr
            exact sum_smeared_le n us
        _ ≤ 1 / 2 ^ 90 := by norm_num
    refine ⟨?_, hD⟩
    calc ∑ j, Complex.normSq (x' j)
        ≤ ∑ j, (3 / 2 * Complex.normSq (smeared m n us j) + 3 * Complex.normSq (x' j - smeared m n us j)) := by
          refine sum_le_sum fun j _ => ?_
          have := normSq_add_le (smeared m n us j) (x' j - smeared m n us j)
          rwa [add_sub_cancel] at this
      _ = 3 / 2 * ∑ j, Complex.normSq (smeared m n us j) + 3 * ∑ j, Complex.normSq (x' j - smeared m n us j) := by
          rw [sum_add_distrib, ← mul_sum, ← mul_sum]
      _ ≤ 3 / 2 * 1 + 3 * (1 / 2 ^ 90) := by
          gcongr
          exact sum_smeared_le n us
      _ ≤ 2 := by norm_num

theorem norm_entry_le (z : Fin m → ℂ) (i : Fin m) {b : ℝ} (hb : 0 ≤ b) (h : ∑ j, Complex.normSq (z j) ≤ b ^ 2) : ‖z i‖ ≤ b := by
  refine abs_le_of_sq_le_sq' ?_ hb |>.2
  rw [← Complex.normSq_eq_norm_sq]
  exact (single_le_sum (f := fun j => Complex.normSq (z j)) (fun j _ => Complex.normSq_nonneg _) (mem_univ i)).trans h

/-- The mode probabilities. -/
theorem modes_close {A : Matrix (Fin m) (Fin m) ℂ} (d : Svd m) (hd : IsSvd A d) (hs : ∀ i, d.s i ≤ 1)
    {net : List ℂ → Py (List ℂ)} {ε : ℝ} (hnet : NetworkNear net A ε) (h0 : 0 ≤ ε) (h1 : ε ≤ 1 / 2) (hm : m ≤ 2 ^ 40)
    {n : ℕ} (hn : 1 ≤ n) {us' us : Fin m → ℝ} (h : ∀ i, CellOf (us' i) (us i)) :
    ∃ y : Fin m → ℂ, net (withPhasesR C Φ (List.ofFn us')
        ((List.range m).map fun i => R.rnd ((if i < n then 1 else 0) / R.rnd (Real.sqrt n)))) = .ok (List.ofFn y) ∧
      ∀ i, |Φ.sqabs (y i) - Complex.normSq ((A *ᵥ smeared m n us) i)| ≤ 3 * ε + 1 / 2 ^ 43 := by
  obtain ⟨x', hx, hx2, hxd⟩ := state_close R C Φ hm hn h
  obtain ⟨y, hy, hye⟩ := hnet x' hx2
  refine ⟨y, by rw [hx, hy], fun i => ?_⟩
  set x := smeared m n us with hxdef
  have e1 : (A *ᵥ x') i = (A *ᵥ x) i + (A *ᵥ fun j => x' j - x j) i := by
    have : x' = x + fun j => x' j - x j := by funext j; simp
    conv_lhs => rw [this, mulVec_add]
    rfl
  have e2 : ‖(A *ᵥ fun j => x' j - x j) i‖ ≤ 1 / 2 ^ 45 := by
    refine norm_entry_le _ i (by norm_num) ((normSq_contraction A d hd hs _).trans (hxd.trans ?_))
    norm_num
  have e3 : ‖(A *ᵥ x) i‖ ≤ 1 := by
    refine norm_entry_le _ i (by norm_num) ((normSq_contraction A d hd hs _).trans ((sum_smeared_le n us).trans ?_))
    norm_num
  have e4 : ‖y i - (A *ᵥ x) i‖ ≤ ε + 1 / 2 ^ 45 := by
    have e : y i - (A *ᵥ x) i = (y i - (A *ᵥ x') i) + (A *ᵥ fun j => x' j - x j) i := by rw [e1]; ring
    rw [e]
    exact (norm_add_le _ _).trans (add_le_add (hye i) e2)
  set z := (A *ᵥ x) i with hz
  have e5 : |‖y i‖ - ‖z‖| ≤ ε + 1 / 2 ^ 45 := (abs_norm_sub_norm_le _ _).trans e4
  have e6 := Φ.sqabs_err (y i)
  rw [Complex.normSq_eq_norm_sq] at e6
  rw [Complex.normSq_eq_norm_sq]
  obtain ⟨a, ha⟩ : ∃ a, a = ‖y i‖ := ⟨_, rfl⟩
  obtain ⟨b, hb⟩ : ∃ b, b = ‖z‖ := ⟨_, rfl⟩
  rw [← ha, ← hb] at e5
  rw [← ha] at e6
  rw [← hb] at e3 ⊢
  have ha0 : 0 ≤ a := by rw [ha]; exact norm_nonneg _
  have hb0 : 0 ≤ b := by rw [hb]; exact norm_nonneg _
  have e45 : (1 : ℝ) / 2 ^ 45 ≤ 1 / 4 := by norm_num
  have ha2 : a ≤ 2 := by have := (abs_le.mp e5).2; linarith
  have ht : (2 : ℝ) ^ (-1070 : ℤ) ≤ 1 / 2 ^ 50 := by
    refine (zpow_le_zpow_right₀ (n := -50) (by norm_num) (by norm_num)).trans (le_of_eq ?_)
    rw [_root_.zpow_neg, one_div]
    norm_cast
  have e7 : |a ^ 2 - b ^ 2| ≤ 3 * (ε + 1 / 2 ^ 45) := by
    rw [sq_sub_sq, mul_comm, abs_mul, abs_of_nonneg (by linarith : 0 ≤ a + b)]
    calc |a - b| * (a + b) ≤ (ε + 1 / 2 ^ 45) * 3 := by
          refine mul_le_mul e5 ?_ (by linarith) (by positivity)
          have := (abs_le.mp e5).2
          linarith
      _ = _ := by ring
  have e8 : (1 : ℝ) / 2 ^ 50 * a ^ 2 ≤ 1 / 2 ^ 50 * 4 := by gcongr; nlinarith
  have e : Φ.sqabs (y i) - b ^ 2 = (Φ.sqabs (y i) - a ^ 2) + (a ^ 2 - b ^ 2) := by ring
  rw [e]
  refine (abs_add_le _ _).trans ?_
  have e9 : (3 : ℝ) * (1 / 2 ^ 45) + (1 / 2 ^ 50 * 4 + 1 / 2 ^ 50) ≤ 1 / 2 ^ 43 := by norm_num
  linarith

/-! ### The samples -/

theorem forall₂_ofFn {P : ℝ → ℝ → Prop} {us' us : List ℝ} (hl : us.length = m) (h : List.Forall₂ P us' us) :
    ∃ f' f : Fin m → ℝ, us' = List.ofFn f' ∧ us = List.ofFn f ∧ ∀ i, P (f' i) (f i) := by
  subst hl
  have hl := h.length_eq
  refine ⟨fun i => us'[(i : ℕ)]'(by omega), fun i => us[i], ?_, ?_, ?_⟩
  · refine List.ext_getElem (by simp [hl]) fun i h1 h2 => by simp
  · refine List.ext_getElem (by simp) fun i h1 h2 => by simp
  · intro i
    exact (List.forall₂_iff_get.mp h).2 i (by omega) i.2

/-- The error of one sample of `k` particles in `m` modes. -/
noncomputable def fixedErr (ε : ℝ) (m k : ℕ) : ℝ := k * (m * (12 * ε + 1 / 2 ^ 40))

theorem fixedErr_nonneg {ε : ℝ} (h0 : 0 ≤ ε) (m k : ℕ) : 0 ≤ fixedErr ε m k := by unfold fixedErr; positivity

theorem fixedSampleR_close {A : Matrix (Fin m) (Fin m) ℂ} (d : Svd m) (hd : IsSvd A d) (hs : ∀ i, d.s i ≤ 1)
    {net net' : List ℂ → Py (List ℂ)} (hex : NetworkOf net A) {ε : ℝ} (hnet : NetworkNear net' A ε) (h0 : 0 ≤ ε)
    (hm0 : 0 < m) (hm : m ≤ 2 ^ 40) (k : ℤ) (S : List ℕ) (hS : 1 ≤ S.sum) :
    CloseF (fixedSampleR R C Φ net' m k S) (fixedSample net m k S) (ENNReal.ofReal (fixedErr ε m k.toNat)) := by
  unfold fixedSampleR fixedSample
  rw [preparedStateR, if_neg (by omega), preparedState, if_neg (by omega)]
  simp only [Prog.bind_eq, Prog.lift_def]
  refine randVec_close m fun us' us hl hus => ?_
  obtain ⟨f', f, rfl, rfl, hf⟩ := forall₂_ofFn hl hus
  rw [withPhases_ofFn, hex]
  simp only [Prog.done_ok_bind]
  have hmR : (1 : ℝ) ≤ m := by exact_mod_cast hm0
  by_cases hbig : 1 / 4 < (m : ℝ) * (3 * ε + 1 / 2 ^ 43)
  · by_cases hk : k.toNat = 0
    · obtain ⟨x', hx, hx2, -⟩ := state_close R C Φ hm hS hf
      obtain ⟨y, hy, -⟩ := hnet x' hx2
      rw [hx, hy, Prog.done_ok_bind, fixedOutcome, hk, fixedPhotons, fixedPhotonsR]
      exact (CloseF.refl _).mono zero_le
    · refine CloseF.trivial _ _ ?_
      rw [ENNReal.one_le_ofReal]
      unfold fixedErr
      have hk' : (1 : ℝ) ≤ k.toNat := by exact_mod_cast Nat.one_le_iff_ne_zero.mpr hk
      have h1 : (1 : ℝ) ≤ m * (12 * ε + 1 / 2 ^ 40) := by
        have : (m : ℝ) * (12 * ε + 1 / 2 ^ 41) = 4 * (m * (3 * ε + 1 / 2 ^ 43)) := by ring
        have h2 : (m : ℝ) * (12 * ε + 1 / 2 ^ 41) ≤ m * (12 * ε + 1 / 2 ^ 40) := by gcongr <;> norm_num
        linarith
      nlinarith
  · push Not at hbig
    have hε : ε ≤ 1 / 2 := by
      have : 3 * ε + 1 / 2 ^ 43 ≤ (m : ℝ) * (3 * ε + 1 / 2 ^ 43) := le_mul_of_one_le_left (by positivity) hmR
      have h43 : (0 : ℝ) < 1 / 2 ^ 43 := by positivity
      linarith
    obtain ⟨y, hy, hye⟩ := modes_close R C Φ d hd hs hnet h0 hε hm hS hf
    rw [hy]
    simp only [Prog.done_ok_bind]
    set P := modeProbabilitiesR Φ (List.ofFn y) with hP
    set q := modeProbabilities (List.ofFn (A *ᵥ smeared m S.sum f)) with hq
    have hPl : P.length = m := by simp [hP, modeProbabilitiesR]
    have hql : q.length = m := by simp [hq, modeProbabilities]
    have hW : Weights P := by
      intro x hx
      obtain ⟨z, -, rfl⟩ := List.mem_map.mp hx
      exact ⟨Φ.sqabs_float z, Φ.sqabs_nonneg z⟩
    have hq0 : ∀ x ∈ q, 0 ≤ x := by
      intro x hx
      obtain ⟨z, -, rfl⟩ := List.mem_map.mp hx
      exact Complex.normSq_nonneg z
    have hqs : q.sum ≤ 1 := by
      rw [hq, modeProbabilities, sum_map_ofFn]
      exact (normSq_contraction A d hd hs _).trans (sum_smeared_le _ f)
    have hdist : ∑ i ∈ range P.length, |P.getD i 0 - q.getD i 0| ≤ m * (3 * ε + 1 / 2 ^ 43) := by
      rw [hPl]
      calc ∑ i ∈ range m, |P.getD i 0 - q.getD i 0| ≤ ∑ _i ∈ range m, (3 * ε + 1 / 2 ^ 43) := by
            refine sum_le_sum fun i hi => ?_
            have hi := mem_range.mp hi
            rw [getD_of_lt _ _ (by omega), getD_of_lt _ _ (by omega)]
            have := hye ⟨i, hi⟩
            simpa [hP, hq, modeProbabilitiesR, modeProbabilities] using this
        _ = _ := by rw [sum_const, card_range, nsmul_eq_mul]
    have hne : P ≠ [] := by
      intro h
      rw [h] at hPl
      simp at hPl
      omega
    have hc := fixedPhotonsR_close R hW hne (by rw [hPl, hql]) hq0 hqs hdist (by linarith) (by rw [hPl]; omega) k.toNat
      (List.replicate m 0) (by simp [hPl])
    refine hc.mono (ENNReal.ofReal_le_ofReal ?_)
    unfold fixedErr
    rw [hPl]
    refine mul_le_mul_of_nonneg_left ?_ (Nat.cast_nonneg _)
    have e : (m : ℝ) * (12 * ε + 1 / 2 ^ 40) - (14 * m / 2 ^ 53 + 4 * (m * (3 * ε + 1 / 2 ^ 43)))
        = m * (1 / 2 ^ 40 - 14 / 2 ^ 53 - 4 / 2 ^ 43) := by ring
    have : (0 : ℝ) ≤ m * (1 / 2 ^ 40 - 14 / 2 ^ 53 - 4 / 2 ^ 43) := mul_nonneg (by positivity) (by norm_num)
    linarith

theorem fixedLoopR_eq (net : List ℂ → Py (List ℂ)) (M : ℕ) (k : ℤ) (S : List ℕ) (n : ℕ) :
    fixedLoopR R C Φ net M k S n = (fixedSampleR R C Φ net M k S).repeatN n := by
  induction n with
  | zero => rfl
  | succ n ih => rw [fixedLoopR, ih]; rfl

theorem fixedSimulateR_close {A : Matrix (Fin m) (Fin m) ℂ} (d : Svd m) (hd : IsSvd A d) (hs : ∀ i, d.s i ≤ 1)
    {net net' : List ℂ → Py (List ℂ)} (hex : NetworkOf net A) {ε : ℝ} (hnet : NetworkNear net' A ε) (h0 : 0 ≤ ε)
    (hm0 : 0 < m) (hm : m ≤ 2 ^ 40) (k : ℤ) (S : List ℕ) (hS : 1 ≤ S.sum) (N : ℤ) :
    CloseF (fixedSimulateR R C Φ net' m k S N) (fixedSimulate net m k S N)
      (ENNReal.ofReal (N.toNat * fixedErr ε m k.toNat)) := by
  rw [fixedSimulateR, fixedLoopR_eq, fixedSimulate, fixedLoop_eq]
  exact (fixedSampleR_close R C Φ d hd hs hex hnet h0 hm0 hm k S hS).repeatN (fixedErr_nonneg h0 _ _) _

end Verif
