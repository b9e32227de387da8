import Verif.Model.RoundedExtraction
import Verif.Spec.RoundedExtraction
import Verif.Props.RoundedBobs

/-! Helper lemmas: the losses extracted from a network, in floating-point arithmetic. -/
namespace Verif

open Finset Prog Matrix

variable (R : Rounding) (C : ComplexArith) {m : ℕ}

/-! ### The minimum of a list -/

theorem pyMinR_ofFn (hm : 0 < m) (f : Fin m → ℝ) : ∃ l, pyMinR (List.ofFn f) = .ok l ∧ (∃ i, l = f i) ∧ ∀ i, l ≤ f i := by
  obtain ⟨k, rfl⟩ : ∃ k, m = k + 1 := ⟨m - 1, by omega⟩
  have hm := foldl_min (List.ofFn fun i : Fin k => f i.succ) (f 0)
  refine ⟨(List.ofFn fun i : Fin k => f i.succ).foldl (fun a b => if b < a then b else a) (f 0),
    by rw [List.ofFn_succ]; rfl, ?_, ?_⟩
  · rcases hm.1 with h1 | h1
    · exact ⟨0, h1⟩
    · obtain ⟨i, hi⟩ := (List.mem_ofFn).mp h1
      exact ⟨i.succ, hi.symm⟩
  · intro i
    refine Fin.cases hm.2.1 (fun i => ?_) i
    exact hm.2.2 _ ((List.mem_ofFn).mpr ⟨i, rfl⟩)

/-! ### Quotients and roots -/

theorem sqrt_error {x z κ τ : ℝ} (hx : 0 ≤ x) (hz : 0 ≤ z) (hκ : 0 ≤ κ) (hκ1 : κ ≤ 1) (hτ : 0 ≤ τ) (h : |x - z| ≤ z * κ + τ) :
    |Real.sqrt x - Real.sqrt z| ≤ κ * Real.sqrt z + Real.sqrt τ := by
  obtain ⟨h1, h2⟩ := abs_le.mp h
  have hs0 := Real.sqrt_nonneg z
  have ht0 := Real.sqrt_nonneg τ
  have hx0 := Real.sqrt_nonneg x
  have hsz := Real.mul_self_sqrt hz
  have hst := Real.mul_self_sqrt hτ
  have hsx := Real.mul_self_sqrt hx
  rw [abs_le]
  constructor
  · by_contra hlt
    have : Real.sqrt x + Real.sqrt τ < (1 - κ) * Real.sqrt z := by linarith
    have h3 : (Real.sqrt x + Real.sqrt τ) * (Real.sqrt x + Real.sqrt τ)
        < ((1 - κ) * Real.sqrt z) * ((1 - κ) * Real.sqrt z) := mul_self_lt_mul_self (by positivity) this
    have h4 : ((1 - κ) * Real.sqrt z) * ((1 - κ) * Real.sqrt z) ≤ (1 - κ) * z := by
      rw [show ((1 - κ) * Real.sqrt z) * ((1 - κ) * Real.sqrt z) = (1 - κ) * (1 - κ) * (Real.sqrt z * Real.sqrt z) by ring, hsz]
      refine mul_le_mul_of_nonneg_right ?_ hz
      nlinarith
    nlinarith [mul_nonneg hx0 ht0]
  · by_contra hlt
    have : (1 + κ) * Real.sqrt z + Real.sqrt τ < Real.sqrt x := by linarith
    have h3 : ((1 + κ) * Real.sqrt z + Real.sqrt τ) * ((1 + κ) * Real.sqrt z + Real.sqrt τ)
        < Real.sqrt x * Real.sqrt x := mul_self_lt_mul_self (by positivity) this
    have h4 : (1 + κ) * z ≤ ((1 + κ) * Real.sqrt z) * ((1 + κ) * Real.sqrt z) := by
      rw [show ((1 + κ) * Real.sqrt z) * ((1 + κ) * Real.sqrt z) = (1 + κ) * (1 + κ) * (Real.sqrt z * Real.sqrt z) by ring, hsz]
      refine mul_le_mul_of_nonneg_right ?_ hz
      nlinarith
    have h5 : 0 ≤ (1 + κ) * Real.sqrt z * Real.sqrt τ := by positivity
    nlinarith

/-- The smallest float. -/
theorem tiny_small : (2 : ℝ) ^ (-1074 : ℤ) ≤ 1 / 2 ^ 220 := by
  refine (zpow_le_zpow_right₀ (n := -220) (by norm_num) (by norm_num)).trans (le_of_eq ?_)
  rw [_root_.zpow_neg]
  norm_num

/-- The stored singular value. -/
noncomputable def keptR (a D : ℝ) : ℝ := R.rnd (Real.sqrt (R.rnd (R.rnd a / D)))

theorem keptR_error {a M D : ℝ} (ha : 0 ≤ a) (haM : a ≤ M) (hM : 1 / 2 ^ 48 ≤ M) (hM1 : M ≤ 2) (hD : |D - M| ≤ 1 / 2 ^ 51) :
    |keptR R a D - Real.sqrt a / Real.sqrt M| ≤ 1 / 2 ^ 48 / M := by
  have hM0 : 0 < M := lt_of_lt_of_le (by norm_num) hM
  generalize hw : (2 : ℝ) ^ (-1074 : ℤ) = w
  have hw0 : 0 < w := hw ▸ two_zpow_pos _
  have hw1 : w ≤ 1 / 2 ^ 220 := hw ▸ tiny_small
  set u : ℝ := 1 / 2 ^ 51 / M with hu
  have huM : u * M = 1 / 2 ^ 51 := by rw [hu]; field_simp
  have hu0 : 0 < u := by positivity
  have hu1 : u ≤ 1 / 8 := by rw [hu, div_le_iff₀ hM0]; linarith
  have hu2 : 1 / 2 ^ 52 ≤ u := by
    rw [hu, le_div_iff₀ hM0]
    nlinarith
  obtain ⟨hD1, hD2⟩ := abs_le.mp hD
  have hDM : M / 2 ≤ D := by linarith
  have hD0 : 0 < D := by linarith
  -- the square
  have h1 := R.abs_error a
  rw [abs_of_nonneg ha, hw] at h1
  set t := R.rnd a with ht
  have ht0 : 0 ≤ t := R.nonneg ha
  -- the quotient
  set z := a / M with hz
  have hz0 : 0 ≤ z := div_nonneg ha hM0.le
  have hz1 : z ≤ 1 := (div_le_one hM0).mpr haM
  have h2 : |t / D - z| ≤ z * (1 / 2 ^ 52 + 2 * u) + 2 * w / M := by
    have e : t / D - z = (t - a) / D + z * ((M - D) / D) := by
      rw [hz]; field_simp; ring_nf
    rw [e]
    refine (abs_add_le _ _).trans ?_
    rw [abs_div, abs_of_pos hD0, abs_mul, abs_of_nonneg hz0, abs_div, abs_of_pos hD0, abs_sub_comm M D]
    have g1 : |t - a| / D ≤ (1 / 2 ^ 53 * a + w) / (M / 2) :=
      div_le_div₀ (add_nonneg (mul_nonneg (by norm_num) ha) hw0.le) h1 (half_pos hM0) hDM
    have g2 : |D - M| / D ≤ 1 / 2 ^ 51 / (M / 2) := div_le_div₀ (by positivity) hD (by positivity) hDM
    have g3 : (1 / 2 ^ 53 * a + w) / (M / 2) = z * (1 / 2 ^ 52) + 2 * w / M := by rw [hz]; field_simp
    have g4 : 1 / 2 ^ 51 / (M / 2) = 2 * u := by rw [hu]; field_simp
    rw [g3] at g1
    rw [g4] at g2
    have := mul_le_mul_of_nonneg_left g2 hz0
    nlinarith
  have hq0 : 0 ≤ t / D := div_nonneg ht0 hD0.le
  have hwM : 2 * w / M ≤ 1 / 2 ^ 170 := by
    rw [div_le_iff₀ hM0]
    have : (1 : ℝ) / 2 ^ 170 * (1 / 2 ^ 48) ≤ 1 / 2 ^ 170 * M := mul_le_mul_of_nonneg_left hM (by norm_num)
    norm_num at this hw1 ⊢
    linarith
  -- its rounding
  have h3 := R.abs_error (t / D)
  rw [abs_of_nonneg hq0, hw] at h3
  set q := R.rnd (t / D) with hq
  have hqn : 0 ≤ q := R.nonneg hq0
  have hwM0 : 0 ≤ 2 * w / M := by positivity
  have h4 : |q - z| ≤ z * (1 / 2 ^ 51 + 2 * u) + 1 / 2 ^ 160 := by
    have e := abs_sub_le q (t / D) z
    have hle : t / D ≤ z * 2 + 1 := by
      have := (abs_le.mp h2).2
      nlinarith
    have hle2 : 1 / 2 ^ 53 * (t / D) ≤ 1 / 2 ^ 53 * (z + (z * (1 / 2 ^ 52 + 2 * u) + 2 * w / M)) :=
      mul_le_mul_of_nonneg_left (by linarith [(abs_le.mp h2).2]) (by norm_num)
    have hzu : z * (1 / 2 ^ 52 + 2 * u) ≤ z * (1 / 2) := mul_le_mul_of_nonneg_left (by norm_num; linarith) hz0
    norm_num at *
    nlinarith
  -- the root
  have h5 := sqrt_error hqn hz0 (κ := 1 / 2 ^ 51 + 2 * u) (τ := 1 / 2 ^ 160) (by positivity) (by norm_num; linarith) (by positivity) h4
  have e80 : Real.sqrt (1 / 2 ^ 160) = 1 / 2 ^ 80 := by
    rw [show (1 : ℝ) / 2 ^ 160 = (1 / 2 ^ 80) ^ 2 by norm_num, Real.sqrt_sq (by positivity)]
  rw [e80] at h5
  have hy1 : Real.sqrt z ≤ 1 := Real.sqrt_le_one.mpr hz1
  have hy0 := Real.sqrt_nonneg z
  have h6 := R.abs_error (Real.sqrt q)
  rw [abs_of_nonneg (Real.sqrt_nonneg q), hw] at h6
  have hyz : Real.sqrt a / Real.sqrt M = Real.sqrt z := by rw [hz, Real.sqrt_div ha]
  rw [hyz, show (1 : ℝ) / 2 ^ 48 / M = 8 * u by rw [hu]; field_simp; norm_num]
  have h7 := abs_sub_le (keptR R a D) (Real.sqrt q) (Real.sqrt z)
  have h8 : |keptR R a D - Real.sqrt q| ≤ 1 / 2 ^ 53 * Real.sqrt q + w := h6
  have h9 : (1 / 2 ^ 51 + 2 * u) * Real.sqrt z ≤ 1 / 2 ^ 51 + 2 * u := mul_le_of_le_one_right (by positivity) hy1
  have h10 : Real.sqrt q ≤ 2 := by
    have := (abs_le.mp h5).2
    norm_num at this h9 ⊢
    linarith
  norm_num at *
  linarith

/-! ### The losses -/

theorem extract_losses (hm : 0 < m) {s : Fin m → ℝ} (hs0 : ∀ i, 0 ≤ s i) (hs1 : ∀ i, s i ≤ 1 + 1 / 2 ^ 30)
    {M : ℝ}
    (hM : IsGreatest (Set.range fun i => s i ^ 2) M) :
    ∃ l, pyMinR (List.ofFn fun i => R.rnd (1 - R.rnd (s i ^ 2))) = .ok l ∧ IsFloat l ∧ l ≤ 1 ∧ -1e-8 ≤ l ∧
      |1 - l - M| ≤ 3 / 2 ^ 53 ∧ |R.rnd (1 - l) - M| ≤ 1 / 2 ^ 51 := by
  obtain ⟨l, h1, ⟨i, hi⟩, h3⟩ := pyMinR_ofFn hm fun i => R.rnd (1 - R.rnd (s i ^ 2))
  have hsq : ∀ i, s i ^ 2 ≤ 1 + 1 / 2 ^ 28 := by
    intro i
    have h0 := hs0 i
    have h1 := hs1 i
    norm_num at h1 ⊢
    nlinarith
  have ht : ∀ i, |R.rnd (s i ^ 2) - s i ^ 2| ≤ 1 / 2 ^ 53 * (1 + 1 / 2 ^ 28) + 1 / 2 ^ 60 * (1 / 2 ^ 53) := fun i =>
    rnd_abs_le R (by rw [abs_of_nonneg (sq_nonneg _)]; exact hsq i)
  have ht0 : ∀ i, 0 ≤ R.rnd (s i ^ 2) := fun i => R.nonneg (sq_nonneg _)
  have ht1 : ∀ i, R.rnd (s i ^ 2) ≤ 1 + 1 / 2 ^ 27 := by
    intro i
    have := (abs_le.mp (ht i)).2
    have := hsq i
    norm_num at *
    linarith
  have hd : ∀ i, |R.rnd (1 - R.rnd (s i ^ 2)) - (1 - R.rnd (s i ^ 2))| ≤ 1 / 2 ^ 53 * 1 + 1 / 2 ^ 60 * (1 / 2 ^ 53) := fun i =>
    rnd_abs_le R (by have := ht0 i; have := ht1 i; rw [abs_le]; norm_num at *; constructor <;> linarith)
  obtain ⟨j, hj⟩ := hM.1
  have hiM : s i ^ 2 ≤ M := hM.2 ⟨i, rfl⟩
  have hlj := h3 j
  have g1 := abs_le.mp (hd j)
  have g2 := abs_le.mp (hd i)
  have g3 := abs_le.mp (ht j)
  have g4 := abs_le.mp (ht i)
  have e1 : |1 - l - M| ≤ 1 / 2 ^ 53 * (2 + 1 / 2 ^ 27) := by
    rw [abs_le]
    norm_num at *
    constructor <;> linarith
  have hM1 : M ≤ 1 + 1 / 2 ^ 28 := hj ▸ hsq j
  have hM0 : 0 ≤ M := hj ▸ sq_nonneg _
  have hl1 : l ≤ 1 := by
    rw [hi]
    exact R.le_of_le isFloat_one (by linarith [ht0 i])
  have e2 : |R.rnd (1 - l) - (1 - l)| ≤ 1 / 2 ^ 53 * (1 + 1 / 2 ^ 27) + 1 / 2 ^ 60 * (1 / 2 ^ 53) := by
    refine rnd_abs_le R ?_
    rw [abs_of_nonneg (by linarith)]
    have := (abs_le.mp e1).2
    norm_num at *
    linarith
  refine ⟨l, h1, hi ▸ R.isFloat _, hl1, ?_, e1.trans (by norm_num), ?_⟩
  · have := (abs_le.mp e1).2
    norm_num at *
    linarith
  · have := abs_sub_le (R.rnd (1 - l)) (1 - l) M
    norm_num at *
    linarith

theorem extractLossesF_eq {d : Svd m} {l : ℝ} (h : pyMinR (List.ofFn fun i => R.rnd (1 - R.rnd (d.s i ^ 2))) = .ok l) :
    extractLossesF R C d = if R.rnd (1 - l) = 0 then .ok (l, none) else
      .ok (l, some (matMulR C (matMulR C d.V (Matrix.diagonal fun i => (keptR R (d.s i ^ 2) (R.rnd (1 - l)) : ℂ))) d.U)) := by
  unfold extractLossesF
  simp only
  rw [h]
  rfl

/-- The matrix of a sub-unitary network, with its largest singular value divided out. -/
noncomputable def splitMatrix (V U : Matrix (Fin m) (Fin m) ℂ) (s : Fin m → ℝ) (M : ℝ) : Matrix (Fin m) (Fin m) ℂ :=
  V * Matrix.diagonal (fun i => ((s i / Real.sqrt M : ℝ) : ℂ)) * U

theorem splitMatrix_svd {d : Svd m} {V U : Matrix (Fin m) (Fin m) ℂ} {e₀ : ℕ} (h : SvdWithin d V U e₀) (M : ℝ) :
    IsSvd (splitMatrix V U d.s M) ⟨V, fun i => d.s i / Real.sqrt M, U⟩ :=
  ⟨h.unitaryV, h.unitaryU, fun i => div_nonneg (h.nonneg i) (Real.sqrt_nonneg _),
    fun i j hij => div_le_div_of_nonneg_right (h.descending i j hij) (Real.sqrt_nonneg _), rfl⟩

theorem split_le_one {d : Svd m} {V U : Matrix (Fin m) (Fin m) ℂ} {e₀ : ℕ} (h : SvdWithin d V U e₀) {M : ℝ} (h0 : 0 < M)
    (hM : IsGreatest (Set.range fun i => d.s i ^ 2) M) (i : Fin m) : d.s i / Real.sqrt M ≤ 1 := by
  rw [div_le_one (Real.sqrt_pos.mpr h0), ← Real.sqrt_sq (h.nonneg i)]
  exact Real.sqrt_le_sqrt (hM.2 ⟨i, rfl⟩)

theorem extractLossesF_ok {d : Svd m} {V U : Matrix (Fin m) (Fin m) ℂ} {e₀ : ℕ} (h : SvdWithin d V U e₀) (hm0 : 0 < m)
    (hm : m ≤ 2 ^ 20) {M : ℝ} (hM : IsGreatest (Set.range fun i => d.s i ^ 2) M) (hM1 : 1 / 2 ^ 48 ≤ M) {k : ℕ}
    (hk : 1 ≤ k * M) :
    ∃ l A', extractLossesF R C d = .ok (l, some A') ∧ IsFloat l ∧ l ≤ 1 ∧ -1e-8 ≤ l ∧ |1 - l - M| ≤ 3 / 2 ^ 53 ∧
      ∀ i j, Close (m * (2 * (e₀ + k + 1 + m) + e₀ + 1 + m)) 1 (A' i j) (splitMatrix V U d.s M i j) := by
  obtain ⟨l, e1, e2, e3, e4, e5, e6⟩ := extract_losses R hm0 h.nonneg h.le hM
  have hM0 : 0 < M := lt_of_lt_of_le (by norm_num) hM1
  have hD : R.rnd (1 - l) ≠ 0 := by
    intro h0
    rw [h0, zero_sub, abs_neg, abs_of_pos hM0] at e6
    norm_num at *
    linarith
  have hM2 : M ≤ 2 := by
    obtain ⟨j, hj⟩ := hM.1
    have := h.nonneg j
    have := h.le j
    have hj' : d.s j ^ 2 = M := hj
    rw [← hj']
    norm_num at *
    nlinarith
  refine ⟨l, _, by rw [extractLossesF_eq R C e1, if_neg hD], e2, e3, e4, e5, ?_⟩
  have hsv := splitMatrix_svd h M
  have hs1 := split_le_one h hM0 hM
  have hu : ∀ B ∈ unitaryGroup (Fin m) ℂ, ∀ i j, ‖B i j‖ ≤ 1 := fun B hB i j => entry_norm_bound_of_unitary hB i j
  refine diag_net_close C hm (fun i j => ⟨hu V h.unitaryV i j, by rw [mul_one]; exact h.closeV i j⟩) (fun i j => ?_)
    (contraction_entry hsv hs1) (fun i => ?_) (fun i j hij => Matrix.diagonal_apply_ne _ hij)
    (fun i j => ⟨hu U h.unitaryU i j, by rw [mul_one]; exact h.closeU i j⟩)
  · rw [Matrix.mul_diagonal, norm_mul, Complex.norm_real, Real.norm_of_nonneg (hsv.nonneg j)]
    exact mul_le_one₀ (hu V h.unitaryV i j) (hsv.nonneg j) (hs1 j)
  · rw [Matrix.diagonal_apply_eq]
    refine close_of_norm (by rw [Complex.norm_real, Real.norm_of_nonneg (hsv.nonneg i)]; exact hs1 i) ?_
    rw [← Complex.ofReal_sub, Complex.norm_real]
    have := keptR_error R (sq_nonneg (d.s i)) (hM.2 ⟨i, rfl⟩) hM1 hM2 e6
    rw [Real.sqrt_sq (h.nonneg i)] at this
    refine this.trans ?_
    rw [div_le_iff₀ hM0]
    norm_num at *
    linarith

/-! ### Losses below zero -/

theorem bobsSimulateF_negative {expand : Matrix (Fin m) (Fin m) ℂ → Matrix (Fin (m + m)) (Fin (m + m)) ℂ} (Φ : PhaseArith)
    (sub : CalcCfg ℂ → Py (List ℂ)) (fuel : ℕ) (o : BobsObj m) (l : ℝ) (h1 : |o.losses| ≤ 1e-8) (h2 : |l| ≤ 1e-8) {S : List ℕ}
    (hne : S ≠ []) (hk : o.k ≤ S.length) (N : ℤ) :
    bobsSimulateF R C Φ expand sub fuel o S N = bobsSimulateF R C Φ expand sub fuel { o with losses := l } S N := by
  unfold bobsSimulateF
  split_ifs
  · rfl
  · obtain ⟨mx, -, -, -, e1⟩ := bobsPrepareR_ok R o S hne hk
    obtain ⟨mx', -, -, -, e2⟩ := bobsPrepareR_ok R { o with losses := l } S hne hk
    rw [e1, e2]
    simp only [Prog.lift_def, Prog.bind_eq, Prog.done_ok_bind]
    congr 1
    unfold bobsSampleF bobsLossyInputR
    simp only [if_pos (show IsCloseToZero o.losses from h1), if_pos (show IsCloseToZero l from h2)]
    rfl

/-! ### Hardly any transmission -/

theorem rnd_one_sub {t : ℝ} (h0 : 0 ≤ t) (h1 : t ≤ 1 / 2 ^ 56) : R.rnd (1 - t) = 1 := by
  have hle : R.rnd (1 - t) ≤ 1 := R.le_of_le isFloat_one (by linarith)
  have hh : 1 / 2 ≤ R.rnd (1 - t) := R.ge_of_ge ⟨1, -1, by norm_num, by norm_num, by norm_num⟩ (by norm_num at *; linarith)
  have hn := (R.nearest (1 - t)).2 1 isFloat_one
  obtain ⟨k, hk⟩ := (R.isFloat (1 - t)).multiple (t := -53) (by rw [abs_of_nonneg (by linarith)]; norm_num at *; linarith)
  have e1 : |1 - t - 1| = t := by rw [show 1 - t - 1 = -t by ring, abs_neg, abs_of_nonneg h0]
  rw [e1, abs_le] at hn
  have e53 : (2 : ℝ) ^ (-53 : ℤ) = 1 / 2 ^ 53 := by rw [_root_.zpow_neg]; norm_num
  rw [e53] at hk
  have hk1 : (2 : ℝ) ^ 53 - 1 < k := by
    have : 1 - 2 * t ≤ (k : ℝ) * (1 / 2 ^ 53) := by linarith [hn.2]
    norm_num at *
    linarith
  have hk2 : (k : ℝ) ≤ 2 ^ 53 := by
    rw [hk] at hle
    norm_num at *
    linarith
  have hk3 : (2 : ℤ) ^ 53 - 1 < k := by exact_mod_cast hk1
  have hk4 : k ≤ 2 ^ 53 := by exact_mod_cast hk2
  have : k = 2 ^ 53 := by omega
  rw [hk, this]
  norm_num

theorem extractLossesF_fails {d : Svd m} (hm : 0 < m) (h0 : ∀ i, 0 ≤ d.s i) (h1 : ∀ i, d.s i ≤ 1 / 2 ^ 28) :
    extractLossesF R C d = .ok (1, none) := by
  have hf : IsFloat (1 / 2 ^ 56) := ⟨1, -56, by norm_num, by norm_num, by rw [_root_.zpow_neg]; norm_num⟩
  have e : ∀ i, R.rnd (1 - R.rnd (d.s i ^ 2)) = 1 := by
    intro i
    refine rnd_one_sub R (R.nonneg (sq_nonneg _)) (R.le_of_le hf ?_)
    have := h0 i
    have := h1 i
    calc d.s i ^ 2 ≤ (1 / 2 ^ 28) ^ 2 := pow_le_pow_left₀ (h0 i) (h1 i) 2
      _ = _ := by norm_num
  obtain ⟨l, e1, ⟨i, e2⟩, -⟩ := pyMinR_ofFn hm fun i => R.rnd (1 - R.rnd (d.s i ^ 2))
  rw [e] at e2
  subst e2
  rw [extractLossesF_eq R C e1, if_pos (by rw [sub_self]; exact R.eq_self isFloat_zero)]

end Verif
