import Verif.Model.RoundedDistributions
import Verif.Proofs.RoundedLoss
import Verif.Proofs.RoundedRuns
import Verif.Proofs.Distributions

/-! Helper lemmas: the exact distribution calculators in floating-point arithmetic. -/
namespace Verif

open Finset

namespace Near

variable {c d b x y z w : ℝ}

theorem mul_gen (h : Near c b x y) (h' : Within d z w) (hc : 0 ≤ c) (hd : 1 ≤ d) (hb : 0 ≤ b) (hx : 0 ≤ x) (hy : 0 ≤ y)
    (hz : 0 ≤ z) (hw : 0 ≤ w) : Near (c * d) (b * w) (x * z) (y * w) := by
  have h0 : 0 ≤ b * w := mul_nonneg hb hw
  constructor
  · calc x * z ≤ c * (y + b) * (d * w) := mul_le_mul h.1 h'.1 hz (by positivity)
      _ = _ := by ring
  · calc y * w ≤ c * (x + b) * w := mul_le_mul_of_nonneg_right h.2 hw
      _ = c * (x * w + b * w) := by ring
      _ ≤ c * (x * (d * z) + d * (b * w)) := by
          refine mul_le_mul_of_nonneg_left (add_le_add (mul_le_mul_of_nonneg_left h'.2 hx) ?_) hc
          nlinarith
      _ = _ := by ring

theorem div_gen (h : Near c b x y) (h' : Within d z w) (hc : 0 ≤ c) (hd : 1 ≤ d) (hb : 0 ≤ b) (hx : 0 ≤ x) (hy : 0 ≤ y)
    (hz : 0 < z) (hw : 0 < w) : Near (c * d) (b / w) (x / z) (y / w) := by
  rw [div_eq_mul_inv, div_eq_mul_inv, div_eq_mul_inv]
  exact h.mul_gen (h'.inv hz hw) hc hd hb hx hy (inv_nonneg.mpr hz.le) (inv_nonneg.mpr hw.le)

theorem list_sum_var {α : Type} {f g e : α → ℝ} (l : List α) (h : ∀ a ∈ l, Near c (e a) (f a) (g a)) :
    Near c (l.map e).sum (l.map f).sum (l.map g).sum := by
  induction l with
  | nil => simp [Near]
  | cons a l ih =>
    have h1 := h a (by simp)
    have h2 := ih fun x hx => h x (by simp [hx])
    simp only [List.map_cons, List.sum_cons]
    exact ⟨by linarith [h1.1, h2.1], by linarith [h1.2, h2.2]⟩

end Near

variable (R : Rounding)

/-! ### Integers -/

/-- A rounded integer is an integer. -/
theorem rnd_nat_int (n : ℕ) : ∃ k : ℕ, R.rnd n = k := by
  rcases le_or_gt (n : ℝ) (2 ^ 53) with h | h
  · refine ⟨n, R.eq_self ?_⟩
    have := isFloat_mul (k := n) (t := 0) (by
      rw [abs_of_nonneg (Int.natCast_nonneg n)]
      exact_mod_cast h) (by norm_num)
    simpa using this
  · have h53 : IsFloat ((2 : ℝ) ^ 53) := by
      have := isFloat_mul (k := 2 ^ 53) (t := 0) (by norm_num) (by norm_num)
      norm_num at this ⊢
      exact this
    have h1 := R.ge_of_ge h53 h.le
    have h0 : 0 ≤ R.rnd (n : ℝ) := R.nonneg (Nat.cast_nonneg _)
    obtain ⟨k, hk⟩ := (R.isFloat (n : ℝ)).multiple (t := 0) (by
      rw [abs_of_nonneg h0]
      refine h1.trans' ?_
      norm_num)
    rw [zpow_zero, mul_one] at hk
    have hk0 : 0 ≤ k := by rw [hk] at h0; exact_mod_cast h0
    obtain ⟨m, rfl⟩ := Int.eq_ofNat_of_zero_le hk0
    exact ⟨m, by rw [hk]; simp⟩

theorem foldMul_int (l : List (ℕ × ℕ)) (x : ℕ) :
    ∃ k : ℕ, l.foldl (fun (w : ℝ) e => R.rnd (w * R.rnd (e.1.choose e.2))) (x : ℝ) = k := by
  induction l generalizing x with
  | nil => exact ⟨x, rfl⟩
  | cons e l ih =>
    obtain ⟨a, ha⟩ := rnd_nat_int R (e.1.choose e.2)
    obtain ⟨b, hb⟩ := rnd_nat_int R (x * a)
    rw [List.foldl_cons, ha, ← Nat.cast_mul, hb]
    exact ih b

/-! ### Multiplicities -/

/-- The product of the rounded binomials. -/
noncomputable def multR (S l : List ℕ) : ℝ :=
  (List.zip S (List.zipWith (· - ·) S l)).foldl (fun (w : ℝ) e => R.rnd (w * R.rnd (e.1.choose e.2))) 1

theorem multR_spec {S l : List ℕ} (h : StateLE l S) :
    (∃ k : ℤ, lossyInputMultiplicityR R S l = .ok k ∧ R.rnd (k : ℝ) = multR R S l) ∧
      Within (rho ^ (2 * S.length)) (multR R S l) ((List.zipWith Nat.choose S l).prod : ℝ) ∧ 0 ≤ multR R S l := by
  have hlen : l.length = S.length := h.length_eq
  obtain ⟨m, hm⟩ := foldMul_int R (List.zip S (List.zipWith (· - ·) S l)) 1
  rw [Nat.cast_one] at hm
  have hfl : IsFloat (multR R S l) := foldl_rnd_float R _ _ _ isFloat_one
  refine ⟨⟨m, ?_, ?_⟩, ?_, ?_⟩
  · unfold lossyInputMultiplicityR
    rw [foldlM_ok _ (fun (acc : ℝ) i => R.rnd (acc * R.rnd (((S.getD i 0).choose (S.getD i 0 - l.getD i 0) : ℕ) : ℝ)))]
    · rw [ok_bind]
      have : List.zip S (List.zipWith (· - ·) S l)
          = (List.range l.length).map fun i => (S.getD i 0, S.getD i 0 - l.getD i 0) := by
        apply List.ext_getElem
        · simp [hlen]
        · intro i h1 h2
          have hi : i < l.length := by simpa using h2
          have hi' : i < S.length := by rw [← hlen]; exact hi
          simp [hi, hi']
      rw [this, List.foldl_map] at hm
      rw [hm, Int.floor_natCast]
      rfl
    · intro acc i hi
      have hi : i < l.length := List.mem_range.mp hi
      have hi' : i < S.length := by rw [← hlen]; exact hi
      have hle := (List.forall₂_iff_get.mp h).2 i hi hi'
      simp only [List.get_eq_getElem] at hle
      rw [pyGetN_ok hi', ok_bind, pyGetN_ok hi, ok_bind, natSub_ok hle, ok_bind, getD_of_lt _ _ hi, getD_of_lt _ _ hi']
      rfl
  · rw [Int.cast_natCast, ← hm]
    exact R.eq_self hfl
  · have h1 := (foldMul_within R (List.zip S (List.zipWith (· - ·) S l)) (choose_zip_pos S l) 1 1 1
      (Within.refl le_rfl zero_le_one) le_rfl (zpow_le_one_of_nonpos₀ (by norm_num) (by norm_num)) zero_le_one).1
    rw [one_mul] at h1
    have e1 : (List.zip S (List.zipWith (· - ·) S l)).length = S.length := by simp [hlen]
    have e2 : (List.zip S (List.zipWith (· - ·) S l)).foldl (fun (w : ℝ) e => w * ((e.1.choose e.2 : ℕ) : ℝ)) 1
        = ((List.zipWith Nat.choose S l).prod : ℝ) := by
      have : ∀ (l S : List ℕ), StateLE l S → ∀ x : ℝ, (List.zip S (List.zipWith (· - ·) S l)).foldl
          (fun (w : ℝ) e => w * ((e.1.choose e.2 : ℕ) : ℝ)) x = x * ((List.zipWith Nat.choose S l).prod : ℝ) := by
        intro l S h
        induction h with
        | nil => intro x; simp
        | @cons a s l S has _ ih =>
          intro x
          simp only [List.zipWith_cons_cons, List.zip_cons_cons, List.foldl_cons, List.prod_cons]
          rw [ih, Nat.choose_symm has]
          push_cast
          ring
      rw [this l S h, one_mul]
    rw [e1, e2] at h1
    exact h1
  · rw [multR, hm]; exact Nat.cast_nonneg _

/-! ### One outcome with fixed losses -/

theorem divIntR_ok {n : ℕ} (hn : 0 < n) (x : ℝ) : divIntR R x n = .ok (R.rnd (x / R.rnd n)) := by
  rw [divIntR, if_neg (by have := rnd_nat_ge R hn; linarith)]

theorem foldlM_divIntR (l : List ℕ) (x : ℝ) :
    l.foldlM (fun (sub : ℝ) (o : ℕ) => divIntR R sub o.factorial) x
      = .ok (l.foldl (fun (p : ℝ) o => R.rnd (p / R.rnd o.factorial)) x) :=
  foldlM_ok _ _ _ _ fun _ o _ => divIntR_ok R (Nat.factorial_pos o) _

theorem foldlM_divIntR_range (T : List ℕ) (p : ℝ) :
    (List.range T.length).foldlM (fun (p : ℝ) i => do
        let t ← pyGetN T i
        divIntR R p t.factorial) p
      = .ok (T.foldl (fun (p : ℝ) o => R.rnd (p / R.rnd o.factorial)) p) := by
  rw [foldlM_ok _ (fun (p : ℝ) i => R.rnd (p / R.rnd (T.getD i 0).factorial))]
  · have : T = (List.range T.length).map fun i => T.getD i 0 := by
      apply List.ext_getElem
      · simp
      · intro i h1 h2
        simp [h1]
    conv_rhs => rw [this]
    rw [List.foldl_map]
  · intro p i hi
    have hi : i < T.length := List.mem_range.mp hi
    rw [pyGetN_ok hi, ok_bind, divIntR_ok R (Nat.factorial_pos _), getD_of_lt _ _ hi]

theorem foldl_lastR {α : Type} (g : α → ℝ) (L : List α) (x : ℝ) (o : Option α) :
    L.foldl (fun (st : ℝ × Option α) l => (R.rnd (st.1 + g l), some l)) (x, o)
      = (accR R x (L.map g), L.getLast?.or o) := by
  induction L generalizing x o with
  | nil => simp [accR]
  | cons a L ih =>
    rw [List.foldl_cons, ih, List.map_cons, accR_cons]
    cases L with
    | nil => simp
    | cons b L => simp [List.getLast?_eq_some_getLast]

theorem exact_value (U : List (List ℂ)) {S : List ℕ} {k : ℕ} (T : List ℕ) {L : List (List ℕ)} (hk : k ≤ S.sum)
    (hnd : L.Nodup) (hmem : ∀ l : List ℕ, l ∈ L ↔ StateLE l S ∧ l.sum = k) :
    fixedLossProb U S k T = (L.map fun l => Complex.normSq (scatteringPermanent U l T) / factProd l *
      ((List.zipWith Nat.choose S l).prod : ℝ)).sum / (k.factorial : ℝ) / (S.sum.choose k : ℝ) * (k.factorial : ℝ)
        / (factProd T : ℝ) := by
  have hch : ((S.sum.choose k : ℕ) : ℝ) ≠ 0 := by exact_mod_cast (Nat.choose_pos hk).ne'
  unfold fixedLossProb
  rw [sum_stateOf S k L.toFinset (fun l => by rw [List.mem_toFinset, hmem])
    (fun l => bosonProb U l T), List.sum_toFinset _ hnd]
  have hk0 := fact_ne k
  have hsum : (L.map fun l => ((List.zipWith Nat.choose S l).prod : ℝ) *
      bosonProb U l T).sum = (L.map fun l =>
        Complex.normSq (scatteringPermanent U l T) / factProd l *
      ((List.zipWith Nat.choose S l).prod : ℝ)).sum * (factProd T : ℝ)⁻¹ := by
    rw [← List.sum_map_mul_right]
    congr 1
    refine List.map_congr_left fun l _ => ?_
    unfold bosonProb
    rw [← div_div]
    ring
  rw [hsum]
  field_simp

theorem fixedLossOutcomeR_near {sq : CalcCfg ℂ → Py ℝ} (hash : List ℕ → ℤ) (cfg : ExpConfig ℂ ℝ) {U : List (List ℂ)}
    {S T : List ℕ} {k : ℕ} {c a : ℝ} (hU : cfg.matrix = U) (hS : cfg.initialState = S) (hleft : cfg.left = k)
    (hn : cfg.initialNumber = S.sum) (hm : cfg.modes = S.length) (hsq : SqNear sq U S c a) (hc : 1 ≤ c) (ha : 0 ≤ a)
    (hT : T.length = S.length) (hTs : T.sum = k) (hk : k ≤ S.sum)
    (hinj : ∀ a b : List ℕ, StateLE a S → a.sum = k → StateLE b S → b.sum = k → hash a = hash b → a = b) :
    ∃ x, fixedLossOutcomeR R sq hash cfg T = .ok x ∧ 0 ≤ x ∧
      Near (c * rho ^ (6 * S.length + 7 + (subStates S k).length))
        (a + (2 * S.length + (subStates S k).length + 2 * k.factorial + 1) * tiny) x (fixedLossProb U S k T) := by
  subst hU hS hleft
  set U := cfg.matrix
  set S := cfg.initialState
  set k := cfg.left
  obtain ⟨L, hL, hnd, hne, hmem⟩ := lossy_spec hash S k hk hinj
  have hperm : L.Perm (subStates S k) := (List.perm_ext_iff_of_nodup hnd (subStates_nodup S k)).mpr fun l => by
    rw [hmem, mem_subStates]
  have hlenL : L.length = (subStates S k).length := hperm.length_eq
  have hr := one_lt_rho
  have ht := tiny_pos
  -- the values delivered by the calculator
  set X : List ℕ → ℝ := fun l => match sq ⟨U, l, T⟩ with | .ok x => x | .error _ => 0 with hX
  have hXok : ∀ l ∈ L, sq ⟨U, l, T⟩ = .ok (X l) ∧ 0 ≤ X l
      ∧ Near c a (X l) (Complex.normSq (scatteringPermanent U l T)) := by
    intro l hl
    obtain ⟨h3, h4⟩ := (hmem l).mp hl
    obtain ⟨x, hx1, hx2, hx3⟩ := hsq l T h3 hT (h4.trans hTs.symm)
    have : X l = x := by rw [hX]; simp only [hx1]
    rw [this]
    exact ⟨hx1, hx2, hx3⟩
  set t : List ℕ → ℝ := fun l => R.rnd (l.foldl (fun (p : ℝ) o => R.rnd (p / R.rnd o.factorial)) (X l) * multR R S l)
    with htdef
  set M : List ℕ → ℝ := fun l => ((List.zipWith Nat.choose S l).prod : ℝ) with hM
  have hb0 : 0 ≤ a + S.length * tiny := by positivity
  have hterm : ∀ l ∈ L, Near (c * rho ^ (4 * S.length + 1)) ((a + S.length * tiny) * M l + tiny) (t l)
      (Complex.normSq (scatteringPermanent U l T) / factProd l * M l) ∧ 0 ≤ t l := by
    intro l hl
    obtain ⟨h3, h4⟩ := (hmem l).mp hl
    obtain ⟨hx1, hx2, hx3⟩ := hXok l hl
    obtain ⟨n1, n2, n3⟩ := foldDiv_near R l _ _ _ _ hx3 hc hx2 (Complex.normSq_nonneg _) ha
    obtain ⟨-, m2, m3⟩ := multR_spec R h3
    have hlen : l.length = S.length := h3.length_eq
    rw [hlen] at n1
    have hM0 : 0 ≤ M l := Nat.cast_nonneg _
    have n4 := n1.mul_gen m2 (by positivity) (one_le_rho_pow _) hb0 n2 n3 m3 hM0
    have hc1 : 1 ≤ c * rho ^ (2 * S.length) * rho ^ (2 * S.length) := by
      rw [mul_assoc, ← pow_add]; nlinarith [one_le_rho_pow (2 * S.length + 2 * S.length)]
    have n5 := n4.rnd R hc1 (mul_nonneg n2 m3) (mul_nonneg hb0 hM0)
    rw [foldl_div_fact] at n5
    refine ⟨?_, R.nonneg (mul_nonneg n2 m3)⟩
    have e : c * rho ^ (2 * S.length) * rho ^ (2 * S.length) * rho = c * rho ^ (4 * S.length + 1) := by ring
    rw [e] at n5
    exact n5
  have hW : Weights (L.map t) := by
    intro x hx
    obtain ⟨l, hl, rfl⟩ := List.mem_map.mp hx
    exact ⟨R.isFloat _, (hterm l hl).2⟩
  have s1 := sumR_within R hW
  rw [List.length_map] at s1
  have s0 := sumR_nonneg R hW
  have s2 := Near.list_sum_var L fun l hl => (hterm l hl).1
  set C : ℝ := (S.sum.choose k : ℝ) with hC
  have hC1 : 1 ≤ C := by rw [hC]; exact_mod_cast Nat.choose_pos hk
  have hb1 : (L.map fun l => (a + S.length * tiny) * M l + tiny).sum = (a + S.length * tiny) * C + L.length * tiny := by
    rw [List.sum_map_add, List.sum_map_mul_left, List.map_const', List.sum_replicate, nsmul_eq_mul]
    congr 2
    have h1 := sum_weights S k hk
    rw [← (hperm.map fun l => ((List.zipWith Nat.choose S l).prod : ℝ) / (S.sum.choose k : ℝ)).sum_eq] at h1
    simp only [div_eq_mul_inv] at h1
    rw [List.sum_map_mul_right, ← div_eq_mul_inv, div_eq_one_iff_eq (by linarith)] at h1
    exact h1
  rw [hb1] at s2
  set b1 := (a + S.length * tiny) * C + L.length * tiny with hb1def
  have hb1n : 0 ≤ b1 := by positivity
  set Y := (L.map fun l => Complex.normSq (scatteringPermanent U l T) / factProd l * M l).sum with hY
  have hY0 : 0 ≤ Y := List.sum_nonneg fun x hx => by
    obtain ⟨l, -, rfl⟩ := List.mem_map.mp hx
    have := Complex.normSq_nonneg (scatteringPermanent U l T)
    positivity
  have c1 : ∀ j, 1 ≤ c * rho ^ j := fun j => by nlinarith [one_le_rho_pow j]
  have s3 := s2.trans_within s1 (c1 _) (one_le_rho_pow _) hb1n
  have hk0 := Nat.factorial_pos k
  have hk1 : (1 : ℝ) ≤ k.factorial := by exact_mod_cast hk0
  have hC0 := Nat.choose_pos hk
  have e3 : c * rho ^ (4 * S.length + 1) * rho ^ L.length = c * rho ^ (4 * S.length + 1 + L.length) := by ring
  rw [e3] at s3
  -- / k!
  set p1 := R.rnd (sumR R (L.map t) / R.rnd k.factorial) with hp1
  have q0 : 0 ≤ sumR R (L.map t) / R.rnd k.factorial := div_nonneg s0 (by linarith [rnd_nat_ge R hk0])
  have s4 := (s3.div_gen (rnd_nat_within R hk0) (by linarith [c1 (4 * S.length + 1 + L.length)]) hr.le hb1n s0 hY0
    (by linarith [rnd_nat_ge R hk0]) (by linarith))
  rw [mul_assoc, ← pow_succ] at s4
  have s4 := s4.rnd R (c1 _) q0 (by positivity)
  rw [mul_assoc, ← pow_succ] at s4
  have p1n : 0 ≤ p1 := R.nonneg q0
  -- / C
  set p2 := R.rnd (p1 / R.rnd (S.sum.choose k : ℕ)) with hp2
  have q1 : 0 ≤ p1 / R.rnd (S.sum.choose k : ℕ) := div_nonneg p1n (by linarith [rnd_nat_ge R hC0])
  have s5 := (s4.div_gen (rnd_nat_within R hC0) (by linarith [c1 (4 * S.length + 1 + L.length + 1 + 1)]) hr.le
    (by positivity) p1n (by positivity) (by linarith [rnd_nat_ge R hC0]) (by linarith))
  rw [mul_assoc, ← pow_succ] at s5
  have s5 := s5.rnd R (c1 _) q1 (by positivity)
  rw [mul_assoc, ← pow_succ] at s5
  have p2n : 0 ≤ p2 := R.nonneg q1
  -- * k!
  set p3 := R.rnd (p2 * R.rnd k.factorial) with hp3
  have q2 : 0 ≤ p2 * R.rnd k.factorial := mul_nonneg p2n (by linarith [rnd_nat_ge R hk0])
  have s6 := (s5.mul_gen (rnd_nat_within R hk0) (by linarith [c1 (4 * S.length + 1 + L.length + 1 + 1 + 1 + 1)]) hr.le
    (by positivity) p2n (by positivity) (by linarith [rnd_nat_ge R hk0]) (by linarith))
  rw [mul_assoc, ← pow_succ] at s6
  have s6 := s6.rnd R (c1 _) q2 (by positivity)
  rw [mul_assoc, ← pow_succ] at s6
  have p3n : 0 ≤ p3 := R.nonneg q2
  -- the factorials of the outcome
  obtain ⟨s7, s8, s9⟩ := foldDiv_near R T _ _ _ _ s6 (c1 _) p3n (by positivity) (by positivity)
  rw [foldl_div_fact, ← exact_value U T hk hnd hmem, hT] at s7
  refine ⟨_, ?_, s8, ?_⟩
  · unfold fixedLossOutcomeR probabilityForIndistinguishableR
    rw [hL, ok_bind]
    rw [foldlM_ok _ (fun (st : ℝ × Option (List ℕ)) l => (R.rnd (st.1 + t l), some l)) L _ (by
      intro st l hl
      obtain ⟨h1, h2⟩ := (hmem l).mp hl
      obtain ⟨⟨m, hm1, hm2⟩, -, -⟩ := multR_spec R h1
      rw [hm1, ok_bind, (hXok l hl).1, ok_bind, foldlM_divIntR, ok_bind, hm2]
      rfl)]
    rw [ok_bind, foldl_lastR, List.getLast?_eq_some_getLast hne]
    have hlast := ((hmem _).mp (List.getLast_mem hne)).2
    simp only [Option.some_or, hlast]
    rw [divIntR_ok R hk0, ok_bind, hn, divIntR_ok R hC0, ok_bind, hm, ← hT, foldlM_divIntR_range]
    rfl
  · have e1 : c * rho ^ (4 * S.length + 1 + L.length + 1 + 1 + 1 + 1 + 1 + 1) * rho ^ (2 * S.length)
        = c * rho ^ (6 * S.length + 7 + (subStates S k).length) := by rw [hlenL]; ring
    rw [e1] at s7
    refine s7.mono (by linarith [c1 (6 * S.length + 7 + (subStates S k).length)]) s8 (fixedLossProb_nonneg _ _ _ _)
      (by positivity) le_rfl ?_
    have h1 : b1 / k.factorial / C * k.factorial ≤ a + S.length * tiny + L.length * tiny := by
      have : b1 / k.factorial / C * k.factorial = b1 / C := by field_simp
      rw [this, div_le_iff₀ (by linarith), hb1def]
      have : 0 ≤ L.length * tiny * (C - 1) := mul_nonneg (by positivity) (by linarith)
      nlinarith
    have h2 : tiny / C * k.factorial ≤ k.factorial * tiny := by
      have : tiny / C ≤ tiny := div_le_self ht.le hC1
      nlinarith
    have e2 : ((b1 / k.factorial + tiny) / C + tiny) * k.factorial + tiny + S.length * tiny
        = b1 / k.factorial / C * k.factorial + tiny / C * k.factorial + k.factorial * tiny + tiny + S.length * tiny := by
      ring
    rw [e2, ← hlenL]
    linarith

/-! ### Uniform losses -/

theorem Near.lower {c b x y : ℝ} (h : Near c b x y) (hc : 0 < c) : y / c - b ≤ x := by
  rw [sub_le_iff_le_add, div_le_iff₀ hc, mul_comm]
  exact h.2

/-- The error of a rounded product of near values. -/
theorem Near.mul_rnd {b c d e x y z w : ℝ} (h : Near c b x y) (h' : Near d e z w) (hc : 1 ≤ c) (hd : 1 ≤ d)
    (hb : 0 ≤ b) (he : 0 ≤ e) (hx : 0 ≤ x) (hy : 0 ≤ y) (hz : 0 ≤ z) (hw : 0 ≤ w) (hy1 : y ≤ 1) (hw1 : w ≤ 1) :
    |R.rnd (x * z) - y * w| ≤ (c * d * rho - 1) * (y * w) + c * d * rho * (b + e + b * e + tiny) := by
  have hr := one_lt_rho
  have ht := tiny_pos
  have hxz := mul_nonneg hx hz
  have hyw := mul_nonneg hy hw
  have hcd : 1 ≤ c * d := one_le_mul_of_one_le_of_one_le hc hd
  have hcdr : 1 ≤ c * d * rho := one_le_mul_of_one_le_of_one_le hcd hr.le
  have hbe := mul_nonneg hb he
  have n1 := R.near hxz
  have up : x * z ≤ c * d * (y * w + b + e + b * e) := by
    calc x * z ≤ c * (y + b) * (d * (w + e)) := mul_le_mul h.1 h'.1 hz (by positivity)
      _ = c * d * (y * w + b * w + y * e + b * e) := by ring
      _ ≤ _ := by
        refine mul_le_mul_of_nonneg_left ?_ (by linarith)
        nlinarith
  have lo : y * w / (c * d) - b - e ≤ x * z := by
    have l1 := h.lower (by linarith)
    have l2 := h'.lower (by linarith)
    have e1 : y * w / (c * d) = y / c * (w / d) := by rw [div_mul_div_comm]
    have y0 : 0 ≤ y / c := div_nonneg hy (by linarith)
    have w0 : 0 ≤ w / d := div_nonneg hw (by linarith)
    have y1 : y / c ≤ 1 := (div_le_self hy hc).trans hy1
    have w1 : w / d ≤ 1 := (div_le_self hw hd).trans hw1
    rw [e1]
    rcases le_total (y / c) b with h1 | h1
    · nlinarith
    rcases le_total (w / d) e with h2 | h2
    · nlinarith
    have := mul_le_mul l1 l2 (by linarith) hx
    nlinarith
  have up2 : R.rnd (x * z) ≤ c * d * rho * (y * w + b + e + b * e + tiny) := by
    refine n1.1.trans ?_
    have : x * z + tiny ≤ c * d * (y * w + b + e + b * e + tiny) := by nlinarith
    calc rho * (x * z + tiny) ≤ rho * (c * d * (y * w + b + e + b * e + tiny)) :=
          mul_le_mul_of_nonneg_left this (by linarith)
      _ = _ := by ring
  have lo2 : y * w / (c * d * rho) - b - e - tiny ≤ R.rnd (x * z) := by
    have l1 := n1.lower (by linarith)
    have l2 : (y * w / (c * d) - b - e) / rho ≤ x * z / rho := div_le_div_of_nonneg_right lo (by linarith)
    have l3 : (y * w / (c * d) - b - e) / rho = y * w / (c * d * rho) - (b + e) / rho := by
      rw [sub_sub, sub_div, div_div]
    have l4 : (b + e) / rho ≤ b + e := div_le_self (by linarith) hr.le
    linarith
  have h3 : y * w * (2 - c * d * rho) ≤ y * w / (c * d * rho) := by
    rw [le_div_iff₀ (by linarith)]
    nlinarith [mul_nonneg hyw (sq_nonneg (c * d * rho - 1))]
  rw [abs_sub_le_iff]
  constructor <;> nlinarith

theorem initializeWeightsR_get (c : ExpConfig ℂ ℝ) {l : ℕ} (h : l ≤ c.initialNumber) :
    pyGetN (initializeWeightsR R c) l = .ok (binomWeightR R c.initialNumber c.eta l) := by
  rw [pyGetN_ok (by simp [initializeWeightsR]; omega)]
  simp only [initializeWeightsR, binomWeightR, List.getElem_map, List.getElem_range]
  rw [mul_comm (R.rnd (c.eta ^ l))]

theorem foldl_setWeightlessR (fs : List Bool) (u : UniformCalc ℂ ℝ) (h : u.weights.length = u.config.initialNumber + 1) :
    (fs.foldl (setWeightlessR R) u).config = u.config ∧
      (fs.foldl (setWeightlessR R) u).weights.length = u.config.initialNumber + 1 := by
  induction fs generalizing u with
  | nil => exact ⟨rfl, h⟩
  | cons f fs ih =>
    rw [List.foldl_cons]
    have h1 : (setWeightlessR R u f).config = u.config := by cases f <;> rfl
    have := ih (setWeightlessR R u f) (by rw [h1]; cases f <;> simp [setWeightlessR, initializeWeightsR, h])
    rw [h1] at this
    exact this

theorem fixedLossOutcomeR_float {sq : CalcCfg ℂ → Py ℝ} (hash : List ℕ → ℤ) (c : ExpConfig ℂ ℝ) (T : List ℕ) {x : ℝ}
    (h : fixedLossOutcomeR R sq hash c T = .ok x) : IsFloat x := by
  unfold fixedLossOutcomeR at h
  cases hp : probabilityForIndistinguishableR R sq hash c T with
  | error e => rw [hp] at h; exact absurd h (by rw [error_bind]; simp)
  | ok p =>
    rw [hp, ok_bind] at h
    have : ∀ (l : List ℕ) (y : ℝ), IsFloat y → l.foldlM (fun (p : ℝ) i => (do
        let t ← pyGetN T i
        divIntR R p t.factorial : Py ℝ)) y = .ok x → IsFloat x := by
      intro l
      induction l with
      | nil =>
        intro y hy hx
        have : y = x := by simpa [pure_eq_ok] using hx
        exact this ▸ hy
      | cons i l ih =>
        intro y hy hx
        rw [List.foldlM_cons] at hx
        cases ht : pyGetN T i with
        | error e => rw [ht] at hx; exact absurd hx (by simp [error_bind])
        | ok t =>
          rw [ht, ok_bind, divIntR_ok R (Nat.factorial_pos t), ok_bind] at hx
          exact ih _ (R.isFloat _) hx
    exact this _ _ (R.isFloat _) h

end Verif
