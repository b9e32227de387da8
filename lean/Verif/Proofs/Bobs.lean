import Verif.Model.Bobs
import Verif.Props.LossyNetworks
import Verif.Props.FixedLoss
import Verif.Props.QuantumUtilities

/-! Helper lemmas: the sampler for non-uniform losses. -/
namespace Verif

open Finset
open scoped ENNReal

/-! ### Binomial losses -/

theorem bobsRow_eq (losses : ℝ) (n : ℕ) :
    ((List.range (n + 1)).map fun left => bobsWeight (1 - losses) n left) = gccbWeights n (1 - losses) := by
  refine List.map_congr_left fun l _ => ?_
  unfold bobsWeight
  ring

theorem find_range {V : Type} (g : ℕ → V) (n a : ℕ) (h : a < n) :
    ((List.range n).map fun j => (j + 1, g j)).find? (fun e => decide (e.1 = a + 1)) = some (a + 1, g a) := by
  rw [List.find?_map]
  have : (List.range n).find? ((fun e : ℕ × V => decide (e.1 = a + 1)) ∘ fun j => (j + 1, g j)) = some a := by
    rw [List.find?_range_eq_some]
    refine ⟨by simp, by simpa using h, fun j hj => by simp; omega⟩
  rw [this]
  rfl

theorem bobsWeights_get (losses : ℝ) (mx a : ℕ) (h : a < mx) :
    assocGetPy (bobsWeights losses mx) (a + 1) = .ok (gccbWeights (a + 1) (1 - losses)) := by
  refine assocGetPy_ok ?_
  unfold assocGet bobsWeights
  rw [find_range (fun j => (List.range (j + 1 + 1)).map fun left => bobsWeight (1 - losses) (j + 1) left) mx a h]
  rw [← bobsRow_eq]
  rfl

theorem bobsChoice_eq (n : ℕ) (eta : ℝ) :
    bobsChoice (List.range (n + 1)) (gccbWeights n eta) = .uniform fun u =>
      match (List.range (n + 1))[scanIndex u (gccbWeights n eta) 0]? with
      | some v => .done (.ok v)
      | none => .done (.error .typeError) := by
  unfold bobsChoice
  rw [if_neg (by rw [gccbWeights_length, List.length_range]; simp)]
  rfl

theorem bobsChoice_wp (n : ℕ) {eta : ℝ} (h0 : 0 ≤ eta) (h1 : eta ≤ 1) (f : Py ℕ → ℝ≥0∞) :
    (bobsChoice (List.range (n + 1)) (gccbWeights n eta)).wp f
      = ∑ l ∈ range (n + 1), ENNReal.ofReal (binomialWeight n l eta) * f (.ok l) := by
  have hs := gccbWeights_sum n eta
  refine Eq.trans ?_ (gccbParticlesLeft_wp n h0 h1 f)
  rw [bobsChoice_eq]
  refine MeasureTheory.setLIntegral_congr_fun measurableSet_Ico fun u hu => ?_
  have hlt := (scanIndex_lt (gccbWeights n eta) u 0 hu.1 (by rw [hs]; linarith [hu.2])).1
  rw [gccbWeights_length] at hlt
  simp only [List.getElem?_range hlt]
  rfl

theorem bobsChoice_all (n : ℕ) {eta : ℝ} :
    (bobsChoice (List.range (n + 1)) (gccbWeights n eta)).All (fun l => l ≤ n) fun _ => False := by
  have hs := gccbWeights_sum n eta
  rw [bobsChoice_eq]
  refine Prog.all_uniform fun u hu0 hu1 => ?_
  have hlt := (scanIndex_lt (gccbWeights n eta) u 0 hu0 (by rw [hs]; linarith)).1
  rw [gccbWeights_length] at hlt
  simp only [List.getElem?_range hlt]
  exact Prog.all_done_ok (by omega)

/-- Mode-wise order of states. -/
abbrev ModeLe (L S : List ℕ) : Prop := List.Forall₂ (· ≤ ·) L S

theorem bobsLossyModes_wp {losses : ℝ} (h0 : 0 ≤ losses) (h1 : losses ≤ 1) (mx : ℕ) (s : List ℕ) (hs : ∀ x ∈ s, x ≤ mx)
    (f : Py (List ℕ) → ℝ≥0∞) :
    (bobsLossyModes (bobsWeights losses mx) s).wp f = expLoss (1 - losses) s fun L => f (.ok L) := by
  induction s generalizing f with
  | nil => rfl
  | cons a s ih =>
    have ih := fun f => ih (fun x hx => hs x (by simp [hx])) f
    cases a with
    | zero =>
      rw [bobsLossyModes, expLoss, Prog.bind_eq, Prog.wp_bind, ih]
      simp only [zero_add, sum_range_one]
      rw [show binomialWeight 0 0 (1 - losses) = 1 by simp [binomialWeight], ENNReal.ofReal_one, one_mul]
      rfl
    | succ a =>
      have hle := hs (a + 1) (by simp)
      rw [bobsLossyModes, bobsWeights_get _ _ _ (by omega)]
      simp only [Prog.lift_def, Prog.bind_eq, Prog.done_ok_bind]
      rw [Prog.wp_bind, bobsChoice_wp _ (by linarith) (by linarith), expLoss]
      refine sum_congr rfl fun l _ => ?_
      congr 1
      rw [Prog.post, Prog.wp_bind, ih]
      rfl

theorem bobsLossyModes_all {losses : ℝ} (mx : ℕ) (s : List ℕ) (hs : ∀ x ∈ s, x ≤ mx) :
    (bobsLossyModes (bobsWeights losses mx) s).All (fun L => ModeLe L s) fun _ => False := by
  induction s with
  | nil => exact Prog.all_done_ok .nil
  | cons a s ih =>
    have ih := ih (fun x hx => hs x (by simp [hx]))
    cases a with
    | zero =>
      rw [bobsLossyModes]
      exact Prog.all_bind ih fun L hL => Prog.all_done_ok (.cons le_rfl hL)
    | succ a =>
      have hle := hs (a + 1) (by simp)
      rw [bobsLossyModes, bobsWeights_get _ _ _ (by omega)]
      simp only [Prog.lift_def, Prog.bind_eq, Prog.done_ok_bind]
      exact Prog.all_bind (bobsChoice_all (a + 1)) fun l hl => Prog.all_bind ih fun L hL =>
        Prog.all_done_ok (.cons hl hL)

theorem expLoss_one (s : List ℕ) (g : List ℕ → ℝ≥0∞) : expLoss 1 s g = g s := by
  induction s generalizing g with
  | nil => rfl
  | cons a s ih =>
    rw [expLoss, sum_range_succ, sum_eq_zero]
    · rw [ih]; simp [binomialWeight]
    · intro l hl
      have : a - l ≠ 0 := by have := mem_range.mp hl; omega
      simp [binomialWeight, this]

theorem expLoss_congr (eta : ℝ) (s : List ℕ) (g g' : List ℕ → ℝ≥0∞) (h : ∀ L, ModeLe L s → g L = g' L) :
    expLoss eta s g = expLoss eta s g' := by
  induction s generalizing g g' with
  | nil => exact h [] .nil
  | cons a s ih =>
    rw [expLoss, expLoss]
    refine sum_congr rfl fun l hl => ?_
    rw [ih _ _ fun L hL => h (l :: L) (.cons (by have := mem_range.mp hl; omega) hL)]

theorem expLoss_zero (eta : ℝ) (s : List ℕ) : expLoss eta s (fun _ => 0) = 0 := by
  induction s with
  | nil => rfl
  | cons b s ihs => rw [expLoss]; exact sum_eq_zero fun y _ => by rw [ihs, mul_zero]

open Classical in
theorem expLoss_indicator (eta : ℝ) (h0 : 0 ≤ eta) (h1 : eta ≤ 1) (s L : List ℕ) (h : L.length = s.length) :
    expLoss eta s (fun L' => if L' = L then 1 else 0)
      = ENNReal.ofReal (List.zipWith (fun n l => binomialWeight n l eta) s L).prod := by
  induction s generalizing L with
  | nil =>
    obtain rfl : L = [] := by simpa using h
    simp [expLoss]
  | cons a s ih =>
    obtain ⟨l, L, rfl⟩ : ∃ l L', L = l :: L' := by
      cases L with
      | nil => simp at h
      | cons l L => exact ⟨l, L, rfl⟩
    have h : L.length = s.length := by simpa using h
    rw [expLoss, List.zipWith_cons_cons, List.prod_cons, ENNReal.ofReal_mul (binomialWeight_nonneg a l h0 h1), ← ih L h]
    have e : ∀ x, expLoss eta s (fun L' => if x :: L' = l :: L then 1 else 0)
        = if x = l then expLoss eta s (fun L' => if L' = L then 1 else 0) else 0 := by
      intro x
      by_cases hx : x = l
      · simp [hx]
      · simp only [List.cons.injEq, hx, false_and, if_false]
        exact expLoss_zero eta s
    simp only [e, mul_ite, mul_zero]
    rw [sum_ite_eq']
    split_ifs with hm
    · rfl
    · have : a < l := by rw [mem_range] at hm; omega
      rw [binomialWeight, Nat.choose_eq_zero_of_lt this]
      simp

/-! ### Preparations -/

theorem bobsPrepare_loop {m : ℕ} (S : List ℕ) (k : ℕ) (hk : k ≤ S.length) (o : BobsObj m) :
    ((List.range k).foldlM
      (fun (o : BobsObj m) i => do
        let x ← pyGetN S i
        let st ← pySetN o.state i 0
        pure { o with number := o.number + x, state := st }) { o with state := S } : Py (BobsObj m))
      = .ok { o with state := List.replicate k 0 ++ S.drop k, number := o.number + (S.take k).sum } := by
  induction k with
  | zero => simp [pure, Except.pure]
  | succ k ih =>
    have hk' : k < S.length := by omega
    rw [List.range_succ, List.foldlM_append, ih (by omega)]
    simp only [List.foldlM_cons, List.foldlM_nil, pyGetN_ok hk', bind, Except.bind, pure, Except.pure]
    rw [pySetN_ok (by simp; omega)]
    have e : (List.replicate k 0 ++ S.drop k).set k 0 = List.replicate (k + 1) 0 ++ S.drop (k + 1) := by
      rw [List.set_append_right _ _ (by simp), List.length_replicate, Nat.sub_self, List.drop_eq_getElem_cons hk',
        List.set_cons_zero, List.replicate_succ', List.append_assoc]
      rfl
    rw [e, List.sum_take_succ _ _ hk', ← Nat.add_assoc]

theorem foldl_max_le (l : List ℕ) (x : ℕ) : x ≤ l.foldl max x ∧ ∀ y ∈ l, y ≤ l.foldl max x := by
  induction l generalizing x with
  | nil => simp
  | cons a l ih =>
    obtain ⟨h1, h2⟩ := ih (max x a)
    refine ⟨by simp only [List.foldl_cons]; omega, fun y hy => ?_⟩
    rcases List.mem_cons.mp hy with rfl | hy
    · simp only [List.foldl_cons]; omega
    · exact h2 y hy

theorem foldl_max_sum (l : List ℕ) (x : ℕ) : l.foldl max x ≤ x + l.sum := by
  induction l generalizing x with
  | nil => simp
  | cons a l ih =>
    have := ih (max x a)
    simp only [List.foldl_cons, List.sum_cons]
    omega

theorem pyMaxN_ok (S : List ℕ) (h : S ≠ []) : ∃ mx, pyMaxN S = .ok mx ∧ (∀ x ∈ S, x ≤ mx) ∧ mx ≤ S.sum := by
  cases S with
  | nil => exact absurd rfl h
  | cons a S =>
    refine ⟨_, rfl, fun x hx => ?_, by simpa using foldl_max_sum S a⟩
    obtain ⟨h1, h2⟩ := foldl_max_le S a
    rcases List.mem_cons.mp hx with rfl | hx
    · exact h1
    · exact h2 x hx

theorem bobsPrepare_ok {m : ℕ} (o : BobsObj m) (S : List ℕ) (hne : S ≠ []) (hk : o.k ≤ S.length) :
    ∃ mx, (∀ x ∈ S, x ≤ mx) ∧ o.number + (S.take o.k).sum ≤ mx ∧ mx ≤ o.number + S.sum ∧
      bobsPrepare o S = .ok { o with
        state := List.replicate o.k 0 ++ S.drop o.k, number := o.number + (S.take o.k).sum,
        weights := bobsWeights o.losses mx } := by
  obtain ⟨mx, h1, h2, h3⟩ := pyMaxN_ok S hne
  have h4 : (S.take o.k).sum ≤ S.sum := by
    conv_rhs => rw [← List.take_append_drop o.k S, List.sum_append]
    omega
  refine ⟨max mx (o.number + (S.take o.k).sum), fun x hx => (h2 x hx).trans (le_max_left _ _), le_max_right _ _,
    by omega, ?_⟩
  unfold bobsPrepare
  simp only
  rw [bobsPrepare_loop S o.k hk o, h1]
  rfl

/-! ### The network of a sample -/

open Matrix in
/-- A matrix that does not increase norms has singular values at most 1. -/
theorem svd_le_one {m : ℕ} (B : Matrix (Fin m) (Fin m) ℂ) (d : Svd m) (h : IsSvd B d)
    (hB : ∀ x : Fin m → ℂ, ∑ i, Complex.normSq ((B *ᵥ x) i) ≤ ∑ i, Complex.normSq (x i)) (i : Fin m) : d.s i ≤ 1 := by
  have hU := mem_unitaryGroup_iff.mp h.unitaryU
  have hx : d.U *ᵥ (star d.U *ᵥ Pi.single i 1) = Pi.single i 1 := by
    rw [mulVec_mulVec, hU, one_mulVec]
  have hU' : star d.U ∈ unitaryGroup (Fin m) ℂ := Unitary.star_mem h.unitaryU
  have h1 := hB (star d.U *ᵥ Pi.single i 1)
  rw [normSq_unitary _ hU', h.product, mul_assoc, ← mulVec_mulVec, normSq_unitary _ h.unitaryV, ← mulVec_mulVec, hx] at h1
  have e1 : ∑ j, Complex.normSq ((Pi.single i 1 : Fin m → ℂ) j) = 1 := by
    rw [sum_eq_single i]
    · simp
    · intro j _ hj; simp [hj]
    · simp
  have e2 : ∑ j, Complex.normSq ((diagonal (fun i => (d.s i : ℂ)) *ᵥ (Pi.single i 1 : Fin m → ℂ)) j) = d.s i ^ 2 := by
    rw [sum_eq_single i]
    · simp [mulVec_diagonal, sq]
    · intro j _ hj; simp [mulVec_diagonal, hj]
    · simp
  rw [e1, e2] at h1
  have := h.nonneg i
  nlinarith

open Matrix in
theorem network_le_one {m : ℕ} {A P Q : Matrix (Fin m) (Fin m) ℂ} {d : Svd m} (hA : IsSvd A d) (h1 : ∀ i, d.s i ≤ 1)
    (hP : P ∈ unitaryGroup (Fin m) ℂ) (hQ : Q ∈ unitaryGroup (Fin m) ℂ) (d' : Svd m) (hd : IsSvd (A * P * Q) d') (i : Fin m) :
    d'.s i ≤ 1 := by
  refine svd_le_one _ d' hd (fun x => ?_) i
  rw [mul_assoc, ← mulVec_mulVec, ← mulVec_mulVec]
  refine (normSq_contraction A d hA h1 _).trans ?_
  rw [normSq_unitary P hP, normSq_unitary Q hQ]

end Verif
