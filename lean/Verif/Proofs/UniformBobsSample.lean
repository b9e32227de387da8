import Verif.Proofs.UniformBobs
import Verif.Props.Bobs

/-! Helper lemmas: one sample of the sampler with uniform losses applied to the input. -/
namespace Verif

open Finset
open scoped ENNReal

theorem sum_map_range {α R : Type} [AddCommMonoid R] (L : List α) (F : α → R) (G : ℕ → R)
    (h : ∀ i (hi : i < L.length), G i = F L[i]) : (L.map F).sum = ∑ i ∈ range L.length, G i := by
  induction L generalizing G with
  | nil => rfl
  | cons a L ih =>
    rw [List.map_cons, List.sum_cons, List.length_cons, sum_range_succ', ih (fun i => G (i + 1)), h 0 (by simp),
      add_comm]
    · rfl
    · intro i hi
      rw [h (i + 1) (by simpa using hi)]
      rfl

theorem choice_wp {α β γ : Type} (R : List γ) (v : γ → α) (w : γ → ℝ) (hw : Prog.IsProbVector (R.map w)) (k : α → Prog β)
    (f : Py β → ℝ≥0∞) :
    ((Prog.categorical (R.map w)).bind fun i => (Prog.done (pyGetN (R.map v) i)).bind k).wp f
      = (R.map fun a => ENNReal.ofReal (w a) * (k (v a)).wp f).sum := by
  rw [Prog.categorical, Prog.bind, Prog.wp, if_pos hw, List.length_map]
  refine (sum_map_range R _ _ fun i hi => ?_).symm
  rw [Prog.pure_eq, Prog.done_ok_bind, pyGetN_ok (by simpa using hi), Prog.done_ok_bind,
    getD_of_lt _ _ (by simpa using hi), List.getElem_map, List.getElem_map]

theorem choice_all {α β γ : Type} (R : List γ) (v : γ → α) (w : γ → ℝ) (k : α → Prog β) {I : β → Prop} {E : PyErr → Prop}
    (h0 : ¬ Prog.IsProbVector (R.map w) → E .valueError) (h : ∀ a ∈ R, 0 < w a → (k (v a)).All I E) :
    ((Prog.categorical (R.map w)).bind fun i => (Prog.done (pyGetN (R.map v) i)).bind k).All I E := by
  refine Prog.all_choice h0 fun i hi hp => ?_
  rw [List.length_map] at hi
  simp only [Prog.pure_eq]
  rw [Prog.done_ok_bind, pyGetN_ok (by simpa using hi), Prog.done_ok_bind, List.getElem_map]
  rw [getD_of_lt _ _ (by simpa using hi), List.getElem_map] at hp
  exact h _ (List.getElem_mem hi) hp

/-- A call raises for all draws when the weights are no probability vector. -/
theorem choice_raise {β : Type} (w : List ℝ) (k : ℕ → Prog β) (h0 : ¬ Prog.IsProbVector w) :
    ((Prog.categorical w).bind k).All (fun _ => False) (· = .valueError) := by
  intro r hr
  rcases hr with ⟨-, rfl⟩ | ⟨h, -⟩
  · exact .inr ⟨_, rfl, rfl⟩
  · exact absurd h h0

theorem all_shuffle {α : Type} {E : PyErr → Prop} {n : ℕ} {k : List ℕ → Prog α} {I : α → Prop}
    (h : ∀ σ : Equiv.Perm (Fin n), (k (List.ofFn fun i => (σ i : ℕ))).All I E) : (Prog.shuffle n k).All I E := by
  rintro r ⟨l, hl, hr⟩
  have hlen : l.length = n := by simpa using hl.length_eq
  have hlt : ∀ i (hi : i < l.length), l[i] < n := fun i hi => by
    have := hl.mem_iff.mp (List.getElem_mem hi)
    simpa using this
  let g : Fin n → Fin n := fun i => ⟨l[i]'(by omega), hlt _ _⟩
  have hg : Function.Injective g := by
    intro a b hab
    have hn : l.Nodup := hl.nodup_iff.mpr List.nodup_range
    have : l[(a : ℕ)]'(by omega) = l[(b : ℕ)]'(by omega) := by simpa [g] using hab
    exact Fin.ext ((List.Nodup.getElem_inj_iff hn).mp this)
  let σ : Equiv.Perm (Fin n) := Equiv.ofBijective g (Finite.injective_iff_bijective.mp hg)
  have : l = List.ofFn fun i => (σ i : ℕ) := by
    refine List.ext_getElem (by simp [hlen]) fun i h1 h2 => ?_
    simp [σ, g]
  rw [this] at hr
  exact h σ r hr

theorem permCols_ofFn {m : ℕ} (U : Matrix (Fin m) (Fin m) ℂ) (σ : Equiv.Perm (Fin m)) :
    permCols U (List.ofFn fun i => (σ i : ℕ)) = U.submatrix id σ := by
  ext i j
  rw [permCols, Matrix.of_apply, Matrix.submatrix_apply]
  simp

theorem submatrix_unitary {m : ℕ} {U : Matrix (Fin m) (Fin m) ℂ} (hU : U ∈ Matrix.unitaryGroup (Fin m) ℂ)
    (σ : Equiv.Perm (Fin m)) : U.submatrix id σ ∈ Matrix.unitaryGroup (Fin m) ℂ := by
  have h := Matrix.mem_unitaryGroup_iff'.mp hU
  rw [Matrix.mem_unitaryGroup_iff', Matrix.star_eq_conjTranspose, Matrix.conjTranspose_submatrix]
  ext i j
  have h2 := congrFun (congrFun h (σ i)) (σ j)
  rw [Matrix.mul_apply] at h2 ⊢
  rw [Matrix.one_apply] at h2 ⊢
  simpa using h2

/-- The matrix of one sample. -/
noncomputable def uBobsNet {m : ℕ} (U : Matrix (Fin m) (Fin m) ℂ) (h : ℕ) (us : Fin (m - h) → ℝ) (σ : Equiv.Perm (Fin m)) :
    Matrix (Fin m) (Fin m) ℂ :=
  U.submatrix id σ * phaseMatrix (m - h) m us * dftMatrix (m - h) m

theorem uBobsNet_unitary {m : ℕ} {U : Matrix (Fin m) (Fin m) ℂ} (hU : U ∈ Matrix.unitaryGroup (Fin m) ℂ) (h : ℕ)
    (us : Fin (m - h) → ℝ) (σ : Equiv.Perm (Fin m)) : uBobsNet U h us σ ∈ Matrix.unitaryGroup (Fin m) ℂ :=
  mul_mem (mul_mem (submatrix_unitary hU σ) (generatePhases_eq _ _ (Nat.sub_le _ _) us).2)
    (generateQft_eq _ _ (Nat.sub_le _ _)).2

section

variable {m : ℕ} {o : UBobsObj m}

theorem uBobsMatrix_eq (hq : o.qft = dftMatrix (m - o.h) m) :
    uBobsMatrix o = (randVec (m - o.h)).bind fun us => Prog.shuffle m fun l =>
      .done (.ok (permCols o.U l * phaseMatrix (m - o.h) m (fun i => us.getD i 0) * dftMatrix (m - o.h) m)) := by
  unfold uBobsMatrix
  simp only [Prog.lift_def, Prog.bind_eq, (generatePhases_eq (m - o.h) m (Nat.sub_le _ _) _).1, hq,
    Prog.pure_eq, Prog.permutation, Prog.bind]

theorem uBobsMatrix_wp (hq : o.qft = dftMatrix (m - o.h) m) (f : Py (Matrix (Fin m) (Fin m) ℂ) → ℝ≥0∞) :
    (uBobsMatrix o).wp f = expUniform (m - o.h) fun us =>
      (∑ σ : Equiv.Perm (Fin m), f (.ok (uBobsNet o.U o.h us σ))) / m.factorial := by
  rw [uBobsMatrix_eq hq, Prog.wp_bind, randVec_wp]
  refine expUniform_congr _ _ _ fun us => ?_
  rw [Prog.post, Prog.wp]
  congr 1
  refine sum_congr rfl fun σ _ => ?_
  rw [Prog.wp, permCols_ofFn, uBobsNet]
  congr 5
  funext i
  simp

theorem uBobsMatrix_all (hq : o.qft = dftMatrix (m - o.h) m) :
    (uBobsMatrix o).All (fun B => ∃ us σ, B = uBobsNet o.U o.h us σ) fun _ => False := by
  rw [uBobsMatrix_eq hq]
  refine Prog.all_bind (randVec_all _) fun us _ => all_shuffle fun σ => Prog.all_done_ok ⟨fun i => us.getD i 0, σ, ?_⟩
  rw [permCols_ofFn, uBobsNet]

theorem rowsOf_interferometer {B : Matrix (Fin m) (Fin m) ℂ} (hB : B ∈ Matrix.unitaryGroup (Fin m) ℂ) (hm : 0 < m)
    (S : List ℕ) (hS : S.length = m) : Interferometer (rowsOf B) S where
  square := by
    intro r hr
    obtain ⟨i, -, rfl⟩ : ∃ i, True ∧ r = List.ofFn (B i) := by
      simpa [rowsOf, eq_comm] using hr
    simp [rowsOf]
  len := by simp [rowsOf, hS]
  ne := by rintro rfl; simp at hS; omega
  ortho := by rw [hS]; exact (unitary_isDilation hB).isometric

end

/-- One sample of the sampler for lossless interferometers. -/
noncomputable def gccbOne {m : ℕ} (B : Matrix (Fin m) (Fin m) ℂ) (fuel : ℕ) (S : List ℕ) : Prog (List ℕ) :=
  (gccbSimulate (ryserSubPermanents fuel) (rowsOf B) fuel S 1).bind fun res => .done (pyGetN res 0)

theorem gccbOne_all {m : ℕ} {B : Matrix (Fin m) (Fin m) ℂ} (hB : B ∈ Matrix.unitaryGroup (Fin m) ℂ) (hm : 0 < m)
    (S : List ℕ) (hS : S.length = m) (fuel : ℕ) (hf : (S.map (· + 1)).prod ≤ fuel) :
    (gccbOne B fuel S).All (fun T => T.length = m ∧ T.sum = S.sum) fun _ => False := by
  refine Prog.all_bind (I := fun l => GoodSamples S 1 l) (fun r hr => ?_) ?_
  · exact .inl (C29_gccb_total (rowsOf_interferometer hB hm S hS) fuel hf 1 r hr)
  · rintro l ⟨h2, h3⟩
    obtain ⟨T, rfl⟩ := List.length_eq_one_iff.mp h2
    have := h3 T (by simp)
    exact Prog.all_done_ok ⟨by rw [this.1, hS], this.2⟩

open Classical in
theorem lossyProb_zero (W : List (List ℂ)) (S T : List ℕ) :
    lossyProb W 0 S T = if T.sum = S.sum then bosonProb W S T else 0 := by
  unfold lossyProb
  rw [Finset.sum_filter]
  simp

open Classical in
theorem gccbOne_prob {m : ℕ} {B : Matrix (Fin m) (Fin m) ℂ} (hB : B ∈ Matrix.unitaryGroup (Fin m) ℂ) (hm : 0 < m)
    (S : List ℕ) (hS : S.length = m) (fuel : ℕ) (hf : (S.map (· + 1)).prod ≤ fuel) (T : List ℕ) (hT : T.length = m) :
    (gccbOne B fuel S).prob (fun r => r = .ok T) = ENNReal.ofReal (lossyProb (rowsOf B) 0 S T) := by
  rw [lossyProb_zero]
  by_cases hs : T.sum = S.sum
  · rw [if_pos hs, ← C28_sample (rowsOf_interferometer hB hm S hS) fuel hf 1 0 (by decide) T (hT.trans hS.symm) hs]
    unfold Prog.prob
    rw [gccbOne, Prog.wp_bind]
    refine Prog.wp_congr _ _ _ fun r hr => ?_
    obtain ⟨l, rfl, h2, -⟩ := C29_gccb_total (rowsOf_interferometer hB hm S hS) fuel hf 1 r hr
    obtain ⟨T', rfl⟩ := List.length_eq_one_iff.mp h2
    simp [Prog.post, Prog.wp, pyGetN]
  · rw [if_neg hs, ENNReal.ofReal_zero]
    unfold Prog.prob
    refine Eq.trans (Prog.wp_congr _ _ (fun _ => 0) fun r hr => ?_) (Prog.wp_const _ _)
    rcases gccbOne_all hB hm S hS fuel hf r hr with ⟨T', rfl, -, h2⟩ | ⟨_, _, h⟩
    · rw [if_neg]
      intro h
      injection h with h
      subst h
      exact hs h2
    · exact h.elim


/-! ### The weights of the exactly treated part -/

/-- The cases in which the weights are right. -/
def GoodPart (eta : ℝ) (s : List ℕ) : Prop := eta = 0 ∨ eta = 1 ∨ ∀ a ∈ s, a ≤ 1

theorem mode_weight {eta : ℝ} {a l : ℕ} (h : eta = 0 ∨ eta = 1 ∨ a ≤ 1) (hl : l ≤ a) :
    eta ^ l * (1 - eta) ^ (a - l) = binomialWeight a l eta := by
  unfold binomialWeight
  rcases h with rfl | rfl | h
  · rcases Nat.eq_zero_or_pos l with rfl | h
    · simp
    · simp [zero_pow h.ne']
  · rcases Nat.lt_or_ge l a with h | h
    · simp [zero_pow (Nat.sub_pos_of_lt h).ne']
    · obtain rfl : l = a := by omega
      simp
  · have : a.choose l = 1 := by
      interval_cases a <;> interval_cases l <;> rfl
    rw [this]; simp

theorem part_weight {eta : ℝ} {L s : List ℕ} (h : GoodPart eta s) (hl : StateLE L s) :
    eta ^ L.sum * (1 - eta) ^ (s.sum - L.sum) = (List.zipWith (fun n l => binomialWeight n l eta) s L).prod := by
  induction hl with
  | nil => simp
  | @cons l a L s h1 h2 ih =>
    have hle := ModeLe.sum_le h2
    rw [List.zipWith_cons_cons, List.prod_cons, ← ih, ← mode_weight (a := a) (l := l) _ h1, List.sum_cons, List.sum_cons,
      pow_add, show a + s.sum - (l + L.sum) = (a - l) + (s.sum - L.sum) by omega, pow_add]
    · ring
    · rcases h with h | h | h
      · exact .inl h
      · exact .inr (.inl h)
      · exact .inr (.inr (h a (by simp)))
    · rcases h with h | h | h
      · exact .inl h
      · exact .inr (.inl h)
      · exact .inr (.inr fun x hx => h x (by simp [hx]))

/-- Total weight of one mode. -/
noncomputable def modeTotal (eta : ℝ) (a : ℕ) : ℝ := ∑ l ∈ range (a + 1), eta ^ l * (1 - eta) ^ (a - l)

theorem binomial_total (eta : ℝ) (a : ℕ) : ∑ l ∈ range (a + 1), binomialWeight a l eta = 1 := by
  have := add_pow eta (1 - eta) a
  rw [add_sub_cancel, one_pow] at this
  rw [this]
  refine sum_congr rfl fun l _ => ?_
  unfold binomialWeight; ring

theorem modeTotal_good {eta : ℝ} {a : ℕ} (h : eta = 0 ∨ eta = 1 ∨ a ≤ 1) : modeTotal eta a = 1 := by
  rw [← binomial_total eta a, modeTotal]
  exact sum_congr rfl fun l hl => mode_weight h (by have := mem_range.mp hl; omega)

theorem modeTotal_le {eta : ℝ} (h0 : 0 ≤ eta) (h1 : eta ≤ 1) (a : ℕ) : modeTotal eta a ≤ 1 := by
  rw [← binomial_total eta a, modeTotal]
  refine sum_le_sum fun l hl => ?_
  have hl' : l ≤ a := by have := mem_range.mp hl; omega
  have hc : (1 : ℝ) ≤ a.choose l := by exact_mod_cast Nat.choose_pos hl'
  unfold binomialWeight
  have h2 : 0 ≤ eta ^ l * (1 - eta) ^ (a - l) := mul_nonneg (pow_nonneg h0 _) (pow_nonneg (by linarith) _)
  nlinarith

theorem modeTotal_lt {eta : ℝ} (h0 : 0 < eta) (h1 : eta < 1) (a : ℕ) (ha : 2 ≤ a) : modeTotal eta a < 1 := by
  rw [← binomial_total eta a, modeTotal]
  refine sum_lt_sum (fun l hl => ?_) ⟨1, by simp; omega, ?_⟩
  · have hl' : l ≤ a := by have := mem_range.mp hl; omega
    have hc : (1 : ℝ) ≤ a.choose l := by exact_mod_cast Nat.choose_pos hl'
    unfold binomialWeight
    have h2 : 0 ≤ eta ^ l * (1 - eta) ^ (a - l) := mul_nonneg (pow_nonneg h0.le _) (pow_nonneg (by linarith) _)
    nlinarith
  · unfold binomialWeight
    have hc : (1 : ℝ) < a.choose 1 := by rw [Nat.choose_one_right]; exact_mod_cast ha
    have h2 : 0 < eta ^ 1 * (1 - eta) ^ (a - 1) := mul_pos (pow_pos h0 _) (pow_pos (by linarith) _)
    nlinarith

theorem modeTotal_nonneg {eta : ℝ} (h0 : 0 ≤ eta) (h1 : eta ≤ 1) (a : ℕ) : 0 ≤ modeTotal eta a :=
  sum_nonneg fun _ _ => mul_nonneg (pow_nonneg h0 _) (pow_nonneg (by linarith) _)

theorem prodTotal_le {eta : ℝ} (h0 : 0 ≤ eta) (h1 : eta ≤ 1) (s : List ℕ) : (s.map (modeTotal eta)).prod ≤ 1 := by
  induction s with
  | nil => simp
  | cons a s ih =>
    rw [List.map_cons, List.prod_cons]
    have h2 := modeTotal_le h0 h1 a
    have h3 := modeTotal_nonneg h0 h1 a
    have h4 : 0 ≤ (s.map (modeTotal eta)).prod := List.prod_nonneg (by
      intro x hx; obtain ⟨b, -, rfl⟩ := List.mem_map.mp hx; exact modeTotal_nonneg h0 h1 b)
    nlinarith

theorem prodTotal_lt {eta : ℝ} (h0 : 0 < eta) (h1 : eta < 1) (s : List ℕ) (hs : ∃ a ∈ s, 2 ≤ a) :
    (s.map (modeTotal eta)).prod < 1 := by
  induction s with
  | nil => simp at hs
  | cons a s ih =>
    rw [List.map_cons, List.prod_cons]
    have h2 := modeTotal_le h0.le h1.le a
    have h3 := modeTotal_nonneg h0.le h1.le a
    have h4 : 0 ≤ (s.map (modeTotal eta)).prod := List.prod_nonneg (by
      intro x hx; obtain ⟨b, -, rfl⟩ := List.mem_map.mp hx; exact modeTotal_nonneg h0.le h1.le b)
    have h5 := prodTotal_le h0.le h1.le s
    obtain ⟨b, hb, hb2⟩ := hs
    rcases List.mem_cons.mp hb with rfl | hb
    · have := modeTotal_lt h0 h1 b hb2
      nlinarith
    · have := ih ⟨b, hb, hb2⟩
      nlinarith

theorem prodTotal_good {eta : ℝ} {s : List ℕ} (h : GoodPart eta s) : (s.map (modeTotal eta)).prod = 1 := by
  refine List.prod_eq_one fun x hx => ?_
  obtain ⟨a, ha, rfl⟩ := List.mem_map.mp hx
  refine modeTotal_good ?_
  rcases h with h | h | h
  · exact .inl h
  · exact .inr (.inl h)
  · exact .inr (.inr (h a ha))

theorem prodTotal_iff {eta : ℝ} (h0 : 0 ≤ eta) (h1 : eta ≤ 1) (s : List ℕ) :
    (s.map (modeTotal eta)).prod = 1 ↔ GoodPart eta s := by
  refine ⟨fun h => ?_, prodTotal_good⟩
  by_contra hg
  unfold GoodPart at hg
  push Not at hg
  obtain ⟨h2, h3, a, ha, ha'⟩ := hg
  exact absurd h (prodTotal_lt (lt_of_le_of_ne h0 (Ne.symm h2)) (lt_of_le_of_ne h1 h3) s ⟨a, ha, ha'⟩).ne

end Verif
