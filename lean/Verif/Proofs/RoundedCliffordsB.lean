import Verif.Proofs.RoundedEntriesB
import Verif.Proofs.Closeness
import Verif.Proofs.CliffordsBRuns
import Verif.Proofs.CliffordsLoss
import Verif.Proofs.RoundedLossLaw
import Verif.Proofs.LossyNet

/-! Helper lemmas: version B of the generalized Clifford & Clifford sampler in floating-point arithmetic. -/
namespace Verif

open Finset
open scoped ENNReal

/-! ### A step with an arbitrary second part -/

/-- A step after the pick of mode `x`. -/
def coreWith (tail : List ℕ → List ℕ → Prog (List ℕ × List ℕ)) (cur r : List ℕ) (x : ℕ) : Prog (List ℕ × List ℕ) :=
  (Prog.done (pyGetN cur x)).bind fun v => (Prog.done (pySetN cur x (v + 1))).bind fun cur' => tail cur' r

/-- A step: the pick of a particle, then `tail`. -/
def stepWith (tail : List ℕ → List ℕ → Prog (List ℕ × List ℕ)) (s : GccbState) : Prog GccbState :=
  .randint s.work.length fun i => (Prog.done (pyGetN s.work i)).bind fun x =>
    (coreWith tail s.cur s.r x).bind fun p => .done (.ok { cur := p.1, work := s.work.eraseIdx i, r := p.2 })

/-- The part of a rounded step after the pick. -/
noncomputable def gccbTailR (R : Rounding) (A : ComplexArith) (sub : CalcCfg ℂ → Py (List ℂ)) (U : List (List ℂ)) (m : ℕ)
    (cur r : List ℕ) : Prog (List ℕ × List ℕ) :=
  (Prog.done (gccbPmfR R A sub U cur r)).bind fun pmf =>
  (npChoiceR R m pmf).bind fun j =>
  (Prog.done (pyGetN r j)).bind fun x =>
  (Prog.done (pySetN r j (x + 1))).bind fun r' => .done (.ok (cur, r'))

theorem gccbStep_with (sub : CalcCfg ℂ → Py (List ℂ)) (U : List (List ℂ)) (m : ℕ) :
    gccbStep sub U m = stepWith (gccbTail sub U m) := by
  funext s
  rw [gccbStep_eq]
  rfl

theorem gccbStepR_with (R : Rounding) (A : ComplexArith) (sub : CalcCfg ℂ → Py (List ℂ)) (U : List (List ℂ)) (m : ℕ) :
    gccbStepR R A sub U m = stepWith (gccbTailR R A sub U m) := by
  funext s
  unfold gccbStepR gccbUpdateInput stepWith coreWith gccbTailR gccbSampleR
  simp only [Prog.bind_eq, Prog.lift_def, Prog.pure_eq, Prog.randBelow, Prog.bind, Prog.bind_assoc]

section

variable (tail : List ℕ → List ℕ → Prog (List ℕ × List ℕ))

theorem stepWith_wp (s : GccbState) (g : GccbState → Prog GccbState) (f : Py GccbState → ℝ≥0∞) (h0 : s.work ≠ []) :
    ((stepWith tail s).bind g).wp f
      = ((picks s.work).map fun p =>
          (coreWith tail s.cur s.r p.1).wp (afterStep (fun s => (g s).wp f) f p.2)).sum / s.work.length := by
  unfold stepWith
  simp only [Prog.bind, Prog.wp]
  rw [if_neg (by simpa using h0)]
  congr 1
  rw [← sum_picks_index s.work (fun x w =>
    (coreWith tail s.cur s.r x).wp (afterStep (fun s => (g s).wp f) f w))]
  refine sum_congr rfl fun i hi => ?_
  have hi := mem_range.mp hi
  rw [pyGetN_ok hi, getD_of_lt _ _ hi]
  simp only [Prog.done_ok_bind, Prog.bind_assoc]
  rw [Prog.wp_bind]
  congr 1
  funext x
  cases x <;> rfl

theorem loopWith_perm (cond : List ℕ → Bool) (f : Py GccbState → ℝ≥0∞)
    (hf : ∀ cur r w w', w.Perm w' → f (.ok ⟨cur, w, r⟩) = f (.ok ⟨cur, w', r⟩))
    (fuel : ℕ) (cur r w w' : List ℕ) (h : w.Perm w') :
    (Prog.loop fuel (fun s => cond s.r) (stepWith tail) ⟨cur, w, r⟩).wp f
      = (Prog.loop fuel (fun s => cond s.r) (stepWith tail) ⟨cur, w', r⟩).wp f := by
  induction fuel generalizing cur r w w' with
  | zero => rfl
  | succ fuel ih =>
    rw [Prog.loop_succ, Prog.loop_succ]
    by_cases hc : cond r = true
    · rw [if_pos hc, if_pos hc]
      by_cases h0 : w = []
      · subst h0
        rw [List.nil_perm.mp h]
      · have h0' : w' ≠ [] := by rintro rfl; exact h0 h.eq_nil
        rw [stepWith_wp _ _ _ _ h0, stepWith_wp _ _ _ _ h0']
        simp only
        rw [h.length_eq]
        congr 1
        refine sum_picks_perm h (fun x w => (coreWith tail cur r x).wp (afterStep (fun s =>
          (Prog.loop fuel (fun s => cond s.r) (stepWith tail) s).wp f) f w)) ?_
        intro x a b hab
        congr 1
        funext y
        cases y with
        | ok p => exact ih p.1 p.2 a b hab
        | error e => rfl
    · rw [if_neg hc, if_neg hc]
      exact hf _ _ _ _ h

theorem coreWith_eq {S : List ℕ} (A : Finset (Particle S)) (a : Particle S) (ha : a ∉ A) (r : List ℕ) :
    coreWith tail (curOf A) r a.1.1 = tail (curOf (insert a A)) r := by
  have h1 : a.1.1 < (curOf A).length := by simp [curOf, occOf]
  unfold coreWith
  rw [pyGetN_ok h1]
  simp only [Prog.done_ok_bind]
  rw [pySetN_ok h1, set_eq_modify _ _ h1, curOf_insert A a ha]
  rfl

/-- The remaining loop from a set of used particles. -/
noncomputable def restWith (S : List ℕ) (t fuel : ℕ) (f : Py GccbState → ℝ≥0∞) (A : Finset (Particle S)) (r : List ℕ) :
    ℝ≥0∞ :=
  (Prog.loop fuel (fun s => decide (s.r.sum < t)) (stepWith tail) ⟨curOf A, modesOf Aᶜ, r⟩).wp f

/-- What is left after `tail` when the particles `A` have been used. -/
noncomputable def contWith (S : List ℕ) (t fuel : ℕ) (f : Py GccbState → ℝ≥0∞) (A : Finset (Particle S)) :
    Py (List ℕ × List ℕ) → ℝ≥0∞ :=
  afterStep (fun s => (Prog.loop fuel (fun s => decide (s.r.sum < t)) (stepWith tail) s).wp f) f (modesOf Aᶜ)

theorem contWith_le_one (S : List ℕ) (t fuel : ℕ) (f : Py GccbState → ℝ≥0∞) (hf : ∀ r, f r ≤ 1)
    (A : Finset (Particle S)) (x : Py (List ℕ × List ℕ)) : contWith tail S t fuel f A x ≤ 1 := by
  cases x with
  | ok p => exact Prog.wp_le_one _ f hf
  | error e => exact hf _

theorem restWith_succ {S : List ℕ} (t fuel : ℕ) (f : Py GccbState → ℝ≥0∞)
    (hf : ∀ cur r w w', w.Perm w' → f (.ok ⟨cur, w, r⟩) = f (.ok ⟨cur, w', r⟩))
    (A : Finset (Particle S)) (r : List ℕ) (ht : r.sum < t) (hA : A.card < S.sum) :
    restWith tail S t (fuel + 1) f A r
      = (∑ a ∈ Aᶜ, (tail (curOf (insert a A)) r).wp (contWith tail S t fuel f (insert a A)))
        / ((S.sum - A.card : ℕ) : ℝ≥0∞) := by
  have hc : Aᶜ.card = S.sum - A.card := by rw [card_compl, card_particle]
  unfold restWith contWith
  rw [Prog.loop_succ, if_pos (by simpa using ht), stepWith_wp]
  · simp only
    rw [modesOf_length, hc, sum_picks_set2 Aᶜ (fun x w => (coreWith tail (curOf A) r x).wp
      (afterStep (fun s => (Prog.loop fuel (fun s => decide (s.r.sum < t)) (stepWith tail) s).wp f) f w))]
    · congr 1
      refine sum_congr rfl fun a ha => ?_
      rw [mem_compl] at ha
      rw [coreWith_eq tail A a ha, compl_insert]
    · intro x a b hab
      congr 1
      funext y
      cases y with
      | ok p => exact loopWith_perm tail (fun r => decide (r.sum < t)) f hf fuel p.1 p.2 a b hab
      | error e => rfl
  · simp only
    intro h0
    have := modesOf_length Aᶜ
    rw [h0, hc] at this
    simp at this
    omega

/-- One round, summed over the sets of used particles. -/
theorem restWith_sum {S : List ℕ} {U : List (List ℂ)} (ho : UsedOrtho (colOf U) S.length S) (t fuel : ℕ)
    (f : Py GccbState → ℝ≥0∞)
    (hf : ∀ cur r w w', w.Perm w' → f (.ok ⟨cur, w, r⟩) = f (.ok ⟨cur, w', r⟩))
    (r : List ℕ) (ht : r.sum < t) (hS : r.sum < S.sum) :
    ∑ A ∈ powersetCard r.sum (univ : Finset (Particle S)),
        ENNReal.ofReal (phi (colOf U) (particles r) (modesOf A)) * restWith tail S t (fuel + 1) f A r
      = (∑ A ∈ powersetCard (r.sum + 1) (univ : Finset (Particle S)),
          ENNReal.ofReal (∑ j ∈ range S.length, phi (colOf U) (j :: particles r) (modesOf A)) *
            (tail (curOf A) r).wp (contWith tail S t fuel f A)) / ((S.sum - r.sum : ℕ) : ℝ≥0∞) := by
  set W : Finset (Particle S) → ℝ≥0∞ := fun A => (tail (curOf A) r).wp (contWith tail S t fuel f A) with hW
  have e1 : ∀ A ∈ powersetCard r.sum (univ : Finset (Particle S)),
      ENNReal.ofReal (phi (colOf U) (particles r) (modesOf A)) * restWith tail S t (fuel + 1) f A r
      = (∑ a ∈ Aᶜ, ENNReal.ofReal (phi (colOf U) (particles r) (modesOf A)) * W (insert a A))
        / ((S.sum - r.sum : ℕ) : ℝ≥0∞) := by
    intro A hA
    have hAc := (mem_powersetCard.mp hA).2
    rw [restWith_succ tail t fuel f hf A r ht (by omega), hAc, ← mul_div_assoc, mul_sum]
  rw [sum_congr rfl e1]
  simp only [div_eq_mul_inv]
  rw [← sum_mul]
  congr 1
  rw [← sum_powersetCard_erase (α := Particle S) r.sum
    (fun A a => ENNReal.ofReal (phi (colOf U) (particles r) (modesOf A)) * W (insert a A))]
  refine sum_congr rfl fun A _ => ?_
  rw [sum_congr rfl fun a ha => by rw [insert_erase ha], ← sum_mul,
    ← ENNReal.ofReal_sum_of_nonneg fun a _ => phi_nonneg _ _ _, ← sum_phi_modes ho A (particles r)]

end

/-! ### The rounded second part -/

theorem closeF_of_one_le {α : Type} {p q : Prog α} {e : ℝ} (h : 1 ≤ e) : Prog.CloseF p q (ENNReal.ofReal e) := by
  intro f hf
  have h1 : (1 : ℝ≥0∞) ≤ ENNReal.ofReal e := by
    rw [← ENNReal.ofReal_one]; exact ENNReal.ofReal_le_ofReal h
  exact ⟨(Prog.wp_le_one p f hf).trans (h1.trans le_add_self), (Prog.wp_le_one q f hf).trans (h1.trans le_add_self)⟩

theorem one_le_multFact (w : List ℕ) : (1 : ℝ) ≤ (multFact (w : Multiset ℕ) : ℝ) := by
  have : 0 < multFact (w : Multiset ℕ) := by
    unfold multFact
    exact Finset.prod_pos fun i _ => Nat.factorial_pos _
  exact_mod_cast this

section

variable (R : Rounding) (Ar : ComplexArith) {sub sub' : CalcCfg ℂ → Py (List ℂ)} {U' U : List (List ℂ)} {S : List ℕ} {n : ℕ}
  {ε : ℝ}

/-- The error of `numpy.random.choice` with normalised probabilities. -/
noncomputable def choiceErr (m : ℕ) : ℝ := 16 * (m + 1) / 2 ^ 53

theorem choiceErr_nonneg (m : ℕ) : 0 ≤ choiceErr m := by unfold choiceErr; positivity

theorem gccbTailR_close (h : BOk sub U S n) (he : EntriesNear R Ar sub' U' U S ε) (hm : S.length ≤ 2 ^ 20)
    (A : Finset (Particle S)) (r : List ℕ) (hr : r.length = S.length) (hA : A.card = r.sum + 1)
    (hD : 0 < ∑ j ∈ range S.length, phi (colOf U) (j :: particles r) (modesOf A)) :
    Prog.CloseF (gccbTailR R Ar sub' U' S.length (curOf A) r) (gccbTail sub U S.length (curOf A) r)
      (ENNReal.ofReal (choiceErr S.length +
        2 * S.length * ε / ∑ j ∈ range S.length, phi (colOf U) (j :: particles r) (modesOf A))) := by
  set m := S.length with hmdef
  set D := ∑ j ∈ range m, phi (colOf U) (j :: particles r) (modesOf A) with hDdef
  have hpos : 0 < m := by
    by_contra h0
    have : m = 0 := by omega
    rw [hDdef, this] at hD
    simp at hD
  have hle : StateLE (curOf A) S := by rw [curOf_eq]; exact stateOf_le A
  obtain ⟨perms, y, h1, h2, hW, hlen, herr⟩ := he (curOf A) r hle hr (by rw [curOf_eq, stateOf_sum, hA])
  set x : ℕ → ℝ := fun j => entryVal U (curOf A) r j with hx
  have hpm : (particles (curOf A)).Perm (modesOf A) := by rw [curOf_eq]; exact particles_stateOf A
  have hphi : ∀ j, phi (colOf U) (j :: particles r) (modesOf A) = x j / (multFact (modesOf A : Multiset ℕ) : ℝ) := by
    intro j
    rw [hx]
    unfold phi entryVal
    simp only
    rw [amp_perm _ _ hpm]
  have hx0 : ∀ j, 0 ≤ x j := fun j => Complex.normSq_nonneg _
  set F : ℝ := (multFact (modesOf A : Multiset ℕ) : ℝ) with hF
  have hF1 : 1 ≤ F := one_le_multFact _
  have hDX : D = (∑ j ∈ range m, x j) / F := by
    rw [hDdef, sum_div]
    exact sum_congr rfl fun j _ => hphi j
  set X := ∑ j ∈ range m, x j with hXdef
  have hXpos : 0 < X := by
    rw [hDX] at hD
    exact (div_pos_iff_of_pos_right (by linarith)).mp hD
  have hDleX : D ≤ X := by rw [hDX]; exact div_le_self hXpos.le hF1
  have hε : 0 ≤ ε := (abs_nonneg _).trans (herr 0 hpos)
  have hmR : (0 : ℝ) < m := by exact_mod_cast hpos
  have hpmf : gccbPmfR R Ar sub' U' (curOf A) r
      = if sumR R y = 0 then .error .valueError else .ok (y.map fun x => R.rnd (x / sumR R y)) := by
    unfold gccbPmfR
    rw [h1, ok_bind, h2, ok_bind]
    rfl
  by_cases hT : sumR R y = 0
  · -- every computed entry is zero, so the exact ones are small
    refine closeF_of_one_le ?_
    have hs := sumR_within R hW
    rw [hT] at hs
    have hy0 : y.sum = 0 := by
      by_contra hne
      have := hs.pos (lt_of_le_of_ne hW.sum_nonneg (Ne.symm hne)) le_rfl
      exact lt_irrefl _ this
    have hz : ∀ j < m, y.getD j 0 = 0 := by
      intro j hj
      have hj' : j < y.length := by omega
      rw [getD_of_lt _ _ hj']
      refine le_antisymm ?_ (hW _ (List.getElem_mem hj')).2
      rw [← hy0]
      exact List.single_le_sum (fun z hz => (hW z hz).2) _ (List.getElem_mem hj')
    have hXle : X ≤ m * ε := by
      have : ∀ j ∈ range m, x j ≤ ε := by
        intro j hj
        have hj := mem_range.mp hj
        have h3 := herr j hj
        rw [hz j hj, zero_sub, abs_neg, abs_of_nonneg (hx0 j)] at h3
        exact h3
      refine (sum_le_sum this).trans ?_
      rw [sum_const, card_range, nsmul_eq_mul]
    have h4 : 2 ≤ 2 * m * ε / D := by
      rw [le_div_iff₀ hD]
      linarith
    have := choiceErr_nonneg m
    linarith
  · rw [if_neg hT] at hpmf
    have hyne : y ≠ [] := by
      intro h0; rw [h0] at hlen; simp at hlen; omega
    have hylen : y.length ≤ 2 ^ 20 := by omega
    obtain ⟨hWp, -⟩ := normal_sum R hW hylen hT
    obtain ⟨hs1, hs2⟩ := normal_ok R hW hylen hT
    have hcd := normal_choice_dist R hW hylen hT hyne
    set p := y.map fun x => R.rnd (x / sumR R y) with hp
    have hmR' : (y.length : ℝ) ≤ 1048576 := by exact_mod_cast hylen
    have hL : 3 / 4 ≤ sumR R p := by
      have h3 : (5 * (y.length : ℝ) + 3) / 2 ^ 53 ≤ 1 / 4 := by
        rw [div_le_iff₀ (by positivity)]
        norm_num
        linarith
      have := (abs_le.mp (hs2.trans h3)).1
      linarith
    have hs3 : |p.sum - 1| ≤ 1 / 2 ^ 27 := by
      refine hs1.trans ?_
      rw [div_le_div_iff₀ (by positivity) (by positivity)]
      norm_num
      linarith
    have hplen : p.length = m := by rw [hp, List.length_map, hlen]
    refine Prog.CloseF.of_sums (m := m)
      (law := drawLaw (fun k => searchRight ((k : ℝ) / 2 ^ 53) (npCdf R p)))
      (w := fun j => phi (colOf U) (j :: particles r) (modesOf A) / D)
      (v := fun j => .ok (curOf A, r.modify j (· + 1))) ?_ ?_ ?_ ?_ ?_
    · intro f
      unfold gccbTailR
      rw [hpmf]
      simp only [Prog.done_ok_bind]
      rw [npChoiceR_wp R hWp hL (by omega) hplen hm hs3]
      refine sum_congr rfl fun j hj => ?_
      have hj := mem_range.mp hj
      have hj' : j < r.length := by omega
      rw [pyGetN_ok hj']
      simp only [Prog.done_ok_bind]
      rw [pySetN_ok hj', set_eq_modify r j hj']
      rfl
    · intro f
      exact gccbTail_wp h A r hr hA hD f
    · intro j _
      exact drawLaw_nonneg _ j
    · intro j _
      exact div_nonneg (phi_nonneg _ _ _) hD.le
    · have hysum : y.sum = ∑ j ∈ range m, y.getD j 0 := by rw [list_sum_getD y, hlen]
      have hypos : 0 < ∑ j ∈ range m, y.getD j 0 := by
        rw [← hysum]; exact (normal_total R hW hylen hT).1
      have hy0 : ∀ j < m, 0 ≤ y.getD j 0 := by
        intro j hj
        rw [getD_of_lt _ _ (by omega)]
        exact (hW _ (List.getElem_mem _)).2
      have hnd := normal_dist (x' := fun j => y.getD j 0) (x := x) hy0 hypos hXpos herr
      rw [hlen] at hcd
      have hphiD : ∀ j ∈ range m, phi (colOf U) (j :: particles r) (modesOf A) / D = x j / X := by
        intro j _
        rw [hphi, hDX, div_div_div_cancel_right₀ (by linarith)]
      calc ∑ j ∈ range m, |drawLaw (fun k => searchRight ((k : ℝ) / 2 ^ 53) (npCdf R p)) j
              - phi (colOf U) (j :: particles r) (modesOf A) / D|
          ≤ ∑ j ∈ range m, (|drawLaw (fun k => searchRight ((k : ℝ) / 2 ^ 53) (npCdf R p)) j - y.getD j 0 / y.sum|
              + |y.getD j 0 / (∑ j ∈ range m, y.getD j 0) - x j / X|) := by
            refine sum_le_sum fun j hj => ?_
            rw [hphiD j hj, hysum]
            exact abs_sub_le _ _ _
        _ ≤ choiceErr m + 2 * m * ε / X := by
            rw [sum_add_distrib]
            exact add_le_add hcd hnd
        _ ≤ _ := by
            gcongr

/-! ### The loop, summed over the sets of used particles -/

/-- The remaining loop, averaged over the particles that can have been used. -/
noncomputable def pot (tail : List ℕ → List ℕ → Prog (List ℕ × List ℕ)) (U : List (List ℂ)) (S : List ℕ) (t fuel : ℕ)
    (f : Py GccbState → ℝ≥0∞) (r : List ℕ) : ℝ≥0∞ :=
  ∑ A ∈ powersetCard r.sum (univ : Finset (Particle S)),
    ENNReal.ofReal (phi (colOf U) (particles r) (modesOf A)) * restWith tail S t fuel f A r

/-- The weight of a partial output. -/
noncomputable def wgt (U : List (List ℂ)) (S : List ℕ) (r : List ℕ) : ℝ :=
  ∑ A ∈ powersetCard r.sum (univ : Finset (Particle S)), phi (colOf U) (particles r) (modesOf A)

theorem wgt_nonneg (U : List (List ℂ)) (S r : List ℕ) : 0 ≤ wgt U S r := sum_nonneg fun _ _ => phi_nonneg _ _ _

/-- The weight of the next sets. -/
noncomputable def nextW (U : List (List ℂ)) (S r : List ℕ) (A : Finset (Particle S)) : ℝ :=
  ∑ j ∈ range S.length, phi (colOf U) (j :: particles r) (modesOf A)

theorem nextW_nonneg (U : List (List ℂ)) (S r : List ℕ) (A : Finset (Particle S)) : 0 ≤ nextW U S r A :=
  sum_nonneg fun _ _ => phi_nonneg _ _ _

theorem sum_nextW (ho : UsedOrtho (colOf U) S.length S) (r : List ℕ) :
    ∑ A ∈ powersetCard (r.sum + 1) (univ : Finset (Particle S)), nextW U S r A = (S.sum - r.sum : ℕ) * wgt U S r := by
  unfold nextW wgt
  rw [sum_congr rfl fun A _ => sum_phi_modes ho A (particles r),
    sum_powersetCard_erase (α := Particle S) r.sum (fun A _ => phi (colOf U) (particles r) (modesOf A)), mul_sum]
  refine sum_congr rfl fun A hA => ?_
  rw [sum_const, card_compl, card_particle, (mem_powersetCard.mp hA).2, nsmul_eq_mul]

theorem phi_next (r : List ℕ) (hr : r.length = S.length) (A : Finset (Particle S)) :
    ∀ j ∈ range S.length, phi (colOf U) (particles (r.modify j (· + 1))) (modesOf A)
      = phi (colOf U) (j :: particles r) (modesOf A) := fun j hj =>
  phi_perm_rows _ _ (modify_particles r j (by rw [hr]; exact mem_range.mp hj))

theorem sum_wgt_next (ho : UsedOrtho (colOf U) S.length S) (r : List ℕ) (hr : r.length = S.length) :
    ∑ j ∈ range S.length, wgt U S (r.modify j (· + 1)) = (S.sum - r.sum : ℕ) * wgt U S r := by
  rw [← sum_nextW ho r]
  unfold wgt nextW
  rw [sum_congr rfl fun j hj => by rw [modify_sum r j (by rw [hr]; exact mem_range.mp hj)], sum_comm]
  exact sum_congr rfl fun A _ => sum_congr rfl fun j hj => phi_next r hr A j hj

/-- The continuation of a step of the exact sampler. -/
theorem exact_step (h : BOk sub U S n) (r : List ℕ) (hr : r.length = S.length) (A : Finset (Particle S))
    (hA : A.card = r.sum + 1) (tail : List ℕ → List ℕ → Prog (List ℕ × List ℕ)) (t fuel : ℕ) (f : Py GccbState → ℝ≥0∞) :
    ENNReal.ofReal (nextW U S r A) * (gccbTail sub U S.length (curOf A) r).wp (contWith tail S t fuel f A)
      = ∑ j ∈ range S.length, ENNReal.ofReal (phi (colOf U) (particles (r.modify j (· + 1))) (modesOf A)) *
        restWith tail S t fuel f A (r.modify j (· + 1)) := by
  by_cases hD : 0 < nextW U S r A
  · rw [gccbTail_wp h A r hr hA hD, mul_sum]
    refine sum_congr rfl fun j hj => ?_
    change ENNReal.ofReal (nextW U S r A) * (ENNReal.ofReal (_ / nextW U S r A) * _) = _
    rw [← mul_assoc, ← ENNReal.ofReal_mul hD.le, mul_div_cancel₀ _ hD.ne', phi_next r hr A j hj]
    rfl
  · have hz : nextW U S r A = 0 := le_antisymm (not_lt.mp hD) (nextW_nonneg U S r A)
    have hz' := (sum_eq_zero_iff_of_nonneg fun j _ => phi_nonneg (colOf U) (j :: particles r) (modesOf A)).mp hz
    rw [hz, ENNReal.ofReal_zero, zero_mul]
    symm
    refine sum_eq_zero fun j hj => ?_
    rw [phi_next r hr A j hj, hz' j hj, ENNReal.ofReal_zero, zero_mul]

theorem pot_exact (h : BOk sub U S n) (t fuel : ℕ) (f : Py GccbState → ℝ≥0∞)
    (hf' : ∀ cur r w w', w.Perm w' → f (.ok ⟨cur, w, r⟩) = f (.ok ⟨cur, w', r⟩))
    (r : List ℕ) (hr : r.length = S.length) (ht : r.sum < t) (hS : r.sum < S.sum) :
    pot (gccbTail sub U S.length) U S t (fuel + 1) f r
      = (∑ j ∈ range S.length, pot (gccbTail sub U S.length) U S t fuel f (r.modify j (· + 1)))
        / ((S.sum - r.sum : ℕ) : ℝ≥0∞) := by
  unfold pot
  rw [restWith_sum _ h.ortho t fuel f hf' r ht hS]
  congr 1
  refine (sum_congr rfl fun A hA => exact_step h r hr A (mem_powersetCard.mp hA).2 _ t fuel f).trans ?_
  rw [sum_comm]
  exact sum_congr rfl fun j hj => by rw [modify_sum r j (by rw [hr]; exact mem_range.mp hj)]

/-- One round of the rounded sampler. -/
theorem pot_rounded (h : BOk sub U S n) (he : EntriesNear R Ar sub' U' U S ε) (hε : 0 ≤ ε) (hm : S.length ≤ 2 ^ 20)
    (t fuel : ℕ) (f : Py GccbState → ℝ≥0∞) (hf1 : ∀ r, f r ≤ 1)
    (hf' : ∀ cur r w w', w.Perm w' → f (.ok ⟨cur, w, r⟩) = f (.ok ⟨cur, w', r⟩))
    (r : List ℕ) (hr : r.length = S.length) (ht : r.sum < t) (hS : r.sum < S.sum) :
    let tl := gccbTailR R Ar sub' U' S.length
    let e := ENNReal.ofReal (choiceErr S.length * ((S.sum - r.sum : ℕ) * wgt U S r)
      + S.sum.choose (r.sum + 1) * (2 * S.length * ε))
    pot tl U S t (fuel + 1) f r
      ≤ (∑ j ∈ range S.length, pot tl U S t fuel f (r.modify j (· + 1)) + e) / ((S.sum - r.sum : ℕ) : ℝ≥0∞) ∧
    (∑ j ∈ range S.length, pot tl U S t fuel f (r.modify j (· + 1))) / ((S.sum - r.sum : ℕ) : ℝ≥0∞)
      ≤ pot tl U S t (fuel + 1) f r + e / ((S.sum - r.sum : ℕ) : ℝ≥0∞) := by
  intro tl e
  set N : ℝ≥0∞ := ((S.sum - r.sum : ℕ) : ℝ≥0∞) with hN
  set P := powersetCard (r.sum + 1) (univ : Finset (Particle S)) with hP
  set V : Finset (Particle S) → ℝ≥0∞ := fun A => ∑ j ∈ range S.length,
    ENNReal.ofReal (phi (colOf U) (particles (r.modify j (· + 1))) (modesOf A)) *
      restWith tl S t fuel f A (r.modify j (· + 1)) with hV
  have h1 : pot tl U S t (fuel + 1) f r
      = (∑ A ∈ P, ENNReal.ofReal (nextW U S r A) * (tl (curOf A) r).wp (contWith tl S t fuel f A)) / N := by
    unfold pot
    rw [restWith_sum tl h.ortho t fuel f hf' r ht hS]
    rfl
  have h2 : ∑ j ∈ range S.length, pot tl U S t fuel f (r.modify j (· + 1)) = ∑ A ∈ P, V A := by
    rw [hV, sum_comm]
    unfold pot
    exact sum_congr rfl fun j hj => by rw [modify_sum r j (by rw [hr]; exact mem_range.mp hj)]
  set dl : Finset (Particle S) → ℝ := fun A => choiceErr S.length * nextW U S r A + 2 * S.length * ε with hdl
  have hdl0 : ∀ A, 0 ≤ dl A := fun A => by
    have := mul_nonneg (choiceErr_nonneg S.length) (nextW_nonneg U S r A)
    have : 0 ≤ 2 * S.length * ε := by positivity
    rw [hdl]; simp only; linarith
  have h3 : ∑ A ∈ P, ENNReal.ofReal (dl A) = e := by
    rw [← ENNReal.ofReal_sum_of_nonneg fun A _ => hdl0 A]
    congr 1
    rw [hdl]
    simp only
    rw [sum_add_distrib, ← mul_sum, hP, sum_nextW h.ortho r, sum_const, card_powersetCard, card_univ, card_particle,
      nsmul_eq_mul]
  have key : ∀ A ∈ P, ENNReal.ofReal (nextW U S r A) * (tl (curOf A) r).wp (contWith tl S t fuel f A)
        ≤ V A + ENNReal.ofReal (dl A) ∧
      V A ≤ ENNReal.ofReal (nextW U S r A) * (tl (curOf A) r).wp (contWith tl S t fuel f A) + ENNReal.ofReal (dl A) := by
    intro A hA
    have hAc := (mem_powersetCard.mp hA).2
    have hex := exact_step h r hr A hAc tl t fuel f
    by_cases hD : 0 < nextW U S r A
    · have hc := gccbTailR_close R Ar h he hm A r hr hAc hD (contWith tl S t fuel f A)
        (contWith_le_one tl S t fuel f hf1 A)
      have hmul : ENNReal.ofReal (nextW U S r A) * ENNReal.ofReal (choiceErr S.length + 2 * S.length * ε / nextW U S r A)
          = ENNReal.ofReal (dl A) := by
        rw [← ENNReal.ofReal_mul hD.le]
        congr 1
        rw [hdl]
        simp only
        field_simp
      have hc1 := mul_le_mul_right hc.1 (ENNReal.ofReal (nextW U S r A))
      have hc2 := mul_le_mul_right hc.2 (ENNReal.ofReal (nextW U S r A))
      rw [mul_add, hex] at hc1
      rw [mul_add, hex] at hc2
      exact ⟨hc1.trans (by rw [← hmul]; exact le_rfl), hc2.trans (by rw [← hmul]; exact le_rfl)⟩
    · have hz : nextW U S r A = 0 := le_antisymm (not_lt.mp hD) (nextW_nonneg U S r A)
      rw [hz, ENNReal.ofReal_zero, zero_mul] at hex ⊢
      refine ⟨zero_le, ?_⟩
      rw [hV]
      simp only
      rw [← hex]
      exact zero_le
  rw [h1, h2, ← h3]
  constructor
  · refine ENNReal.div_le_div_right ?_ _
    rw [← sum_add_distrib]
    exact sum_le_sum fun A hA => (key A hA).1
  · rw [← ENNReal.add_div]
    refine ENNReal.div_le_div_right ?_ _
    rw [← sum_add_distrib]
    exact sum_le_sum fun A hA => (key A hA).2

/-- The factor by which the errors of the entries are counted. -/
noncomputable def branchSum (m n d k : ℕ) : ℝ :=
  (n.factorial : ℝ) / ((n - k).factorial : ℝ) * ∑ i ∈ range d, (m : ℝ) ^ i / ((k + i + 1).factorial : ℝ)

theorem branchSum_nonneg (m n d k : ℕ) : 0 ≤ branchSum m n d k := by unfold branchSum; positivity

theorem branchSum_succ (m n d k : ℕ) (hk : k < n) :
    branchSum m n (d + 1) k = ((n.choose (k + 1) : ℝ) + m * branchSum m n d (k + 1)) / ((n - k : ℕ) : ℝ) := by
  have h0 : (0 : ℝ) < ((n - k : ℕ) : ℝ) := by exact_mod_cast (by omega : 0 < n - k)
  have hfac : ((n - k).factorial : ℝ) = ((n - k : ℕ) : ℝ) * ((n - (k + 1)).factorial : ℝ) := by
    obtain ⟨q, hq⟩ : ∃ q, n - k = q + 1 := ⟨n - k - 1, by omega⟩
    have h1 : n - (k + 1) = q := by omega
    rw [h1, hq, Nat.factorial_succ]
    push_cast
    ring
  have hc : (n.choose (k + 1) : ℝ) = (n.factorial : ℝ) / (((k + 1).factorial : ℝ) * ((n - (k + 1)).factorial : ℝ)) := by
    rw [eq_div_iff (by positivity), ← mul_assoc]
    exact_mod_cast Nat.choose_mul_factorial_mul_factorial (by omega : k + 1 ≤ n)
  unfold branchSum
  rw [sum_range_succ', hc, hfac, pow_zero, add_zero]
  have hs : ∑ i ∈ range d, (m : ℝ) ^ (i + 1) / ((k + (i + 1) + 1).factorial : ℝ)
      = m * ∑ i ∈ range d, (m : ℝ) ^ i / ((k + 1 + i + 1).factorial : ℝ) := by
    rw [mul_sum]
    refine sum_congr rfl fun i _ => ?_
    rw [show k + (i + 1) + 1 = k + 1 + i + 1 by omega, pow_succ]
    ring
  rw [hs]
  have h1 : ((k + 1).factorial : ℝ) ≠ 0 := by positivity
  have h2 : ((n - (k + 1)).factorial : ℝ) ≠ 0 := by positivity
  field_simp
  ring

theorem pot_close (h : BOk sub U S n) (he : EntriesNear R Ar sub' U' U S ε) (hε : 0 ≤ ε) (hm : S.length ≤ 2 ^ 20)
    (t : ℕ) (ht : t ≤ S.sum) (f : Py GccbState → ℝ≥0∞) (hf1 : ∀ r, f r ≤ 1)
    (hf' : ∀ cur r w w', w.Perm w' → f (.ok ⟨cur, w, r⟩) = f (.ok ⟨cur, w', r⟩))
    (d fuel : ℕ) (hfuel : d < fuel) (r : List ℕ) (hr : r.length = S.length) (hk : r.sum + d = t) :
    let e := ENNReal.ofReal (d * choiceErr S.length * wgt U S r + 2 * S.length * ε * branchSum S.length S.sum d r.sum)
    pot (gccbTailR R Ar sub' U' S.length) U S t fuel f r ≤ pot (gccbTail sub U S.length) U S t fuel f r + e ∧
    pot (gccbTail sub U S.length) U S t fuel f r ≤ pot (gccbTailR R Ar sub' U' S.length) U S t fuel f r + e := by
  induction d generalizing fuel r with
  | zero =>
    obtain ⟨fuel, rfl⟩ : ∃ x, fuel = x + 1 := ⟨fuel - 1, by omega⟩
    have hrt : r.sum = t := by omega
    have hq : ∀ tl, pot tl U S t (fuel + 1) f r
        = ∑ A ∈ powersetCard r.sum (univ : Finset (Particle S)),
          ENNReal.ofReal (phi (colOf U) (particles r) (modesOf A)) * f (.ok ⟨curOf A, modesOf Aᶜ, r⟩) := by
      intro tl
      unfold pot restWith
      refine sum_congr rfl fun A _ => ?_
      rw [Prog.loop_succ, if_neg (by simp [hrt])]
      rfl
    simp only
    rw [hq, hq]
    exact ⟨le_self_add, le_self_add⟩
  | succ d ih =>
    obtain ⟨fuel, rfl⟩ : ∃ x, fuel = x + 1 := ⟨fuel - 1, by omega⟩
    have hS : r.sum < S.sum := by omega
    have hex := pot_exact h t fuel f hf' r hr (by omega) hS
    have hro := pot_rounded R Ar h he hε hm t fuel f hf1 hf' r hr (by omega) hS
    simp only at hro ⊢
    set N : ℝ≥0∞ := ((S.sum - r.sum : ℕ) : ℝ≥0∞) with hN
    set c := choiceErr S.length with hc
    have hc0 : 0 ≤ c := choiceErr_nonneg _
    set e1 := c * ((S.sum - r.sum : ℕ) * wgt U S r) + S.sum.choose (r.sum + 1) * (2 * S.length * ε) with he1
    have hw0 := wgt_nonneg U S r
    have he10 : 0 ≤ e1 := by rw [he1]; positivity
    set ej : ℕ → ℝ := fun j => d * c * wgt U S (r.modify j (· + 1))
      + 2 * S.length * ε * branchSum S.length S.sum d (r.sum + 1) with hej
    have hej0 : ∀ j, 0 ≤ ej j := fun j => by
      have h1 := wgt_nonneg U S (r.modify j (· + 1))
      have h2 := branchSum_nonneg S.length S.sum d (r.sum + 1)
      rw [hej]; positivity
    have hi : ∀ j ∈ range S.length, _ := fun j hj => ih fuel (by omega) (r.modify j (· + 1)) (by simpa using hr)
      (by rw [modify_sum r j (by rw [hr]; exact mem_range.mp hj)]; omega)
    simp only at hi
    have hsum : ∀ j ∈ range S.length, d * c * wgt U S (r.modify j (· + 1))
        + 2 * S.length * ε * branchSum S.length S.sum d (r.modify j (· + 1)).sum = ej j := by
      intro j hj
      rw [modify_sum r j (by rw [hr]; exact mem_range.mp hj)]
    have htot : (ENNReal.ofReal (∑ j ∈ range S.length, ej j) + ENNReal.ofReal e1) / N
        = ENNReal.ofReal ((d + 1 : ℕ) * c * wgt U S r + 2 * S.length * ε * branchSum S.length S.sum (d + 1) r.sum) := by
      have hNpos : (0 : ℝ) < ((S.sum - r.sum : ℕ) : ℝ) := by exact_mod_cast (by omega : 0 < S.sum - r.sum)
      rw [← ENNReal.ofReal_add (sum_nonneg fun j _ => hej0 j) he10, hN, ← ENNReal.ofReal_natCast,
        ← ENNReal.ofReal_div_of_pos hNpos]
      congr 1
      rw [branchSum_succ _ _ _ _ hS, hej, sum_add_distrib, ← mul_sum, sum_wgt_next h.ortho r hr, sum_const, card_range,
        nsmul_eq_mul, he1]
      push_cast
      field_simp
      ring
    have hA : ∑ j ∈ range S.length, pot (gccbTailR R Ar sub' U' S.length) U S t fuel f (r.modify j (· + 1))
        ≤ ∑ j ∈ range S.length, pot (gccbTail sub U S.length) U S t fuel f (r.modify j (· + 1))
          + ENNReal.ofReal (∑ j ∈ range S.length, ej j) := by
      rw [ENNReal.ofReal_sum_of_nonneg fun j _ => hej0 j, ← sum_add_distrib]
      refine sum_le_sum fun j hj => ?_
      rw [← hsum j hj]
      exact (hi j hj).1
    have hB : ∑ j ∈ range S.length, pot (gccbTail sub U S.length) U S t fuel f (r.modify j (· + 1))
        ≤ ∑ j ∈ range S.length, pot (gccbTailR R Ar sub' U' S.length) U S t fuel f (r.modify j (· + 1))
          + ENNReal.ofReal (∑ j ∈ range S.length, ej j) := by
      rw [ENNReal.ofReal_sum_of_nonneg fun j _ => hej0 j, ← sum_add_distrib]
      refine sum_le_sum fun j hj => ?_
      rw [← hsum j hj]
      exact (hi j hj).2
    rw [← htot, hex]
    constructor
    · refine hro.1.trans ?_
      rw [← ENNReal.add_div]
      refine ENNReal.div_le_div_right ?_ _
      rw [← add_assoc]
      gcongr
    · refine (ENNReal.div_le_div_right hB _).trans ?_
      rw [ENNReal.add_div]
      refine (add_le_add_left hro.2 _).trans (le_of_eq ?_)
      rw [ENNReal.add_div]
      ring

/-- The error of one sample with `t` particles. -/
noncomputable def drawsErr (m t : ℕ) (ε : ℝ) : ℝ :=
  t * choiceErr m + 2 * ε * ∑ i ∈ range t, (m : ℝ) ^ (i + 1) / ((i + 1).factorial : ℝ)

theorem drawsErr_nonneg (m t : ℕ) {ε : ℝ} (hε : 0 ≤ ε) : 0 ≤ drawsErr m t ε := by
  have := choiceErr_nonneg m
  unfold drawsErr
  positivity

theorem fill_with (tail : List ℕ → List ℕ → Prog (List ℕ × List ℕ)) (U : List (List ℂ)) (t fuel : ℕ)
    (f : Py GccbState → ℝ≥0∞)
    (hf' : ∀ cur r w w', w.Perm w' → f (.ok ⟨cur, w, r⟩) = f (.ok ⟨cur, w', r⟩)) :
    (Prog.loop fuel (fun s => decide (s.r.sum < t)) (stepWith tail)
      { cur := S.map fun _ => 0, work := particles S, r := S.map fun _ => 0 }).wp f
      = pot tail U S t fuel f (S.map fun _ => 0) := by
  have hz : ((S.map fun _ => 0) : List ℕ).sum = 0 := by simp
  have hpz : particles (S.map fun _ => 0) = [] := by
    apply List.eq_nil_of_length_eq_zero
    rw [particlesFrom_length, hz]
  have h1 : phi (colOf U) [] (modesOf (∅ : Finset (Particle S))) = 1 := by
    simp [modesOf, phi, amp, lperm, multFact]
  unfold pot
  rw [hz, hpz, powersetCard_zero, sum_singleton, h1, ENNReal.ofReal_one, one_mul]
  unfold restWith
  have hb := binv_start S
  rw [← hb.cur]
  exact loopWith_perm tail (fun r => decide (r.sum < t)) f hf' fuel _ _ _ _ hb.work

/-- One sample. -/
theorem gccbFillR_close (h : BOk sub U S n) (he : EntriesNear R Ar sub' U' U S ε) (hε : 0 ≤ ε) (hm : S.length ≤ 2 ^ 20)
    (t fuel : ℕ) (ht : t ≤ S.sum) (hfuel : t < fuel) {β : Type} (g : List ℕ → Prog β) :
    Prog.CloseF ((gccbFillR R Ar sub' U' fuel S (particles S) t).bind fun s => g s.r)
      ((gccbFill sub U fuel S (particles S) t).bind fun s => g s.r)
      (ENNReal.ofReal (drawsErr S.length t ε)) := by
  intro F hF
  set f : Py GccbState → ℝ≥0∞ := Prog.post (fun s => g s.r) F with hf
  have hf1 : ∀ r, f r ≤ 1 := Prog.post_le_one _ F hF
  have hf' : ∀ cur r w w', w.Perm w' → f (.ok ⟨cur, w, r⟩) = f (.ok ⟨cur, w', r⟩) := fun _ _ _ _ _ => rfl
  rw [Prog.wp_bind, Prog.wp_bind]
  unfold gccbFillR gccbFill
  rw [gccbStepR_with, gccbStep_with, fill_with _ U t fuel f hf', fill_with _ U t fuel f hf']
  have hz : ((S.map fun _ => 0) : List ℕ).sum = 0 := by simp
  have hpz : particles (S.map fun _ => 0) = [] := by
    apply List.eq_nil_of_length_eq_zero
    rw [particlesFrom_length, hz]
  have hp := pot_close R Ar h he hε hm t ht f hf1 hf' t fuel hfuel (S.map fun _ => 0) (by simp) (by simp)
  simp only at hp
  have hw : wgt U S (S.map fun _ => 0) = 1 := by
    unfold wgt
    rw [hz, hpz, powersetCard_zero, sum_singleton]
    simp [modesOf, phi, amp, lperm, multFact]
  have hb : t * choiceErr S.length * wgt U S (S.map fun _ => 0)
      + 2 * S.length * ε * branchSum S.length S.sum t (S.map fun _ => 0 : List ℕ).sum = drawsErr S.length t ε := by
    rw [hw, hz]
    unfold branchSum drawsErr
    rw [Nat.sub_zero, div_self (by positivity), one_mul, mul_one, mul_assoc, mul_assoc, mul_assoc, mul_sum, mul_sum, mul_sum]
    congr 1
    rw [mul_sum, mul_sum]
    refine sum_congr rfl fun i _ => ?_
    rw [zero_add, pow_succ]
    ring
  rw [hb] at hp
  exact hp

theorem gccbLoopR_close (h : BOk sub U S n) (he : EntriesNear R Ar sub' U' U S ε) (hε : 0 ≤ ε) (hm : S.length ≤ 2 ^ 20)
    (fuel : ℕ) (hfuel : S.sum < fuel) (N : ℕ) :
    Prog.CloseF (gccbLoopR R Ar sub' U' fuel S (particles S) N) (gccbLoop sub U fuel S (particles S) N)
      (ENNReal.ofReal (N * drawsErr S.length S.sum ε)) := by
  have h0 := drawsErr_nonneg S.length S.sum hε
  induction N with
  | zero => exact (Prog.CloseF.refl _).mono zero_le
  | succ N ih =>
    unfold gccbLoopR gccbLoop
    simp only [Prog.bind_eq, Prog.pure_eq]
    have h1 := gccbFillR_close R Ar h he hε hm S.sum fuel le_rfl hfuel
      (fun r => (gccbLoopR R Ar sub' U' fuel S (particles S) N).bind fun samples => .done (.ok (r :: samples)))
    have h2 : Prog.CloseF
        ((gccbFill sub U fuel S (particles S) S.sum).bind fun s =>
          (gccbLoopR R Ar sub' U' fuel S (particles S) N).bind fun samples => .done (.ok (s.r :: samples)))
        ((gccbFill sub U fuel S (particles S) S.sum).bind fun s =>
          (gccbLoop sub U fuel S (particles S) N).bind fun samples => .done (.ok (s.r :: samples)))
        (ENNReal.ofReal (N * drawsErr S.length S.sum ε)) := Prog.CloseF.bind_right _ fun s => ih.bind_left _
    refine (h1.trans h2).mono ?_
    rw [← ENNReal.ofReal_add h0 (by positivity)]
    refine ENNReal.ofReal_le_ofReal (le_of_eq ?_)
    push_cast
    ring

theorem gccbSimulateF_eq (fuel : ℕ) (N : ℤ) :
    gccbSimulateF R Ar sub U fuel S N = gccbLoopR R Ar sub U fuel S (particles S) N.toNat := by
  unfold gccbSimulateF
  rw [modeOccupationToModeAssignment_eq]
  rfl

theorem gccbSimulateF_close (h : BOk sub U S n) (he : EntriesNear R Ar sub' U' U S ε) (hε : 0 ≤ ε) (hm : S.length ≤ 2 ^ 20)
    (fuel : ℕ) (hfuel : S.sum < fuel) (N : ℤ) :
    Prog.CloseF (gccbSimulateF R Ar sub' U' fuel S N) (gccbSimulate sub U fuel S N)
      (ENNReal.ofReal (N.toNat * drawsErr S.length S.sum ε)) := by
  rw [gccbSimulateF_eq, gccbSimulate_eq]
  exact gccbLoopR_close R Ar h he hε hm fuel hfuel N.toNat

/-! ### Losses -/

theorem drawsErr_mono (m : ℕ) {t t' : ℕ} (h : t ≤ t') {ε : ℝ} (hε : 0 ≤ ε) : drawsErr m t ε ≤ drawsErr m t' ε := by
  have h1 : (t : ℝ) ≤ t' := by exact_mod_cast h
  have h2 := choiceErr_nonneg m
  have h3 : ∑ i ∈ range t, (m : ℝ) ^ (i + 1) / ((i + 1).factorial : ℝ)
      ≤ ∑ i ∈ range t', (m : ℝ) ^ (i + 1) / ((i + 1).factorial : ℝ) :=
    sum_le_sum_of_subset_of_nonneg (range_subset_range.mpr h) fun i _ _ => by positivity
  unfold drawsErr
  gcongr

theorem gccbLossyLoopF_close (h : BOk sub U S n) (he : EntriesNear R Ar sub' U' U S ε) (hε : 0 ≤ ε)
    (hm : S.length ≤ 2 ^ 20) (fuel : ℕ) (hfuel : S.sum < fuel) {wR w : List ℝ} {e : ℝ} (he0 : 0 ≤ e)
    (hw : ∀ u, 0 ≤ u → u < 1 → scanIndex u w 0 ≤ S.sum)
    (hl : Prog.CloseF (gccbParticlesLeftR R wR) (gccbParticlesLeft w) (ENNReal.ofReal e)) (N : ℕ) :
    Prog.CloseF (gccbLossyLoopF R Ar sub' U' fuel S (particles S) wR N) (gccbLossyLoop sub U fuel S (particles S) w N)
      (ENNReal.ofReal (N * (e + drawsErr S.length S.sum ε))) := by
  have h0 := drawsErr_nonneg S.length S.sum hε
  induction N with
  | zero => exact (Prog.CloseF.refl _).mono zero_le
  | succ N ih =>
    unfold gccbLossyLoopF gccbLossyLoop
    simp only [Prog.bind_eq, Prog.pure_eq]
    have h3 := hl.bind_all (E := fun _ => False) (I := fun t => t ≤ S.sum)
      (g := fun left => (gccbFillR R Ar sub' U' fuel S (particles S) left).bind fun s =>
        (gccbLossyLoopF R Ar sub' U' fuel S (particles S) wR N).bind fun samples => .done (.ok (s.r :: samples)))
      (g' := fun left => (gccbFill sub U fuel S (particles S) left).bind fun s =>
        (gccbLossyLoop sub U fuel S (particles S) w N).bind fun samples => .done (.ok (s.r :: samples)))
      (δ := ENNReal.ofReal (drawsErr S.length S.sum ε) + ENNReal.ofReal (N * (e + drawsErr S.length S.sum ε)))
      (Prog.all_uniform fun u hu0 hu1 => Prog.all_done_ok (hw u hu0 hu1)) ?_
    · refine h3.mono ?_
      rw [← ENNReal.ofReal_add h0 (by positivity), ← ENNReal.ofReal_add he0 (by positivity)]
      refine ENNReal.ofReal_le_ofReal (le_of_eq ?_)
      push_cast
      ring
    · intro t ht
      have h1 := (gccbFillR_close R Ar h he hε hm t fuel ht (by omega)
        (fun r => (gccbLossyLoopF R Ar sub' U' fuel S (particles S) wR N).bind fun samples => .done (.ok (r :: samples)))).mono
        (ENNReal.ofReal_le_ofReal (drawsErr_mono S.length ht hε))
      exact h1.trans (Prog.CloseF.bind_right _ fun s => ih.bind_left _)

theorem gccbLossySimulateF_close (h : BOk sub U S n) (he : EntriesNear R Ar sub' U' U S ε) (hε : 0 ≤ ε)
    (hm : S.length ≤ 2 ^ 20) (fuel : ℕ) (hfuel : S.sum < fuel) {eta : ℝ} (h0 : 0 ≤ eta) (h1 : eta ≤ 1) (hf : IsFloat eta)
    (hn : S.sum ≤ 170) (N : ℤ) :
    Prog.CloseF (gccbLossySimulateF R Ar sub' U' fuel eta S N) (gccbLossySimulate sub U fuel eta S N)
      (ENNReal.ofReal (N.toNat * ((10 * S.sum + 28) / 2 ^ 53 + drawsErr S.length S.sum ε))) := by
  rw [gccbLossySimulate_eq]
  unfold gccbLossySimulateF
  rw [modeOccupationToModeAssignment_eq]
  refine gccbLossyLoopF_close R Ar h he hε hm fuel hfuel (by positivity) (fun u hu0 hu1 => ?_)
    (leftR_close R S.sum hn h0 h1 hf) N.toNat
  have := (scanIndex_lt (gccbWeights S.sum eta) u 0 hu0 (by rw [gccbWeights_sum]; linarith)).1
  rw [gccbWeights_length] at this
  omega

end

end Verif
