import Verif.Proofs.Dict

/-! Helper lemmas: `compute_permanent` does not depend on the private attributes. -/
namespace Verif

variable {K : Type _} [Field K]

/-- Overwrite the two attributes which the initialisation keeps. -/
def withIL (i : ℕ) (l : Int) (s : GuanScratch K) : GuanScratch K :=
  { s with guan := { s.guan with index := i, last := l } }

theorem updatePermanent_withIL (c : CalcCfg K) (i : ℕ) (l : Int) (s : GuanScratch K) :
    updatePermanent c (withIL i l s) = (updatePermanent c s).map (withIL i l) := by
  unfold updatePermanent
  simp only [withIL]
  cases s.considered.mapM (fun j => (do
    let w ← dictGet s.sums j
    let t ← pyGetN c.output j
    pure (w ^ t) : Py K)) <;> rfl

theorem ryser_init_withIL (c : CalcCfg K) (s s' : GuanScratch K) :
    ryserMethod.init c s = (ryserMethod.init c s').map (withIL s.guan.index s.guan.last) := by
  simp only [ryserMethod]
  rw [← updatePermanent_withIL]
  rfl

theorem chinHuh_init_withIL (c : CalcCfg K) (s s' : GuanScratch K) :
    chinHuhMethod.init c s = (chinHuhMethod.init c s').map (withIL s.guan.index s.guan.last) := by
  simp only [chinHuhMethod, initBase]
  cases (npNonzero c.output).foldlM (fun d i => (do
      let w ← (List.range c.input.length).foldlM (fun (acc : K) j => do
        let x ← pyGetN c.input j
        let u ← matGet c.matrix i j
        pure (acc + (x : K) * u)) 0
      pure (dictSet d i w) : Py _)) ([] : List (ℕ × K)) with
  | error e => rfl
  | ok sums =>
    simp only [ok_bind]
    rw [← updatePermanent_withIL]
    rfl

theorem guanLoop_none (r limits : List Int) (todo : ℕ) (u : List Int) (i : ℕ) (k : Int)
    {u' : List Int} {j : ℕ} (h : guanLoop r limits todo u i k = .ok (u', j, none)) : j = r.length := by
  induction todo generalizing u i k with
  | zero => simp [guanLoop] at h
  | succ todo ih =>
    rw [guanLoop] at h
    cases h1 : pyGetN limits i with
    | error e => rw [h1] at h; simp at h
    | ok lim =>
    rw [h1, ok_bind] at h
    split at h
    · cases h2 : pyGetN u i with
      | error e => rw [h2] at h; simp at h
      | ok ui =>
      rw [h2, ok_bind] at h
      cases h3 : pySetN u i (-ui) with
      | error e => rw [h3] at h; simp at h
      | ok u1 =>
      rw [h3, ok_bind] at h
      split at h
      · rename_i hi
        simp only [pure_eq_ok, Except.ok.injEq, Prod.mk.injEq] at h
        omega
      · cases h4 : pyGetN r (i + 1) with
        | error e => rw [h4] at h; simp at h
        | ok ri =>
        rw [h4, ok_bind] at h
        cases h5 : pyGetN u1 (i + 1) with
        | error e => rw [h5] at h; simp at h
        | ok uj =>
        rw [h5, ok_bind] at h
        exact ih _ _ _ h
    · simp at h

theorem guanMain_withIL (meth : GuanMethod K) (c : CalcCfg K) (fuel i : ℕ) (l : Int)
    (s : GuanScratch K) :
    (guanMain meth c fuel (withIL i l s)).map (·.permanent) = (guanMain meth c fuel s).map (·.permanent) := by
  cases fuel with
  | zero => rfl
  | succ fuel =>
    rw [guanMain, guanMain]
    simp only [withIL]
    cases pyGet s.guan.rVector (-1) with
    | error e => rfl
    | ok rl =>
    cases pyGet s.guan.limits (-1) with
    | error e => rfl
    | ok ll =>
    simp only [ok_bind]
    by_cases hc : rl ≤ ll
    · simp only [if_pos hc]
      unfold updateGuanCode
      simp only
      cases pyGetN s.guan.rVector 0 with
      | error e => rfl
      | ok r0 =>
      cases pyGetN s.guan.codeUpdate 0 with
      | error e => rfl
      | ok u0 =>
      simp only [ok_bind]
      cases hq : guanLoop s.guan.rVector s.guan.limits s.guan.rVector.length s.guan.codeUpdate 0 (r0 + u0) with
      | error e => rfl
      | ok q =>
      obtain ⟨u, j, k⟩ := q
      cases k with
      | none =>
        simp only [ok_bind, pure_eq_ok]
        by_cases hj : j = s.guan.rVector.length
        · simp only [if_pos hj]; rfl
        · exact absurd (guanLoop_none _ _ _ _ _ _ hq) hj
      | some k =>
        simp only [ok_bind]
    · simp only [if_neg hc]; rfl

/-- The value returned by `compute_permanent` does not depend on the private attributes. -/
theorem compute_no_state (meth : GuanMethod K)
    (hinit : ∀ c s s', meth.init c s = (meth.init c s').map (withIL s.guan.index s.guan.last))
    (fuel : ℕ) (c : CalcCfg K) (s s' : GuanScratch K) :
    (computePermanent meth fuel c s).map Prod.fst = (computePermanent meth fuel c s').map Prod.fst := by
  unfold computePermanent
  cases canCalculationBePerformed c with
  | error e => rfl
  | ok b =>
    cases b with
    | false => rfl
    | true =>
      simp only [ok_bind, if_true]
      rw [hinit c s s']
      cases meth.init c s' with
      | error e => rfl
      | ok t =>
        simp only [ok_bind]
        have := guanMain_withIL meth c fuel s.guan.index s.guan.last t
        show ((guanMain meth c fuel (withIL s.guan.index s.guan.last t)).bind
            fun s => Except.ok (s.permanent, s)).map Prod.fst
          = ((guanMain meth c fuel t).bind fun s => Except.ok (s.permanent, s)).map Prod.fst
        revert this
        generalize guanMain meth c fuel (withIL s.guan.index s.guan.last t) = x
        generalize guanMain meth c fuel t = y
        intro h
        cases x <;> cases y <;> simp_all [Except.map, Except.bind]

end Verif
