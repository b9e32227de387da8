import Verif.Proofs.SharedHistory
import Verif.Props.Statistics
import Verif.Props.LossyInputs
import Verif.Props.Distributions
import Verif.Props.EndToEnd

/-! C84, C85: samplers and exact calculators sharing permanent calculators. -/
namespace Verif

open Finset
open scoped ENNReal

/-- C84: however many samplers and exact calculators share however many permanent calculators, in whatever
order they are built, used and given new matrices, failing calls included — the joint distribution of all results is
that of independent runs, each depending only on the arguments of the call, the class of the object, and the type and
the current matrix of its calculator. -/
theorem C84_history (E : ShEnv) (w : ShWorld) (ops : List ShOp) (f : Py (List ShResult) → ℝ≥0∞) :
    (shRun E w ops).wp f = (shSpec E w.view ops).wp f := run_refines E ops w w.view ⟨rfl, rfl⟩ f

/-- Results of actions are values: a failing call is reported, the sequence goes on. -/
theorem shResult_congr (E : ShEnv) (a : ShState) (op : ShOp) {f g : Py ShResult → ℝ≥0∞} (h : ∀ r, f (.ok r) = g (.ok r)) :
    (shResult E a op).wp f = (shResult E a op).wp g := by
  unfold shResult
  split
  · exact h _
  · exact h _
  · split <;> exact h _
  · split <;> exact h _
  · split
    · exact h _
    · split
      · exact h _
      · rw [Prog.bind_eq, Prog.wp_bind, Prog.wp_bind, wp_attempt, wp_attempt]
        exact congrArg _ (funext fun r => h _)
  · split <;> exact h _
  · split <;> exact h _

theorem shSpec_last (E : ShEnv) (ops : List ShOp) (a : ShState) (op : ShOp) (f : ShResult → ℝ≥0∞) :
    (shSpec E a (ops ++ [op])).wp (lastResult f)
      = (shResult E (shState E a ops) op).wp fun r => match r with | .ok x => f x | .error _ => 0 := by
  induction ops generalizing a with
  | nil =>
    rw [List.nil_append, shSpec, Prog.bind_eq, Prog.wp_bind]
    exact shResult_congr E a op fun r => rfl
  | cons op' ops ih =>
    rw [List.cons_append, shSpec, Prog.bind_eq, Prog.wp_bind]
    have hlen : ∀ (ops : List ShOp) (a : ShState) (g h : Py (List ShResult) → ℝ≥0∞),
        (∀ rs, rs.length = ops.length → g (.ok rs) = h (.ok rs)) → (shSpec E a ops).wp g = (shSpec E a ops).wp h := by
      intro ops
      induction ops with
      | nil => exact fun a g h hgh => hgh [] rfl
      | cons o ops ih =>
        intro a g h hgh
        rw [shSpec, Prog.bind_eq, Prog.wp_bind, Prog.wp_bind]
        refine shResult_congr E a o fun r => ?_
        change ((shSpec E (shNext E a o) ops).bind _).wp g = ((shSpec E (shNext E a o) ops).bind _).wp h
        rw [Prog.wp_bind, Prog.wp_bind]
        exact ih _ _ _ fun rs hrs => hgh _ (by simp [hrs])
    have hstep : ∀ r, ((shSpec E (shNext E a op') (ops ++ [op])).bind fun rs => Prog.done (.ok (r :: rs))).wp (lastResult f)
        = (shResult E (shState E (shNext E a op') ops) op).wp fun r => match r with | .ok x => f x | .error _ => 0 := by
      intro r
      rw [← ih, Prog.wp_bind]
      refine hlen _ _ _ _ fun rs hrs => ?_
      change ((r :: rs).getLast?.map f).getD 0 = (rs.getLast?.map f).getD 0
      rcases rs with _ | ⟨x, rs⟩
      · simp at hrs
      · rw [List.getLast?_cons_cons]
    refine (shResult_congr E a op' (g := fun _ => (shResult E (shState E (shNext E a op') ops) op).wp fun r =>
      match r with | .ok x => f x | .error _ => 0) fun r => hstep r).trans (Prog.wp_const _ _)

/-- C84: the distribution of the result of the last action of a history. -/
theorem C84_last (E : ShEnv) (w : ShWorld) (ops : List ShOp) (op : ShOp) (f : ShResult → ℝ≥0∞) :
    (shRun E w (ops ++ [op])).wp (lastResult f)
      = (shResult E (shState E w.view ops) op).wp fun r => match r with | .ok x => f x | .error _ => 0 := by
  rw [C84_history, shSpec_last]

/-- C84: the same, when it is a call of `simulate`. -/
theorem C84_simulate (E : ShEnv) (w : ShWorld) (ops : List ShOp) (k p : ℕ) (cls : SamplerClass) (t : ℤ) (U : Rows)
    (hk : (shState E w.view ops).samplers[k]? = some (cls, p)) (hp : (shState E w.view ops).perms[p]? = some (t, U))
    (S : List ℕ) (N : ℤ) (f : ShResult → ℝ≥0∞) :
    (shRun E w (ops ++ [.simulate k S N])).wp (lastResult f) = (samplerLaw E t U cls S N).wp fun r => f (.samples r) := by
  rw [C84_last]
  simp only [shResult, hk, hp]
  rw [Prog.bind_eq, Prog.wp_bind, wp_attempt]
  rfl

/-- The outcomes of samplers without and with uniform losses. -/
noncomputable def sampleSpace (S : List ℕ) : SamplerClass → Finset (List ℕ)
  | .uniform _ => statesUpTo S.length S.sum
  | .uniformB _ => statesUpTo S.length S.sum
  | _ => statesFin S.length S.sum

/-- The probabilities of outcomes of samplers without and with uniform losses. -/
noncomputable def sampleProb (U : Rows) (S : List ℕ) : SamplerClass → List ℕ → ℝ
  | .uniform eta, T => uniformLossProb U S eta T
  | .uniformB eta, T => uniformLossProb U S eta T
  | _, T => bosonProb U S T

/-- Samplers without and with uniform losses. -/
def UniformClass : SamplerClass → Prop
  | .lossyNet => False
  | .uniform eta => 0 ≤ eta ∧ eta ≤ 1
  | .uniformB eta => 0 ≤ eta ∧ eta ≤ 1
  | _ => True

theorem samplerLaw_wp (E : ShEnv) (hgray : ∀ n, IsGrayCode n (E.gray n)) (hsub : E.sub = ryserSubPermanents E.fuel) (t : ℤ)
    {U : Rows} {S : List ℕ} (h : Interferometer U S) (cls : SamplerClass) (hc : UniformClass cls)
    (hf : genFuel (S.length - 1) S.sum + (S.map (· + 1)).prod ≤ E.fuel) (N : ℕ) (f : Py (List (List ℕ)) → ℝ≥0∞) :
    (samplerLaw E t U cls S N).wp f
      = expIid (sampleSpace S cls) (fun T => ENNReal.ofReal (sampleProb U S cls T)) N fun l => f (.ok l) := by
  have hf' : (S.map (· + 1)).prod ≤ E.fuel := by omega
  have hm : S.length = (S.length - 1) + 1 := by
    have := List.length_pos_iff.mpr h.ne
    omega
  cases cls with
  | gcc => exact gccStrategy_wp E.gray hgray t (okA S) h E.fuel hf' gccInit N f
  | assignment => exact gccStrategy_wp E.gray hgray t (okAssignment S h.ne) h E.fuel hf' gccInit N f
  | gccb =>
    unfold samplerLaw
    rw [hsub]
    exact gccbStrategy_wp h E.fuel hf' N f
  | uniform eta => exact gccuStrategy_wp E.gray hgray t h hc.1 hc.2 (gccuInit eta false) rfl _ hm E.fuel hf N f
  | uniformB eta =>
    unfold samplerLaw
    rw [hsub]
    exact gccbLossyStrategy_wp h hc.1 hc.2 E.fuel hf' N f
  | lossyNet => exact hc.elim

open Classical in
/-- C84: after any history, the samples of a call are independent and follow the boson-sampling distribution
(with uniform losses for the lossy samplers) of the matrix its calculator holds at that time. -/
theorem C84_samples (E : ShEnv) (hgray : ∀ n, IsGrayCode n (E.gray n)) (hsub : E.sub = ryserSubPermanents E.fuel)
    (w : ShWorld) (ops : List ShOp) (k p : ℕ) (cls : SamplerClass) (hc : UniformClass cls) (t : ℤ) (U : Rows)
    (hk : (shState E w.view ops).samplers[k]? = some (cls, p)) (hp : (shState E w.view ops).perms[p]? = some (t, U))
    (S : List ℕ) (h : Interferometer U S) (hf : genFuel (S.length - 1) S.sum + (S.map (· + 1)).prod ≤ E.fuel)
    (l : List (List ℕ)) (hl : ∀ T ∈ l, T ∈ sampleSpace S cls) :
    (shRun E w (ops ++ [.simulate k S l.length])).wp (lastResult fun r => if r = .samples (.ok l) then 1 else 0)
      = (l.map fun T => ENNReal.ofReal (sampleProb U S cls T)).prod := by
  rw [C84_simulate E w ops k p cls t U hk hp, samplerLaw_wp E hgray hsub t h cls hc hf]
  simp only [ShResult.samples.injEq, Except.ok.injEq]
  exact expIid_indicator _ _ l hl

/-- C30: what earlier calls — of any kind, with any inputs, matrices or permanent calculators, failing ones included —
left in a sampler has no influence on the results of a call, whatever its arguments (matching sizes or not). -/
theorem C30_memory (perm : CalcCfg ℂ → Py ℂ) (U : Rows) (fuel : ℕ) (S : List ℕ) (N : ℤ) (f : Py (List (List ℕ)) → ℝ≥0∞) :
    (∀ v o o', (gccStrategy v perm U fuel o S N).wp f = (gccStrategy v perm U fuel o' S N).wp f) ∧
    ∀ o o' : GccuObj, o.eta = o'.eta → (gccuStrategy perm U fuel o S N).wp f = (gccuStrategy perm U fuel o' S N).wp f := by
  have hf : ∀ x y : Py (List (List ℕ)), PyRel Eq x y → f x = f y := by
    intro x y h
    cases x <;> cases y <;> first | exact h.elim | rw [h]
  exact ⟨fun v o o' => ((gccSimulate_memory v perm U fuel o o' S N).bind (W := Eq) fun _ _ h => PRel.pure h).wp hf,
    fun o o' he => ((gccuSimulate_memory perm U fuel o o' he S N).bind (W := Eq) fun _ _ h => PRel.pure h).wp hf⟩

/-! ### Isolation -/

theorem noWrite_next (E : ShEnv) (a : ShState) (p : ℕ) (hp : p < a.perms.length) (op : ShOp) (h : ¬ Writes a p op) :
    (shNext E a op).perms[p]? = a.perms[p]? ∧ ∀ (k : ℕ) x, a.samplers[k]? = some x → (shNext E a op).samplers[k]? = some x := by
  cases op with
  | newPerm kind cfg => exact ⟨by simp [shNext, List.getElem?_append_left hp], fun _ _ h => h⟩
  | setMatrix q M =>
    refine ⟨?_, fun _ _ h => h⟩
    have hq : q ≠ p := h
    simp [shNext, hq]
  | newSampler cls q =>
    rcases hq : a.perms[q]? with _ | ⟨t, M⟩
    · simp only [shNext, hq]
      exact ⟨trivial, fun _ _ h => h⟩
    · rcases hX : heldMatrix E cls M with e | X
      · simp only [shNext, hq, hX]
        exact ⟨trivial, fun _ _ h => h⟩
      · simp only [shNext, hq, hX]
        refine ⟨?_, fun k x hx => (List.getElem?_append_left (List.getElem?_eq_some_iff.mp hx).1).trans hx⟩
        rw [List.getElem?_set]
        split_ifs with h1 h2
        · subst h1
          have : X = M := by
            cases cls with
            | lossyNet => exact absurd rfl h
            | _ => exact (Except.ok.inj hX).symm
          rw [hq, this]
        · exact absurd (h1 ▸ hp) h2
        · rfl
  | setNewMatrix k M =>
    rcases hk : a.samplers[k]? with _ | ⟨cls, q⟩
    · simp only [shNext, hk]
      exact ⟨trivial, fun _ _ h => h⟩
    · have hq : q ≠ p := fun hq => h ⟨cls, by rw [hk, hq]⟩
      rcases hX : heldMatrix E cls M with e | X
      · simp only [shNext, hk, hX]
        exact ⟨trivial, fun _ _ h => h⟩
      · simp only [shNext, hk, hX]
        exact ⟨by simp [hq], fun _ _ h => h⟩
  | simulate k S N => exact ⟨rfl, fun _ _ h => h⟩
  | fixed q c outcomes =>
    unfold shNext
    have hq : q ≠ p := h
    dsimp only
    split_ifs
    · exact ⟨by simp [hq], fun _ _ h => h⟩
    · exact ⟨rfl, fun _ _ h => h⟩
  | uniform q u copies outcomes => exact ⟨rfl, fun _ _ h => h⟩

theorem noWrites_state (E : ShEnv) (p : ℕ) (ops : List ShOp) (a : ShState) (x : ℤ × Rows) (hp : a.perms[p]? = some x)
    (h : NoWrites E p a ops) :
    (shState E a ops).perms[p]? = some x ∧ ∀ (k : ℕ) x, a.samplers[k]? = some x → (shState E a ops).samplers[k]? = some x := by
  induction ops generalizing a with
  | nil => exact ⟨hp, fun _ _ h => h⟩
  | cons op ops ih =>
    obtain ⟨h1, h2⟩ := noWrite_next E a p (List.getElem?_eq_some_iff.mp hp).1 op h.1
    obtain ⟨h3, h4⟩ := ih (shNext E a op) (h1.trans hp) h.2
    exact ⟨h3, fun k x hk => h4 k x (h2 k x hk)⟩

/-- C85, the part that holds: as long as nobody puts another matrix into its calculator, a sampler draws from the
matrix it was given, whatever else happens — other samplers with the same calculator being built and drawing, uniform-loss
calculators using it, anything happening to other calculators. -/
theorem C85_isolated_partial (E : ShEnv) (w : ShWorld) (ops : List ShOp) (k p : ℕ) (cls : SamplerClass) (t : ℤ) (U : Rows)
    (hk : w.view.samplers[k]? = some (cls, p)) (hp : w.view.perms[p]? = some (t, U)) (hn : NoWrites E p w.view ops)
    (S : List ℕ) (N : ℤ) (f : ShResult → ℝ≥0∞) :
    (shRun E w (ops ++ [.simulate k S N])).wp (lastResult f) = (samplerLaw E t U cls S N).wp fun r => f (.samples r) := by
  obtain ⟨h1, h2⟩ := noWrites_state E p ops w.view (t, U) hp hn
  exact C84_simulate E w ops k p cls t U (h2 k _ hk) h1 S N f

/-- C85, the part that holds: after any history, `set_new_matrix` of a sampler makes it draw from the new matrix. -/
theorem C85_given_partial (E : ShEnv) (w : ShWorld) (pre ops : List ShOp) (k p : ℕ) (cls : SamplerClass) (t : ℤ) (V M X : Rows)
    (hk : (shState E w.view pre).samplers[k]? = some (cls, p)) (hp : (shState E w.view pre).perms[p]? = some (t, V))
    (hX : heldMatrix E cls M = .ok X) (hn : NoWrites E p (shNext E (shState E w.view pre) (.setNewMatrix k M)) ops)
    (S : List ℕ) (N : ℤ) (f : ShResult → ℝ≥0∞) :
    (shRun E w (pre ++ .setNewMatrix k M :: ops ++ [.simulate k S N])).wp (lastResult f)
      = (samplerLaw E t X cls S N).wp fun r => f (.samples r) := by
  have hs : shState E w.view (pre ++ .setNewMatrix k M :: ops)
      = shState E (shNext E (shState E w.view pre) (.setNewMatrix k M)) ops := by
    unfold shState
    rw [List.foldl_append, List.foldl_cons]
  have hnext : shNext E (shState E w.view pre) (.setNewMatrix k M)
      = { shState E w.view pre with perms := (shState E w.view pre).perms.modify p fun x => (x.1, X) } := by
    simp only [shNext, hk, hX]
  have hp' : (shNext E (shState E w.view pre) (.setNewMatrix k M)).perms[p]? = some (t, X) := by
    rw [hnext, List.getElem?_modify]
    simp [hp]
  obtain ⟨h1, h2⟩ := noWrites_state E p ops _ (t, X) hp' hn
  exact C84_simulate E w _ k p cls t X (by rw [hs]; exact h2 k _ (by rw [hnext]; exact hk)) (by rw [hs]; exact h1) S N f

open Classical in
/-- C85, the part that holds, for lossy networks: after any history, once a sampler for lossy networks was given the
matrix `M`, and until its calculator is given another one, its samples are independent and follow the law of `M`: that of
any interferometer `W` with `b` further modes that has `M` as its first part. -/
theorem C85_network_partial (svd : (m : ℕ) → Matrix (Fin m) (Fin m) ℂ → Svd m) (hsvd : ∀ m A, IsSvd A (svd m A)) (E : ShEnv)
    (hE : ∀ M, isSquare M = true → E.expand M = .ok (rowsOf (expandedMatrix (svd M.length (asMatrix M.length M)))))
    (hsub : E.sub = ryserSubPermanents E.fuel) (w : ShWorld) (pre ops : List ShOp) (k p : ℕ) (t : ℤ) (V M : Rows)
    (hk : (shState E w.view pre).samplers[k]? = some (.lossyNet, p)) (hp : (shState E w.view pre).perms[p]? = some (t, V))
    (hn : NoWrites E p (shNext E (shState E w.view pre) (.setNewMatrix k M)) ops)
    (hsq : isSquare M = true) (hle : ∀ i, (svd M.length (asMatrix M.length M)).s i ≤ 1) (W : List (List ℂ)) (b : ℕ)
    (hW : IsDilation M W M.length b) (S : List ℕ) (hS : S.length = M.length) (hm : S ≠ [])
    (hf : (S.map (· + 1)).prod + S.length < E.fuel) (l : List (List ℕ)) (hl : ∀ T ∈ l, T.length = S.length) :
    (shRun E w (pre ++ .setNewMatrix k M :: ops ++ [.simulate k S l.length])).wp
        (lastResult fun r => if r = .samples (.ok l) then 1 else 0)
      = (l.map fun T => ENNReal.ofReal (lossyProb W b S T)).prod := by
  rw [C85_given_partial E w pre ops k p .lossyNet t V M _ hk hp (hE M hsq) hn]
  rw [← C70_network (asMatrix M.length M) _ (hsvd _ _) hle W b (by rwa [rowsOf_asMatrix hsq]) S hS
    (by rw [← hS]; exact List.length_pos_of_ne_nil hm) E.fuel (by omega) (by omega) l fun T hT => (hl T hT).trans hS]
  simp only [samplerLaw, hsub, ShResult.samples.injEq]
  unfold Prog.prob lossyNetSimulate
  congr 1
  funext r
  congr

open Classical in
/-- A case of `C85_network_partial`: a calculator holding the identity is given a sampler for lossy networks; before
the call the sampler is given the identity as its matrix, and a sampler of another kind draws with another calculator. -/
example (junk : GuanScratch ℂ) (junkMem : GccuObj) (cfg : CalcCfg ℂ) : ∃ E : ShEnv, ∃ w : ShWorld,
    (shRun E w ([.newPerm 3 cfg, .newSampler .gcc 1] ++ .setNewMatrix 0 identityRows :: [.simulate 1 [1, 0] 2]
        ++ [.simulate 0 [1, 1] ([[1, 1], [1, 1]] : List (List ℕ)).length])).wp
        (lastResult fun r => if r = .samples (.ok [[1, 1], [1, 1]]) then 1 else 0)
      = ENNReal.ofReal (lossyProb identityRows 0 [1, 1] [1, 1]) * ENNReal.ofReal (lossyProb identityRows 0 [1, 1] [1, 1]) := by
  refine ⟨⟨reflectedGray, ryserSubPermanents 7, properExternals.env.expand, fun l => (Encodable.encode l : ℕ), 7, junk, junkMem⟩,
    ⟨[⟨0, ⟨identityRows, [], []⟩, junk⟩], [⟨.lossyNet, 0, junkMem⟩]⟩, ?_⟩
  have hd := unitary_isDilation (one_mem (Matrix.unitaryGroup (Fin 2) ℂ))
  rw [show rowsOf (1 : Matrix (Fin 2) (Fin 2) ℂ) = identityRows by
    rw [← identity_asMatrix]; exact rowsOf_asMatrix (M := identityRows) (by simp [isSquare, identityRows])] at hd
  have := C85_network_partial properExternals.svd properExternals_svd
    ⟨reflectedGray, ryserSubPermanents 7, properExternals.env.expand, fun l => (Encodable.encode l : ℕ), 7, junk, junkMem⟩
    (fun M hM => by
      change (if isSquare M = true then _ else _ : Py Rows) = _
      rw [if_pos hM]
      rfl) rfl
    ⟨[⟨0, ⟨identityRows, [], []⟩, junk⟩], [⟨.lossyNet, 0, junkMem⟩]⟩ [.newPerm 3 cfg, .newSampler .gcc 1] [.simulate 1 [1, 0] 2]
    0 0 0 identityRows identityRows rfl rfl ⟨fun h => h, trivial⟩ (by simp [isSquare, identityRows])
    (fun i => unitary_svd_le identity_unitary i) identityRows 0 hd [1, 1] rfl (by simp) (show 6 < 7 by decide) [[1, 1], [1, 1]] (by simp)
  rw [List.map_cons, List.map_cons, List.map_nil, List.prod_cons, List.prod_cons, List.prod_nil, mul_one] at this
  exact this

/-- C85: exact calculators are never affected: whatever happened before, the probabilities a fixed-loss calculator
returns are those of its own configuration. -/
theorem C85_exact_partial (E : ShEnv) (w : ShWorld) (ops : List ShOp) (p : ℕ) (t : ℤ) (U : Rows)
    (hp : (shState E w.view ops).perms[p]? = some (t, U)) (c : ExpConfig ℂ ℝ) (outcomes : List (List ℕ)) (f : ShResult → ℝ≥0∞) :
    (shRun E w (ops ++ [.fixed p c outcomes])).wp (lastResult f)
      = f (.probabilities (fixedLossProbabilities Complex.normSq (factoryPermanent E.gray t E.fuel) E.hash c outcomes)) := by
  rw [C84_last]
  simp only [shResult, hp]
  rfl

/-- A fixed-loss computation with at least one outcome and as many particles as there are sets the matrix. -/
theorem setsMatrix_expConfig (hash : List ℕ → ℤ) (V : Rows) (S : List ℕ) (k : ℕ) (eta : ℝ) (outcomes : List (List ℕ))
    (ho : outcomes ≠ []) (hS : S.sum ≠ 0) (hk : k ≤ S.sum)
    (hinj : ∀ a b : List ℕ, StateLE a S → a.sum = k → StateLE b S → b.sum = k → hash a = hash b → a = b) :
    SetsMatrix hash (expConfig V S k eta) outcomes := by
  obtain ⟨L, Ms, hL, hM, hsum⟩ := C07_total hash S k hS hinj
  rcases L with _ | ⟨l, L⟩
  · have : Ms = [] := (Except.ok.inj hM).symm
    rw [this] at hsum
    have := Nat.choose_pos hk
    simp at hsum
    omega
  · refine ⟨ho, l, L, ?_⟩
    rw [List.mapM_cons] at hM
    rcases hx : lossyInputMultiplicity S l with e | x
    · rw [hx] at hM; cases hM
    · exact ⟨x, hL, hx⟩

/-- C85, finding: after a fixed-loss calculator has computed a probability with the same permanent calculator, a
sampler draws from the matrix of that calculator's configuration instead of the matrix it was given. -/
theorem C85_overwritten (E : ShEnv) (w : ShWorld) (k p : ℕ) (cls : SamplerClass) (t : ℤ) (U V : Rows)
    (hk : w.view.samplers[k]? = some (cls, p)) (hp : w.view.perms[p]? = some (t, U))
    (S' : List ℕ) (n : ℕ) (eta : ℝ) (outcomes : List (List ℕ)) (ho : outcomes ≠ []) (hS : S'.sum ≠ 0) (hn : n ≤ S'.sum)
    (hinj : ∀ a b : List ℕ, StateLE a S' → a.sum = n → StateLE b S' → b.sum = n → E.hash a = E.hash b → a = b)
    (S : List ℕ) (N : ℤ) (f : ShResult → ℝ≥0∞) :
    (shRun E w [.fixed p (expConfig V S' n eta) outcomes, .simulate k S N]).wp (lastResult f)
      = (samplerLaw E t V cls S N).wp fun r => f (.samples r) := by
  have hset := setsMatrix_expConfig E.hash V S' n eta outcomes ho hS hn hinj
  have hst : shState E w.view [.fixed p (expConfig V S' n eta) outcomes]
      = { w.view with perms := w.view.perms.modify p fun x => (x.1, V) } := by
    simp only [shState, List.foldl_cons, List.foldl_nil, shNext, if_pos hset]
    rfl
  refine C84_simulate E w [.fixed p (expConfig V S' n eta) outcomes] k p cls t V ?_ ?_ S N f
  · rw [hst]; exact hk
  · rw [hst, List.getElem?_modify]
    simp [hp]

/-- C85, finding: `set_new_matrix` of one sampler makes another one with the same permanent calculator draw from the
new matrix. -/
theorem C85_set_by_other (E : ShEnv) (w : ShWorld) (j k p : ℕ) (cls : SamplerClass) (t : ℤ) (U V : Rows)
    (hk : w.view.samplers[k]? = some (cls, p)) (hj : w.view.samplers[j]? = some (.gcc, p)) (hp : w.view.perms[p]? = some (t, U))
    (S : List ℕ) (N : ℤ) (f : ShResult → ℝ≥0∞) :
    (shRun E w [.setNewMatrix j V, .simulate k S N]).wp (lastResult f)
      = (samplerLaw E t V cls S N).wp fun r => f (.samples r) := by
  have hst : shState E w.view [.setNewMatrix j V] = { w.view with perms := w.view.perms.modify p fun x => (x.1, V) } := by
    simp only [shState, List.foldl_cons, List.foldl_nil, shNext, hj, heldMatrix]
  refine C84_simulate E w [.setNewMatrix j V] k p cls t V ?_ ?_ S N f
  · rw [hst]; exact hk
  · rw [hst, List.getElem?_modify]
    simp [hp]

/-- C85, finding: building a sampler for lossy networks with the same permanent calculator makes a sampler draw from the
expanded matrix (with twice as many modes). -/
theorem C85_constructor (E : ShEnv) (w : ShWorld) (k p : ℕ) (cls : SamplerClass) (t : ℤ) (U X : Rows)
    (hk : w.view.samplers[k]? = some (cls, p)) (hp : w.view.perms[p]? = some (t, U)) (hX : E.expand U = .ok X)
    (S : List ℕ) (N : ℤ) (f : ShResult → ℝ≥0∞) :
    (shRun E w [.newSampler .lossyNet p, .simulate k S N]).wp (lastResult f)
      = (samplerLaw E t X cls S N).wp fun r => f (.samples r) := by
  have hst : shState E w.view [.newSampler .lossyNet p]
      = ⟨w.view.perms.set p (t, X), w.view.samplers ++ [(.lossyNet, p)]⟩ := by
    simp only [shState, List.foldl_cons, List.foldl_nil, shNext, hp, heldMatrix, hX]
  refine C84_simulate E w [.newSampler .lossyNet p] k p cls t X ?_ ?_ S N f
  · rw [hst]
    exact (List.getElem?_append_left (List.getElem?_eq_some_iff.mp hk).1).trans hk
  · rw [hst]
    simp [(List.getElem?_eq_some_iff.mp hp).1]

/-! ### A concrete history -/

/-- One calculator holding the identity, with two samplers. -/
noncomputable def sharedExample (t : ℤ) : ShWorld where
  perms := [⟨t, ⟨[[1, 0], [0, 1]], [], []⟩, freshScratch ⟨[[1, 0], [0, 1]], [], []⟩⟩]
  samplers := [⟨.gcc, 0, gccuInit 0 false⟩, ⟨.gccb, 0, gccuInit 0 false⟩]

theorem identity_pair_interferometer : Interferometer [[1, 0], [0, 1]] [1, 1] where
  square := by simp
  len := rfl
  ne := by simp
  ortho := by
    intro a ha b hb
    have ha' : a = 0 ∨ a = 1 := by change a < 2 at ha; omega
    have hb' : b = 0 ∨ b = 1 := by change b < 2 at hb; omega
    rcases ha' with rfl | rfl <;> rcases hb' with rfl | rfl <;> simp [sum_range_succ, mget]

theorem identity_pair_prob : bosonProb [[1, 0], [0, 1]] [1, 1] [1, 1] = 1 := by
  have hp : scatteringPermanent [[1, 0], [0, 1]] [1, 1] [1, 1] = (1 : ℂ) := by
    change Matrix.permanent (Matrix.of fun (a b : Fin 2) =>
      mget [[(1 : ℂ), 0], [0, 1]] ([0, 1].getD a 0) ([0, 1].getD b 0)) = _
    rw [Matrix.permanent, Fintype.sum_equiv (Equiv.Perm.decomposeFin (n := 1)) _
      (fun p => ∏ i, Matrix.of (fun (a b : Fin 2) =>
        mget [[(1 : ℂ), 0], [0, 1]] ([0, 1].getD a 0) ([0, 1].getD b 0))
          (Equiv.Perm.decomposeFin.symm p i) i) (fun σ => by simp)]
    rw [Fintype.sum_prod_type]
    simp [Fin.sum_univ_two, Fin.prod_univ_two, mget, Matrix.of_apply]
  rw [bosonProb, hp]
  simp [factProd]

section
variable (E : ShEnv) (hgray : ∀ n, IsGrayCode n (E.gray n)) (hsub : E.sub = ryserSubPermanents E.fuel)
  (hf : genFuel 1 2 + 4 ≤ E.fuel) (t : ℤ)
include hgray hsub hf

open Classical in
/-- C85 fails: two particles entering different modes of the identity come out the same way with certainty; after a
fixed-loss calculator for a rotation has used the permanent calculator, the sampler reports that with probability
`49/625`. -/
theorem C85_fails (hash : List ℕ → ℤ) (hE : E.hash = hash)
    (hinj : ∀ a b : List ℕ, StateLE a [1, 1] → a.sum = 2 → StateLE b [1, 1] → b.sum = 2 → hash a = hash b → a = b) (eta : ℝ) :
    (shRun E (sharedExample t) ([] ++ [.simulate 0 [1, 1] 1])).wp
        (lastResult fun r => if r = .samples (.ok [[1, 1]]) then 1 else 0) = 1 ∧
    (shRun E (sharedExample t) [.fixed 0 (expConfig [[3 / 5, 4 / 5], [4 / 5, -3 / 5]] [1, 1] 2 eta) [[1, 1]],
        .simulate 0 [1, 1] 1]).wp
        (lastResult fun r => if r = .samples (.ok [[1, 1]]) then 1 else 0) = ENNReal.ofReal (49 / 625) ∧
    (shRun E (sharedExample t) [.setNewMatrix 0 [[3 / 5, 4 / 5], [4 / 5, -3 / 5]], .simulate 1 [1, 1] 1]).wp
        (lastResult fun r => if r = .samples (.ok [[1, 1]]) then 1 else 0) = ENNReal.ofReal (49 / 625) := by
  subst hE
  have hmem : [1, 1] ∈ statesFin 2 2 := (mem_statesFin 2 2 [1, 1]).mpr ⟨rfl, rfl⟩
  have key : ∀ (cls : SamplerClass) (hc : cls = .gcc ∨ cls = .gccb) (U : Rows), Interferometer U [1, 1] →
      (samplerLaw E t U cls [1, 1] 1).wp (fun r => if ShResult.samples r = .samples (.ok [[1, 1]]) then 1 else 0)
        = ENNReal.ofReal (bosonProb U [1, 1] [1, 1]) := by
    intro cls hc U hU
    have h := samplerLaw_wp E hgray hsub t hU cls (by rcases hc with rfl | rfl <;> exact trivial) hf 1
      (fun r => if ShResult.samples r = .samples (.ok [[1, 1]]) then 1 else 0)
    refine h.trans ?_
    simp only [ShResult.samples.injEq, Except.ok.injEq]
    have h1 := expIid_indicator (sampleSpace [1, 1] cls) (fun T => ENNReal.ofReal (sampleProb U [1, 1] cls T)) [[1, 1]]
      (by rcases hc with rfl | rfl <;> simpa [sampleSpace] using hmem)
    refine h1.trans ?_
    rcases hc with rfl | rfl <;> simp [sampleProb]
  refine ⟨?_, ?_, ?_⟩
  · rw [C85_isolated_partial E (sharedExample t) [] 0 0 .gcc t [[1, 0], [0, 1]] rfl rfl trivial]
    rw [key _ (.inl rfl) _ identity_pair_interferometer, identity_pair_prob]
    simp
  · rw [C85_overwritten E (sharedExample t) 0 0 .gcc t [[1, 0], [0, 1]] _ rfl rfl [1, 1] 2 eta [[1, 1]] (by simp) (by simp) (by simp)
      hinj, key _ (.inl rfl) _ (rotation_interferometer [1, 1] rfl), rotation_prob]
  · rw [C85_set_by_other E (sharedExample t) 0 1 0 .gccb t [[1, 0], [0, 1]] _ rfl rfl rfl,
      key _ (.inr rfl) _ (rotation_interferometer [1, 1] rfl), rotation_prob]

omit hgray hsub hf in
/-- The assumptions on the surroundings can be met. -/
example : ∃ E : ShEnv, (∀ n, IsGrayCode n (E.gray n)) ∧ E.sub = ryserSubPermanents E.fuel ∧ genFuel 1 2 + 4 ≤ E.fuel ∧
    ∀ a b : List ℕ, StateLE a [1, 1] → a.sum = 2 → StateLE b [1, 1] → b.sum = 2 → E.hash a = E.hash b → a = b := by
  refine ⟨⟨reflectedGray, ryserSubPermanents (genFuel 1 2 + 4), .ok, fun l => (Encodable.encode l : ℕ), genFuel 1 2 + 4,
    freshScratch ⟨[], [], []⟩, gccuInit 0 false⟩, reflectedGray_isGrayCode, rfl, le_rfl, ?_⟩
  intro a b _ _ _ _ h
  exact Encodable.encode_injective (Int.ofNat.inj h)

omit hgray hsub hf in
/-- A history that leaves the calculator 0 alone: its samplers draw, a second calculator gets a sampler that is given
another matrix, and a fixed-loss calculator uses the second one. -/
example (M : Rows) (c : ExpConfig ℂ ℝ) (cfg : CalcCfg ℂ) : NoWrites E 0 (sharedExample t).view
    [.simulate 1 [2, 0] 5, .newPerm 3 cfg, .newSampler .gcc 1, .setNewMatrix 2 M, .fixed 1 c [[1, 0]], .simulate 0 [1, 1] 3] := by
  refine ⟨fun h => h, fun h => h, fun h => h, ?_, by simp [Writes], fun h => h, trivial⟩
  rintro ⟨cls, h⟩
  simp [shNext, sharedExample, ShWorld.view, heldMatrix] at h

end

end Verif
