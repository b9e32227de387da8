import Verif.Proofs.SharedSamplers
import Verif.Proofs.SamplerMemory

/-! Helper lemmas: histories of samplers and exact calculators with shared permanent calculators. -/
namespace Verif

open Finset
open scoped ENNReal

/-! ### What a fixed-loss calculator leaves in the permanent calculator -/

section
variable (gray : ℕ → List ℕ) (fuel : ℕ) (junk : GuanScratch ℂ) (hash : List ℕ → ℤ) (t : ℤ) (c : ExpConfig ℂ ℝ)

/-- One lossy input of `probabilityForIndistinguishableS`. -/
noncomputable def indistStepS (outcome : List ℕ) (st : ℝ × Option (List ℕ)) (lossyInput : List ℕ) :
    PyS (PermObj ℂ) (ℝ × Option (List ℕ)) := do
  let mult ← PyS.lift (lossyInputMultiplicity c.initialState lossyInput)
  PermObj.setAll ⟨c.matrix, lossyInput, outcome⟩
  let x ← PermObj.compute gray fuel junk
  let sub ← PyS.lift (lossyInput.foldlM (fun (sub : ℝ) (o : ℕ) => floatDiv sub (o.factorial : ℝ)) (Complex.normSq x))
  pure (st.1 + sub * (mult : ℝ), some lossyInput)

theorem sets_step (outcome : List ℕ) (st : ℝ × Option (List ℕ)) (l : List ℕ) {x : ℕ}
    (hx : lossyInputMultiplicity c.initialState l = .ok x) (o : PermObj ℂ) (ho : o.kind = t) :
    Holds t c.matrix ((indistStepS gray fuel junk c outcome st l) o).2 := by
  unfold indistStepS
  rw [hx, PyS.bind_ok _ _ _ (a := x) rfl, PyS.bind_ok _ _ _ (a := ()) rfl]
  change Holds t c.matrix ((PermObj.compute gray fuel junk >>= _) (⟨o.kind, ⟨c.matrix, l, outcome⟩, o.scratch⟩ : PermObj ℂ)).2
  have h := run_keeps gray fuel junk (⟨o.kind, ⟨c.matrix, l, outcome⟩, o.scratch⟩ : PermObj ℂ)
  have hh : Holds t c.matrix (PermObj.run gray fuel junk (⟨o.kind, ⟨c.matrix, l, outcome⟩, o.scratch⟩ : PermObj ℂ)).2 :=
    ⟨h.1.trans ho, by rw [h.2]⟩
  rcases hr : (PermObj.compute gray fuel junk (⟨o.kind, ⟨c.matrix, l, outcome⟩, o.scratch⟩ : PermObj ℂ)).1 with e | y
  · rw [PyS.bind_error _ _ _ hr]; exact hh
  · rw [PyS.bind_ok _ _ _ hr]
    rcases hs : l.foldlM (fun (sub : ℝ) (o : ℕ) => floatDiv sub (o.factorial : ℝ)) (Complex.normSq y) with e | z
    · rw [PyS.bind_error _ _ _ rfl]; exact hh
    · rw [PyS.bind_ok _ _ _ rfl]; exact hh

/-- The code keeps a property of the object. -/
def Keeps {σ α : Type} (I : σ → Prop) (m : PyS σ α) : Prop := ∀ s, I s → I (m s).2

theorem Keeps.bind {σ α β : Type} {I : σ → Prop} {m : PyS σ α} {f : α → PyS σ β} (h : Keeps I m) (hf : ∀ a, Keeps I (f a)) :
    Keeps I (m >>= f) := by
  intro s hs
  rcases hm : (m s).1 with e | a
  · rw [PyS.bind_error _ _ _ hm]; exact h s hs
  · rw [PyS.bind_ok _ _ _ hm]; exact hf a _ (h s hs)

theorem Keeps.lift {σ α : Type} {I : σ → Prop} (x : Py α) : Keeps I (PyS.lift x : PyS σ α) := fun _ hs => hs

theorem Keeps.foldlM {σ α β : Type} {I : σ → Prop} {f : β → α → PyS σ β} (h : ∀ b a, Keeps I (f b a)) (l : List α) (b : β) :
    Keeps I (l.foldlM f b) := by
  induction l generalizing b with
  | nil => exact fun _ hs => hs
  | cons a l ih => rw [List.foldlM_cons]; exact (h b a).bind ih

theorem keeps_step (outcome : List ℕ) (st : ℝ × Option (List ℕ)) (l : List ℕ) :
    Keeps (Holds t c.matrix) (indistStepS gray fuel junk c outcome st l) := by
  intro o ho
  rcases hx : lossyInputMultiplicity c.initialState l with e | x
  · unfold indistStepS
    rw [hx, PyS.bind_error _ _ _ (e := e) rfl]
    exact ho
  · exact sets_step gray fuel junk t c outcome st l hx o ho.1

theorem keeps_indist (outcome : List ℕ) :
    Keeps (Holds t c.matrix) (probabilityForIndistinguishableS Complex.normSq gray fuel junk hash c outcome) := by
  refine (Keeps.lift _).bind fun L => (Keeps.foldlM (keeps_step gray fuel junk t c outcome) L _).bind fun p => ?_
  rcases p with ⟨p, _ | l⟩
  · exact Keeps.lift _
  · exact (Keeps.lift _).bind fun p => Keeps.lift _

theorem keeps_outcome (outcome : List ℕ) :
    Keeps (Holds t c.matrix) (fixedLossOutcomeS Complex.normSq gray fuel junk hash c outcome) :=
  (keeps_indist gray fuel junk hash t c outcome).bind fun _ => Keeps.lift _

theorem keeps_fixed (outcomes : List (List ℕ)) :
    Keeps (Holds t c.matrix) (fixedLossProbabilitiesS Complex.normSq gray fuel junk hash c outcomes) := by
  unfold fixedLossProbabilitiesS
  induction outcomes with
  | nil => exact fun _ hs => hs
  | cons a l ih => rw [List.mapM_cons]; exact (keeps_outcome gray fuel junk hash t c a).bind fun _ => ih.bind fun _ _ hs => hs

theorem indist_eq (outcome : List ℕ) :
    probabilityForIndistinguishableS Complex.normSq gray fuel junk hash c outcome =
      (PyS.lift (generateLossyNParticleInputStates hash c.initialState c.left) >>= fun L =>
        L.foldlM (indistStepS gray fuel junk c outcome) (0, none) >>= fun r =>
          match r.2 with
          | none => PyS.lift (.error .nameError)
          | some l => do
            let p ← PyS.lift (floatDiv r.1 ((l.sum.factorial : ℕ) : ℝ))
            PyS.lift (floatDiv p ((c.initialNumber.choose c.left : ℕ) : ℝ))) := rfl

/-- The matrix is the configuration's if the computation got that far. -/
theorem fixed_leaves (outcomes : List (List ℕ)) (o : PermObj ℂ) (ho : o.kind = t) :
    (SetsMatrix hash c outcomes →
      Holds t c.matrix (fixedLossProbabilitiesS Complex.normSq gray fuel junk hash c outcomes o).2) ∧
    (¬ SetsMatrix hash c outcomes → (fixedLossProbabilitiesS Complex.normSq gray fuel junk hash c outcomes o).2 = o) := by
  have hmap : ∀ a l, fixedLossProbabilitiesS Complex.normSq gray fuel junk hash c (a :: l) =
      (fixedLossOutcomeS Complex.normSq gray fuel junk hash c a >>= fun b =>
        fixedLossProbabilitiesS Complex.normSq gray fuel junk hash c l >>= fun r => pure (b :: r)) := fun a l => List.mapM_cons
  constructor
  · rintro ⟨hne, l, L, x, hL, hx⟩
    obtain ⟨a, rest, rfl⟩ := List.exists_cons_of_ne_nil hne
    have h1 : Holds t c.matrix (probabilityForIndistinguishableS Complex.normSq gray fuel junk hash c a o).2 := by
      rw [indist_eq, hL, PyS.bind_ok _ _ _ (a := l :: L) rfl, List.foldlM_cons]
      have hs := sets_step gray fuel junk t c a (0, none) l hx o ho
      change Holds t c.matrix (((indistStepS gray fuel junk c a (0, none) l >>= fun st => L.foldlM _ st) >>= _) o).2
      rcases hm : (indistStepS gray fuel junk c a (0, none) l o).1 with e | y
      · rw [PyS.bind_error _ _ _ (e := e) (by rw [PyS.bind_error _ _ _ hm]), PyS.bind_error _ _ _ hm]
        exact hs
      · have : Keeps (Holds t c.matrix) (L.foldlM (indistStepS gray fuel junk c a) y >>= fun r =>
            match r.2 with
            | none => PyS.lift (.error .nameError)
            | some l => do
              let p ← PyS.lift (floatDiv r.1 ((l.sum.factorial : ℕ) : ℝ))
              PyS.lift (floatDiv p ((c.initialNumber.choose c.left : ℕ) : ℝ))) := by
          refine (Keeps.foldlM (keeps_step gray fuel junk t c a) L _).bind fun p => ?_
          rcases p with ⟨p, _ | l⟩
          · exact Keeps.lift _
          · exact (Keeps.lift _).bind fun p => Keeps.lift _
        rw [bind_assoc, PyS.bind_ok _ _ _ hm]
        exact this _ hs
    have h2 : Holds t c.matrix (fixedLossOutcomeS Complex.normSq gray fuel junk hash c a o).2 := by
      unfold fixedLossOutcomeS
      rcases hm : (probabilityForIndistinguishableS Complex.normSq gray fuel junk hash c a o).1 with e | y
      · rw [PyS.bind_error _ _ _ hm]; exact h1
      · rw [PyS.bind_ok _ _ _ hm]; exact h1
    rw [hmap]
    rcases hm : (fixedLossOutcomeS Complex.normSq gray fuel junk hash c a o).1 with e | y
    · rw [PyS.bind_error _ _ _ hm]; exact h2
    · rw [PyS.bind_ok _ _ _ hm]
      exact ((keeps_fixed gray fuel junk hash t c rest).bind fun _ _ hs => hs) _ h2
  · intro hn
    rcases outcomes with _ | ⟨a, rest⟩
    · rfl
    have h1 : ∃ e, probabilityForIndistinguishableS Complex.normSq gray fuel junk hash c a o = (.error e, o) := by
      rw [indist_eq]
      rcases hL : generateLossyNParticleInputStates hash c.initialState c.left with e | L
      · exact ⟨e, PyS.bind_error _ _ _ rfl⟩
      rw [PyS.bind_ok _ _ _ (a := L) rfl]
      rcases L with _ | ⟨l, L⟩
      · exact ⟨.nameError, rfl⟩
      rcases hx : lossyInputMultiplicity c.initialState l with e | x
      · refine ⟨e, ?_⟩
        have : indistStepS gray fuel junk c a (0, none) l o = (.error e, o) := by
          unfold indistStepS
          rw [hx, PyS.bind_error _ _ _ (e := e) rfl]
          rfl
        have h3 : (l :: L).foldlM (indistStepS gray fuel junk c a) (0, none) o = (.error e, o) := by
          rw [List.foldlM_cons, PyS.bind_error _ _ _ (e := e) (by rw [this]), this]
        exact (PyS.bind_error _ _ o (e := e) (by rw [h3])).trans (by rw [h3])
      · exact absurd ⟨by simp, l, L, x, hL, hx⟩ hn
    obtain ⟨e, he⟩ := h1
    have h2 : fixedLossOutcomeS Complex.normSq gray fuel junk hash c a o = (.error e, o) := by
      unfold fixedLossOutcomeS
      rw [PyS.bind_error _ _ _ (e := e) (by rw [he]), he]
    rw [hmap, PyS.bind_error _ _ _ (e := e) (by rw [h2]), h2]

end

/-! ### One sampler -/

/-- The functional model started with an object of given contents. -/
noncomputable def samplerPure (E : ShEnv) (t : ℤ) (U : Rows) (cls : SamplerClass) (mem : GccuObj) (S : List ℕ) (N : ℤ) :
    Prog (List (List ℕ) × GccuObj) :=
  match cls with
  | .gcc => gccSimulate gccA (factoryPermanent E.gray t E.fuel) U E.fuel mem.base S N >>= fun x => pure (x.1, { mem with base := x.2 })
  | .assignment =>
    gccSimulate gccAssignment (factoryPermanent E.gray t E.fuel) U E.fuel mem.base S N >>= fun x => pure (x.1, { mem with base := x.2 })
  | .gccb => gccbSimulate E.sub U E.fuel S N >>= fun l => pure (l, mem)
  | .uniform eta => gccuSimulate (factoryPermanent E.gray t E.fuel) U E.fuel { mem with eta := eta } S N
  | .uniformB eta => gccbLossySimulate E.sub U E.fuel eta S N >>= fun l => pure (l, mem)
  | .lossyNet => (gccbSimulate E.sub U E.fuel (S ++ S.map fun _ => 0) N >>= fun samples =>
      .done (samples.mapM fun out => trimTo E.fuel S.length out)) >>= fun l => pure (l, mem)

theorem sim_sampler (E : ShEnv) (t : ℤ) (U : Rows) (cls : SamplerClass) (mem : GccuObj) (S : List ℕ) (N : ℤ) :
    SimP (Holds t U) (samplerSimulate E cls mem S N) (samplerPure E t U cls mem S N) := by
  cases cls with
  | gcc => exact (sim_gcc E.gray E.fuel E.junk t U _ _ S N).bind fun _ => SimP.pure _
  | assignment => exact (sim_gcc E.gray E.fuel E.junk t U _ _ S N).bind fun _ => SimP.pure _
  | gccb => exact (sim_gccb E.sub E.fuel t U S N).bind fun _ => SimP.pure _
  | uniform eta => exact sim_gccu E.gray E.fuel E.junk t U _ S N
  | uniformB eta => exact (sim_gccbLossy E.sub E.fuel t U eta S N).bind fun _ => SimP.pure _
  | lossyNet => exact (sim_lossyNet E.sub E.fuel t U S N).bind fun _ => SimP.pure _

theorem pure_law (E : ShEnv) (t : ℤ) (U : Rows) (cls : SamplerClass) (mem : GccuObj) (S : List ℕ) (N : ℤ) :
    PRel (fun x l => x.1 = l) (samplerPure E t U cls mem S N) (samplerLaw E t U cls S N) := by
  cases cls with
  | gcc => exact (gccSimulate_memory _ _ _ _ _ _ S N).bind fun _ _ h => PRel.pure h
  | assignment => exact (gccSimulate_memory _ _ _ _ _ _ S N).bind fun _ _ h => PRel.pure h
  | gccb =>
    have := (PRel.same (gccbSimulate E.sub U E.fuel S N)).bind (W := fun x l => x.1 = l) (f := fun l => pure (l, mem))
      (g := fun l => pure l) fun a b h => PRel.pure h
    rwa [show (gccbSimulate E.sub U E.fuel S N >>= fun l => pure l) = gccbSimulate E.sub U E.fuel S N from bind_pure_prog _] at this
  | uniform eta =>
    have := (gccuSimulate_memory (factoryPermanent E.gray t E.fuel) U E.fuel { mem with eta := eta } (gccuInit eta false) rfl S N).bind
      (W := fun x l => x.1 = l) (f := fun x => pure x) (g := fun x => pure x.1) fun a b h => PRel.pure h
    rwa [bind_pure_prog] at this
  | uniformB eta =>
    have := (PRel.same (gccbLossySimulate E.sub U E.fuel eta S N)).bind (W := fun x l => x.1 = l) (f := fun l => pure (l, mem))
      (g := fun l => pure l) fun a b h => PRel.pure h
    rwa [show (gccbLossySimulate E.sub U E.fuel eta S N >>= fun l => pure l) = gccbLossySimulate E.sub U E.fuel eta S N from
      bind_pure_prog _] at this
  | lossyNet =>
    have := (PRel.same (gccbSimulate E.sub U E.fuel (S ++ S.map fun _ => 0) N >>= fun samples =>
      .done (samples.mapM fun out => trimTo E.fuel S.length out))).bind (W := fun x l => x.1 = l) (f := fun l => pure (l, mem))
      (g := fun l => pure l) fun a b h => PRel.pure h
    rwa [show ∀ p : Prog (List (List ℕ)), (p >>= fun l => pure l) = p from bind_pure_prog] at this

/-! ### Histories -/

/-- The part of the heap that matters. -/
def ShRel (w : ShWorld) (a : ShState) : Prop :=
  w.perms.map (fun o => (o.kind, o.cfg.matrix)) = a.perms ∧ w.samplers.map (fun s => (s.cls, s.perm)) = a.samplers

theorem map_set_modify {α β : Type} (g : α → β) (f : β → β) (l : List α) (p : ℕ) (x x' : α) (h : l[p]? = some x)
    (hx : g x' = f (g x)) : (l.set p x').map g = (l.map g).modify p f := by
  refine List.ext_getElem? fun i => ?_
  rw [List.map_set, List.getElem?_set, List.getElem?_modify]
  obtain ⟨hp, rfl⟩ := List.getElem?_eq_some_iff.mp h
  by_cases hi : p = i
  · subst hi
    simp [hp, hx]
  · simp [hi]

theorem map_set_same {α β : Type} (g : α → β) (l : List α) (p : ℕ) (x x' : α) (h : l[p]? = some x)
    (hx : g x' = g x) : (l.set p x').map g = l.map g := by
  rw [map_set_modify g id l p x x' h hx, List.modify_id]

theorem getElem?_map_none {α β : Type} (g : α → β) {l : List α} {m : List β} (hm : l.map g = m) {p : ℕ} (h : l[p]? = none) :
    m[p]? = none := by rw [← hm, List.getElem?_map, h]; rfl

theorem getElem?_map_some {α β : Type} (g : α → β) {l : List α} {m : List β} (hm : l.map g = m) {p : ℕ} {x : α}
    (h : l[p]? = some x) : m[p]? = some (g x) := by rw [← hm, List.getElem?_map, h]; rfl

theorem modify_out {α : Type} (f : α → α) {l : List α} {p : ℕ} (h : l[p]? = none) : l.modify p f = l := by
  refine List.ext_getElem? fun i => ?_
  rw [List.getElem?_modify]
  by_cases hi : p = i
  · subst hi; rw [h]; simp
  · simp [hi]

theorem modify_const {α : Type} (f : α → α) {l : List α} {p : ℕ} {x : α} (h : l[p]? = some x) : l.modify p f = l.set p (f x) := by
  refine List.ext_getElem? fun i => ?_
  rw [List.getElem?_modify, List.getElem?_set]
  obtain ⟨hp, rfl⟩ := List.getElem?_eq_some_iff.mp h
  by_cases hi : p = i
  · subst hi; simp [hp]
  · simp [hi]

theorem givenMatrix_eq (E : ShEnv) (cls : SamplerClass) (M : Rows) : givenMatrix E cls M = heldMatrix E cls M := by
  cases cls <;> rfl

theorem step_refines (E : ShEnv) (w : ShWorld) (a : ShState) (h : ShRel w a) (op : ShOp) (F : Py (ShResult × ShWorld) → ℝ≥0∞)
    (G : Py ShResult → ℝ≥0∞) (hFG : ∀ r w', ShRel w' (shNext E a op) → F (.ok (r, w')) = G (.ok r)) :
    (shStep E w op).wp F = (shResult E a op).wp G := by
  obtain ⟨hp, hs⟩ := h
  cases op with
  | newPerm kind cfg => exact hFG _ _ ⟨by simp [shNext, hp], hs⟩
  | setMatrix p M =>
    rcases ho : w.perms[p]? with _ | o
    · have ha := getElem?_map_none _ hp ho
      have hl : ¬ p < a.perms.length := by simpa using ha
      simp only [shStep, ho, shResult, if_neg hl]
      exact hFG _ _ ⟨by simp [shNext, hp, modify_out _ ha], hs⟩
    · have ha := getElem?_map_some _ hp ho
      have hl : p < a.perms.length := (List.getElem?_eq_some_iff.mp ha).1
      simp only [shStep, ho, shResult, if_pos hl]
      refine hFG _ _ ⟨?_, hs⟩
      rw [map_set_modify _ (fun x => (x.1, M)) _ _ _ _ ho rfl, hp]
      rfl
  | newSampler cls p =>
    rcases ho : w.perms[p]? with _ | o
    · have ha := getElem?_map_none _ hp ho
      simp only [shStep, ho, shResult, ha]
      exact hFG _ _ (by simp only [shNext, ha]; exact ⟨hp, hs⟩)
    · have ha := getElem?_map_some _ hp ho
      simp only [shStep, ho, shResult, ha, givenMatrix_eq]
      rcases hX : heldMatrix E cls o.cfg.matrix with e | X
      · exact hFG _ _ (by simp only [shNext, ha, hX]; exact ⟨hp, hs⟩)
      · refine hFG _ _ ?_
        simp only [shNext, ha, hX]
        refine ⟨?_, by simp [hs]⟩
        rw [map_set_modify _ (fun x => (x.1, X)) _ _ _ _ ho rfl, hp, modify_const _ ha]
  | setNewMatrix k M =>
    rcases hk : w.samplers[k]? with _ | s
    · have ha := getElem?_map_none _ hs hk
      simp only [shStep, hk, shResult, ha]
      exact hFG _ _ (by simp only [shNext, ha]; exact ⟨hp, hs⟩)
    · have hb := getElem?_map_some _ hs hk
      rcases ho : w.perms[s.perm]? with _ | o
      · have ha := getElem?_map_none _ hp ho
        have hl : ¬ s.perm < a.perms.length := by simpa using ha
        simp only [shStep, hk, ho, shResult, hb, if_neg hl]
        refine hFG _ _ ?_
        simp only [shNext, hb]
        rcases hX : heldMatrix E s.cls M with e | X
        · exact ⟨hp, hs⟩
        · exact ⟨by simp only [hp, modify_out _ ha], hs⟩
      · have ha := getElem?_map_some _ hp ho
        have hl : s.perm < a.perms.length := (List.getElem?_eq_some_iff.mp ha).1
        simp only [shStep, hk, ho, shResult, hb, if_pos hl, givenMatrix_eq]
        rcases hX : heldMatrix E s.cls M with e | X
        · refine hFG _ _ ?_
          simp only [shNext, hb, hX]
          exact ⟨hp, hs⟩
        · refine hFG _ _ ?_
          simp only [shNext, hb, hX]
          refine ⟨?_, hs⟩
          rw [map_set_modify _ (fun x => (x.1, X)) _ _ _ _ ho rfl, hp]
  | simulate k S N =>
    rcases hk : w.samplers[k]? with _ | s
    · have ha := getElem?_map_none _ hs hk
      simp only [shStep, hk, shResult, ha]
      exact hFG _ _ ⟨hp, hs⟩
    · have hb := getElem?_map_some _ hs hk
      rcases ho : w.perms[s.perm]? with _ | o
      · have ha := getElem?_map_none _ hp ho
        simp only [shStep, hk, ho, shResult, hb, ha]
        exact hFG _ _ ⟨hp, hs⟩
      · have ha := getElem?_map_some _ hp ho
        simp only [shStep, hk, ho, shResult, hb, ha]
        rw [Prog.bind_eq, Prog.bind_eq, Prog.wp_bind, Prog.wp_bind, wp_attempt]
        have key : ∀ (r : Py (List (List ℕ) × GccuObj)) (o' : PermObj ℂ), Holds o.kind o.cfg.matrix o' →
            Prog.wp (match r with
              | .ok (l, mem) => pure (ShResult.samples (.ok l),
                  { perms := w.perms.set s.perm o', samplers := w.samplers.set k { s with mem := mem } })
              | .error e => pure (.samples (.error e),
                  { perms := w.perms.set s.perm o', samplers := w.samplers.set k { s with mem := E.junkMem } })) F
              = G (.ok (.samples (r.map Prod.fst))) := by
          intro r o' ho'
          have e1 : (w.perms.set s.perm o').map (fun o => (o.kind, o.cfg.matrix)) = a.perms := by
            rw [map_set_same _ _ _ _ _ ho, hp]
            rw [ho'.1, ho'.2]
          rcases r with e | ⟨l, mem⟩
          · exact hFG _ _ ⟨e1, (map_set_same _ _ _ _ { s with mem := E.junkMem } hk rfl).trans hs⟩
          · exact hFG _ _ ⟨e1, (map_set_same _ _ _ _ { s with mem := mem } hk rfl).trans hs⟩
        refine ((sim_sampler E o.kind o.cfg.matrix s.cls s.mem S N) o ⟨rfl, rfl⟩).wp
          (G := fun r => G (.ok (.samples (r.map Prod.fst)))) (fun r o' ho' => key r o' ho') |>.trans ?_
        refine (pure_law E o.kind o.cfg.matrix s.cls s.mem S N).wp fun x y hxy => ?_
        rcases x with e | x <;> rcases y with e' | y
        · cases hxy; rfl
        · exact hxy.elim
        · exact hxy.elim
        · cases hxy; rfl
  | fixed p c outcomes =>
    rcases ho : w.perms[p]? with _ | o
    · have ha := getElem?_map_none _ hp ho
      simp only [shStep, ho, shResult, ha]
      refine hFG _ _ ?_
      simp only [shNext]
      split_ifs
      · exact ⟨by simp only [hp, modify_out _ ha], hs⟩
      · exact ⟨hp, hs⟩
    · have ha := getElem?_map_some _ hp ho
      simp only [shStep, ho, shResult, ha]
      rw [← (sim_fixed E.gray E.fuel E.junk Complex.normSq E.hash o.kind c outcomes o rfl).1]
      refine hFG _ _ ?_
      have hl := fixed_leaves E.gray E.fuel E.junk E.hash o.kind c outcomes o rfl
      simp only [shNext]
      split_ifs with hset
      · obtain ⟨h1, h2⟩ := hl.1 hset
        refine ⟨?_, hs⟩
        rw [map_set_modify _ (fun x => (x.1, c.matrix)) _ _ _ _ ho (by rw [h1, h2]), hp]
      · rw [hl.2 hset]
        exact ⟨by rw [map_set_same _ _ _ _ _ ho rfl, hp], hs⟩
  | uniform p u copies outcomes =>
    rcases ho : w.perms[p]? with _ | o
    · have ha := getElem?_map_none _ hp ho
      simp only [shStep, ho, shResult, ha]
      exact hFG _ _ ⟨hp, hs⟩
    · have ha := getElem?_map_some _ hp ho
      simp only [shStep, ho, shResult, ha]
      rw [← uniform_pool E.gray E.fuel E.junk Complex.normSq E.hash o.kind u (fun i => ⟨o.kind, (copies i).1, (copies i).2⟩)
        (fun _ => rfl) outcomes]
      exact hFG _ _ ⟨hp, hs⟩

theorem run_refines (E : ShEnv) (ops : List ShOp) (w : ShWorld) (a : ShState) (h : ShRel w a) (f : Py (List ShResult) → ℝ≥0∞) :
    (shRun E w ops).wp f = (shSpec E a ops).wp f := by
  induction ops generalizing w a f with
  | nil => rfl
  | cons op ops ih =>
    unfold shRun shSpec
    rw [Prog.bind_eq, Prog.bind_eq, Prog.wp_bind, Prog.wp_bind]
    refine step_refines E w a h op _ _ fun r w' hw' => ?_
    change ((shRun E w' ops).bind _).wp f = ((shSpec E (shNext E a op) ops).bind _).wp f
    rw [Prog.wp_bind, Prog.wp_bind]
    exact ih w' _ hw' _

end Verif
