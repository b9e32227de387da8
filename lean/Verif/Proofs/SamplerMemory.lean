import Verif.Model.CliffordsU
import Verif.Proofs.Layer
import Verif.Proofs.PyLemmas

/-! Helper lemmas: what earlier calls left in a sampler does not change what it draws and returns. -/
namespace Verif

open Finset
open scoped ENNReal

section
variable {α α' β β' : Type}

/-- Both return related values, or both raise the same exception. -/
def PyRel (V : α → α' → Prop) : Py α → Py α' → Prop
  | .ok a, .ok b => V a b
  | .error e, .error e' => e = e'
  | _, _ => False

theorem PyRel.bind {V : α → α' → Prop} {W : β → β' → Prop} {x : Py α} {y : Py α'} (h : PyRel V x y)
    {f : α → Py β} {g : α' → Py β'} (hf : ∀ a b, V a b → PyRel W (f a) (g b)) : PyRel W (x >>= f) (y >>= g) := by
  cases x <;> cases y <;> first | exact h | exact h.elim | exact hf _ _ h

theorem PyRel.same (x : Py α) : PyRel Eq x x := by cases x <;> rfl

theorem PyRel.bindSame {W : β → β' → Prop} (x : Py α) {f : α → Py β} {g : α → Py β'}
    (hf : ∀ a, PyRel W (f a) (g a)) : PyRel W (x >>= f) (x >>= g) :=
  (PyRel.same x).bind fun a _ h => h ▸ hf a

theorem PyRel.foldlM {V : β → β' → Prop} {f : β → α → Py β} {g : β' → α → Py β'}
    (h : ∀ x y a, V x y → PyRel V (f x a) (g y a)) (l : List α) (x : β) (y : β') (hxy : V x y) :
    PyRel V (l.foldlM f x) (l.foldlM g y) := by
  induction l generalizing x y with
  | nil => exact hxy
  | cons a l ih => exact (h x y a hxy).bind fun x' y' h' => ih x' y' h'

/-- The same draws with related results. -/
inductive PRel (V : α → α' → Prop) : Prog α → Prog α' → Prop
  | done {x : Py α} {y : Py α'} (h : PyRel V x y) : PRel V (.done x) (.done y)
  | uniform {k : ℝ → Prog α} {k' : ℝ → Prog α'} (h : ∀ u, PRel V (k u) (k' u)) : PRel V (.uniform k) (.uniform k')
  | randint {n : ℕ} {k : ℕ → Prog α} {k' : ℕ → Prog α'} (h : ∀ i, PRel V (k i) (k' i)) : PRel V (.randint n k) (.randint n k')
  | choice {p : List ℝ} {k : ℕ → Prog α} {k' : ℕ → Prog α'} (h : ∀ i, PRel V (k i) (k' i)) : PRel V (.choice p k) (.choice p k')
  | shuffle {n : ℕ} {k : List ℕ → Prog α} {k' : List ℕ → Prog α'} (h : ∀ i, PRel V (k i) (k' i)) :
      PRel V (.shuffle n k) (.shuffle n k')

theorem PRel.bind {V : α → α' → Prop} {W : β → β' → Prop} {p : Prog α} {q : Prog α'} (h : PRel V p q)
    {f : α → Prog β} {g : α' → Prog β'} (hf : ∀ a b, V a b → PRel W (f a) (g b)) : PRel W (p >>= f) (q >>= g) := by
  change PRel W (p.bind f) (q.bind g)
  induction h with
  | @done x y h =>
    cases x <;> cases y
    · exact .done h
    · exact h.elim
    · exact h.elim
    · exact hf _ _ h
  | uniform _ ih => exact .uniform ih
  | randint _ ih => exact .randint ih
  | choice _ ih => exact .choice ih
  | shuffle _ ih => exact .shuffle ih

theorem PRel.same (p : Prog α) : PRel Eq p p := by
  induction p with
  | done x => exact .done (PyRel.same x)
  | uniform _ ih => exact .uniform ih
  | randint _ _ ih => exact .randint ih
  | choice _ _ ih => exact .choice ih
  | shuffle _ _ ih => exact .shuffle ih

theorem PRel.bindSame {W : β → β' → Prop} (p : Prog α) {f : α → Prog β} {g : α → Prog β'}
    (hf : ∀ a, PRel W (f a) (g a)) : PRel W (p >>= f) (p >>= g) :=
  (PRel.same p).bind fun a _ h => h ▸ hf a

theorem PRel.pure {V : α → α' → Prop} {a : α} {b : α'} (h : V a b) : PRel V (Pure.pure a) (Pure.pure b) := .done h

theorem PRel.loop {V : β → β' → Prop} {c : β → Bool} {c' : β' → Bool} {f : β → Prog β} {g : β' → Prog β'}
    (hc : ∀ x y, V x y → c x = c' y) (h : ∀ x y, V x y → PRel V (f x) (g y)) (fuel : ℕ) (x : β) (y : β') (hxy : V x y) :
    PRel V (Prog.loop fuel c f x) (Prog.loop fuel c' g y) := by
  induction fuel generalizing x y with
  | zero => exact .done rfl
  | succ fuel ih =>
    unfold Prog.loop
    rw [hc x y hxy]
    split_ifs
    · exact (h x y hxy).bind fun x' y' h' => ih x' y' h'
    · exact PRel.pure hxy

theorem PRel.wp {V : α → α' → Prop} {p : Prog α} {q : Prog α'} (h : PRel V p q) {F : Py α → ℝ≥0∞} {G : Py α' → ℝ≥0∞}
    (hFG : ∀ x y, PyRel V x y → F x = G y) : p.wp F = q.wp G := by
  induction h with
  | done h => exact hFG _ _ h
  | uniform _ ih => simp only [Prog.wp, ih]
  | randint _ ih => simp only [Prog.wp, ih, hFG (.error .valueError) (.error .valueError) rfl]
  | choice _ ih => simp only [Prog.wp, ih, hFG (.error .valueError) (.error .valueError) rfl]
  | shuffle _ ih => simp only [Prog.wp, ih]

end

theorem bind_pure_prog {α : Type} (p : Prog α) : (p >>= fun x => pure x) = p := by
  change p.bind _ = p
  induction p with
  | done r => cases r <;> rfl
  | uniform k ih => exact congrArg Prog.uniform (funext ih)
  | randint n k ih => exact congrArg (Prog.randint n) (funext ih)
  | choice p k ih => exact congrArg (Prog.choice p) (funext ih)
  | shuffle n k ih => exact congrArg (Prog.shuffle n) (funext ih)

/-- Objects that differ at most in entries of `possible_outputs` that are not in use. -/
def GccAgree (o o' : GccObj) : Prop :=
  ∃ X, o' = { o with outs := X } ∧ ∀ k, assocGet o.pmfs k ≠ none → assocGet o.outs k = assocGet X k

theorem agree_newLayer (v : GccVariant) (perm : CalcCfg ℂ → Py ℂ) (U : List (List ℂ)) {o o' : GccObj} (h : GccAgree o o') :
    PyRel GccAgree (newLayer v perm U o) (newLayer v perm U o') := by
  obtain ⟨X, rfl, h⟩ := h
  refine PyRel.bindSame _ fun weights => PyRel.bindSame _ fun pmf => ⟨assocSet X o.key (v.next o.input o.r), rfl, fun k hk => ?_⟩
  rw [assocGet_set, assocGet_set]
  split_ifs with hkk
  · rfl
  · refine h k ?_
    rw [assocGet_set, if_neg hkk] at hk
    exact hk

theorem agree_sample {o o' : GccObj} (h : GccAgree o o') : PRel GccAgree (sampleFromLatestPmf o) (sampleFromLatestPmf o') := by
  obtain ⟨X, rfl, h⟩ := h
  by_cases hk : assocGet o.pmfs o.key = none
  · have : assocGetPy o.pmfs o.key = .error .keyError := by unfold assocGetPy; rw [hk]
    have e1 : sampleFromLatestPmf o = .done (.error .keyError) := by
      unfold sampleFromLatestPmf; rw [this]; rfl
    have e2 : sampleFromLatestPmf { o with outs := X } = .done (.error .keyError) := by
      unfold sampleFromLatestPmf; dsimp only; rw [this]; rfl
    rw [e1, e2]
    exact .done rfl
  · have e : assocGetPy X o.key = assocGetPy o.outs o.key := by unfold assocGetPy; rw [h _ hk]
    unfold sampleFromLatestPmf
    dsimp only
    rw [e]
    exact PRel.bindSame _ fun _ => PRel.bindSame _ fun _ => PRel.bindSame _ fun _ => PRel.bindSame _ fun _ =>
      PRel.bindSame _ fun _ => PRel.pure ⟨X, rfl, h⟩

theorem agree_fillStep (v : GccVariant) (perm : CalcCfg ℂ → Py ℂ) (U : List (List ℂ)) {o o' : GccObj} (h : GccAgree o o') :
    PRel GccAgree (fillStep v perm U o) (fillStep v perm U o') := by
  have hl := agree_newLayer v perm U h
  have : PRel GccAgree (.done (if assocGet o.pmfs o.key = none then newLayer v perm U o else pure o))
      (.done (if assocGet o'.pmfs o'.key = none then newLayer v perm U o' else pure o')) := by
    have e : assocGet o'.pmfs o'.key = assocGet o.pmfs o.key := by obtain ⟨X, rfl, _⟩ := h; rfl
    rw [e]
    split_ifs
    · exact .done hl
    · exact .done h
  exact this.bind fun a b hab => agree_sample hab

theorem agree_simulateLoop (v : GccVariant) (perm : CalcCfg ℂ → Py ℂ) (U : List (List ℂ)) (fuel n : ℕ) {o o' : GccObj}
    (h : GccAgree { o with r := o'.r, key := o'.key } o') :
    PRel (fun x y => x.1 = y.1) (simulateLoop v perm U fuel n o) (simulateLoop v perm U fuel n o') := by
  induction n generalizing o o' with
  | zero => exact PRel.pure rfl
  | succ n ih =>
    have hfill : PRel GccAgree (fillRSample v perm U fuel o) (fillRSample v perm U fuel o') := by
      obtain ⟨X, hX, h⟩ := h
      have e : fillRSample v perm U fuel o' = fillRSample v perm U fuel { o with outs := X } := by
        unfold fillRSample
        rw [hX]
      rw [e]
      refine PRel.loop ?_ (fun x y hxy => agree_fillStep v perm U hxy) fuel _ _ ⟨X, rfl, h⟩
      rintro x _ ⟨Y, rfl, _⟩
      rfl
    refine hfill.bind fun a b hab => ?_
    have e : v.occ b.input b.r = v.occ a.input a.r := by obtain ⟨X, rfl, _⟩ := hab; rfl
    have hab' : GccAgree { a with r := b.r, key := b.key } b := by obtain ⟨X, rfl, h⟩ := hab; exact ⟨X, rfl, h⟩
    rw [e]
    exact PRel.bindSame _ fun s => (ih hab').bind fun x y hxy => PRel.pure (by rw [hxy])

/-- `simulate` does the same for any contents of the object. -/
theorem gccSimulate_memory (v : GccVariant) (perm : CalcCfg ℂ → Py ℂ) (U : List (List ℂ)) (fuel : ℕ) (o o' : GccObj) (S : List ℕ)
    (N : ℤ) : PRel (fun x y => x.1 = y.1) (gccSimulate v perm U fuel o S N) (gccSimulate v perm U fuel o' S N) :=
  agree_simulateLoop v perm U fuel N.toNat ⟨o'.outs, rfl, fun _ hk => absurd rfl hk⟩

/-! ### Uniform losses -/

/-- Objects that agree in everything that is read: the recorded distributions are only written. -/
def GccuAgree (o o' : GccuObj) : Prop :=
  GccAgree o.base o'.base ∧ o.eta = o'.eta ∧ o.outputs = o'.outputs ∧ o.binw = o'.binw ∧
    o.dist.length = o'.dist.length ∧ o.udist.length = o'.udist.length

theorem pySetN_length_rel {l l' : List ℝ} (h : l.length = l'.length) (i : ℕ) (x : ℝ) :
    PyRel (fun a b => a.length = l.length ∧ b.length = l'.length) (pySetN l i x) (pySetN l' i x) := by
  unfold pySetN
  by_cases hi : i < l.length
  · rw [if_pos hi, if_pos (h ▸ hi)]
    exact ⟨by simp, by simp⟩
  · rw [if_neg hi, if_neg (h ▸ hi)]
    rfl

theorem agree_record (outputs : List (List ℕ)) (binw : List ℝ) (out : List ℕ) (p : ℝ) {d d' : List ℝ × List ℝ}
    (h : d.1.length = d'.1.length ∧ d.2.length = d'.2.length) :
    PyRel (fun a b => a.1.length = b.1.length ∧ a.2.length = b.2.length)
      (recordEntry outputs binw out p d) (recordEntry outputs binw out p d') := by
  refine PyRel.foldlM (V := fun a b : List ℝ × List ℝ => a.1.length = b.1.length ∧ a.2.length = b.2.length)
    ?_ _ _ _ h
  intro x y i hxy
  refine PyRel.bindSame _ fun t => ?_
  split_ifs
  · exact (pySetN_length_rel hxy.2 _ _).bind fun a b hab => PyRel.bindSame _ fun w =>
      (pySetN_length_rel hxy.1 _ _).bind fun a' b' hab' =>
        ⟨by rw [hab'.1, hab'.2, hxy.1], by rw [hab.1, hab.2, hxy.2]⟩
  · exact hxy

theorem agree_gccuNewLayer (perm : CalcCfg ℂ → Py ℂ) (U : List (List ℂ)) {o o' : GccuObj} (h : GccuAgree o o') :
    PyRel GccuAgree (gccuNewLayer perm U o) (gccuNewLayer perm U o') := by
  obtain ⟨b, eta, mi, outputs, dist, udist, binw⟩ := o
  obtain ⟨b', eta', mi', outputs', dist', udist', binw'⟩ := o'
  obtain ⟨⟨X, hX, h⟩, he, ho, hb, hd, hu⟩ := h
  dsimp only at hX h he ho hb hd hu
  subst hX he ho hb
  refine PyRel.bindSame _ fun weights => ?_
  refine PyRel.bind (V := fun x y => x.1 = y.1 ∧ x.2.1.length = y.2.1.length ∧ x.2.2.length = y.2.2.length) ?_ ?_
  · refine PyRel.foldlM (V := fun x y : List ℝ × (List ℝ × List ℝ) =>
        x.1 = y.1 ∧ x.2.1.length = y.2.1.length ∧ x.2.2.length = y.2.2.length) ?_ _ _ _ ⟨rfl, hd, hu⟩
    intro x y out hxy
    refine PyRel.bindSame _ fun p => ?_
    exact (agree_record _ _ _ _ hxy.2).bind fun d d' hdd => ⟨by rw [hxy.1], hdd⟩
  · rintro x y ⟨h1, h2, h3⟩
    refine ⟨⟨assocSet X b.key (gccA.next b.input b.r), by rw [h1], fun k hk => ?_⟩, rfl, rfl, rfl, h2, h3⟩
    dsimp only at hk ⊢
    rw [assocGet_set, assocGet_set]
    split_ifs with hkk
    · rfl
    · refine h k ?_
      rw [assocGet_set, if_neg hkk] at hk
      exact hk

theorem agree_gccuPhotons (perm : CalcCfg ℂ → Py ℂ) (U : List (List ℂ)) (n : ℕ) {o o' : GccuObj} (h : GccuAgree o o') :
    PRel GccuAgree (gccuPhotons perm U n o) (gccuPhotons perm U n o') := by
  induction n generalizing o o' with
  | zero => exact PRel.pure h
  | succ n ih =>
    refine PRel.bindSame _ fun u => ?_
    have e : assocGet o'.base.pmfs o'.base.key = assocGet o.base.pmfs o.base.key := by
      obtain ⟨X, hX, _⟩ := h.1; rw [hX]
    rw [h.2.1, e]
    split_ifs
    · exact ih h
    · exact (PRel.done (agree_gccuNewLayer perm U h)).bind fun a b hab => (agree_sample hab.1).bind fun x y hxy => ih ⟨hxy, hab.2⟩
    · exact (PRel.done (V := GccuAgree) (x := .ok o) (y := .ok o') h).bind fun a b hab => (agree_sample hab.1).bind fun x y hxy => ih ⟨hxy, hab.2⟩

theorem agree_gccuLoop (perm : CalcCfg ℂ → Py ℂ) (U : List (List ℂ)) (n : ℕ) {o o' : GccuObj}
    (h : GccuAgree { o with base := { o.base with r := o'.base.r, key := o'.base.key } } o') :
    PRel (fun x y => x.1 = y.1) (gccuLoop perm U n o) (gccuLoop perm U n o') := by
  induction n generalizing o o' with
  | zero => exact PRel.pure rfl
  | succ n ih =>
    have hfill : PRel GccuAgree (gccuFill perm U o) (gccuFill perm U o') := by
      obtain ⟨⟨X, hX, h⟩, h'⟩ := h
      unfold gccuFill
      have e : o'.base.input.sum = o.base.input.sum := by rw [hX]
      rw [e]
      refine agree_gccuPhotons perm U _ ⟨⟨X, ?_, h⟩, h'⟩
      rw [hX]
    refine hfill.bind fun a b hab => (ih (o := a) (o' := b) ?_).bind fun x y hxy => PRel.pure ?_
    · obtain ⟨⟨X, hX, h⟩, h'⟩ := hab
      exact ⟨⟨X, by rw [hX], h⟩, h'⟩
    · obtain ⟨X, hX, _⟩ := hab.1
      change a.base.r :: x.1 = b.base.r :: y.1
      rw [hxy, hX]

/-- `simulate` with uniform losses does the same for any contents of the object besides the transmissivity. -/
theorem gccuSimulate_memory (perm : CalcCfg ℂ → Py ℂ) (U : List (List ℂ)) (fuel : ℕ) (o o' : GccuObj) (he : o.eta = o'.eta)
    (S : List ℕ) (N : ℤ) :
    PRel (fun x y => x.1 = y.1) (gccuSimulate perm U fuel o S N) (gccuSimulate perm U fuel o' S N) := by
  have : PyRel (fun a b => GccuAgree { a with base := { a.base with r := b.base.r, key := b.base.key } } b)
      (gccuInitialize fuel o S) (gccuInitialize fuel o' S) := by
    unfold gccuInitialize
    rw [he]
    refine PyRel.bindSame _ fun outputs => PyRel.bindSame _ fun w0 => ?_
    refine (pySetN_length_rel (by simp) _ _).bind fun a b hab => ?_
    exact ⟨⟨o'.base.outs, rfl, fun _ hk => absurd rfl hk⟩, rfl, rfl, rfl, by simp [hab.1, hab.2], by simp⟩
  exact (PRel.done this).bind fun a b hab => agree_gccuLoop perm U _ hab

end Verif
