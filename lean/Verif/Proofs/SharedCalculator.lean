import Verif.Model.SharedCalculator
import Verif.Proofs.NoState

/-! Helper lemmas: the calculators acting on a permanent calculator object refine the functional
model. -/
namespace Verif

section monad

variable {σ α β : Type}

theorem PyS.bind_ok (m : PyS σ α) (f : α → PyS σ β) (s : σ) {a : α} (h : (m s).1 = .ok a) :
    (m >>= f) s = f a (m s).2 := by
  change (match m s with | (.ok a, s') => f a s' | (.error e, s') => (.error e, s')) = _
  rcases hm : m s with ⟨x, s'⟩
  rw [hm] at h
  cases h
  rfl

theorem PyS.bind_error (m : PyS σ α) (f : α → PyS σ β) (s : σ) {e : PyErr} (h : (m s).1 = .error e) :
    (m >>= f) s = (.error e, (m s).2) := by
  change (match m s with | (.ok a, s') => f a s' | (.error e, s') => (.error e, s')) = _
  rcases hm : m s with ⟨x, s'⟩
  rw [hm] at h
  cases h
  rfl

instance : LawfulMonad (PyS σ) := LawfulMonad.mk'
  (bind_pure_comp := fun f x => rfl)
  (id_map := fun x => by
    funext s
    change (match x s with
      | (.ok a, s') => ((.ok a : Py _), s') | (.error e, s') => (.error e, s')) = _
    rcases x s with ⟨_ | _, _⟩ <;> rfl)
  (pure_bind := fun a f => rfl)
  (bind_assoc := fun x f g => by
    funext s
    rcases hx : (x s).1 with e | a
    · rw [PyS.bind_error x _ s hx, PyS.bind_error (x >>= f) g s (by rw [PyS.bind_error x f s hx]),
        PyS.bind_error x f s hx]
    · rw [PyS.bind_ok x _ s hx]
      rcases hf : (f a (x s).2).1 with e | b
      · rw [PyS.bind_error (x >>= f) g s (by rw [PyS.bind_ok x f s hx, hf]), PyS.bind_ok x f s hx,
          PyS.bind_error (f a) g _ hf]
      · rw [PyS.bind_ok (x >>= f) g s (by rw [PyS.bind_ok x f s hx, hf]), PyS.bind_ok x f s hx,
          PyS.bind_ok (f a) g _ hf])

/-- `m`, started in an object with property `I`, gives the result `p` and keeps the property. -/
def Sim (I : σ → Prop) (m : PyS σ α) (p : Py α) : Prop := ∀ s, I s → (m s).1 = p ∧ I (m s).2

theorem Sim.lift (I : σ → Prop) (p : Py α) : Sim I (PyS.lift p) p := fun _ hs => ⟨rfl, hs⟩

theorem Sim.pure (I : σ → Prop) (a : α) : Sim I (pure a : PyS σ α) (Pure.pure a) :=
  fun _ hs => ⟨rfl, hs⟩

theorem Sim.bind {I : σ → Prop} {m : PyS σ α} {p : Py α} {f : α → PyS σ β} {g : α → Py β}
    (h : Sim I m p) (hf : ∀ a, Sim I (f a) (g a)) : Sim I (m >>= f) (p >>= g) := by
  intro s hs
  obtain ⟨h1, h2⟩ := h s hs
  rcases p with e | a
  · rw [PyS.bind_error m f s h1]; exact ⟨rfl, h2⟩
  · rw [PyS.bind_ok m f s h1]; exact hf a _ h2

theorem Sim.foldlM {I : σ → Prop} {f : β → α → PyS σ β} {g : β → α → Py β}
    (h : ∀ b a, Sim I (f b a) (g b a)) (l : List α) (b : β) :
    Sim I (l.foldlM f b) (l.foldlM g b) := by
  induction l generalizing b with
  | nil => exact Sim.pure I b
  | cons a l ih =>
    rw [List.foldlM_cons, List.foldlM_cons]
    exact (h b a).bind fun b => ih b

theorem Sim.mapM {I : σ → Prop} {f : α → PyS σ β} {g : α → Py β}
    (h : ∀ a, Sim I (f a) (g a)) (l : List α) : Sim I (l.mapM f) (l.mapM g) := by
  induction l with
  | nil => exact Sim.pure I []
  | cons a l ih =>
    rw [List.mapM_cons, List.mapM_cons]
    exact (h a).bind fun b => ih.bind fun l => Sim.pure I (b :: l)

end monad

variable {K R : Type} [Field K] [Field R] [DecidableEq R] (gray : Nat → List Nat) (fuel : Nat)
  (junk : GuanScratch K)

/-- Setting all attributes and computing gives what a fresh calculator gives. -/
theorem sim_compute (t : Int) (c : CalcCfg K) :
    Sim (fun o : PermObj K => o.kind = t)
      (PermObj.setAll c >>= fun _ => PermObj.compute gray fuel junk) (factoryPermanent gray t fuel c) := by
  rintro ⟨k, cfg, sc⟩ rfl
  rw [PyS.bind_ok (a := ()) _ _ _ rfl]
  change (PermObj.run gray fuel junk ⟨k, c, sc⟩).1 = _ ∧ (PermObj.run gray fuel junk ⟨k, c, sc⟩).2.kind = k
  simp only [PermObj.run, factoryPermanent]
  by_cases h1 : k = 1
  · simp [h1]
  by_cases h2 : k = 2
  · simp [h2]
  simp only [if_neg h1, if_neg h2]
  by_cases h4 : k = 4
  · have h3 : ¬ k = 3 := by omega
    simp only [if_pos h4, if_neg h3, ryserPermanent]
    have := compute_no_state ryserMethod ryser_init_withIL fuel c sc (freshScratch c)
    revert this
    rcases computePermanent ryserMethod fuel c sc with e | p <;>
      rcases computePermanent ryserMethod fuel c (freshScratch c) with e' | p' <;>
      intro this <;> simp [Except.map] at this <;>
      first | exact ⟨congrArg Except.error this, rfl⟩ | exact ⟨congrArg Except.ok this, rfl⟩
  · simp only [if_neg h4, ite_self, chinHuhPermanent]
    have := compute_no_state chinHuhMethod chinHuh_init_withIL fuel c sc (freshScratch c)
    revert this
    rcases computePermanent chinHuhMethod fuel c sc with e | p <;>
      rcases computePermanent chinHuhMethod fuel c (freshScratch c) with e' | p' <;>
      intro this <;> simp [Except.map] at this <;>
      first | exact ⟨congrArg Except.error this, rfl⟩ | exact ⟨congrArg Except.ok this, rfl⟩

theorem sim_indist (nsq : K → R) (hash : List Nat → Int) (t : Int) (c : ExpConfig K R)
    (outcome : List Nat) :
    Sim (fun o : PermObj K => o.kind = t)
      (probabilityForIndistinguishableS nsq gray fuel junk hash c outcome)
      (probabilityForIndistinguishable nsq (factoryPermanent gray t fuel) hash c outcome) := by
  unfold probabilityForIndistinguishableS probabilityForIndistinguishable
  refine (Sim.lift _ _).bind fun L => ?_
  refine (Sim.foldlM (fun st l => ?_) L _).bind fun p => ?_
  · refine (Sim.lift _ _).bind fun mult => ?_
    rw [← bind_assoc]
    refine (sim_compute gray fuel junk t _).bind fun x => ?_
    exact (Sim.lift _ _).bind fun sub => Sim.pure _ _
  · rcases p with ⟨p, _ | l⟩
    · exact Sim.lift _ _
    · exact (Sim.lift _ _).bind fun p => Sim.lift _ _

theorem sim_fixed (nsq : K → R) (hash : List Nat → Int) (t : Int) (c : ExpConfig K R)
    (outcomes : List (List Nat)) :
    Sim (fun o : PermObj K => o.kind = t)
      (fixedLossProbabilitiesS nsq gray fuel junk hash c outcomes)
      (fixedLossProbabilities nsq (factoryPermanent gray t fuel) hash c outcomes) :=
  Sim.mapM (fun _ => (sim_indist gray fuel junk nsq hash t c _).bind fun _ => Sim.lift _ _) _

theorem sim_uniform (nsq : K → R) (hash : List Nat → Int) (t : Int) (u : UniformCalc K R)
    (outcome : List Nat) :
    Sim (fun o : PermObj K => o.kind = t)
      (uniformOutcomeS nsq gray fuel junk hash u outcome)
      (uniformOutcome nsq (factoryPermanent gray t fuel) hash u outcome) := by
  unfold uniformOutcomeS uniformOutcome
  simp only
  by_cases h : outcome.sum = 0
  · rw [if_pos h, if_pos h]; exact Sim.lift _ _
  · rw [if_neg h, if_neg h]
    exact (sim_fixed gray fuel junk nsq hash t _ _).bind fun ps => (Sim.lift _ _).bind fun p =>
      (Sim.lift _ _).bind fun w => Sim.pure _ _

theorem uniform_pool (nsq : K → R) (hash : List Nat → Int) (t : Int) (u : UniformCalc K R)
    (start : Nat → PermObj K) (hstart : ∀ i, (start i).kind = t) (outcomes : List (List Nat)) :
    uniformProbabilitiesS nsq gray fuel junk hash u start outcomes
      = uniformProbabilities nsq (factoryPermanent gray t fuel) hash u outcomes := by
  unfold uniformProbabilitiesS uniformProbabilities
  have : ∀ k, (outcomes.zipIdx k).mapM
        (fun p => (uniformOutcomeS nsq gray fuel junk hash u p.1 (start p.2)).1)
      = outcomes.mapM (uniformOutcome nsq (factoryPermanent gray t fuel) hash u) := by
    induction outcomes with
    | nil => intro k; rfl
    | cons T l ih =>
      intro k
      rw [List.zipIdx_cons, List.mapM_cons, List.mapM_cons, ih (k + 1),
        (sim_uniform gray fuel junk nsq hash t u T (start k) (hstart k)).1]
  exact this 0

end Verif
