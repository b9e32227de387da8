import Verif.Spec.SharedSamplers
import Verif.Proofs.SharedCalculator
import Verif.Proofs.Prog

/-! Helper lemmas: the samplers acting on a permanent calculator object refine the functional models, and
what earlier calls left in a sampler does not matter. -/
namespace Verif

open Finset
open scoped ENNReal

/-! ### Refinement of programs with draws -/

section
variable {σ α β : Type} {I : σ → Prop}

/-- `p` makes the same draws as `q` with the same results, and leaves an object with the property `I`. -/
inductive Ref (I : σ → Prop) : Prog (Py α × σ) → Prog α → Prop
  | done {r : Py α} {s : σ} (h : I s) : Ref I (.done (.ok (r, s))) (.done r)
  | uniform {k : ℝ → Prog (Py α × σ)} {k' : ℝ → Prog α} (h : ∀ u, Ref I (k u) (k' u)) : Ref I (.uniform k) (.uniform k')
  | randint {n : ℕ} {k : ℕ → Prog (Py α × σ)} {k' : ℕ → Prog α} (hn : n ≠ 0) (h : ∀ i, Ref I (k i) (k' i)) :
      Ref I (.randint n k) (.randint n k')
  | randintZero {s : σ} {k' : ℕ → Prog α} (h : I s) : Ref I (.done (.ok (.error .valueError, s))) (.randint 0 k')
  | choice {p : List ℝ} {k : ℕ → Prog (Py α × σ)} {k' : ℕ → Prog α} (hp : Prog.IsProbVector p)
      (h : ∀ i, Ref I (k i) (k' i)) : Ref I (.choice p k) (.choice p k')
  | choiceBad {s : σ} {p : List ℝ} {k' : ℕ → Prog α} (hp : ¬ Prog.IsProbVector p) (h : I s) :
      Ref I (.done (.ok (.error .valueError, s))) (.choice p k')

/-- Refinement for every object with the property. -/
def SimP (I : σ → Prop) (m : ProgS σ α) (p : Prog α) : Prop := ∀ s, I s → Ref I (m s) p

theorem Ref.bind {p : Prog (Py α × σ)} {q : Prog α} (h : Ref I p q) {f : α → ProgS σ β} {g : α → Prog β}
    (hf : ∀ a, SimP I (f a) (g a)) :
    Ref I (p.bind fun x => match x with
      | (.ok a, s') => f a s'
      | (.error e, s') => .done (.ok (.error e, s'))) (q.bind g) := by
  induction h with
  | @done r s h =>
    cases r with
    | ok a => exact hf a s h
    | error e => exact .done h
  | uniform _ ih => exact .uniform ih
  | randint hn _ ih => exact .randint hn ih
  | randintZero h => exact .randintZero h
  | choice hp _ ih => exact .choice hp ih
  | choiceBad hp h => exact .choiceBad hp h

theorem SimP.bind {m : ProgS σ α} {p : Prog α} (h : SimP I m p) {f : α → ProgS σ β} {g : α → Prog β}
    (hf : ∀ a, SimP I (f a) (g a)) : SimP I (m >>= f) (p >>= g) := fun s hs => (h s hs).bind hf

theorem SimP.pure (a : α) : SimP I (pure a : ProgS σ α) (Pure.pure a) := fun _ hs => .done hs

theorem SimP.lift (r : Py α) : SimP I (ProgS.lift r) (.done r) := fun _ hs => .done hs

theorem SimP.ofPyS {m : PyS σ α} {r : Py α} (h : Sim I m r) : SimP I (ProgS.ofPyS m) (.done r) := by
  intro s hs
  obtain ⟨h1, h2⟩ := h s hs
  unfold ProgS.ofPyS
  rcases hm : m s with ⟨x, s'⟩
  rw [hm] at h1 h2
  subst h1
  exact .done h2

theorem SimP.random : SimP I ProgS.random Prog.random := fun _ hs => .uniform fun _ => .done hs

theorem SimP.randBelow (n : ℕ) : SimP I (ProgS.randBelow n) (Prog.randBelow n) := by
  intro s hs
  unfold ProgS.randBelow Prog.randBelow
  split_ifs with h
  · subst h; exact .randintZero hs
  · exact .randint h fun _ => .done hs

theorem SimP.categorical (p : List ℝ) : SimP I (ProgS.categorical p) (Prog.categorical p) := by
  intro s hs
  unfold ProgS.categorical Prog.categorical
  split_ifs with h
  · exact .choice h fun _ => .done hs
  · exact .choiceBad h hs

theorem SimP.loop {cond : β → Bool} {f : β → ProgS σ β} {g : β → Prog β} (h : ∀ x, SimP I (f x) (g x)) (fuel : ℕ) (x : β) :
    SimP I (ProgS.loop fuel cond f x) (Prog.loop fuel cond g x) := by
  induction fuel generalizing x with
  | zero => exact SimP.lift _
  | succ fuel ih =>
    unfold ProgS.loop Prog.loop
    split_ifs
    · exact (h x).bind ih
    · exact SimP.pure x

/-- Expectations of what happens afterwards agree. -/
theorem Ref.wp {p : Prog (Py α × σ)} {q : Prog α} (h : Ref I p q) {F : Py (Py α × σ) → ℝ≥0∞} {G : Py α → ℝ≥0∞}
    (hFG : ∀ r s, I s → F (.ok (r, s)) = G r) : p.wp F = q.wp G := by
  induction h with
  | done h => exact hFG _ _ h
  | uniform _ ih => simp only [Prog.wp, ih]
  | randint hn _ ih => simp only [Prog.wp, ih, if_neg hn]
  | randintZero h => simpa [Prog.wp] using hFG _ _ h
  | choice hp _ ih => simp only [Prog.wp, ih, if_pos hp]
  | choiceBad hp h => simpa [Prog.wp, hp] using hFG _ _ h

theorem wp_attempt (p : Prog α) (f : Py (Py α) → ℝ≥0∞) : p.attempt.wp f = p.wp fun r => f (.ok r) := by
  induction p with
  | done r => rfl
  | uniform k ih => simp only [Prog.attempt, Prog.wp, ih]
  | randint n k ih =>
    unfold Prog.attempt
    split_ifs with h
    · simp [Prog.wp, h]
    · simp only [Prog.wp, ih, if_neg h]
  | choice p k ih =>
    unfold Prog.attempt
    split_ifs with h
    · simp only [Prog.wp, ih, if_pos h]
    · simp only [Prog.wp, if_neg h]
  | shuffle n k ih => simp only [Prog.attempt, Prog.wp, ih]

end

/-! ### The samplers on a calculator object -/

/-- The calculators of type `t` with matrix `U`. -/
def Holds (t : ℤ) (U : Rows) (o : PermObj ℂ) : Prop := o.kind = t ∧ o.cfg.matrix = U

section
variable (gray : ℕ → List ℕ) (fuel : ℕ) (junk : GuanScratch ℂ) (t : ℤ) (U : Rows)

theorem run_keeps {K : Type} [Field K] (gray : ℕ → List ℕ) (fuel : ℕ) (junk : GuanScratch K) (o : PermObj K) :
    (o.run gray fuel junk).2.kind = o.kind ∧ (o.run gray fuel junk).2.cfg = o.cfg := by
  unfold PermObj.run
  split_ifs
  · exact ⟨rfl, rfl⟩
  · exact ⟨rfl, rfl⟩
  · split <;> exact ⟨rfl, rfl⟩
  · split <;> exact ⟨rfl, rfl⟩

theorem sim_states (input output : List ℕ) :
    Sim (Holds t U) (PermObj.setStates input output >>= fun _ => PermObj.compute gray fuel junk)
      (factoryPermanent gray t fuel ⟨U, input, output⟩) := by
  rintro ⟨k, ⟨M, a, b⟩, sc⟩ ⟨rfl, rfl⟩
  have h := (sim_compute gray fuel junk k ⟨M, input, output⟩ ⟨k, ⟨M, a, b⟩, sc⟩ rfl).1
  have h2 := run_keeps gray fuel junk ⟨k, ⟨M, input, output⟩, sc⟩
  exact ⟨h, h2.1, by
    change (PermObj.run gray fuel junk ⟨k, ⟨M, input, output⟩, sc⟩).2.cfg.matrix = M
    rw [h2.2]⟩

theorem sim_getMatrix : Sim (Holds t U) PermObj.getMatrix (.ok U) := by
  rintro o ⟨h1, h2⟩
  exact ⟨congrArg Except.ok h2, h1, h2⟩

theorem sim_setInput (input : List ℕ) : Sim (Holds t U) (PermObj.setInput input) (.ok ()) := by
  rintro o ⟨h1, h2⟩
  exact ⟨rfl, h1, h2⟩

theorem sim_outputs (input output : List ℕ) :
    Sim (Holds t U) (outputsProbabilityS gray fuel junk input output)
      (outputsProbability (factoryPermanent gray t fuel) U input output) := by
  unfold outputsProbabilityS outputsProbability
  rw [← bind_assoc]
  exact (sim_states gray fuel junk t U input output).bind fun x => Sim.pure _ _

theorem sim_pmfEntry (inputs : List (List ℕ)) (weights : List ℝ) (output : List ℕ) :
    Sim (Holds t U) (pmfEntryS gray fuel junk inputs weights output)
      (pmfEntry (factoryPermanent gray t fuel) U inputs weights output) :=
  Sim.foldlM (fun _ _ => (Sim.lift _ _).bind fun _ => (sim_outputs gray fuel junk t U _ _).bind fun _ =>
    (Sim.lift _ _).bind fun _ => Sim.pure _ _) _ _

theorem sim_newLayer (v : GccVariant) (o : GccObj) :
    Sim (Holds t U) (newLayerS gray fuel junk v o) (newLayer v (factoryPermanent gray t fuel) U o) :=
  (Sim.lift _ _).bind fun _ => (Sim.mapM (fun _ => (Sim.lift _ _).bind fun _ => sim_pmfEntry gray fuel junk t U _ _ _) _).bind
    fun _ => Sim.pure _ _

theorem sim_sample {I : PermObj ℂ → Prop} (o : GccObj) : SimP I (sampleFromLatestPmfS o) (sampleFromLatestPmf o) :=
  (SimP.lift _).bind fun _ => SimP.random.bind fun _ => (SimP.lift _).bind fun _ => (SimP.lift _).bind fun _ =>
    (SimP.lift _).bind fun _ => SimP.pure _

theorem sim_fillStep (v : GccVariant) (o : GccObj) :
    SimP (Holds t U) (fillStepS gray fuel junk v o) (fillStep v (factoryPermanent gray t fuel) U o) := by
  refine (SimP.ofPyS ?_).bind fun o => sim_sample o
  split_ifs
  · exact sim_newLayer gray fuel junk t U v o
  · exact Sim.pure _ _

theorem sim_simulateLoop (v : GccVariant) (n : ℕ) (o : GccObj) :
    SimP (Holds t U) (simulateLoopS gray fuel junk v n o) (simulateLoop v (factoryPermanent gray t fuel) U fuel n o) := by
  induction n generalizing o with
  | zero => exact SimP.pure _
  | succ n ih =>
    exact (SimP.loop (sim_fillStep gray fuel junk t U v) fuel _).bind fun o => (SimP.lift _).bind fun _ => (ih o).bind
      fun _ => SimP.pure _

theorem sim_gcc (v : GccVariant) (o : GccObj) (S : List ℕ) (N : ℤ) :
    SimP (Holds t U) (gccSimulateS gray fuel junk v o S N) (gccSimulate v (factoryPermanent gray t fuel) U fuel o S N) :=
  sim_simulateLoop gray fuel junk t U v _ _

theorem sim_gccuNewLayer (o : GccuObj) :
    Sim (Holds t U) (gccuNewLayerS gray fuel junk o) (gccuNewLayer (factoryPermanent gray t fuel) U o) :=
  (Sim.lift _ _).bind fun _ => (Sim.foldlM (fun _ _ => (sim_pmfEntry gray fuel junk t U _ _ _).bind fun _ =>
    (Sim.lift _ _).bind fun _ => Sim.pure _ _) _ _).bind fun _ => Sim.pure _ _

theorem sim_gccuPhotons (n : ℕ) (o : GccuObj) :
    SimP (Holds t U) (gccuPhotonsS gray fuel junk n o) (gccuPhotons (factoryPermanent gray t fuel) U n o) := by
  induction n generalizing o with
  | zero => exact SimP.pure _
  | succ n ih =>
    refine SimP.random.bind fun u => ?_
    split_ifs
    · exact ih o
    · exact (SimP.ofPyS (sim_gccuNewLayer gray fuel junk t U o)).bind fun o => (sim_sample o.base).bind fun b => ih _
    · exact (SimP.ofPyS (Sim.pure _ _)).bind fun o => (sim_sample o.base).bind fun b => ih _

theorem sim_gccuLoop (n : ℕ) (o : GccuObj) :
    SimP (Holds t U) (gccuLoopS gray fuel junk n o) (gccuLoop (factoryPermanent gray t fuel) U n o) := by
  induction n generalizing o with
  | zero => exact SimP.pure _
  | succ n ih =>
    have hfill : SimP (Holds t U) (gccuFillS gray fuel junk o) (gccuFill (factoryPermanent gray t fuel) U o) := by
      have := (SimP.ofPyS (sim_getMatrix t U)).bind fun V => sim_gccuPhotons gray fuel junk t U o.base.input.sum
        { o with base := { o.base with r := V.map fun _ => 0, key := V.map fun _ => 0 } }
      exact this
    exact hfill.bind fun o => (ih o).bind fun _ => SimP.pure _

theorem sim_gccu (o : GccuObj) (S : List ℕ) (N : ℤ) :
    SimP (Holds t U) (gccuSimulateS gray fuel junk o S N) (gccuSimulate (factoryPermanent gray t fuel) U fuel o S N) :=
  (SimP.lift _).bind fun o => sim_gccuLoop gray fuel junk t U _ o

end

section
variable (sub : CalcCfg ℂ → Py (List ℂ)) (fuel : ℕ) (t : ℤ) (U : Rows)

theorem sim_gccbPmf (cur r : List ℕ) : Sim (Holds t U) (gccbPmfS sub cur r) (gccbPmf sub U cur r) := by
  have h : Sim (Holds t U) (gccbPmfS sub cur r) ((.ok U : Py Rows) >>= fun U' => sub ⟨U', cur, r⟩ >>= fun perms =>
      (.ok () : Py Unit) >>= fun _ => ((List.range r.length).mapM fun m => do
        let permanent ← (List.range cur.length).foldlM
          (fun (acc : ℂ) i => do
            let c ← pyGetN cur i
            let p ← pyGetN perms i
            let V ← (.ok U : Py Rows)
            let row ← pyGetN V m
            let x ← pyGetN row i
            pure (acc + (c : ℂ) * p * x)) 0
        (pure (Complex.normSq permanent) : Py ℝ)) >>= fun pmf =>
      if pmf.sum = 0 then .error .valueError else pure (pmf.map fun x => x / pmf.sum)) := by
    refine (sim_getMatrix t U).bind fun V => (Sim.lift _ _).bind fun perms => (sim_setInput t U cur).bind fun _ =>
      (Sim.mapM (fun m => ?_) _).bind fun pmf => Sim.lift _ _
    exact (Sim.foldlM (fun _ _ => (Sim.lift _ _).bind fun _ => (Sim.lift _ _).bind fun _ => (sim_getMatrix t U).bind fun _ =>
      (Sim.lift _ _).bind fun _ => (Sim.lift _ _).bind fun _ => Sim.pure _ _) _ _).bind fun _ => Sim.pure _ _
  exact h

theorem sim_gccbStep (m : ℕ) (s : GccbState) : SimP (Holds t U) (gccbStepS sub m s) (gccbStep sub U m s) := by
  have h1 : SimP (Holds t U) (gccbUpdateInputS s) (gccbUpdateInput s) :=
    (SimP.randBelow _).bind fun _ => (SimP.lift _).bind fun _ => (SimP.lift _).bind fun _ => (SimP.lift _).bind fun _ =>
      SimP.pure _
  have h2 : ∀ pmf s, SimP (Holds t U) (gccbSampleS m pmf s) (gccbSample m pmf s) := fun pmf s =>
    (SimP.lift _).bind fun _ => (SimP.categorical _).bind fun _ => (SimP.lift _).bind fun _ => (SimP.lift _).bind fun _ =>
      SimP.pure _
  exact h1.bind fun s => (SimP.ofPyS (sim_gccbPmf sub t U _ _)).bind fun pmf => h2 pmf s

theorem sim_gccbFill (S particles : List ℕ) (target : ℕ) :
    SimP (Holds t U) (gccbFillS sub fuel S particles target) (gccbFill sub U fuel S particles target) :=
  SimP.loop (sim_gccbStep sub t U _) _ _

theorem sim_gccb (S : List ℕ) (N : ℤ) : SimP (Holds t U) (gccbSimulateS sub fuel S N) (gccbSimulate sub U fuel S N) := by
  refine (SimP.lift _).bind fun particles => ?_
  induction N.toNat with
  | zero => exact SimP.pure _
  | succ n ih => exact (sim_gccbFill sub fuel t U _ _ _).bind fun _ => ih.bind fun _ => SimP.pure _

theorem sim_gccbLossy (eta : ℝ) (S : List ℕ) (N : ℤ) :
    SimP (Holds t U) (gccbLossySimulateS sub fuel eta S N) (gccbLossySimulate sub U fuel eta S N) := by
  refine (SimP.lift _).bind fun particles => ?_
  induction N.toNat with
  | zero => exact SimP.pure _
  | succ n ih =>
    have : ∀ (x : ℝ), SimP (Holds t U) (gccbFillS sub fuel S particles (scanIndex x (gccbWeights S.sum eta) 0))
        (gccbFill sub U fuel S particles (scanIndex x (gccbWeights S.sum eta) 0)) := fun x => sim_gccbFill sub fuel t U _ _ _
    exact SimP.random.bind fun x => (this x).bind fun _ => ih.bind fun _ => SimP.pure _

theorem sim_lossyNet (S : List ℕ) (N : ℤ) :
    SimP (Holds t U) (lossyNetSimulateS sub fuel S N)
      (gccbSimulate sub U fuel (S ++ S.map fun _ => 0) N >>= fun samples =>
        .done (samples.mapM fun out => trimTo fuel S.length out)) :=
  (sim_gccb sub fuel t U _ N).bind fun _ => SimP.lift _

end

end Verif
