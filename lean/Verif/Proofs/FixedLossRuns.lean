import Verif.Proofs.FixedLoss
import Verif.Props.Networks
import Verif.Proofs.CliffordsLoss

/-! Helper lemmas: runs and sample laws of the fixed-loss and uniform-loss samplers. -/
namespace Verif

open Finset MeasureTheory
open scoped ENNReal

/-- `n` independent executions, results collected in a list. -/
def Prog.repeatN {α : Type} (p : Prog α) : ℕ → Prog (List α)
  | 0 => pure []
  | n + 1 => do
    let s ← p
    let l ← Prog.repeatN p n
    pure (s :: l)

namespace Prog

variable {α β : Type} {E : PyErr → Prop}

theorem repeatN_all {p : Prog α} {I : α → Prop} (h : p.All I E) (n : ℕ) :
    (p.repeatN n).All (fun l => l.length = n ∧ ∀ s ∈ l, I s) E := by
  induction n with
  | zero => exact all_done_ok ⟨rfl, by simp⟩
  | succ n ih =>
    refine all_bind h fun s hs => all_bind ih fun l hl => all_done_ok ⟨by simp [hl.1], ?_⟩
    intro x hx
    rcases List.mem_cons.mp hx with rfl | hx
    · exact hs
    · exact hl.2 x hx

theorem repeatN_marginal {p : Prog α} {I : α → Prop} (h : p.All I fun _ => False) (n i : ℕ) (hi : i < n) (x : α) :
    (p.repeatN n).prob (fun r => ∃ l, r = .ok l ∧ l[i]? = some x) = p.prob (fun r => r = .ok x) := by
  classical
  unfold Prog.prob
  induction n generalizing i with
  | zero => omega
  | succ n ih =>
    rw [repeatN, bind_eq, wp_bind]
    cases i with
    | zero =>
      refine wp_congr _ _ _ fun r hr => ?_
      rcases h r hr with ⟨a, rfl, -⟩ | ⟨_, _, hf⟩
      · rw [post, bind_eq, wp_bind, wp_congr _ _ (fun _ => if a = x then 1 else 0), wp_const]
        · simp
        · intro r' hr'
          rcases repeatN_all h n r' hr' with ⟨l, rfl, -⟩ | ⟨_, _, hf⟩
          · simp [post, wp]
          · exact hf.elim
      · exact hf.elim
    | succ i =>
      refine Eq.trans (wp_congr _ _ (fun _ => p.prob (fun r => r = .ok x)) fun r hr => ?_) (wp_const _ _)
      rcases h r hr with ⟨a, rfl, -⟩ | ⟨_, _, hf⟩
      · rw [post, bind_eq, wp_bind]
        refine Eq.trans ?_ (ih i (by omega))
        refine wp_congr _ _ _ fun r' hr' => ?_
        rcases repeatN_all h n r' hr' with ⟨l, rfl, -⟩ | ⟨_, _, hf⟩
        · simp [post, wp]
        · exact hf.elim
      · exact hf.elim

end Prog

theorem fixedLoop_eq (net : List ℂ → Py (List ℂ)) (M : ℕ) (k : ℤ) (S : List ℕ) (n : ℕ) :
    fixedLoop net M k S n = (fixedSample net M k S).repeatN n := by
  induction n with
  | zero => rfl
  | succ n ih => rw [fixedLoop, ih]; rfl

theorem randVec_all (n : ℕ) :
    (randVec n).All (fun us => us.length = n ∧ ∀ u ∈ us, 0 ≤ u ∧ u < 1) fun _ => False := by
  induction n with
  | zero => exact Prog.all_done_ok ⟨rfl, by simp⟩
  | succ n ih =>
    refine Prog.all_uniform fun u h0 h1 => ?_
    simp only [Prog.pure_eq]
    rw [Prog.done_ok_bind]
    refine Prog.all_bind ih fun us hus => Prog.all_done_ok ⟨by simp [hus.1], ?_⟩
    intro x hx
    rcases List.mem_cons.mp hx with rfl | hx
    · exact ⟨h0, h1⟩
    · exact hus.2 x hx

theorem randVec_wp (n : ℕ) (f : Py (List ℝ) → ℝ≥0∞) :
    (randVec n).wp f = expUniform n fun us => f (.ok (List.ofFn us)) := by
  induction n generalizing f with
  | zero => rfl
  | succ n ih =>
    rw [randVec, Prog.bind_eq, Prog.random, Prog.bind, Prog.wp, expUniform]
    refine lintegral_congr fun u => ?_
    rw [Prog.pure_eq, Prog.done_ok_bind, Prog.bind_eq, Prog.wp_bind, ih]
    simp only [Prog.post, Prog.pure_eq, Prog.wp, List.ofFn_succ, Fin.cons_zero, Fin.cons_succ]

theorem expUniform_congr (n : ℕ) (f g : (Fin n → ℝ) → ℝ≥0∞) (h : ∀ us, f us = g us) :
    expUniform n f = expUniform n g := by rw [show f = g from funext h]

theorem fixedPhotons_all (ps : List ℝ) (hne : ps ≠ []) (k : ℕ) (out : List ℕ) (ho : out.length = ps.length) :
    (fixedPhotons (.vals ps) k out).All
      (fun T => T.length = ps.length ∧ T.sum ≤ out.sum + k ∧ (1 ≤ ps.sum → T.sum = out.sum + k)) fun _ => False := by
  induction k generalizing out with
  | zero => exact Prog.all_done_ok ⟨ho, le_rfl, fun _ => rfl⟩
  | succ k ih =>
    rw [fixedPhotons_succ ps hne k out ho]
    refine Prog.all_uniform fun u h0 h1 => ?_
    refine Prog.all_mono (ih _ (by simpa using ho)) ?_ fun _ h => h
    rintro T ⟨h2, h3, h4⟩
    refine ⟨h2, ?_, ?_⟩
    · rcases lt_or_ge (scanReach u ps 0) out.length with h | h
      · rw [modify_sum _ _ h] at h3; omega
      · rw [List.modify_eq_self h] at h3; omega
    · intro hs
      have h := scanReach_lt u ps 0 hne (by linarith)
      rw [h4 hs, modify_sum _ _ (by omega)]
      omega

theorem fixedPhotons_nan (n k : ℕ) (out : List ℕ) (ho : out.length = n + 1) :
    (fixedPhotons (.nans (n + 1)) k out).All (fun T => T = out.modify 0 (· + k)) fun _ => False := by
  induction k generalizing out with
  | zero =>
    refine Prog.all_done_ok ?_
    refine List.ext_getElem (by simp) fun i h1 h2 => ?_
    rw [List.getElem_modify]; simp
  | succ k ih =>
    rw [fixedPhotons]
    refine Prog.all_uniform fun u h0 h1 => ?_
    simp only [photonIndex, Prog.lift_def, Prog.bind_eq, Prog.done_ok_bind, Prog.bind, Prog.pure_eq]
    rw [if_pos (by simp [NanList.length])]
    have hlt : 0 < out.length := by omega
    rw [pyGetN_ok hlt, Prog.done_ok_bind, pySetN_ok hlt, Prog.done_ok_bind, set_eq_modify _ _ hlt]
    refine Prog.all_mono (ih _ (by simpa using ho)) ?_ fun _ h => h
    rintro T rfl
    refine List.ext_getElem (by simp) fun i h1 h2 => ?_
    simp only [List.getElem_modify]
    split_ifs <;> omega

theorem withPhases_length (us st : List ℝ) (h : us.length = st.length) : (withPhases us st).length = st.length := by
  simp [withPhases, h]

/-- Every network output for the states prepared from `n` particles has squared norm at least 1. -/
def NormKept (net : List ℂ → Py (List ℂ)) (M n : ℕ) : Prop :=
  ∀ us : Fin M → ℝ, ∀ y, net (List.ofFn (smeared M n us)) = .ok y → 1 ≤ (y.map Complex.normSq).sum

theorem withPhases_ofFn (M n : ℕ) (us : Fin M → ℝ) :
    withPhases (List.ofFn us) ((List.range M).map fun i => (if i < n then 1 else 0) / Real.sqrt n)
      = List.ofFn (smeared M n us) := by
  refine List.ext_getElem (by simp [withPhases]) fun i h1 h2 => ?_
  simp only [withPhases, List.getElem_zipWith, List.getElem_ofFn, List.getElem_map, List.getElem_range, smeared]
  split_ifs
  · rw [show Complex.I * 2 * Real.pi * (us ⟨i, by simpa using h2⟩ : ℂ)
      = 2 * Real.pi * (us ⟨i, by simpa using h2⟩ : ℂ) * Complex.I by ring]
    push_cast
    ring
  · simp

theorem fixedSample_all (net : List ℂ → Py (List ℂ)) (M : ℕ) (hM : 0 < M)
    (hnet : ∀ x, x.length = M → ∃ y, net x = .ok y ∧ y.length = M) (k : ℤ) (S : List ℕ) :
    (fixedSample net M k S).All
      (fun T => T.length = M ∧ T.sum ≤ k.toNat ∧ (NormKept net M S.sum → T.sum = k.toNat)) fun _ => False := by
  unfold fixedSample
  refine Prog.all_bind (randVec_all M) fun us hus => ?_
  unfold preparedState
  by_cases h0 : S.sum = 0
  · simp only [h0, if_true]
    obtain ⟨y, h1, h2⟩ := hnet (List.replicate M 0) (by simp)
    rw [h1]
    simp only [Prog.lift_def, Prog.bind_eq, Prog.done_ok_bind]
    rw [h2, fixedOutcome]
    obtain ⟨n, rfl⟩ : ∃ n, M = n + 1 := ⟨M - 1, by omega⟩
    refine Prog.all_mono (fixedPhotons_nan n k.toNat _ (by simp)) ?_ fun _ h => h
    rintro T rfl
    have : ((List.replicate (n + 1) 0).modify 0 (· + k.toNat)).sum = k.toNat := by
      simp [List.replicate_succ]
    exact ⟨by simp, this.le, fun _ => this⟩
  · simp only [h0, if_false]
    obtain ⟨us', rfl⟩ : ∃ us' : Fin M → ℝ, us = List.ofFn us' :=
      ⟨fun i => us[i]'(by rw [hus.1]; exact i.2), by
        refine List.ext_getElem (by simp [hus.1]) fun i h1 h2 => by simp⟩
    rw [withPhases_ofFn]
    obtain ⟨y, h1, h2⟩ := hnet (List.ofFn (smeared M S.sum us')) (by simp)
    rw [h1]
    simp only [Prog.lift_def, Prog.bind_eq, Prog.done_ok_bind]
    rw [fixedOutcome]
    have hne : modeProbabilities y ≠ [] := by
      intro h; rw [modeProbabilities, List.map_eq_nil_iff] at h; rw [h] at h2; simp at h2; omega
    refine Prog.all_mono (fixedPhotons_all _ hne k.toNat _ (by simp [modeProbabilities, h2])) ?_ fun _ h => h
    rintro T ⟨h3, h4, h5⟩
    refine ⟨by rw [h3]; simp [modeProbabilities, h2], by simpa using h4, fun hk => ?_⟩
    simpa using h5 (hk us' y h1)

end Verif
