import Verif.Spec.UniformBobs
import Verif.Model.UniformBobs
import Verif.Proofs.BobsRuns
import Verif.Props.LossyInputs

/-! Helper lemmas: the sampler for uniform losses with approximated modes. -/
namespace Verif

open Finset
open scoped ENNReal

/-! ### The states below a state -/

/-- The states with at most as many particles in every mode. -/
def lowerStates : List ℕ → List (List ℕ)
  | [] => [[]]
  | a :: s => (List.range (a + 1)).flatMap fun l => (lowerStates s).map fun L => l :: L

theorem mem_lowerStates (s l : List ℕ) : l ∈ lowerStates s ↔ StateLE l s := by
  induction s generalizing l with
  | nil =>
    simp [lowerStates, StateLE]
  | cons a s ih =>
    rw [lowerStates, List.mem_flatMap]
    constructor
    · rintro ⟨x, hx, hl⟩
      obtain ⟨L, hL, rfl⟩ := List.mem_map.mp hl
      rw [List.mem_range] at hx
      exact List.Forall₂.cons (by omega) ((ih L).mp hL)
    · intro h
      cases h with
      | cons h1 h2 => exact ⟨_, List.mem_range.mpr (by omega), List.mem_map.mpr ⟨_, (ih _).mpr h2, rfl⟩⟩

theorem lowerStates_nodup (s : List ℕ) : (lowerStates s).Nodup := by
  induction s with
  | nil => simp [lowerStates]
  | cons a s ih =>
    rw [lowerStates, List.nodup_flatMap]
    constructor
    · intro x _
      exact ih.map fun _ _ h => by injection h
    · refine List.Pairwise.imp (R := fun a b => a ≠ b) (fun {x y} hxy => ?_) List.nodup_range
      intro l hl hl'
      obtain ⟨_, _, rfl⟩ := List.mem_map.mp hl
      obtain ⟨_, _, h⟩ := List.mem_map.mp hl'
      injection h with h
      exact hxy h.symm

theorem sum_flatMap' {α R : Type} [AddCommMonoid R] (l : List α) (f : α → List R) :
    (l.flatMap f).sum = (l.map fun x => (f x).sum).sum := by
  induction l with
  | nil => rfl
  | cons a l ih => rw [List.flatMap_cons, List.sum_append, ih, List.map_cons, List.sum_cons]

/-- Expectations over losses as sums over the states below. -/
theorem expLoss_lowerStates {eta : ℝ} (h0 : 0 ≤ eta) (h1 : eta ≤ 1) (s : List ℕ) (g : List ℕ → ℝ≥0∞) :
    expLoss eta s g = ((lowerStates s).map fun L =>
      ENNReal.ofReal (List.zipWith (fun n l => binomialWeight n l eta) s L).prod * g L).sum := by
  induction s generalizing g with
  | nil => simp [expLoss, lowerStates]
  | cons a s ih =>
    rw [expLoss, lowerStates, List.map_flatMap, sum_flatMap']
    have : ∀ l, (List.map (fun L => ENNReal.ofReal (List.zipWith (fun n l => binomialWeight n l eta) (a :: s) L).prod * g L)
        ((lowerStates s).map fun L => l :: L)).sum = ENNReal.ofReal (binomialWeight a l eta) * expLoss eta s fun L => g (l :: L) := by
      intro l
      rw [ih, ← List.sum_map_mul_left, List.map_map]
      congr 1
      refine List.map_congr_left fun L _ => ?_
      simp only [Function.comp, List.zipWith_cons_cons, List.prod_cons]
      rw [ENNReal.ofReal_mul (binomialWeight_nonneg a l h0 h1), mul_assoc]
    simp only [this]
    rw [← List.sum_toFinset _ List.nodup_range]
    congr 1
    ext; simp

theorem lowerStates_sum (eta : ℝ) (s : List ℕ) :
    ((lowerStates s).map fun L => eta ^ L.sum * (1 - eta) ^ (s.sum - L.sum)).sum
      = (s.map fun a => ∑ l ∈ range (a + 1), eta ^ l * (1 - eta) ^ (a - l)).prod := by
  induction s with
  | nil => simp [lowerStates]
  | cons a s ih =>
    rw [lowerStates, List.map_flatMap, sum_flatMap', List.map_cons, List.prod_cons, ← ih, sum_mul]
    have : ∀ l ∈ List.range (a + 1), (List.map (fun L => eta ^ L.sum * (1 - eta) ^ ((a :: s).sum - L.sum))
        ((lowerStates s).map fun L => l :: L)).sum = eta ^ l * (1 - eta) ^ (a - l) *
          ((lowerStates s).map fun L => eta ^ L.sum * (1 - eta) ^ (s.sum - L.sum)).sum := by
      intro l hl
      rw [List.mem_range] at hl
      rw [← List.sum_map_mul_left, List.map_map]
      congr 1
      refine List.map_congr_left fun L hL => ?_
      have hs : L.sum ≤ s.sum := ModeLe.sum_le ((mem_lowerStates s L).mp hL)
      simp only [Function.comp, List.sum_cons]
      rw [show a + s.sum - (l + L.sum) = (a - l) + (s.sum - L.sum) by omega, pow_add, pow_add]
      ring
    rw [List.map_congr_left this, ← List.sum_toFinset _ List.nodup_range]
    congr 1
    ext; simp

/-! ### The parts and their weights -/

theorem StateLE.eq_of_sum {l s : List ℕ} (h : StateLE l s) (hs : s.sum ≤ l.sum) : l = s := by
  induction h with
  | nil => rfl
  | @cons a b l s h1 h2 ih =>
    have := ModeLe.sum_le h2
    simp only [List.sum_cons] at hs
    rw [ih (by omega), show a = b by omega]

theorem uBobsParts_ok (hash : List ℕ → ℤ) (s : List ℕ) (hh : HashOk hash s) :
    ∃ L, uBobsParts hash s = .ok L ∧ L.Perm (lowerStates s) ∧ pyGet L (-1) = .ok s := by
  unfold uBobsParts
  by_cases hs : s.sum = 0
  · rw [hs]
    refine ⟨[s], ?_, ?_, rfl⟩
    · rw [List.range_one, List.foldlM_cons, C06_vacuum hash s _ hs]
      rfl
    · refine (List.perm_ext_iff_of_nodup (by simp) (lowerStates_nodup s)).mpr fun l => ?_
      rw [mem_lowerStates, List.mem_singleton]
      constructor
      · rintro rfl; exact modeLe_refl l
      · intro h; exact h.eq_of_sum (by omega)
  · have hex : ∀ k : ℕ, ∃ L, generateLossyNParticleInputStates hash s k = .ok L ∧ L.Nodup ∧
        ∀ l, l ∈ L ↔ StateLE l s ∧ l.sum = k := by
      intro k
      obtain ⟨L, h1, h2, h3⟩ := C06_exact hash s k hs (fun a b ha _ hb _ h => hh a b ha hb h)
      refine ⟨L, h1, h2, fun l => ?_⟩
      rw [h3, StateLE, List.forall₂_iff_get]
      rfl
    choose g h1 h2 h3 using hex
    have key : ∀ n : ℕ, ((List.range n).foldlM
        (fun (acc : List (List ℕ)) (left : ℕ) => do
          let l ← generateLossyNParticleInputStates hash s left
          pure (acc ++ l)) [] : Py (List (List ℕ))) = .ok ((List.range n).flatMap g) := by
      intro n
      rw [foldlM_ok _ (fun acc k => acc ++ g k) _ _ (fun b k _ => by rw [h1 k, ok_bind]; rfl)]
      congr 1
      induction n with
      | zero => rfl
      | succ n ih => rw [List.range_succ, List.foldl_append, ih, List.flatMap_append]; simp
    have hlast : g s.sum = [s] := by
      refine List.perm_singleton.mp ((List.perm_ext_iff_of_nodup (h2 _) (by simp)).mpr fun l => ?_)
      rw [h3, List.mem_singleton]
      constructor
      · rintro ⟨h4, h5⟩; exact h4.eq_of_sum h5.ge
      · rintro rfl; exact ⟨modeLe_refl l, rfl⟩
    refine ⟨_, key _, ?_, ?_⟩
    · refine (List.perm_ext_iff_of_nodup ?_ (lowerStates_nodup s)).mpr fun l => ?_
      · rw [List.nodup_flatMap]
        refine ⟨fun k _ => h2 k, List.Pairwise.imp (R := fun a b => a ≠ b) (fun {x y} hxy => ?_) List.nodup_range⟩
        intro l hl hl'
        exact hxy (((h3 x l).mp hl).2.symm.trans ((h3 y l).mp hl').2)
      · rw [mem_lowerStates, List.mem_flatMap]
        constructor
        · rintro ⟨k, -, h4⟩; exact ((h3 k l).mp h4).1
        · intro h4
          exact ⟨l.sum, List.mem_range.mpr (by have := ModeLe.sum_le h4; omega), (h3 _ l).mpr ⟨h4, rfl⟩⟩
    · rw [List.range_succ, List.flatMap_append, List.flatMap_singleton, hlast]
      exact pyGet_last _ _

theorem uBobsPartsWeights_ok (eta : ℝ) (s : List ℕ) (L : List (List ℕ)) (hp : L.Perm (lowerStates s))
    (hl : pyGet L (-1) = .ok s) :
    uBobsPartsWeights eta L = .ok (L.map fun l => eta ^ l.sum * (1 - eta) ^ (s.sum - l.sum)) := by
  unfold uBobsPartsWeights
  rw [hl, ok_bind]
  refine mapM_ok _ _ _ fun l hl => ?_
  have hle : l.sum ≤ s.sum := ModeLe.sum_le ((mem_lowerStates s l).mp (hp.mem_iff.mp hl))
  have hc : ((s.sum.choose l.sum : ℕ) : ℝ) ≠ 0 := by exact_mod_cast (Nat.choose_pos hle).ne'
  rw [pyGetN_ok (show l.sum < (uBobsPossible eta s.sum).length by simp [uBobsPossible]; omega), ok_bind]
  simp only [uBobsPossible, List.getElem_map, List.getElem_range, pure, Except.pure]
  congr 1
  field_simp

theorem partsWeights_sum (eta : ℝ) (s : List ℕ) (L : List (List ℕ)) (hp : L.Perm (lowerStates s)) :
    (L.map fun l => eta ^ l.sum * (1 - eta) ^ (s.sum - l.sum)).sum
      = (s.map fun a => ∑ l ∈ range (a + 1), eta ^ l * (1 - eta) ^ (a - l)).prod := by
  rw [← lowerStates_sum]
  exact (hp.map _).sum_eq

theorem uBobsApproximated_ok (m h : ℕ) (hh : h < m) (eta : ℝ) (part : List ℕ) (hp : part ≠ []) :
    uBobsApproximated m h eta part
      = .ok ((List.range (part.sum + 1)).map fun l => l :: List.replicate (part.length - 1) 0, gccbWeights part.sum eta) := by
  unfold uBobsApproximated
  rw [if_neg (by omega)]
  obtain ⟨a, t, rfl⟩ : ∃ a t, part = a :: t := by
    cases part with
    | nil => exact absurd rfl hp
    | cons a t => exact ⟨a, t, rfl⟩
  rw [mapM_ok _ (fun l => l :: List.replicate ((a :: t).length - 1) 0) _ (fun l _ => by
    rw [pySetN_ok (by simp)]; simp [List.map_const'])]
  rw [ok_bind, List.range_succ, List.map_append, List.map_singleton, pyGet_last, ok_bind]
  simp only [List.sum_cons, List.sum_replicate, smul_zero, Nat.add_zero]
  rfl

/-! ### Splitting the samples -/

theorem distributeUniformly_ok (values bins : ℕ) (hb : 0 < bins) :
    distributeUniformly values bins
      = .ok (List.replicate (values % bins) (values / bins + 1) ++ List.replicate (bins - values % bins) (values / bins)) := by
  unfold distributeUniformly
  have hr := Nat.mod_lt values hb
  simp only
  generalize values % bins = r at hr ⊢
  generalize values / bins = q
  induction r with
  | zero => simp [pure, Except.pure]
  | succ r ih =>
    rw [List.range_succ, List.foldlM_append, ih (by omega), ok_bind]
    simp only [List.foldlM_cons, List.foldlM_nil]
    rw [pyGetN_ok (by simp; omega), ok_bind, pySetN_ok (by simp; omega), ok_bind]
    simp only [pure, Except.pure]
    congr 1
    obtain ⟨c, hc⟩ : ∃ c, bins - r = c + 1 := ⟨bins - r - 1, by omega⟩
    rw [List.getElem_append_right (by simp)]
    simp only [List.length_replicate, Nat.sub_self, List.getElem_replicate]
    rw [List.set_append_right _ _ (by simp)]
    simp only [List.length_replicate, Nat.sub_self, hc, List.replicate_succ, List.set_cons_zero,
      show bins - (r + 1) = c by omega]
    rw [show List.replicate r (q + 1) ++ (q + 1) :: List.replicate c q = (List.replicate r (q + 1) ++ [q + 1]) ++ List.replicate c q by simp,
      ← List.replicate_succ', List.replicate_succ]

theorem distribute_sum (values bins : ℕ) (hb : 0 < bins) :
    (List.replicate (values % bins) (values / bins + 1) ++ List.replicate (bins - values % bins) (values / bins)).sum
      = values := by
  have hr := Nat.mod_lt values hb
  have h := Nat.div_add_mod values bins
  rw [List.sum_append, List.sum_replicate, List.sum_replicate, smul_eq_mul, smul_eq_mul]
  obtain ⟨c, hc⟩ : ∃ c, bins = values % bins + c := ⟨bins - values % bins, by omega⟩
  have h2 : bins - values % bins = c := by omega
  rw [h2]
  have h3 : bins * (values / bins) = (values % bins + c) * (values / bins) := by rw [← hc]
  rw [h3] at h
  nlinarith

theorem uBobsTask_eq (p : Prog (List ℕ)) (n : ℕ) : uBobsTask p n = p.repeatN n := by
  induction n with
  | zero => rfl
  | succ n ih => rw [uBobsTask, ih]; rfl

theorem uBobsPool_cons (p : Prog (List ℕ)) (n : ℕ) (ns : List ℕ) :
    uBobsPool p (n :: ns) = (uBobsTask p n).bind fun l => (uBobsPool p ns).bind fun ls => .done (.ok (l ++ ls)) := by
  simp only [uBobsPool, uBobsMap, Prog.bind_eq, Prog.pure_eq, Prog.bind_assoc, Prog.done_ok_bind, List.flatten_cons]

theorem uBobsPool_eq (p : Prog (List ℕ)) (ns : List ℕ) : uBobsPool p ns = p.repeatN ns.sum := by
  induction ns with
  | nil => rfl
  | cons n ns ih => rw [uBobsPool_cons, uBobsTask_eq, ih, List.sum_cons, Prog.repeatN_add]

/-- `simulate` with the concatenation directly after `p.map`. -/
theorem uBobsSimulate_def {m : ℕ} (hash : List ℕ → ℤ) (sub : CalcCfg ℂ → Py (List ℂ)) (fuel : ℕ) (o : UBobsObj m)
    (S : List ℕ) (N : ℤ) : uBobsSimulate hash sub fuel o S N = (if N < 1 then pure [] else do
      let parts ← (uBobsParts hash (S.take o.h) : Py _)
      let partsWeights ← (uBobsPartsWeights o.eta parts : Py _)
      let (approx, approxWeights) ← (uBobsApproximated m o.h o.eta (S.drop o.h) : Py _)
      let numbers ← (distributeUniformly N.toNat o.threads : Py _)
      uBobsPool (uBobsSample sub fuel o parts partsWeights approx approxWeights) numbers) := by
  unfold uBobsSimulate uBobsThreads uBobsPool
  simp only [Prog.bind_eq, Prog.bind_assoc]

/-- What the threads return has the lengths they were asked for. -/
theorem uBobsMap_lengths (p : Prog (List ℕ)) (ns : List ℕ) (ls : List (List (List ℕ)))
    (h : (uBobsMap p ns).Runs (.ok ls)) : ls.map List.length = ns := by
  induction ns generalizing ls with
  | nil => cases h; rfl
  | cons n ns ih =>
    rw [uBobsMap] at h
    obtain ⟨l, h1, h⟩ | ⟨e, -, h⟩ := (Prog.runs_bind _ _ _).mp h
    · obtain ⟨ls', h2, h⟩ | ⟨e, -, h⟩ := (Prog.runs_bind _ _ _).mp h
      · cases h
        rw [uBobsTask_eq] at h1
        have hall : p.All (fun _ => True) fun _ => True := by
          intro r _
          cases r with
          | ok a => exact .inl ⟨a, rfl, trivial⟩
          | error e => exact .inr ⟨e, rfl, trivial⟩
        rcases Prog.repeatN_all hall n _ h1 with ⟨l', h3, h4, -⟩ | ⟨e, h3, -⟩
        · injection h3 with h3
          rw [List.map_cons, ih _ h2, h3, h4]
        · cases h3
      · cases h
    · cases h

end Verif
