import Verif.Proofs.SeqProb
import Verif.Proofs.Scan

/-! Helper lemmas: the conditional distributions of the generalized Clifford & Clifford sampler. -/
namespace Verif

open Finset

theorem assocGet_set {κ V : Type} [DecidableEq κ] (d : List (κ × V)) (k k' : κ) (v : V) :
    assocGet (assocSet d k v) k' = if k' = k then some v else assocGet d k' := by
  unfold assocGet assocSet
  rw [List.find?_cons]
  by_cases h : k' = k
  · subst h; simp
  · have h' : ¬ k = k' := fun e => h e.symm
    simp only [h', decide_false, h, if_false]
    congr 1
    induction d with
    | nil => rfl
    | cons e d ih =>
      by_cases he : e.1 = k
      · rw [List.filter_cons_of_neg (by simp [he]), ih, List.find?_cons_of_neg (by simp [he, h'])]
      · rw [List.filter_cons_of_pos (by simp [he])]
        rw [List.find?_cons, List.find?_cons, ih]

theorem labeled_fold (l : List (List ℕ)) (d : List (ℕ × List (List ℕ))) (k : ℕ) :
    (assocGet (l.foldl (fun d s => assocSet d s.sum ((assocGet d s.sum).getD [] ++ [s])) d) k).getD []
      = (assocGet d k).getD [] ++ l.filter fun s => s.sum = k := by
  induction l generalizing d with
  | nil => simp
  | cons s l ih =>
    rw [List.foldl_cons, ih, assocGet_set]
    by_cases h : k = s.sum
    · subst h; simp
    · have h' : ¬ s.sum = k := fun e => h e.symm
      simp [h, h']

theorem labeledStates_get (S : List ℕ) (k : ℕ) :
    (assocGet (labeledStates S) k).getD [] = (inputSubstates S).filter fun s => s.sum = k := by
  rw [labeledStates, labeled_fold]
  simp [assocGet]

theorem mem_inputSubstates (S l : List ℕ) : l ∈ inputSubstates S ↔ StateLE l S := by
  induction S generalizing l with
  | nil => simp [inputSubstates, StateLE]
  | cons s S ih =>
    simp only [inputSubstates, List.mem_flatMap, List.mem_range, List.mem_map]
    constructor
    · rintro ⟨i, hi, t, ht, rfl⟩
      exact .cons (by omega) ((ih t).mp ht)
    · intro h
      cases h with
      | cons h1 h2 => exact ⟨_, by omega, _, (ih _).mpr h2, rfl⟩

theorem inputSubstates_nodup (S : List ℕ) : (inputSubstates S).Nodup := by
  induction S with
  | nil => simp [inputSubstates]
  | cons s S ih =>
    simp only [inputSubstates]
    rw [List.nodup_flatMap]
    refine ⟨fun i _ => ih.map (List.cons_injective), ?_⟩
    refine List.Pairwise.imp ?_ (List.nodup_range (n := s + 1))
    intro a b hab
    rw [Function.onFun, List.disjoint_left]
    intro x hx hy
    obtain ⟨t, -, rfl⟩ := List.mem_map.mp hx
    obtain ⟨t', -, h⟩ := List.mem_map.mp hy
    injection h with h1 h2
    exact hab h1.symm

/-- The sub-states of `S` with `k` particles. -/
def subStates (S : List ℕ) (k : ℕ) : List (List ℕ) := (inputSubstates S).filter fun s => s.sum = k

theorem mem_subStates (S : List ℕ) (k : ℕ) (l : List ℕ) : l ∈ subStates S k ↔ StateLE l S ∧ l.sum = k := by
  simp [subStates, mem_inputSubstates]

theorem subStates_nodup (S : List ℕ) (k : ℕ) : (subStates S k).Nodup := (inputSubstates_nodup S).filter _

theorem sum_subStates (S : List ℕ) (k : ℕ) (f : List ℕ → ℝ) :
    ∑ A ∈ powersetCard k (univ : Finset (Particle S)), f (stateOf A)
      = ((subStates S k).map fun l => ((List.zipWith Nat.choose S l).prod : ℝ) * f l).sum := by
  rw [sum_stateOf S k (subStates S k).toFinset (fun l => by rw [List.mem_toFinset, mem_subStates]),
    List.sum_toFinset _ (subStates_nodup S k)]

theorem kVector_ok (S l : List ℕ) (h : StateLE l S) :
    ((List.range l.length).mapM fun i => do
      let s ← pyGetN S i
      let x ← pyGetN l i
      natSub s x : Py (List ℕ)) = .ok (List.zipWith (· - ·) S l) := by
  rw [mapM_ok _ (fun i => S.getD i 0 - l.getD i 0)]
  · congr 1
    apply List.ext_getElem
    · simp [h.length_eq]
    · intro i h1 h2
      have hi : i < l.length := by simpa using h1
      have hi' : i < S.length := by rw [← h.length_eq]; exact hi
      simp [hi, hi']
  · intro i hi
    have hi : i < l.length := List.mem_range.mp hi
    have hi' : i < S.length := by rw [← h.length_eq]; exact hi
    rw [pyGetN_ok hi', ok_bind, pyGetN_ok hi, ok_bind, natSub_ok, getD_of_lt _ _ hi', getD_of_lt _ _ hi]
    exact h.get hi hi'

theorem kVector_sum (S l : List ℕ) (h : StateLE l S) :
    (List.zipWith (· - ·) S l).sum = S.sum - l.sum ∧ l.sum ≤ S.sum := by
  unfold StateLE at h
  induction h with
  | nil => simp
  | cons h1 _ ih => simp only [List.zipWith_cons_cons, List.sum_cons]; omega

theorem choose_kVector (S l : List ℕ) (h : StateLE l S) :
    List.zipWith Nat.choose S (List.zipWith (· - ·) S l) = List.zipWith Nat.choose S l := by
  unfold StateLE at h
  induction h with
  | nil => rfl
  | cons h1 _ ih => simp only [List.zipWith_cons_cons, ih, Nat.choose_symm h1]

theorem foldl_mul_zip (S k : List ℕ) (w : ℝ) :
    (List.zip S k).foldl (fun (w : ℝ) p => w * ((p.1.choose p.2 : ℕ) : ℝ)) w
      = w * ((List.zipWith Nat.choose S k).prod : ℕ) := by
  induction S generalizing k w with
  | nil => simp
  | cons s S ih =>
    cases k with
    | nil => simp
    | cons j k => simp [ih]; ring

theorem calculateWeight_ok (S k : List ℕ) (hlen : k.length = S.length) (hk : k.sum ≤ S.sum) :
    calculateWeight S k = .ok ((k.sum.factorial : ℝ) * ((S.sum - k.sum).factorial : ℝ) / (S.sum.factorial : ℝ)
      * ((List.zipWith Nat.choose S k).prod : ℕ)) := by
  unfold calculateWeight
  simp only
  rw [if_neg (by omega)]
  rw [foldlM_ok _ (fun w m => w * ((((S.getD m 0).choose (k.getD m 0) : ℕ)) : ℝ))]
  · congr 1
    rw [← foldl_mul_zip]
    have : List.zip S k = (List.range S.length).map fun m => (S.getD m 0, k.getD m 0) := by
      apply List.ext_getElem
      · simp [hlen]
      · intro i h1 h2
        have hi : i < S.length := by simp at h2; exact h2
        have hi' : i < k.length := by rw [hlen]; exact hi
        simp [hi, hi']
    rw [this, List.foldl_map]
  · intro w m hm
    have hm : m < S.length := List.mem_range.mp hm
    have hm' : m < k.length := by rw [hlen]; exact hm
    rw [pyGetN_ok hm, ok_bind, pyGetN_ok hm', ok_bind, getD_of_lt _ _ hm, getD_of_lt _ _ hm']
    rfl

theorem sum_choose_subStates (S : List ℕ) (k : ℕ) :
    ((subStates S k).map fun l => ((List.zipWith Nat.choose S l).prod : ℝ)).sum = (S.sum.choose k : ℝ) := by
  have := sum_subStates S k (fun _ => 1)
  simp only [mul_one, sum_const, card_powersetCard, card_univ, card_particle, nsmul_eq_mul] at this
  exact this.symm

theorem layerWeights_ok (S : List ℕ) (k : ℕ) (hk : k ≤ S.sum) :
    layerWeights S (subStates S k)
      = .ok ((subStates S k).map fun l => ((List.zipWith Nat.choose S l).prod : ℝ) / (S.sum.choose k : ℝ)) := by
  unfold layerWeights
  rw [mapM_ok _ (fun l => List.zipWith (· - ·) S l) _ (fun l hl => kVector_ok S l ((mem_subStates S k l).mp hl).1),
    ok_bind]
  set a : ℝ := ((S.sum - k).factorial : ℝ) * (k.factorial : ℝ) / (S.sum.factorial : ℝ) with ha
  have ha0 : a ≠ 0 := by
    have h1 := (Nat.factorial_pos (S.sum - k)).ne'
    have h2 := (Nat.factorial_pos k).ne'
    have h3 := (Nat.factorial_pos S.sum).ne'
    rw [ha]
    refine div_ne_zero (mul_ne_zero ?_ ?_) ?_ <;> exact_mod_cast ‹_›
  have hw : ((subStates S k).map fun l => List.zipWith (· - ·) S l).mapM (calculateWeight S)
      = .ok ((subStates S k).map fun l => a * ((List.zipWith Nat.choose S l).prod : ℝ)) := by
    have : ((subStates S k).map fun l => a * ((List.zipWith Nat.choose S l).prod : ℝ))
        = ((subStates S k).map fun l => List.zipWith (· - ·) S l).map fun v =>
          a * ((List.zipWith Nat.choose S v).prod : ℕ) := by
      rw [List.map_map]
      refine List.map_congr_left fun l hl => ?_
      simp only [Function.comp]
      rw [choose_kVector S l ((mem_subStates S k l).mp hl).1]
    rw [this]
    refine mapM_ok _ _ _ fun v hv => ?_
    obtain ⟨l, hl, rfl⟩ := List.mem_map.mp hv
    obtain ⟨h1, h2⟩ := (mem_subStates S k l).mp hl
    have h3 := kVector_sum S l h1
    rw [calculateWeight_ok S _ (by simp [h1.length_eq]) (by omega), h3.1, h2, Nat.sub_sub_self hk]
  rw [hw, ok_bind]
  have hc : (S.sum.choose k : ℝ) ≠ 0 := by exact_mod_cast (Nat.choose_pos hk).ne'
  have hsum : ((subStates S k).map fun l => a * ((List.zipWith Nat.choose S l).prod : ℝ)).sum
      = a * (S.sum.choose k : ℝ) := by
    rw [List.sum_map_mul_left, sum_choose_subStates]
  have hne : ((subStates S k).map fun l => a * ((List.zipWith Nat.choose S l).prod : ℝ)) ≠ [] := by
    intro h
    rw [h] at hsum
    exact mul_ne_zero ha0 hc hsum.symm
  rw [if_neg hne, hsum]
  rw [mapM_ok _ (fun w => w / (a * (S.sum.choose k : ℝ)))]
  · rw [List.map_map]
    congr 1
    refine List.map_congr_left fun l _ => ?_
    simp only [Function.comp]
    exact mul_div_mul_left _ _ ha0
  · intro w _
    unfold floatDiv
    rw [if_neg (mul_ne_zero ha0 hc)]

theorem foldl_div_fact (l : List ℕ) (x : ℝ) :
    l.foldl (fun (p : ℝ) o => p / (o.factorial : ℝ)) x = x / (factProd l : ℝ) := by
  induction l generalizing x with
  | nil => simp [factProd]
  | cons o l ih =>
    rw [List.foldl_cons, ih, div_div]
    congr 1
    simp [factProd]

theorem phi_scattering (U : List (List ℂ)) (l T : List ℕ) (h : l.sum = T.sum) :
    Complex.normSq (scatteringPermanent U l T) / (factProd l : ℝ)
      = phi (colOf U) (particles T) (particles l) := by
  unfold phi amp
  rw [lperm_scattering U l T h, multFact_particles]

/-- What a permanent calculator must deliver for the states below `S`. -/
def PermOn (perm : CalcCfg ℂ → Py ℂ) (U : List (List ℂ)) (S : List ℕ) : Prop :=
  ∀ l T, StateLE l S → T.length = S.length → l.sum = T.sum →
    perm ⟨U, l, T⟩ = .ok (scatteringPermanent U l T)

theorem foldl_add_sum {α : Type} (l : List α) (f : α → ℝ) (x : ℝ) :
    l.foldl (fun acc a => acc + f a) x = x + (l.map f).sum := by
  induction l generalizing x with
  | nil => simp
  | cons a l ih => rw [List.foldl_cons, ih, List.map_cons, List.sum_cons, add_assoc]

theorem pmfEntry_ok {perm : CalcCfg ℂ → Py ℂ} {U : List (List ℂ)} {S : List ℕ} (hp : PermOn perm U S)
    (k : ℕ) (T : List ℕ) (hT : T.length = S.length) (hs : T.sum = k) :
    pmfEntry perm U (subStates S k)
        ((subStates S k).map fun l => ((List.zipWith Nat.choose S l).prod : ℝ) / (S.sum.choose k : ℝ)) T
      = .ok (seqProb (colOf U) S k (particles T)) := by
  unfold pmfEntry
  rw [foldlM_ok _ (fun acc i => acc + phi (colOf U) (particles T) (particles ((subStates S k).getD i []))
      / (k.factorial : ℝ) * (((List.zipWith Nat.choose S ((subStates S k).getD i [])).prod : ℝ)
        / (S.sum.choose k : ℝ)))]
  · congr 1
    rw [foldl_add_sum, zero_add]
    have : (List.range (subStates S k).length).map (fun i => phi (colOf U) (particles T)
        (particles ((subStates S k).getD i [])) / (k.factorial : ℝ)
        * (((List.zipWith Nat.choose S ((subStates S k).getD i [])).prod : ℝ) / (S.sum.choose k : ℝ)))
        = (subStates S k).map fun l => ((List.zipWith Nat.choose S l).prod : ℝ) *
          (phi (colOf U) (particles T) (particles l) / ((S.sum.choose k : ℝ) * (k.factorial : ℝ))) := by
      apply List.ext_getElem
      · simp
      · intro i h1 h2
        have hi : i < (subStates S k).length := by simpa using h1
        simp only [List.getElem_map, List.getElem_range, getD_of_lt _ _ hi]
        simp only [div_eq_mul_inv, mul_inv]
        ring
    rw [this, ← sum_subStates S k (fun l => phi (colOf U) (particles T) (particles l)
      / ((S.sum.choose k : ℝ) * (k.factorial : ℝ))), seqProb, ← sum_div]
    congr 1
    exact sum_congr rfl fun A _ => phi_perm _ _ (particles_stateOf A)
  · intro acc i hi
    have hi : i < (subStates S k).length := List.mem_range.mp hi
    obtain ⟨h1, h2⟩ := (mem_subStates S k _).mp (List.getElem_mem hi)
    rw [pyGetN_ok hi, ok_bind]
    unfold outputsProbability
    rw [hp _ _ h1 hT (h2.trans hs.symm), ok_bind, pure_eq_ok, ok_bind, pyGetN_ok (by simpa using hi), ok_bind]
    simp only [foldl_div_fact, List.getElem_map, getD_of_lt _ _ hi, pure_eq_ok]
    rw [phi_scattering U _ T (h2.trans hs.symm), h2]

/-- The pmf computed for a sample with `k < n` particles. -/
theorem layer_pmf {perm : CalcCfg ℂ → Py ℂ} {U : List (List ℂ)} {S : List ℕ} (hp : PermOn perm U S)
    (k : ℕ) (outs : List (List ℕ)) (conv : List ℕ → Py (List ℕ)) (T : List ℕ → List ℕ)
    (h : ∀ o ∈ outs, conv o = .ok (T o) ∧ (T o).length = S.length ∧ (T o).sum = k) :
    (outs.mapM fun out => do
      let occ ← conv out
      pmfEntry perm U (subStates S k)
        ((subStates S k).map fun l => ((List.zipWith Nat.choose S l).prod : ℝ) / (S.sum.choose k : ℝ)) occ
      : Py (List ℝ)) = .ok (outs.map fun o => seqProb (colOf U) S k (particles (T o))) := by
  refine mapM_ok _ _ _ fun o ho => ?_
  obtain ⟨h1, h2, h3⟩ := h o ho
  rw [h1, ok_bind, pmfEntry_ok hp k _ h2 h3]

end Verif
