import Verif.Proofs.States
import Mathlib.Data.List.Chain
import Mathlib.Order.Lattice
import Mathlib.Data.Nat.Choose.Sum
import Mathlib.Data.List.Lex

/-! The successor loop of `generate_possible_states`. -/
namespace Verif

/-- All `m+1`-mode states with `n` particles, in descending lexicographic order. -/
def stDesc : Nat → Nat → List (List Nat)
  | 0, n => [[n]]
  | m + 1, n => (List.range (n + 1)).reverse.flatMap fun a => (stDesc m (n - a)).map (a :: ·)

theorem mem_stDesc (m n : Nat) (s : List Nat) :
    s ∈ stDesc m n ↔ s.length = m + 1 ∧ s.sum = n := by
  induction m generalizing n s with
  | zero =>
    simp only [stDesc, List.mem_singleton]
    constructor
    · rintro rfl; simp
    · rintro ⟨h1, h2⟩
      match s, h1 with
      | [a], _ => simpa using h2
  | succ m ih =>
    simp only [stDesc, List.mem_flatMap, List.mem_reverse, List.mem_range, List.mem_map, ih]
    constructor
    · rintro ⟨a, ha, t, ⟨h1, h2⟩, rfl⟩
      simp [h1, h2]; omega
    · rintro ⟨h1, h2⟩
      match s, h1 with
      | a :: t, h1 =>
        simp only [List.length_cons, List.sum_cons] at h1 h2
        exact ⟨a, by omega, t, ⟨by omega, by omega⟩, rfl⟩

theorem stDesc_sorted (m n : Nat) : (stDesc m n).Pairwise (fun a b => b < a) := by
  induction m generalizing n with
  | zero => simp [stDesc]
  | succ m ih =>
    rw [stDesc, List.pairwise_flatMap]
    constructor
    · intro a _
      rw [List.pairwise_map]
      refine (ih (n - a)).imp ?_
      intro x y h
      exact List.cons_lt_cons_iff.mpr (Or.inr ⟨rfl, h⟩)
    · rw [List.pairwise_reverse]
      refine List.pairwise_lt_range.imp ?_
      intro a b hab x hx y hy
      obtain ⟨x', -, rfl⟩ := List.mem_map.mp hx
      obtain ⟨y', -, rfl⟩ := List.mem_map.mp hy
      exact List.cons_lt_cons_iff.mpr (Or.inl hab)

theorem stDesc_head (m n : Nat) : (stDesc m n).head? = some (n :: List.replicate m 0) := by
  induction m generalizing n with
  | zero => rfl
  | succ m ih =>
    rw [stDesc, List.range_succ, List.reverse_append]
    simp [List.flatMap_cons, ih, List.replicate_succ]

theorem stDesc_getLast (m n : Nat) :
    (stDesc m n).getLast? = some (List.replicate m 0 ++ [n]) := by
  induction m generalizing n with
  | zero => rfl
  | succ m ih =>
    rw [stDesc, List.range_succ_eq_map, List.reverse_cons, List.flatMap_append]
    simp [List.getLast?_append, ih, List.replicate_succ]

/-- One step of the successor loop. -/
def Step (s s' : List Nat) : Prop :=
  ∃ pre v j t, s = pre ++ (v + 1) :: (List.replicate j 0 ++ [t]) ∧
    s' = pre ++ v :: (t + 1) :: List.replicate j 0

theorem Step.cons {s s' : List Nat} (h : Step s s') (a : Nat) : Step (a :: s) (a :: s') := by
  obtain ⟨pre, v, j, t, rfl, rfl⟩ := h
  exact ⟨a :: pre, v, j, t, rfl, rfl⟩

theorem stDesc_chain (m n : Nat) : (stDesc m n).IsChain Step := by
  induction m generalizing n with
  | zero => simp [stDesc]
  | succ m ih =>
    rw [stDesc]
    have key : ∀ b, b ≤ n → ((List.range (b + 1)).reverse.flatMap
        fun a => (stDesc m (n - a)).map (a :: ·)).IsChain Step := by
      intro b
      induction b with
      | zero =>
        intro _
        have e : (List.range (0 + 1)).reverse = [0] := rfl
        rw [e, List.flatMap_cons, List.flatMap_nil, List.append_nil, List.isChain_map]
        exact (ih _).imp fun _ _ h => h.cons _
      | succ b ihb =>
        intro hb
        rw [List.range_succ, List.reverse_append]
        simp only [List.reverse_singleton, List.singleton_append, List.flatMap_cons]
        rw [List.isChain_append]
        refine ⟨?_, ihb (by omega), ?_⟩
        · rw [List.isChain_map]
          exact (ih _).imp fun _ _ h => h.cons _
        · intro x hx y hy
          rw [List.getLast?_map, stDesc_getLast] at hx
          rw [List.range_succ, List.reverse_append] at hy
          simp only [List.reverse_singleton, List.singleton_append, List.flatMap_cons,
            List.head?_append, List.head?_map, stDesc_head] at hy
          simp only [Option.map_some, Option.mem_def, Option.some.injEq, Option.some_or] at hx hy
          subst hx hy
          refine ⟨[], b, m, n - (b + 1), rfl, ?_⟩
          simp; omega
    exact key n le_rfl

theorem findK_ok (fuel : Nat) (pre : List Nat) (v j t : Nat) (hf : j < fuel) :
    findK fuel (pre ++ (v + 1) :: (List.replicate j 0 ++ [t]))
      (pre.length + 1 + j + 1) = .ok ((pre.length + 1 : Nat) : Int) := by
  unfold findK
  have key : ∀ i fuel, i ≤ j → i < fuel →
      pyWhile fuel
        (fun k : Int => do
          let v' ← pyGet (pre ++ (v + 1) :: (List.replicate j 0 ++ [t])) (k - 1)
          pure (v' == 0))
        (fun k => pure (k - 1)) (((pre.length + 1 + i : Nat) : Int))
      = .ok ((pre.length + 1 : Nat) : Int) := by
    intro i
    induction i with
    | zero =>
      intro fuel _ hf
      refine pyWhile_stop ?_ hf
      rw [show ((pre.length + 1 + 0 : Nat) : Int) - 1 = ((pre.length : Nat) : Int) by push_cast; ring,
        pyGet_nonneg, pyGetN_ok (by simp)]
      simp
    | succ i ih =>
      intro fuel hij hf
      obtain ⟨f, rfl⟩ := Nat.exists_eq_succ_of_ne_zero (by omega : fuel ≠ 0)
      rw [Nat.succ_eq_add_one, pyWhile_step (s' := ((pre.length + 1 + i : Nat) : Int)) ?_ ?_]
      · exact ih f (by omega) (by omega)
      · rw [show ((pre.length + 1 + (i + 1) : Nat) : Int) - 1 = ((pre.length + 1 + i : Nat) : Int) by
          push_cast; ring, pyGet_nonneg, pyGetN_ok (by simp; omega)]
        simp only [ok_bind, pure_eq_ok]
        congr 1
        rw [List.getElem_append_right (by omega)]
        have : pre.length + 1 + i - pre.length = i + 1 := by omega
        simp only [this, List.getElem_cons_succ]
        rw [List.getElem_append_left (by simp; omega)]
        simp
      · simp only [pure_eq_ok]; congr 1; push_cast; ring
  have h := key j fuel le_rfl hf
  have e : ((pre.length + 1 + j + 1 : Nat) : Int) - 1 = ((pre.length + 1 + j : Nat) : Int) := by
    push_cast; ring
  rw [e]; exact h

theorem zeroFrom (k : Nat) (a b : List Nat) (hk : a.length = k) :
    (pyRange (k : Int) ((a ++ b).length : Int)).foldlM (fun (s : List Nat) i => pySet s i 0) (a ++ b)
      = .ok (a ++ List.replicate b.length 0) := by
  have h1 : pyRange (k : Int) ((a ++ b).length : Int)
      = (List.range b.length).map fun (i : Nat) => ((k + i : Nat) : Int) := by
    unfold pyRange
    have : (((a ++ b).length : Int) - (k : Int)).toNat = b.length := by
      rw [List.length_append, hk]; omega
    rw [this]
    simp
  rw [h1, List.foldlM_map]
  have key : ∀ l c : List Nat, a ++ b = a ++ l ++ c → ∀ i, i = l.length →
      (List.range' i c.length).foldlM (fun (s : List Nat) i => pySet s ((k + i : Nat) : Int) 0)
        (a ++ List.replicate i 0 ++ c) = .ok (a ++ List.replicate (i + c.length) 0) := by
    intro l c
    induction c generalizing l with
    | nil => intro _ i _; simp
    | cons x c ih =>
      intro h i hi
      rw [List.length_cons, List.range'_succ, List.foldlM_cons, pySet_nonneg, pySetN_ok (by simp; omega),
        ok_bind]
      have e : (a ++ List.replicate i 0 ++ x :: c).set (k + i) 0
          = a ++ List.replicate (i + 1) 0 ++ c := by
        rw [List.set_append_right _ _ (by simp; omega)]
        have : k + i - (a ++ List.replicate i 0).length = 0 := by simp; omega
        rw [this, List.set_cons_zero, List.replicate_succ']
        simp
      rw [e, ih (l ++ [x]) (by simpa using h) (i + 1) (by simp; omega)]
      congr 3; omega
  have := key [] b (by simp) 0 rfl
  simpa [List.range_eq_range'] using this

theorem nextState_ok {fuel n modes : Nat} {s s' : List Nat} (h : Step s s') (hn : s.sum = n)
    (hl : s.length = modes) (hf : modes ≤ fuel) : nextState fuel n modes s = .ok s' := by
  obtain ⟨pre, v, j, t, rfl, rfl⟩ := h
  have hm : modes = pre.length + 1 + j + 1 := by rw [← hl]; simp; omega
  subst hm
  unfold nextState
  rw [findK_ok fuel pre v j t (by omega), ok_bind]
  have e1 : ((pre.length + 1 : Nat) : Int) - 1 = ((pre.length : Nat) : Int) := by push_cast; ring
  rw [e1, pyGet_nonneg, pyGetN_ok (by simp), ok_bind]
  rw [List.getElem_append_right le_rfl]
  simp only [Nat.sub_self, List.getElem_cons_zero]
  rw [natSub_ok (by omega), ok_bind, Nat.add_sub_cancel, pySet_nonneg, pySetN_ok (by simp), ok_bind]
  rw [List.set_append_right _ _ le_rfl, Nat.sub_self, List.set_cons_zero]
  have e2 : pre ++ v :: (List.replicate j 0 ++ [t]) = (pre ++ [v]) ++ (List.replicate j 0 ++ [t]) := by
    simp
  rw [e2, zeroFrom _ _ _ (by simp), ok_bind]
  have hn' : n = pre.sum + (v + 1) + t := by rw [← hn]; simp; omega
  rw [natSub_ok (by rw [hn']; simp; omega), ok_bind, pySet_nonneg, pySetN_ok (by simp)]
  congr 1
  rw [List.set_append_right _ _ (by simp)]
  simp only [List.length_append, List.length_replicate, List.length_singleton, Nat.sub_self,
    List.replicate_succ, List.set_cons_zero]
  rw [hn']
  simp
  omega

theorem Step.length {s s' : List Nat} (h : Step s s') : s'.length = s.length := by
  obtain ⟨pre, v, j, t, rfl, rfl⟩ := h; simp

theorem Step.sum {s s' : List Nat} (h : Step s s') : s'.sum = s.sum := by
  obtain ⟨pre, v, j, t, rfl, rfl⟩ := h; simp; omega

theorem statesLoop_ok (n m : Nat) (rest : List (List Nat)) (l : List (List Nat)) (s : List Nat)
    (fuel' fuel : Nat)
    (hc : (s :: rest).IsChain Step) (hlen : s.length = m + 1) (hsum : s.sum = n)
    (hlast : (s :: rest).getLast? = some (List.replicate m 0 ++ [n]))
    (hf : m + 1 ≤ fuel) (hf' : rest.length < fuel') :
    pyWhile fuel'
      (fun sts : List (List Nat) => do
        let last ← pyGet sts (-1)
        let v ← pyGet last (((m + 1 : Nat) : Int) - 1)
        pure (decide (v < n)))
      (fun sts => do
        let last ← pyGet sts (-1)
        let s ← nextState fuel n (m + 1) last
        pure (sts ++ [s]))
      (l ++ [s]) = .ok (l ++ s :: rest) := by
  induction rest generalizing l s fuel' with
  | nil =>
    simp only [List.getLast?_singleton, Option.some.injEq] at hlast
    subst hlast
    refine pyWhile_stop ?_ (by omega)
    rw [pyGet_last, ok_bind]
    rw [show ((m + 1 : Nat) : Int) - 1 = (m : Int) by push_cast; ring, pyGet_nonneg,
      pyGetN_ok (by simp)]
    simp
  | cons s' rest ih =>
    rw [List.isChain_cons_cons] at hc
    obtain ⟨f, rfl⟩ := Nat.exists_eq_succ_of_ne_zero (by omega : fuel' ≠ 0)
    rw [Nat.succ_eq_add_one, pyWhile_step (s' := l ++ [s] ++ [s']) ?_ ?_]
    · rw [ih (l ++ [s]) s' f hc.2 (by rw [hc.1.length]; exact hlen) (by rw [hc.1.sum]; exact hsum)
        (by simpa using hlast) (by simp at hf'; omega)]
      simp
    · rw [pyGet_last, ok_bind]
      rw [show ((m + 1 : Nat) : Int) - 1 = (m : Int) by push_cast; ring, pyGet_nonneg,
        pyGetN_ok (by omega)]
      simp only [ok_bind, pure_eq_ok]
      congr 1
      obtain ⟨pre, v, j, t, rfl, rfl⟩ := hc.1
      have hm : m = (pre ++ (v + 1) :: List.replicate j 0).length := by
        simp at hlen ⊢; omega
      have : (pre ++ (v + 1) :: (List.replicate j 0 ++ [t]))[m]'(by omega) = t := by
        have e : pre ++ (v + 1) :: (List.replicate j 0 ++ [t])
            = (pre ++ (v + 1) :: List.replicate j 0) ++ [t] := by simp
        simp only [e]
        rw [List.getElem_append_right (by omega)]
        simp
      rw [this, decide_eq_true_eq]
      simp at hsum
      omega
    · rw [pyGet_last, ok_bind, nextState_ok hc.1 hsum hlen hf]
      rfl

theorem sortedReverse_of_desc {l : List (List Nat)} (h : l.Pairwise (fun a b => b < a)) :
    sortedReverse l = l := by
  unfold sortedReverse
  apply List.mergeSort_of_pairwise
  refine h.imp ?_
  intro a b hab
  rw [decide_eq_true_eq]
  exact List.not_lt.mp (List.lt_asymm hab)

theorem generateN_ok (fuel n m : Nat) (hf : m + 1 ≤ fuel) (hf' : (stDesc m n).length ≤ fuel) :
    generatePossibleNParticleStates fuel n (m + 1) = .ok (stDesc m n) := by
  unfold generatePossibleNParticleStates statesLoop
  rw [List.replicate_succ]
  have e : pySet (0 :: List.replicate m 0) 0 n = .ok (n :: List.replicate m 0) := by
    rw [show (0 : Int) = ((0 : Nat) : Int) by rfl, pySet_nonneg, pySetN_ok (by simp)]; simp
  rw [e, ok_bind]
  have hh := stDesc_head m n
  cases hst : stDesc m n with
  | nil => rw [hst] at hh; simp at hh
  | cons s rest =>
    rw [hst] at hh
    simp only [List.head?_cons, Option.some.injEq] at hh
    subst hh
    have := statesLoop_ok n m rest [] (n :: List.replicate m 0) fuel fuel
      (by rw [← hst]; exact stDesc_chain m n) (by simp) (by simp)
      (by rw [← hst]; exact stDesc_getLast m n) hf (by rw [hst] at hf'; simpa using hf')
    simp only [List.nil_append] at this
    rw [this, ok_bind, ← hst, sortedReverse_of_desc (stDesc_sorted m n)]
    rfl

theorem stDesc_length (m n : Nat) : (stDesc m n).length = (n + m).choose n := by
  induction m generalizing n with
  | zero => simp [stDesc]
  | succ m ih =>
    rw [stDesc, List.length_flatMap]
    simp only [List.length_map, ih]
    rw [List.map_reverse, List.sum_reverse]
    have h1 : ((List.range (n + 1)).map fun a => (n - a + m).choose (n - a)).sum
        = ∑ a ∈ Finset.range (n + 1), (n - a + m).choose (n - a) := by
      rw [Finset.sum, Finset.range_val]; rfl
    have h2 := Finset.sum_range_reflect (fun i => (i + m).choose i) (n + 1)
    simp only [Nat.add_sub_cancel] at h2
    rw [h1, h2]
    have h3 : ∀ i ∈ Finset.range (n + 1), (i + m).choose i = (i + m).choose m := fun i _ =>
      (Nat.choose_symm_add).symm ▸ rfl
    rw [Finset.sum_congr rfl h3, Nat.sum_range_add_choose]
    rw [show n + (m + 1) = n + m + 1 by ring]
    exact (Nat.choose_symm_of_eq_add (by ring)).symm

end Verif

namespace Verif

theorem stDesc_zero (m : Nat) : stDesc m 0 = [List.replicate (m + 1) 0] := by
  induction m with
  | zero => rfl
  | succ m ih => simp [stDesc, ih, List.replicate_succ]

/-- What `generate_possible_states` returns for `m + 1` modes. -/
def allStates (m n : Nat) (losses : Bool) : List (List Nat) :=
  if losses then (List.range (n + 1)).flatMap (stDesc m) else stDesc m n

/-- Iterations that suffice for `generate_possible_states`. -/
def genFuel (m n : Nat) : Nat := m + 1 + ((List.range (n + 1)).map fun p => (stDesc m p).length).sum

theorem genFuel_ge (m n p : Nat) (hp : p ≤ n) : (stDesc m p).length ≤ genFuel m n := by
  unfold genFuel
  have : (stDesc m p).length ∈ (List.range (n + 1)).map fun p => (stDesc m p).length :=
    List.mem_map.mpr ⟨p, List.mem_range.mpr (by omega), rfl⟩
  have := List.le_sum_of_mem this
  omega

theorem generatePossibleStates_ok (fuel n m : Nat) (losses : Bool) (hf : genFuel m n ≤ fuel) :
    generatePossibleStates fuel (n : Int) ((m + 1 : Nat) : Int) losses
      = .ok (allStates m n losses) := by
  unfold generatePossibleStates
  have h1 : ¬ ((n : Int) < 0 ∨ ((m + 1 : Nat) : Int) < 1) := by omega
  rw [if_neg h1]
  by_cases hn : n = 0
  · subst hn
    simp only [Nat.cast_zero, if_true, Int.toNat_natCast, pure_eq_ok]
    cases losses <;> simp [allStates, stDesc_zero]
  · rw [if_neg (by omega)]
    simp only [Int.toNat_natCast]
    rw [foldlM_ok _ (fun acc p => acc ++ stDesc m p)]
    · rw [flatMap_foldl, List.nil_append]
      cases losses
      · simp [allStates]
      · simp [allStates, List.range_eq_range']
    · intro acc p hp
      have hpn : p ≤ n := by
        rw [List.mem_range'_1] at hp
        cases losses <;> simp at hp <;> omega
      rw [generateN_ok fuel p m (by unfold genFuel at hf; omega)
        (le_trans (genFuel_ge m n p hpn) hf)]
      rfl

theorem mem_allStates (m n : Nat) (losses : Bool) (s : List Nat) :
    s ∈ allStates m n losses ↔
      s.length = m + 1 ∧ (if losses then s.sum ≤ n else s.sum = n) := by
  cases losses
  · simp [allStates, mem_stDesc]
  · simp only [allStates, if_true, List.mem_flatMap, List.mem_range, mem_stDesc]
    constructor
    · rintro ⟨p, hp, h1, h2⟩; exact ⟨h1, by omega⟩
    · rintro ⟨h1, h2⟩; exact ⟨s.sum, by omega, h1, rfl⟩

theorem allStates_sorted (m n : Nat) (losses : Bool) :
    (allStates m n losses).Pairwise (fun a b => a.sum < b.sum ∨ (a.sum = b.sum ∧ b < a)) := by
  have hst : ∀ p, (stDesc m p).Pairwise (fun a b => a.sum < b.sum ∨ (a.sum = b.sum ∧ b < a)) := by
    intro p
    refine List.Pairwise.imp_of_mem ?_ (stDesc_sorted m p)
    intro a b ha hb hab
    rw [mem_stDesc] at ha hb
    exact Or.inr ⟨by omega, hab⟩
  cases losses
  · exact hst n
  · simp only [allStates, if_true]
    rw [List.pairwise_flatMap]
    refine ⟨fun p _ => hst p, ?_⟩
    refine List.pairwise_lt_range.imp ?_
    intro p q hpq x hx y hy
    rw [mem_stDesc] at hx hy
    left; omega

theorem allStates_nodup (m n : Nat) (losses : Bool) : (allStates m n losses).Nodup := by
  refine (allStates_sorted m n losses).imp ?_
  rintro a b h rfl
  rcases h with h | ⟨-, h⟩
  · exact lt_irrefl _ h
  · exact lt_irrefl _ h

end Verif
