import Verif.Proofs.KPartitions

/-! C08, C09, C10: state types, their number and the number of states per type. -/
namespace Verif

/-- C08: without losses exactly the non-increasing `m`-tuples with sum `n` are generated, with
losses those with sum at most `n`; each once, and generation terminates. -/
theorem C08_exact (m n : Nat) (losses : Bool) (hm : 1 ≤ m) :
    ∃ types F, (∀ fuel ≥ F, generateStateTypes fuel m n losses = .ok types) ∧ types.Nodup ∧
      ∀ t : List Nat, t ∈ types ↔ t.length = m ∧ t.Pairwise (fun a b => b ≤ a) ∧
        (if losses then t.sum ≤ n else t.sum = n) := by
  have hmem : ∀ fuel, n < fuel → ∀ t : List Nat, t ∈ (typesN fuel m n ++
      if losses then (List.range n).flatMap (typesN fuel m) else []) ↔
      t.length = m ∧ t.Pairwise (fun a b => b ≤ a) ∧ (if losses then t.sum ≤ n else t.sum = n) := by
    intro fuel hf t
    rw [List.mem_append, mem_typesN fuel m n hm hf]
    cases losses
    · simp
    · simp only [if_true, List.mem_flatMap, List.mem_range]
      constructor
      · rintro (⟨h1, h2, h3⟩ | ⟨i, hi, h⟩)
        · exact ⟨h1, h2, h3.le⟩
        · rw [mem_typesN fuel m i hm (by omega)] at h
          exact ⟨h.1, h.2.1, by omega⟩
      · rintro ⟨h1, h2, h3⟩
        rcases Nat.lt_or_eq_of_le h3 with h | h
        · right
          refine ⟨t.sum, h, ?_⟩
          rw [mem_typesN fuel m _ hm (by omega)]
          exact ⟨h1, h2, rfl⟩
        · left; exact ⟨h1, h2, h⟩
  -- the generated list does not depend on the fuel
  have hmono : ∀ fuel fuel' k lo, 1 ≤ lo → k < fuel → k < fuel' → parts fuel k lo = parts fuel' k lo := by
    intro fuel
    induction fuel with
    | zero => intros; omega
    | succ f ih =>
      intro fuel' k lo hlo h1 h2
      obtain ⟨f', rfl⟩ := Nat.exists_eq_succ_of_ne_zero (by omega : fuel' ≠ 0)
      rw [parts, parts]
      congr 1
      rw [List.flatMap_eq_foldl, List.flatMap_eq_foldl]
      rw [← List.flatMap_eq_foldl, ← List.flatMap_eq_foldl, List.flatMap_def, List.flatMap_def]
      congr 1
      refine List.map_congr_left fun i hi => ?_
      rw [List.mem_range'_1] at hi
      rw [ih f' (k - i) i (by omega) (by omega) (by omega)]
  have htypes : ∀ fuel fuel' k, k < fuel → k < fuel' → typesN fuel m k = typesN fuel' m k := by
    intro fuel fuel' k h1 h2
    unfold typesN
    rw [hmono fuel fuel' k 1 le_rfl h1 h2]
  refine ⟨_, n + 1, fun fuel hf => ?_, ?_, hmem (n + 1) (by omega)⟩
  · rw [generateStateTypes_ok fuel m n losses (by omega)]
    rw [htypes fuel (n + 1) n (by omega) (by omega)]
    congr 2
    cases losses
    · rfl
    · simp only [if_true]
      rw [List.flatMap_def, List.flatMap_def]
      congr 1
      refine List.map_congr_left fun i hi => ?_
      have := List.mem_range.mp hi
      exact htypes fuel (n + 1) i (by omega) (by omega)
  · rw [List.nodup_append]
    refine ⟨typesN_nodup _ _ _ (by omega), ?_, ?_⟩
    · cases losses
      · simp
      · simp only [if_true]
        rw [List.nodup_flatMap]
        refine ⟨fun i hi => typesN_nodup _ _ _ (by have := List.mem_range.mp hi; omega), ?_⟩
        refine List.Pairwise.imp_of_mem ?_ List.nodup_range
        intro i j hi hj hij x hx hy
        rw [mem_typesN _ _ _ hm (by have := List.mem_range.mp hi; omega)] at hx
        rw [mem_typesN _ _ _ hm (by have := List.mem_range.mp hj; omega)] at hy
        exact hij (hx.2.2.symm.trans hy.2.2)
    · intro a ha b hb
      rw [mem_typesN _ _ _ hm (by omega)] at ha
      cases losses
      · simp at hb
      · simp only [if_true, List.mem_flatMap, List.mem_range] at hb
        obtain ⟨i, hi, hb⟩ := hb
        rw [mem_typesN _ _ _ hm (by omega)] at hb
        rintro rfl
        omega

example : generateStateTypes 5 3 4 = .ok [[4, 0, 0], [3, 1, 0], [2, 1, 1], [2, 2, 0]] :=
  (generateStateTypes_ok 5 3 4 false (by decide)).trans (by decide)

/-- C09: the number of state types is the number of generated state types. -/
theorem C09_count (m n : Nat) (losses : Bool) (hm : 1 ≤ m) :
    ∃ types F, (∀ fuel ≥ F, generateStateTypes fuel m n losses = .ok types) ∧
      computeNumberOfStateTypes m n losses = (types.length : Int) := by
  obtain ⟨types, F, h, -⟩ := C08_exact m n losses hm
  refine ⟨types, F, h, ?_⟩
  have h1 := h (max F (n + 1)) (le_max_left _ _)
  have hf : n < max F (n + 1) := lt_of_lt_of_le (Nat.lt_succ_self n) (le_max_right _ _)
  rw [generateStateTypes_ok _ m n losses hf] at h1
  simp only [Except.ok.injEq] at h1
  rw [← h1]
  unfold computeNumberOfStateTypes
  simp only [sum_kPartitions (max F (n + 1)) m n hm hf 0]
  cases losses
  · simp
  · simp only [Bool.not_true, Bool.false_eq_true, if_false, if_true, List.length_append,
      List.length_flatMap]
    have : ∀ (l : List Nat) (acc : Int), (∀ i ∈ l, i < n) →
        l.foldl (fun (acc : Int) (p : Nat) =>
          (List.range' 1 m).foldl (fun (acc : Int) (k : Nat) => acc + kPartitions k p) acc) acc
        = acc + ((l.map fun i => (typesN (max F (n + 1)) m i).length).sum : Nat) := by
      intro l
      induction l with
      | nil => simp
      | cons a l ih =>
        intro acc hl
        have ha := hl a (by simp)
        rw [List.foldl_cons, sum_kPartitions (max F (n + 1)) m a hm (by omega),
          ih _ (fun i hi => hl i (by simp [hi])), List.map_cons, List.sum_cons]
        push_cast; ring
    rw [this _ _ (fun i hi => List.mem_range.mp hi)]
    push_cast; ring

example : computeNumberOfStateTypes 3 4 false = 4 := by decide +kernel

/-- C09: the recurrence counts the multisets of `k` positive integers with sum `n`. -/
theorem C09_k_partitions (k n : Nat) (hk : 1 ≤ k) (hn : 1 ≤ n) :
    ∃ L : List (Multiset Nat), L.Nodup ∧
      (∀ p : Multiset Nat, p ∈ L ↔ p.card = k ∧ (∀ x ∈ p, 0 < x) ∧ p.sum = n) ∧
      kPartitions k n = (L.length : Int) :=
  ⟨kp k n, kp_nodup k n, mem_kp k n, kPartitions_eq k n hk hn⟩

example : kPartitions 2 5 = 2 := by decide +kernel

/-- C10: the number of states of a type is the number of distinct mode permutations of it,
whatever the iteration order of the value set. -/
theorem C10_count (vals t : List Nat) (hnd : vals.Nodup) (hv : ∀ x, x ∈ vals ↔ x ∈ t) :
    ∃ L : List (List Nat), L.Nodup ∧ (∀ s : List Nat, s ∈ L ↔ s.Perm t) ∧
      computeNumberOfStatesOfGivenType vals t = L.length := by
  refine ⟨(arrangements (t : Multiset Nat)).toList, Finset.nodup_toList _, fun s => ?_, ?_⟩
  · rw [Finset.mem_toList, mem_arrangements, Multiset.coe_eq_coe]
  · rw [Finset.length_toList, numberOfStates_eq vals t hnd hv]

/-- C10: every floor division performed is exact: the running value before dividing by the
factorial of a count is divisible by it. -/
theorem C10_exact_divisions (vals t : List Nat) (hnd : vals.Nodup) (hv : ∀ x, x ∈ vals ↔ x ∈ t)
    (pre post : List Nat) (v : Nat) (h : vals = pre ++ v :: post) :
    (t.count v).factorial ∣
      (pre.map fun v => t.count v).foldl (fun acc c => acc / c.factorial) t.length.factorial := by
  have h1 := card_arrangements_mul (t : Multiset Nat)
  rw [← counts_prod vals t hnd hv, h, Multiset.coe_card] at h1
  simp only [List.map_append, List.map_cons, List.prod_append, List.prod_cons] at h1
  rw [foldl_div, ← h1]
  have hpos : 0 < ((pre.map fun v => t.count v).map Nat.factorial).prod := by
    refine List.prod_pos ?_
    intro x hx
    obtain ⟨y, -, rfl⟩ := List.mem_map.mp hx
    exact Nat.factorial_pos _
  refine ⟨(arrangements (t : Multiset Nat)).card * ((post.map fun v => t.count v).map Nat.factorial).prod, ?_⟩
  refine Nat.div_eq_of_eq_mul_left hpos ?_
  ring

example : computeNumberOfStatesOfGivenType [0, 1, 2] [2, 1, 1, 0] = 12 := by decide

/-- C10: summed over the generated state types the counts give the dimension. -/
theorem C10_total (m n : Nat) (hm : 1 ≤ m) (valsOf : List Nat → List Nat)
    (hvals : ∀ t, (valsOf t).Nodup ∧ ∀ x, x ∈ valsOf t ↔ x ∈ t) :
    ∃ types F, (∀ fuel ≥ F, generateStateTypes fuel m n = .ok types) ∧
      (types.map fun t => computeNumberOfStatesOfGivenType (valsOf t) t).sum
        = bosonicSpaceDimension n m := by
  obtain ⟨types, F, h, hnd, hmem⟩ := C08_exact m n false hm
  simp only [Bool.false_eq_true, if_false] at hmem
  refine ⟨types, F, h, ?_⟩
  obtain ⟨m', rfl⟩ : ∃ m' : Nat, m = m' + 1 := ⟨m - 1, by omega⟩
  have hdim : bosonicSpaceDimension n (m' + 1) = (stDesc m' n).length := by
    simp [bosonicSpaceDimension, stDesc_length]
  have hstnd : (stDesc m' n).Nodup := allStates_nodup m' n false
  rw [hdim, ← List.toFinset_card_of_nodup hstnd, ← List.sum_toFinset _ hnd]
  have hU : (stDesc m' n).toFinset
      = types.toFinset.biUnion fun t => arrangements (t : Multiset Nat) := by
    ext s
    simp only [List.mem_toFinset, Finset.mem_biUnion, mem_arrangements, mem_stDesc, hmem,
      Multiset.coe_eq_coe]
    constructor
    · rintro ⟨h1, h2⟩
      have hp := List.mergeSort_perm s (fun a b => decide (b ≤ a))
      refine ⟨s.mergeSort (fun a b => decide (b ≤ a)), ⟨?_, ?_, ?_⟩, hp.symm⟩
      · rw [hp.length_eq, h1]
      · have := List.pairwise_mergeSort (le := fun a b : Nat => decide (b ≤ a))
          (by intro a b c; simp only [decide_eq_true_eq]; omega)
          (by intro a b; simp only [Bool.or_eq_true, decide_eq_true_eq]; omega) s
        exact this.imp (by intro a b; simp)
      · rw [hp.sum_eq, h2]
    · rintro ⟨t, ⟨h1, -, h3⟩, hp⟩
      exact ⟨by rw [hp.length_eq, h1], by rw [hp.sum_eq, h3]⟩
  rw [hU, Finset.card_biUnion]
  · refine Finset.sum_congr rfl fun t _ => ?_
    exact numberOfStates_eq _ t (hvals t).1 (hvals t).2
  · intro a ha b hb hab
    rw [Finset.mem_coe, List.mem_toFinset, hmem] at ha hb
    rw [Function.onFun, Finset.disjoint_left]
    intro s hs hs'
    rw [mem_arrangements] at hs hs'
    apply hab
    refine List.Perm.eq_of_pairwise (le := fun a b => b ≤ a) ?_ ha.2.1 hb.2.1
      (Multiset.coe_eq_coe.mp (hs.symm.trans hs'))
    intro a b _ _ h1 h2; exact le_antisymm h2 h1

example : bosonicSpaceDimension 4 3 = 15 := by decide
example (t : List Nat) : t.dedup.Nodup ∧ ∀ x, x ∈ t.dedup ↔ x ∈ t :=
  ⟨List.nodup_dedup t, fun _ => List.mem_dedup⟩

end Verif
