import Verif.Proofs.StateTypes
import Verif.Proofs.Generate
import Mathlib.Algebra.Order.BigOperators.Ring.Finset

/-! Helper lemmas: counting partitions and states of a type. -/
namespace Verif

/-- Multisets of `k` positive integers with sum `n`. -/
def kp (k n : Nat) : List (Multiset Nat) :=
  match k with
  | 0 => if n = 0 then [0] else []
  | k + 1 =>
    if n < k + 1 then []
    else (kp k (n - 1)).map (1 ::ₘ ·) ++ (kp (k + 1) (n - (k + 1))).map (Multiset.map (· + 1))
termination_by n

theorem kp_succ_of_lt {k n : Nat} (h : n < k + 1) : kp (k + 1) n = [] := by
  rw [kp, if_pos h]

theorem kp_succ_of_le {k n : Nat} (h : k + 1 ≤ n) :
    kp (k + 1) n = (kp k (n - 1)).map (1 ::ₘ ·) ++ (kp (k + 1) (n - (k + 1))).map (Multiset.map (· + 1)) := by
  rw [kp, if_neg (by omega)]

theorem card_le_sum_of_pos (p : Multiset Nat) (h : ∀ x ∈ p, 0 < x) : p.card ≤ p.sum := by
  induction p using Multiset.induction_on with
  | empty => simp
  | cons a p ih =>
    have h1 := h a (by simp)
    have h2 := ih (fun x hx => h x (by simp [hx]))
    simp; omega

theorem mem_kp (k n : Nat) (p : Multiset Nat) :
    p ∈ kp k n ↔ p.card = k ∧ (∀ x ∈ p, 0 < x) ∧ p.sum = n := by
  induction n using Nat.strong_induction_on generalizing k p with
  | _ n ih =>
    cases k with
    | zero =>
      rw [kp]
      constructor
      · intro h
        split_ifs at h with hn
        · rw [List.mem_singleton.mp h]; simp [hn]
        · simp at h
      · rintro ⟨h1, -, h3⟩
        rw [Multiset.card_eq_zero] at h1
        subst h1
        simp at h3
        simp [← h3]
    | succ k =>
      by_cases hn : n < k + 1
      · rw [kp_succ_of_lt hn]
        simp only [List.not_mem_nil, false_iff]
        rintro ⟨h1, h2, h3⟩
        have := card_le_sum_of_pos p h2
        omega
      · rw [kp_succ_of_le (by omega), List.mem_append, List.mem_map, List.mem_map]
        constructor
        · rintro (⟨q, hq, rfl⟩ | ⟨q, hq, rfl⟩)
          · rw [ih (n - 1) (by omega)] at hq
            refine ⟨by simp [hq.1], ?_, ?_⟩
            · intro x hx
              rcases Multiset.mem_cons.mp hx with rfl | hx
              · omega
              · exact hq.2.1 x hx
            · rw [Multiset.sum_cons, hq.2.2]; omega
          · rw [ih (n - (k + 1)) (by omega)] at hq
            refine ⟨by simp [hq.1], ?_, ?_⟩
            · intro x hx
              obtain ⟨y, -, rfl⟩ := Multiset.mem_map.mp hx
              omega
            · rw [Multiset.sum_map_add]; simp [hq.1, hq.2.2]; omega
        · rintro ⟨h1, h2, h3⟩
          by_cases h : 1 ∈ p
          · left
            refine ⟨p.erase 1, ?_, Multiset.cons_erase h⟩
            rw [ih (n - 1) (by omega)]
            refine ⟨by rw [Multiset.card_erase_of_mem h, h1]; rfl,
              fun x hx => h2 x (Multiset.mem_of_mem_erase hx), ?_⟩
            have := Multiset.sum_erase h
            omega
          · right
            have hge : ∀ x ∈ p, 1 < x := by
              intro x hx
              have := h2 x hx
              have : x ≠ 1 := by rintro rfl; exact h hx
              omega
            have hback : (p.map (· - 1)).map (· + 1) = p := by
              rw [Multiset.map_map]
              conv_rhs => rw [← Multiset.map_id p]
              refine Multiset.map_congr rfl fun x hx => ?_
              have := hge x hx
              simp; omega
            refine ⟨p.map (· - 1), ?_, hback⟩
            rw [ih (n - (k + 1)) (by omega)]
            refine ⟨by simp [h1], ?_, ?_⟩
            · intro x hx
              obtain ⟨y, hy, rfl⟩ := Multiset.mem_map.mp hx
              have := hge y hy
              omega
            · have : ((p.map (· - 1)).map (· + 1)).sum = n := by rw [hback, h3]
              rw [Multiset.sum_map_add] at this
              simp [h1] at this
              omega

theorem kp_nodup (k n : Nat) : (kp k n).Nodup := by
  induction n using Nat.strong_induction_on generalizing k with
  | _ n ih =>
    cases k with
    | zero => rw [kp]; split_ifs <;> simp
    | succ k =>
      by_cases hn : n < k + 1
      · rw [kp_succ_of_lt hn]; simp
      · rw [kp_succ_of_le (by omega), List.nodup_append]
        refine ⟨(ih _ (by omega) _).map ?_, (ih _ (by omega) _).map ?_, ?_⟩
        · intro a b h; exact (Multiset.cons_inj_right 1).mp h
        · exact Multiset.map_injective (add_left_injective 1)
        · intro a ha b hb
          obtain ⟨q, -, rfl⟩ := List.mem_map.mp ha
          obtain ⟨r, hr, rfl⟩ := List.mem_map.mp hb
          rw [mem_kp] at hr
          intro h
          have : 1 ∈ Multiset.map (· + 1) r := by rw [← h]; simp
          obtain ⟨y, hy, h1⟩ := Multiset.mem_map.mp this
          have := hr.2.1 y hy
          omega

theorem kp_one_length (n : Nat) (hn : 1 ≤ n) : (kp 1 n).length = 1 := by
  induction n with
  | zero => omega
  | succ n ih =>
    rw [kp_succ_of_le (by omega)]
    rcases Nat.eq_zero_or_pos n with rfl | h
    · rw [kp, kp_succ_of_lt (by omega)]; simp
    · rw [kp]
      simp [ih h, Nat.pos_iff_ne_zero.mp h]

theorem kPartitions_eq (k n : Nat) (hk : 1 ≤ k) (hn : 1 ≤ n) :
    kPartitions k n = ((kp k n).length : Int) := by
  induction n using Nat.strong_induction_on generalizing k with
  | _ n ih =>
    rw [kPartitions]
    by_cases h1 : k = 1
    · subst h1; rw [if_pos (by rfl), kp_one_length n hn]; rfl
    · obtain ⟨j, rfl⟩ : ∃ j, k = j + 1 := ⟨k - 1, by omega⟩
      rw [if_neg (by omega)]
      by_cases h2 : n < j + 1
      · rw [if_pos (by omega), kp_succ_of_lt h2]; rfl
      · rw [if_neg (by omega), kp_succ_of_le (by omega), List.length_append, List.length_map,
          List.length_map]
        have e1 : ((j + 1 : Nat) : Int) - 1 = ((j : Nat) : Int) := by omega
        have e2 : (n : Int) - 1 = ((n - 1 : Nat) : Int) := by omega
        have e3 : (n : Int) - ((j + 1 : Nat) : Int) = ((n - (j + 1) : Nat) : Int) := by omega
        rw [e1, e2, e3, ih (n - 1) (by omega) j (by omega) (by omega)]
        by_cases h3 : n = j + 1
        · have : kPartitions ((j + 1 : Nat) : Int) ((n - (j + 1) : Nat) : Int) = 0 := by
            rw [kPartitions, if_neg (by omega), if_pos (by omega)]
          rw [this, kp_succ_of_lt (by omega : n - (j + 1) < j + 1)]
          simp
        · rw [ih (n - (j + 1)) (by omega) (j + 1) (by omega) (by omega)]
          push_cast; ring

theorem kPartitions_zero (k : Nat) (hk : 2 ≤ k) : kPartitions k 0 = 0 := by
  rw [kPartitions, if_neg (by omega), if_pos (by omega)]

theorem kPartitions_one (n : Int) : kPartitions 1 n = 1 := by rw [kPartitions, if_pos rfl]

theorem sum_kPartitions (fuel m n : Nat) (hm : 1 ≤ m) (hf : n < fuel) (acc : Int) :
    (List.range' 1 m).foldl (fun (acc : Int) (k : Nat) => acc + kPartitions k n) acc
      = acc + ((typesN fuel m n).length : Int) := by
  have hfold : ∀ (l : List Nat) (acc : Int), l.foldl (fun (acc : Int) (k : Nat) => acc + kPartitions k n) acc
      = acc + (l.map fun (k : Nat) => kPartitions k n).sum := by
    intro l
    induction l with
    | nil => simp
    | cons a l ih => intro acc; rw [List.foldl_cons, ih, List.map_cons, List.sum_cons]; ring
  rw [hfold]
  congr 1
  unfold typesN
  rw [List.length_map]
  rcases Nat.eq_zero_or_pos n with rfl | hn
  · obtain ⟨j, rfl⟩ : ∃ j, m = j + 1 := ⟨m - 1, by omega⟩
    rw [parts_zero fuel hf, List.filter_cons_of_pos (by simp), List.range'_succ]
    have : ∀ k ∈ List.range' (1 + 1) j, kPartitions k ((0 : Nat) : Int) = 0 := by
      intro k hk
      rw [List.mem_range'_1] at hk
      exact kPartitions_zero k (by omega)
    rw [List.map_cons, List.map_congr_left this]
    simp [kPartitions_one]
  · have h1 : ∀ k ∈ List.range' 1 m, kPartitions k (n : Int) = (((kp k n).length : Nat) : Int) := by
      intro k hk
      rw [List.mem_range'_1] at hk
      exact kPartitions_eq k n (by omega) hn
    rw [List.map_congr_left h1]
    have h2 : ((List.range' 1 m).flatMap fun k => (kp k n).map fun p => p.sort (· ≤ ·)).Perm
        ((parts fuel n 1).filter fun p => decide (p.length ≤ m)) := by
      rw [List.perm_ext_iff_of_nodup]
      · intro p
        simp only [List.mem_flatMap, List.mem_map, List.mem_filter, decide_eq_true_eq,
          List.mem_range'_1, mem_kp, mem_parts fuel n 1 le_rfl hn hf]
        constructor
        · rintro ⟨k, hk, q, ⟨h1, h2, h3⟩, rfl⟩
          refine ⟨⟨?_, Multiset.pairwise_sort _ _, ?_, ?_⟩, ?_⟩
          · intro h
            have := congrArg List.length h
            rw [Multiset.length_sort, List.length_nil] at this
            omega
          · intro x hx; exact h2 x ((Multiset.mem_sort _).mp hx)
          · rw [← Multiset.sum_coe, Multiset.sort_eq, h3]
          · rw [Multiset.length_sort]; omega
        · rintro ⟨⟨h1, h2, h3, h4⟩, h5⟩
          have hl : p.length ≠ 0 := by rwa [Ne, List.length_eq_zero_iff]
          refine ⟨p.length, by omega, (p : Multiset Nat), ⟨by simp, fun x hx => h3 x (by simpa using hx), by simpa using h4⟩, ?_⟩
          exact List.mergeSort_of_pairwise (by simpa using h2)
      · rw [List.nodup_flatMap]
        constructor
        · intro k _
          refine (kp_nodup k n).map ?_
          intro a b h
          have := congrArg (fun l : List Nat => (l : Multiset Nat)) h
          simpa using this
        · refine (List.nodup_range' (step := 1) (by omega)).imp ?_
          intro i j hij x hx hy
          obtain ⟨q, hq, rfl⟩ := List.mem_map.mp hx
          obtain ⟨r, hr, h⟩ := List.mem_map.mp hy
          rw [mem_kp] at hq hr
          have := congrArg List.length h
          rw [Multiset.length_sort, Multiset.length_sort] at this
          omega
      · exact (parts_nodup fuel n 1 le_rfl hf).filter _
    rw [← h2.length_eq, List.length_flatMap]
    simp [Function.comp_def]

theorem foldl_div (l : List Nat) (a : Nat) :
    l.foldl (fun acc c => acc / c.factorial) a = a / (l.map Nat.factorial).prod := by
  induction l generalizing a with
  | nil => simp
  | cons c l ih => rw [List.foldl_cons, ih, Nat.div_div_eq_div_mul, List.map_cons, List.prod_cons]

theorem counts_prod (vals t : List Nat) (hnd : vals.Nodup) (hv : ∀ x, x ∈ vals ↔ x ∈ t) :
    ((vals.map fun v => t.count v).map Nat.factorial).prod = multFact (t : Multiset Nat) := by
  rw [List.map_map, ← List.prod_toFinset _ hnd]
  unfold multFact
  refine Finset.prod_congr ?_ fun x _ => by simp
  ext x; simp [hv]

theorem numberOfStates_eq (vals t : List Nat) (hnd : vals.Nodup) (hv : ∀ x, x ∈ vals ↔ x ∈ t) :
    computeNumberOfStatesOfGivenType vals t = (arrangements (t : Multiset Nat)).card := by
  unfold computeNumberOfStatesOfGivenType
  rw [foldl_div, counts_prod vals t hnd hv]
  have h := card_arrangements_mul (t : Multiset Nat)
  rw [Multiset.coe_card] at h
  have hpos : 0 < multFact (t : Multiset Nat) := by
    unfold multFact
    exact Finset.prod_pos fun _ _ => Nat.factorial_pos _
  rw [← h]
  exact Nat.mul_div_cancel _ hpos

end Verif
