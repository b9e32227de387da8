import Verif.Proofs.States
import Verif.Proofs.Arrangements
import Mathlib.Data.Multiset.Sort

/-! Helper lemmas: partitions and state types. -/
namespace Verif

/-- Pure form of the partition generator. -/
def parts : Nat → Nat → Nat → List (List Nat)
  | 0, _, _ => []
  | fuel + 1, n, lo =>
    [n] :: (List.range' lo (n / 2 + 1 - lo)).flatMap fun i => (parts fuel (n - i) i).map (i :: ·)

theorem partitionsGen_ok (fuel n lo : Nat) (hlo : 1 ≤ lo) (hf : n < fuel) :
    partitionsGen fuel n lo = .ok (parts fuel n lo) := by
  induction fuel generalizing n lo with
  | zero => omega
  | succ fuel ih =>
    unfold partitionsGen
    rw [foldlM_ok _ (fun acc i => acc ++ (parts fuel (n - i) i).map (i :: ·))]
    · rw [flatMap_foldl]; rfl
    · intro acc i hi
      rw [List.mem_range'_1] at hi
      rw [ih (n - i) i (by omega) (by omega)]
      rfl

theorem mem_parts (fuel n lo : Nat) (hlo : 1 ≤ lo) (hn : lo ≤ n) (hf : n < fuel) (p : List Nat) :
    p ∈ parts fuel n lo ↔ p ≠ [] ∧ p.Pairwise (· ≤ ·) ∧ (∀ x ∈ p, lo ≤ x) ∧ p.sum = n := by
  induction fuel generalizing n lo p with
  | zero => omega
  | succ fuel ih =>
    rw [parts, List.mem_cons, List.mem_flatMap]
    constructor
    · rintro (rfl | ⟨i, hi, hp⟩)
      · simp [hn]
      · rw [List.mem_range'_1] at hi
        obtain ⟨q, hq, rfl⟩ := List.mem_map.mp hp
        rw [ih (n - i) i (by omega) (by omega) (by omega)] at hq
        obtain ⟨h1, h2, h3, h4⟩ := hq
        refine ⟨by simp, ?_, ?_, ?_⟩
        · rw [List.pairwise_cons]; exact ⟨h3, h2⟩
        · intro x hx
          rcases List.mem_cons.mp hx with rfl | hx
          · omega
          · have := h3 x hx; omega
        · rw [List.sum_cons, h4]; omega
    · rintro ⟨h1, h2, h3, h4⟩
      match p, h1 with
      | [a], _ => left; simpa using h4
      | a :: b :: q, _ =>
        right
        have hab : a ≤ b := (List.pairwise_cons.mp h2).1 b (by simp)
        simp only [List.sum_cons] at h4
        refine ⟨a, ?_, List.mem_map.mpr ⟨b :: q, ?_, rfl⟩⟩
        · rw [List.mem_range'_1]
          have := h3 a (by simp)
          omega
        · have ha := h3 a (by simp)
          rw [ih (n - a) a (by omega) (by omega) (by omega)]
          refine ⟨by simp, (List.pairwise_cons.mp h2).2, fun x hx => (List.pairwise_cons.mp h2).1 x hx, ?_⟩
          simp only [List.sum_cons]; omega

theorem parts_nodup (fuel n lo : Nat) (hlo : 1 ≤ lo) (hf : n < fuel) : (parts fuel n lo).Nodup := by
  induction fuel generalizing n lo with
  | zero => omega
  | succ fuel ih =>
    rw [parts, List.nodup_cons]
    constructor
    · rw [List.mem_flatMap]
      rintro ⟨i, hi, h⟩
      rw [List.mem_range'_1] at hi
      obtain ⟨q, hq, h⟩ := List.mem_map.mp h
      obtain ⟨rfl, rfl⟩ := List.cons.inj h
      rw [mem_parts fuel _ _ (by omega) (by omega) (by omega)] at hq
      exact hq.1 rfl
    · rw [List.nodup_flatMap]
      constructor
      · intro i hi
        rw [List.mem_range'_1] at hi
        exact (ih (n - i) i (by omega) (by omega)).map List.cons_injective
      · refine (List.nodup_range' (step := 1) (by omega)).imp ?_
        intro i j hij x hx hy
        obtain ⟨q, -, rfl⟩ := List.mem_map.mp hx
        obtain ⟨r, -, h⟩ := List.mem_map.mp hy
        exact hij (List.cons.inj h).1.symm

theorem parts_zero (fuel : Nat) (hf : 0 < fuel) : parts fuel 0 1 = [[0]] := by
  obtain ⟨f, rfl⟩ := Nat.exists_eq_succ_of_ne_zero hf.ne'
  simp [parts]

theorem padZeros_eq (m : Nat) (l : List Nat) :
    padZeros m l = l ++ List.replicate (m - l.length) 0 := by
  induction hd : m - l.length generalizing l with
  | zero =>
    rw [padZeros, if_neg (by omega)]; simp
  | succ d ih =>
    rw [padZeros, if_pos (by omega), ih (l ++ [0]) (by simp; omega)]
    simp [List.replicate_succ]

theorem sortDesc_eq_reverse {p : List Nat} (h : p.Pairwise (· ≤ ·)) :
    p.mergeSort (fun a b => decide (b ≤ a)) = p.reverse := by
  have hs : (p.mergeSort (fun a b => decide (b ≤ a))).Pairwise (fun a b => b ≤ a) := by
    have := List.pairwise_mergeSort (le := fun a b : Nat => decide (b ≤ a))
      (by intro a b c; simp only [decide_eq_true_eq]; omega)
      (by intro a b; simp only [Bool.or_eq_true, decide_eq_true_eq]; omega) p
    exact this.imp (by intro a b; simp)
  have hr : p.reverse.Pairwise (fun a b => b ≤ a) := by
    rw [List.pairwise_reverse]; exact h
  refine List.Perm.eq_of_pairwise (le := fun a b => b ≤ a) ?_ hs hr
    ((List.mergeSort_perm p _).trans (List.reverse_perm p).symm)
  intro a b _ _ h1 h2; exact le_antisymm h2 h1

/-- State type belonging to an ascending partition. -/
def typeOf (m : Nat) (p : List Nat) : List Nat := p.reverse ++ List.replicate (m - p.length) 0

theorem typeOf_filter (m : Nat) (p : List Nat) (hp : ∀ x ∈ p, 1 ≤ x) :
    ((typeOf m p).filter (fun x => decide (x ≠ 0))).reverse = p := by
  unfold typeOf
  rw [List.filter_append]
  have h1 : p.reverse.filter (fun x => decide (x ≠ 0)) = p.reverse := by
    rw [List.filter_eq_self]
    intro x hx
    have := hp x (List.mem_reverse.mp hx)
    simp; omega
  have h2 : (List.replicate (m - p.length) 0).filter (fun x => decide (x ≠ 0)) = [] := by
    rw [List.filter_eq_nil_iff]
    intro x hx
    rw [(List.mem_replicate.mp hx).2]; simp
  rw [h1, h2]; simp

/-- A descending list is its non-zero part followed by zeros. -/
theorem desc_split (t : List Nat) (h : t.Pairwise (fun a b => b ≤ a)) :
    t = t.filter (fun x => decide (x ≠ 0))
      ++ List.replicate (t.length - (t.filter (fun x => decide (x ≠ 0))).length) 0 := by
  induction t with
  | nil => rfl
  | cons a t ih =>
    rw [List.pairwise_cons] at h
    by_cases ha : a = 0
    · subst ha
      have h0 : ∀ x ∈ t, x = 0 := fun x hx => by have := h.1 x hx; omega
      have h1 : (0 :: t).filter (fun x => decide (x ≠ 0)) = [] := by
        rw [List.filter_eq_nil_iff]
        intro x hx
        rcases List.mem_cons.mp hx with rfl | hx
        · simp
        · rw [h0 x hx]; simp
      rw [h1]
      simp only [List.length_nil, Nat.sub_zero, List.nil_append, List.length_cons]
      rw [List.eq_replicate_iff]
      exact ⟨by simp, fun x hx => by
        rcases List.mem_cons.mp hx with rfl | hx
        · rfl
        · exact h0 x hx⟩
    · rw [List.filter_cons_of_pos (by simpa using ha)]
      have := ih h.2
      simp only [List.cons_append, List.length_cons, Nat.add_sub_add_right]
      rw [← this]

/-- The types generated for exactly `n` particles. -/
def typesN (fuel m n : Nat) : List (List Nat) :=
  ((parts fuel n 1).filter (fun p => decide (p.length ≤ m))).map (typeOf m)

theorem mem_typesN (fuel m n : Nat) (hm : 1 ≤ m) (hf : n < fuel) (t : List Nat) :
    t ∈ typesN fuel m n ↔ t.length = m ∧ t.Pairwise (fun a b => b ≤ a) ∧ t.sum = n := by
  unfold typesN
  simp only [List.mem_map, List.mem_filter, decide_eq_true_eq]
  rcases Nat.eq_zero_or_pos n with rfl | hn
  · rw [parts_zero fuel hf]
    simp only [List.mem_singleton]
    have hz : typeOf m [0] = List.replicate m 0 := by
      obtain ⟨k, rfl⟩ := Nat.exists_eq_succ_of_ne_zero (by omega : m ≠ 0)
      simp [typeOf, List.replicate_succ]
    constructor
    · rintro ⟨p, ⟨rfl, -⟩, rfl⟩
      rw [hz]
      exact ⟨by simp, by rw [List.pairwise_replicate]; right; exact le_rfl, by simp⟩
    · rintro ⟨h1, -, h3⟩
      refine ⟨[0], ⟨rfl, by simpa using hm⟩, ?_⟩
      rw [hz]; symm; rw [List.eq_replicate_iff]
      refine ⟨h1, fun x hx => ?_⟩
      have := List.le_sum_of_mem hx
      omega
  · constructor
    · rintro ⟨p, ⟨hp, hlen⟩, rfl⟩
      rw [mem_parts fuel n 1 le_rfl hn hf] at hp
      obtain ⟨-, h2, h3, h4⟩ := hp
      refine ⟨by simp [typeOf]; omega, ?_, by simp [typeOf, h4]⟩
      rw [typeOf, List.pairwise_append]
      refine ⟨by rw [List.pairwise_reverse]; exact h2, by rw [List.pairwise_replicate]; right; exact le_rfl, ?_⟩
      intro a _ b hb
      rw [(List.mem_replicate.mp hb).2]; exact Nat.zero_le _
    · rintro ⟨h1, h2, h3⟩
      have hs := desc_split t h2
      refine ⟨(t.filter (fun x => decide (x ≠ 0))).reverse, ⟨?_, ?_⟩, ?_⟩
      · rw [mem_parts fuel n 1 le_rfl hn hf]
        refine ⟨?_, ?_, ?_, ?_⟩
        · intro h
          rw [List.reverse_eq_nil_iff] at h
          rw [h] at hs
          rw [hs] at h3
          simp at h3; omega
        · rw [List.pairwise_reverse]
          exact h2.sublist List.filter_sublist
        · intro x hx
          have := (List.mem_filter.mp (List.mem_reverse.mp hx)).2
          simp at this; omega
        · rw [List.sum_reverse]
          conv_rhs => rw [← h3, hs]
          simp
      · rw [List.length_reverse, ← h1]; exact List.length_filter_le _ _
      · unfold typeOf
        rw [List.reverse_reverse, List.length_reverse, ← h1]
        exact hs.symm

theorem typesN_nodup (fuel m n : Nat) (hf : n < fuel) : (typesN fuel m n).Nodup := by
  unfold typesN
  rcases Nat.eq_zero_or_pos n with rfl | hn
  · rw [parts_zero fuel hf, List.filter_cons]
    split_ifs <;> simp
  · refine List.Nodup.map_on ?_ ((parts_nodup fuel n 1 le_rfl hf).filter _)
    intro p hp q hq h
    rw [List.mem_filter, mem_parts fuel n 1 le_rfl hn hf] at hp hq
    rw [← typeOf_filter m p hp.1.2.2.1, ← typeOf_filter m q hq.1.2.2.1, h]

theorem parts_sorted (fuel n : Nat) (hf : n < fuel) (p : List Nat) (hp : p ∈ parts fuel n 1) :
    p.Pairwise (· ≤ ·) := by
  rcases Nat.eq_zero_or_pos n with rfl | hn
  · rw [parts_zero fuel hf] at hp
    rw [List.mem_singleton.mp hp]; simp
  · exact ((mem_parts fuel n 1 le_rfl hn hf p).mp hp).2.1

theorem generateStateTypes_ok (fuel m n : Nat) (losses : Bool) (hf : n < fuel) :
    generateStateTypes fuel m n losses
      = .ok (typesN fuel m n ++ if losses then (List.range n).flatMap (typesN fuel m) else []) := by
  unfold generateStateTypes
  rw [partitionsGen_ok fuel n 1 le_rfl hf, ok_bind]
  have hall : (if losses = true then
      (List.range n).foldlM (fun acc i => do
        let ps ← partitionsGen fuel i 1
        pure (acc ++ ps)) (parts fuel n 1)
      else pure (parts fuel n 1) : Py _)
      = .ok (parts fuel n 1 ++ if losses then (List.range n).flatMap (fun i => parts fuel i 1) else []) := by
    cases losses
    · simp
    · simp only [if_true]
      rw [foldlM_ok _ (fun acc i => acc ++ parts fuel i 1)]
      · rw [flatMap_foldl]
      · intro acc i hi
        have := List.mem_range.mp hi
        rw [partitionsGen_ok fuel i 1 le_rfl (by omega)]; rfl
  simp only at hall ⊢
  rw [hall, ok_bind, pure_eq_ok]
  congr 1
  have hfold : ∀ (l : List (List Nat)) (acc : List (List Nat)), (∀ p ∈ l, p.Pairwise (· ≤ ·)) →
      (l.foldl (fun acc p => if p.length > m then acc
        else acc ++ [p.mergeSort (fun a b => decide (b ≤ a))]) acc).map (padZeros m)
      = acc.map (padZeros m) ++ (l.filter (fun p => decide (p.length ≤ m))).map (typeOf m) := by
    intro l
    induction l with
    | nil => intro acc _; simp
    | cons p l ih =>
      intro acc h
      rw [List.foldl_cons, ih _ (fun q hq => h q (by simp [hq]))]
      by_cases hp : p.length > m
      · rw [if_pos hp, List.filter_cons_of_neg (by simpa using hp)]
      · rw [if_neg hp, List.filter_cons_of_pos (by simpa using hp)]
        rw [sortDesc_eq_reverse (h p (by simp))]
        simp [padZeros_eq, typeOf]
  rw [hfold]
  · rw [List.map_nil, List.nil_append, List.filter_append, List.map_append]
    congr 1
    cases losses
    · simp
    · simp only [if_true]
      rw [List.filter_flatMap, List.map_flatMap]
      rfl
  · intro p hp
    rcases List.mem_append.mp hp with h | h
    · exact parts_sorted fuel n hf p h
    · cases losses
      · simp at h
      · simp only [if_true, List.mem_flatMap, List.mem_range] at h
        obtain ⟨i, hi, h⟩ := h
        exact parts_sorted fuel i (by omega) p h

end Verif
