import Verif.Proofs.RoundedTvd
import Verif.Props.QuantumUtilities

/-! C107: total variation distances in floating-point arithmetic. -/
namespace Verif

/-- C107: the computed distance of two lists of `n` floats is the exact one up to the relative error
`n / 2 ^ 52` and the absolute error `2 ^ -1075` (half the smallest positive float), with every
rounding. Lists of different lengths raise `AssertionError`. -/
theorem C107_list (R : Rounding) (p q : List ℝ) (hp : ∀ x ∈ p, IsFloat x) (hq : ∀ x ∈ q, IsFloat x) :
    (∀ h : p.length = q.length, p.length ≤ 2 ^ 52 → ∃ r, countTvdR R p q = .ok r ∧ 0 ≤ r ∧
      |r - (∑ i : Fin p.length, |p[i] - q[i]|) / 2|
        ≤ p.length / 2 ^ 52 * ((∑ i : Fin p.length, |p[i] - q[i]|) / 2) + 2 ^ (-1075 : ℤ)) ∧
    (p.length ≠ q.length → countTvdR R p q = .error .assertionError) := by
  refine ⟨fun h hn => ⟨_, countTvdR_ok R p q h, ?_, ?_⟩, fun h => by unfold countTvdR; rw [if_pos h]⟩
  · refine R.nonneg (div_nonneg (sumR_nonneg R fun x hx => ?_) (by norm_num))
    rw [zipWith_eq_map _ p q h] at hx
    obtain ⟨i, -, rfl⟩ := List.mem_map.mp hx
    exact ⟨(R.isFloat _).abs, abs_nonneg _⟩
  · have := half_sum_error R (List.finRange p.length) (fun i => p[i]) (fun i => q[i])
      (fun i _ => hp _ (List.getElem_mem _)) (fun i _ => hq _ (List.getElem_mem _)) (by simpa using hn)
    rw [zipWith_eq_map _ p q h, Fin.sum_univ_def]
    simpa using this

/-- C107: equal lists have the distance zero. Lists of the computed distance zero differ by at most the
smallest positive float. -/
theorem C107_zero (R : Rounding) (p q : List ℝ) (hp : ∀ x ∈ p, IsFloat x) (hq : ∀ x ∈ q, IsFloat x) :
    countTvdR R p p = .ok 0 ∧
    (countTvdR R p q = .ok 0 → ∃ h : p.length = q.length, ∀ i : Fin p.length, |p[i] - q[i]| ≤ 2 ^ (-1074 : ℤ)) := by
  constructor
  · rw [countTvdR_ok R p p rfl, zipWith_eq_map _ p p rfl]
    simp only [sub_self, R.zero, abs_zero]
    have : sumR R ((List.finRange p.length).map fun _ => (0 : ℝ)) = 0 := by
      have h := (sumR_within R (l := (List.finRange p.length).map fun _ => (0 : ℝ)) (fun x hx => by
        obtain ⟨i, -, rfl⟩ := List.mem_map.mp hx
        exact ⟨isFloat_zero, le_rfl⟩))
      refine h.eq_zero (sumR_nonneg R (fun x hx => by
        obtain ⟨i, -, rfl⟩ := List.mem_map.mp hx
        exact ⟨isFloat_zero, le_rfl⟩)) (by simp)
    rw [this]; simp
  · intro h0
    have h : p.length = q.length := by
      by_contra hne
      rw [countTvdR, if_pos hne] at h0
      cases h0
    refine ⟨h, fun i => ?_⟩
    rw [countTvdR_ok R p q h, zipWith_eq_map _ p q h] at h0
    exact half_sum_zero R (List.finRange p.length) (fun i => p[i]) (fun i => q[i])
      (fun i _ => hp _ (List.getElem_mem _)) (fun i _ => hq _ (List.getElem_mem _)) (Except.ok.inj h0) i
      (List.mem_finRange _)

/-- C107: the computed distance is symmetric if the rounding treats both signs alike (as rounding half
to even does). -/
theorem C107_symmetric (R : Rounding) (hR : ∀ x, R.rnd (-x) = -R.rnd x) (p q : List ℝ) :
    countTvdR R p q = countTvdR R q p := by
  by_cases h : p.length = q.length
  · rw [countTvdR_ok R p q h, countTvdR_ok R q p h.symm, List.zipWith_comm]
    congr 4
    congr 1
    funext a b
    rw [← neg_sub, hR, abs_neg]
  · rw [countTvdR, if_pos h, countTvdR, if_pos (Ne.symm h)]

/-- There are such roundings. -/
example : ∃ R : Rounding, ∀ x, R.rnd (-x) = -R.rnd x := by
  choose f hf using exists_nearest
  let R0 : Rounding := ⟨f, hf⟩
  have hneg : ∀ x y, NearestFloat (-x) y → NearestFloat x (-y) := by
    intro x y h
    refine ⟨h.1.neg, fun z hz => ?_⟩
    have := h.2 _ hz.neg
    rw [← abs_neg, ← abs_neg (x - z)]
    convert this using 2 <;> ring
  refine ⟨⟨fun x => if 0 ≤ x then f x else -f (-x), fun x => ?_⟩, fun x => ?_⟩
  · split
    · exact hf x
    · exact hneg _ _ (hf _)
  · dsimp only
    rcases lt_trichotomy x 0 with h | rfl | h
    · rw [if_pos (by linarith), if_neg (by linarith), neg_neg]
    · rw [neg_zero, if_pos le_rfl]
      have : f 0 = 0 := R0.zero
      simp [this]
    · rw [if_neg (by linarith), if_pos h.le, neg_neg]

/-- C107, the part that holds: the computed distance of two probability vectors is at most one up to
rounding. Missing: the bound one itself (`C107_exceeds`). -/
theorem C107_bound_partial (R : Rounding) (p q : List ℝ) (hp : ∀ x ∈ p, IsFloat x ∧ 0 ≤ x)
    (hq : ∀ x ∈ q, IsFloat x ∧ 0 ≤ x) (h : p.length = q.length) (hn : p.length ≤ 2 ^ 52)
    (h1 : p.sum = 1) (h2 : q.sum = 1) :
    ∃ r, countTvdR R p q = .ok r ∧ r ≤ 1 + p.length / 2 ^ 52 + 2 ^ (-1075 : ℤ) := by
  obtain ⟨r, hr, -, he⟩ := (C107_list R p q (fun x hx => (hp x hx).1) fun x hx => (hq x hx).1).1 h hn
  refine ⟨r, hr, ?_⟩
  obtain ⟨d, -, -, -, hd, -, -, -, -, -, -, -, hd1⟩ := C49_metric p q q h rfl
  have hd1 := hd1 (fun x hx => (hp x hx).2) (fun x hx => (hq x hx).2) h1 h2
  rw [C49_value p q h] at hd
  rw [Except.ok.inj hd] at he
  have := (abs_le.mp he).2
  have hl : (0 : ℝ) ≤ p.length / 2 ^ 52 := by positivity
  have := mul_le_mul_of_nonneg_left hd1 hl
  linarith

/-- C107: the dictionary distance has the same errors, whatever the iteration order of the key set; `f1`
and `f2` are the tables of the dictionaries, missing keys counting as zero. -/
theorem C107_dicts (R : Rounding) {κ : Type} [DecidableEq κ] (setOrder : List κ → List κ)
    (hset : ∀ l, (setOrder l).Nodup ∧ ∀ k, k ∈ setOrder l ↔ k ∈ l) (d1 d2 : List (κ × ℝ))
    (f1 f2 : κ → ℝ) (hd1 : ∀ e ∈ d1, IsFloat e.2) (hd2 : ∀ e ∈ d2, IsFloat e.2)
    (hf1 : ∀ k, (∀ v, (k, v) ∈ d1 → f1 k = v) ∧ (k ∉ d1.map Prod.fst → f1 k = 0))
    (hf2 : ∀ k, (∀ v, (k, v) ∈ d2 → f2 k = v) ∧ (k ∉ d2.map Prod.fst → f2 k = 0))
    (keys : Finset κ) (hkeys : ∀ k, k ∈ keys ↔ k ∈ d1.map Prod.fst ∨ k ∈ d2.map Prod.fst)
    (hn : keys.card ≤ 2 ^ 52) :
    |countTvdDictsR R setOrder d1 d2 - (∑ k ∈ keys, |f1 k - f2 k|) / 2|
      ≤ keys.card / 2 ^ 52 * ((∑ k ∈ keys, |f1 k - f2 k|) / 2) + 2 ^ (-1075 : ℤ) := by
  obtain ⟨hnd, hm⟩ := hset (d1.map Prod.fst ++ d2.map Prod.fst)
  set l := setOrder (d1.map Prod.fst ++ d2.map Prod.fst) with hl
  have hk : keys = l.toFinset := by
    ext k; rw [hkeys, List.mem_toFinset, hm, List.mem_append]
  have hc : keys.card = l.length := by rw [hk, List.toFinset_card_of_nodup hnd]
  have hs : ∑ k ∈ keys, |f1 k - f2 k| = (l.map fun k => |f1 k - f2 k|).sum := by
    rw [hk, List.sum_toFinset _ hnd]
  have hfl : ∀ (d : List (κ × ℝ)) (f : κ → ℝ), (∀ e ∈ d, IsFloat e.2) →
      (∀ k, (∀ v, (k, v) ∈ d → f k = v) ∧ (k ∉ d.map Prod.fst → f k = 0)) → ∀ k, IsFloat (f k) := by
    intro d f hd hf k
    by_cases h : k ∈ d.map Prod.fst
    · obtain ⟨e, he, rfl⟩ := List.mem_map.mp h
      rw [(hf e.1).1 e.2 he]
      exact hd e he
    · rw [(hf k).2 h]; exact isFloat_zero
  have := half_sum_error R l f1 f2 (fun k _ => hfl d1 f1 hd1 hf1 k) (fun k _ => hfl d2 f2 hd2 hf2 k)
    (by rw [← hc]; exact hn)
  rw [hc, hs, countTvdDictsR]
  simp only [dictGetZero_table d1 f1 hf1, dictGetZero_table d2 f2 hf2]
  rw [one_div_mul_eq_div]
  exact this

/-- C107: the computed distance of two probability vectors can exceed one, with every rounding. The
entries are multiples of `2 ^ -56`; both vectors sum to one exactly. -/
theorem C107_exceeds (R : Rounding) :
    ∃ p q : List ℝ, (∀ x ∈ p, IsFloat x ∧ 0 ≤ x) ∧ (∀ x ∈ q, IsFloat x ∧ 0 ≤ x) ∧ p.sum = 1 ∧ q.sum = 1 ∧
      countTvdR R p q = .ok (1 + 1 / 2 ^ 52) := by
  have f0 : IsFloat 0 := isFloat_zero
  have f1 : IsFloat 1 := ⟨1, 0, by norm_num, by norm_num, by norm_num⟩
  have g1 : IsFloat (1 - 4 / 2 ^ 52) := ⟨2 ^ 52 - 4, -52, by norm_num, by norm_num, by norm_num [zpow_neg]⟩
  have g2 : IsFloat (9 / 2 ^ 56) := ⟨9, -56, by norm_num, by norm_num, by norm_num [zpow_neg]⟩
  have g3 : IsFloat (37 / 2 ^ 56) := ⟨37, -56, by norm_num, by norm_num, by norm_num [zpow_neg]⟩
  refine ⟨[1, 0, 0, 0, 0, 0], [0, 1 - 4 / 2 ^ 52, 9 / 2 ^ 56, 9 / 2 ^ 56, 9 / 2 ^ 56, 37 / 2 ^ 56],
    ?_, ?_, by norm_num, by norm_num, ?_⟩
  · simp only [List.forall_mem_cons]
    norm_num [f0, f1]
  · simp only [List.forall_mem_cons]
    refine ⟨⟨f0, le_rfl⟩, ⟨g1, by norm_num⟩, ⟨g2, by norm_num⟩, ⟨g2, by norm_num⟩, ⟨g2, by norm_num⟩,
      ⟨g3, by norm_num⟩, by simp⟩
  · rw [countTvdR_ok R _ _ (by simp)]
    simp only [List.zipWith_cons_cons, List.zipWith_nil_right, sumR, List.foldl_cons, List.foldl_nil, sub_zero,
      zero_sub, R.eq_self f1, R.eq_self g1.neg, R.eq_self g2.neg, R.eq_self g3.neg, abs_neg, zero_add]
    rw [abs_of_pos (a := (1 : ℝ)) one_pos, abs_of_pos (a := (1 - 4 / 2 ^ 52 : ℝ)) (by norm_num),
      abs_of_pos (a := (9 / 2 ^ 56 : ℝ)) (by norm_num), abs_of_pos (a := (37 / 2 ^ 56 : ℝ)) (by norm_num),
      R.eq_self f1]
    have s1 : R.rnd (1 + (1 - 4 / 2 ^ 52)) = ((2 ^ 53 - 4 : ℤ) : ℝ) * 2 ^ (-52 : ℤ) :=
      R.eq_of_close (by norm_num) (by norm_num) (by norm_num) (by norm_num [zpow_neg])
    have s2 : R.rnd (((2 ^ 53 - 4 : ℤ) : ℝ) * 2 ^ (-52 : ℤ) + 9 / 2 ^ 56) = ((2 ^ 53 - 3 : ℤ) : ℝ) * 2 ^ (-52 : ℤ) :=
      R.eq_of_close (by norm_num) (by norm_num) (by norm_num) (by norm_num [zpow_neg, abs_of_neg])
    have s3 : R.rnd (((2 ^ 53 - 3 : ℤ) : ℝ) * 2 ^ (-52 : ℤ) + 9 / 2 ^ 56) = ((2 ^ 53 - 2 : ℤ) : ℝ) * 2 ^ (-52 : ℤ) :=
      R.eq_of_close (by norm_num) (by norm_num) (by norm_num) (by norm_num [zpow_neg, abs_of_neg])
    have s4 : R.rnd (((2 ^ 53 - 2 : ℤ) : ℝ) * 2 ^ (-52 : ℤ) + 9 / 2 ^ 56) = ((2 ^ 53 - 1 : ℤ) : ℝ) * 2 ^ (-52 : ℤ) :=
      R.eq_of_close (by norm_num) (by norm_num) (by norm_num) (by norm_num [zpow_neg, abs_of_neg])
    have s5 : R.rnd (((2 ^ 53 - 1 : ℤ) : ℝ) * 2 ^ (-52 : ℤ) + 37 / 2 ^ 56) = ((2 ^ 52 + 1 : ℤ) : ℝ) * 2 ^ (-51 : ℤ) :=
      R.eq_of_close (by norm_num) (by norm_num) (by norm_num) (by norm_num [zpow_neg, abs_of_neg])
    have s6 : R.rnd (((2 ^ 52 + 1 : ℤ) : ℝ) * 2 ^ (-51 : ℤ) / 2) = ((2 ^ 52 + 1 : ℤ) : ℝ) * 2 ^ (-52 : ℤ) :=
      R.eq_of_close (by norm_num) (by norm_num) (by norm_num) (by norm_num [zpow_neg, abs_of_neg])
    rw [s1, s2, s3, s4, s5, s6]
    congr 1
    norm_num [zpow_neg]

/-- C107: the dictionary distance depends on the iteration order of the key set, with every rounding
(compare `C50_symmetric`); both dictionaries sum to one. -/
theorem C107_order (R : Rounding) :
    ∃ (d1 d2 : List (ℕ × ℝ)) (order order' : List ℕ → List ℕ),
      (∀ l, (order l).Nodup ∧ ∀ k, k ∈ order l ↔ k ∈ l) ∧ (∀ l, (order' l).Nodup ∧ ∀ k, k ∈ order' l ↔ k ∈ l) ∧
      (∀ e ∈ d1, IsFloat e.2 ∧ 0 ≤ e.2) ∧ (∀ e ∈ d2, IsFloat e.2 ∧ 0 ≤ e.2) ∧
      (d1.map Prod.snd).sum = 1 ∧ (d2.map Prod.snd).sum = 1 ∧
      countTvdDictsR R order d1 d2 = 1 - 1 / 2 ^ 53 ∧ countTvdDictsR R order' d1 d2 = 1 := by
  have f0 : IsFloat 0 := isFloat_zero
  have f1 : IsFloat 1 := ⟨1, 0, by norm_num, by norm_num, by norm_num⟩
  have f2 : IsFloat (1 + 1) := ⟨2, 0, by norm_num, by norm_num, by norm_num⟩
  have g1 : IsFloat (1 - 1 / 2 ^ 52) := ⟨2 ^ 52 - 1, -52, by norm_num, by norm_num, by norm_num [zpow_neg]⟩
  have g2 : IsFloat (1 / 2 ^ 54) := ⟨1, -54, by norm_num, by norm_num, by norm_num [zpow_neg]⟩
  have g3 : IsFloat (1 / 2 ^ 54 + 1 / 2 ^ 54) := ⟨2, -54, by norm_num, by norm_num, by norm_num [zpow_neg]⟩
  have g4 : IsFloat (1 / 2 ^ 54 + 1 / 2 ^ 54 + 1 / 2 ^ 54) := ⟨3, -54, by norm_num, by norm_num, by norm_num [zpow_neg]⟩
  have g5 : IsFloat (1 / 2 ^ 54 + 1 / 2 ^ 54 + 1 / 2 ^ 54 + 1 / 2 ^ 54) :=
    ⟨4, -54, by norm_num, by norm_num, by norm_num [zpow_neg]⟩
  have g6 : IsFloat (1 / 2 ^ 54 + 1 / 2 ^ 54 + 1 / 2 ^ 54 + 1 / 2 ^ 54 + (1 - 1 / 2 ^ 52)) :=
    ⟨1, 0, by norm_num, by norm_num, by norm_num⟩
  have g7 : IsFloat (1 / 2 ^ 54 + 1 / 2 ^ 54 + 1 / 2 ^ 54 + 1 / 2 ^ 54 + (1 - 1 / 2 ^ 52) + 1) :=
    ⟨2, 0, by norm_num, by norm_num, by norm_num⟩
  refine ⟨[(0, 1)], [(1, 1 - 1 / 2 ^ 52), (2, 1 / 2 ^ 54), (3, 1 / 2 ^ 54), (4, 1 / 2 ^ 54), (5, 1 / 2 ^ 54)],
    List.dedup, fun l => l.dedup.reverse, ?_, ?_, ?_, ?_, by norm_num, by norm_num, ?_, ?_⟩
  · exact fun l => ⟨List.nodup_dedup l, fun k => List.mem_dedup⟩
  · exact fun l => ⟨List.nodup_reverse.mpr (List.nodup_dedup l), fun k => by simp⟩
  · simp only [List.forall_mem_cons]
    exact ⟨⟨f1, by norm_num⟩, by simp⟩
  · simp only [List.forall_mem_cons]
    exact ⟨⟨g1, by norm_num⟩, ⟨g2, by norm_num⟩, ⟨g2, by norm_num⟩, ⟨g2, by norm_num⟩, ⟨g2, by norm_num⟩, by simp⟩
  · have hk : ([0] ++ [1, 2, 3, 4, 5] : List ℕ).dedup = [0, 1, 2, 3, 4, 5] := by decide
    simp only [countTvdDictsR, List.map_cons, List.map_nil]
    rw [hk]
    simp only [dictGetZero, List.map_cons, List.map_nil, sumR, List.foldl_cons, List.foldl_nil, Nat.reduceEqDiff,
      reduceIte, zero_ne_one, one_ne_zero, OfNat.ofNat_ne_zero, OfNat.zero_ne_ofNat, OfNat.one_ne_ofNat,
      sub_zero, zero_sub, R.eq_self f1, R.eq_self g1.neg, R.eq_self g2.neg, abs_neg, zero_add]
    rw [abs_of_pos (a := (1 : ℝ)) one_pos, abs_of_pos (a := (1 - 1 / 2 ^ 52 : ℝ)) (by norm_num),
      abs_of_pos (a := (1 / 2 ^ 54 : ℝ)) (by norm_num), R.eq_self f1]
    have s1 : R.rnd (1 + (1 - 1 / 2 ^ 52)) = ((2 ^ 53 - 1 : ℤ) : ℝ) * 2 ^ (-52 : ℤ) :=
      R.eq_of_close (by norm_num) (by norm_num) (by norm_num) (by norm_num [zpow_neg])
    have s2 : R.rnd (((2 ^ 53 - 1 : ℤ) : ℝ) * 2 ^ (-52 : ℤ) + 1 / 2 ^ 54) = ((2 ^ 53 - 1 : ℤ) : ℝ) * 2 ^ (-52 : ℤ) :=
      R.eq_of_close (by norm_num) (by norm_num) (by norm_num) (by norm_num [zpow_neg, abs_of_neg])
    have s3 : R.rnd (1 / 2 * (((2 ^ 53 - 1 : ℤ) : ℝ) * 2 ^ (-52 : ℤ))) = ((2 ^ 53 - 1 : ℤ) : ℝ) * 2 ^ (-53 : ℤ) :=
      R.eq_of_close (by norm_num) (by norm_num) (by norm_num) (by norm_num [zpow_neg])
    rw [s1, s2, s2, s2, s2, s3]
    norm_num [zpow_neg]
  · have hk : ([0] ++ [1, 2, 3, 4, 5] : List ℕ).dedup.reverse = [5, 4, 3, 2, 1, 0] := by decide
    simp only [countTvdDictsR, List.map_cons, List.map_nil]
    rw [hk]
    simp only [dictGetZero, List.map_cons, List.map_nil, sumR, List.foldl_cons, List.foldl_nil, Nat.reduceEqDiff,
      reduceIte, zero_ne_one, one_ne_zero, OfNat.ofNat_ne_zero, OfNat.zero_ne_ofNat, OfNat.one_ne_ofNat,
      sub_zero, zero_sub, R.eq_self f1, R.eq_self g1.neg, R.eq_self g2.neg, abs_neg, zero_add]
    rw [abs_of_pos (a := (1 : ℝ)) one_pos, abs_of_pos (a := (1 - 1 / 2 ^ 52 : ℝ)) (by norm_num),
      abs_of_pos (a := (1 / 2 ^ 54 : ℝ)) (by norm_num), R.eq_self g2, R.eq_self g3, R.eq_self g4, R.eq_self g5,
      R.eq_self g6, R.eq_self g7]
    norm_num [R.eq_self f1]

/-- Two different float distributions with a nonzero distance meet the hypotheses of C107. -/
example (R : Rounding) : ∃ r, countTvdR R [1 / 2, 1 / 2, 0] [1 / 4, 1 / 4, 1 / 2] = .ok r ∧
    |r - 1 / 2| ≤ 3 / 2 ^ 52 * (1 / 2) + 2 ^ (-1075 : ℤ) := by
  have f0 : IsFloat 0 := isFloat_zero
  have f1 : IsFloat (1 / 2) := ⟨1, -1, by norm_num, by norm_num, by norm_num⟩
  have f2 : IsFloat (1 / 4) := ⟨1, -2, by norm_num, by norm_num, by norm_num [zpow_neg]⟩
  obtain ⟨r, hr, -, he⟩ := (C107_list R [1 / 2, 1 / 2, 0] [1 / 4, 1 / 4, 1 / 2]
    (by simp only [List.forall_mem_cons]; exact ⟨f1, f1, f0, by simp⟩)
    (by simp only [List.forall_mem_cons]; exact ⟨f2, f2, f1, by simp⟩)).1 (by simp) (by norm_num)
  refine ⟨r, hr, ?_⟩
  have e : (∑ i : Fin [(1 / 2 : ℝ), 1 / 2, 0].length, |[(1 / 2 : ℝ), 1 / 2, 0][i] - [(1 / 4 : ℝ), 1 / 4, 1 / 2][i]|) = 1 := by
    rw [show (∑ i : Fin [(1 / 2 : ℝ), 1 / 2, 0].length, |[(1 / 2 : ℝ), 1 / 2, 0][i] - [(1 / 4 : ℝ), 1 / 4, 1 / 2][i]|)
      = ∑ i : Fin 3, |[(1 / 2 : ℝ), 1 / 2, 0][i] - [(1 / 4 : ℝ), 1 / 4, 1 / 2][i]| from rfl, Fin.sum_univ_three]
    norm_num [abs_of_pos, abs_of_neg]
  rw [e] at he
  simpa using he

end Verif
