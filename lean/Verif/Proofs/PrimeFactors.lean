import Verif.Model.QuantumUtilities
import Verif.Proofs.PyLemmas
import Mathlib.Data.Nat.Factors
import Mathlib.Tactic.Ring

/-! Trial division. -/
namespace Verif

theorem divideOut_ok {i : ℕ} (hi : 2 ≤ i) : ∀ (fuel n : ℕ) (acc : List ℕ), 0 < n → n < fuel →
    ∃ v n', divideOut fuel i (acc, n) = .ok (acc ++ List.replicate v i, n') ∧
      n = i ^ v * n' ∧ ¬ i ∣ n' := by
  intro fuel
  induction fuel with
  | zero => intro n _ _ h; omega
  | succ fuel ih =>
    intro n acc hn hf
    by_cases hd : i ∣ n
    · obtain ⟨q, rfl⟩ := hd
      have hq : 0 < q := Nat.pos_of_mul_pos_left hn
      have hlt : q < i * q := by nlinarith
      obtain ⟨v, n', h1, h2, h3⟩ := ih q (acc ++ [i]) hq (by omega)
      refine ⟨v + 1, n', ?_, ?_, h3⟩
      · have hstep : divideOut (fuel + 1) i (acc, i * q) = divideOut fuel i (acc ++ [i], q) := by
          unfold divideOut
          rw [pyWhile_step (s' := (acc ++ [i], q))]
          · simp
          · simp only [pure_eq_ok]; rw [Nat.mul_div_cancel_left q (by omega)]
        rw [hstep, h1, List.append_assoc, List.replicate_succ]; rfl
      · rw [pow_succ, mul_comm (i ^ v), mul_assoc, ← h2]
    · refine ⟨0, n, ?_, by simp, hd⟩
      unfold divideOut
      rw [pyWhile_stop]
      · simp
      · have : n % i ≠ 0 := fun h => hd (Nat.dvd_of_mod_eq_zero h)
        simp [this]
      · omega

/-- Invariant of the trial division of the odd part `o` before divisor `3 + 2k`. -/
structure TrialInv (N o b k : ℕ) (s : List ℕ × ℕ) : Prop where
  prod : s.1.prod * s.2 = N
  pos : 0 < s.2
  dvd : s.2 ∣ o
  prime : ∀ p ∈ s.1, p.Prime
  small : ∀ p ∈ s.1, p = 2 ∨ p ≤ b
  lt : ∀ p ∈ s.1, p < 3 + 2 * k
  sorted : s.1.Pairwise (· ≤ ·)
  left : ∀ p, p.Prime → p ∣ s.2 → 3 + 2 * k ≤ p
  odd : ¬ 2 ∣ s.2

theorem trial_step {N o b k : ℕ} {s : List ℕ × ℕ} (h : TrialInv N o b k s) (hk : 3 + 2 * k ≤ b)
    (fuel : ℕ) (hf : N < fuel) (hN : 0 < N) :
    ∃ s', divideOut fuel (3 + 2 * k) s = .ok s' ∧ TrialInv N o b (k + 1) s' := by
  obtain ⟨acc, n⟩ := s
  have hle : n ≤ N := Nat.le_of_dvd hN ⟨acc.prod, by rw [mul_comm]; exact h.prod.symm⟩
  obtain ⟨v, n', h1, h2, h3⟩ := divideOut_ok (i := 3 + 2 * k) (by omega) fuel n acc h.pos (by omega)
  refine ⟨_, h1, ?_⟩
  have hn' : n' ∣ n := ⟨(3 + 2 * k) ^ v, by rw [h2]; ring⟩
  have hprime : v ≠ 0 → (3 + 2 * k).Prime := by
    intro hv
    have hd : 3 + 2 * k ∣ n := by
      rw [h2]; exact (dvd_pow_self _ hv).mul_right _
    have hm := h.left _ (Nat.minFac_prime (by omega : 3 + 2 * k ≠ 1)) ((Nat.minFac_dvd _).trans hd)
    have := Nat.minFac_le (n := 3 + 2 * k) (by omega)
    have he : (3 + 2 * k).minFac = 3 + 2 * k := by omega
    rw [← he]; exact Nat.minFac_prime (by omega)
  have hmem : ∀ p ∈ acc ++ List.replicate v (3 + 2 * k), p ∈ acc ∨ (v ≠ 0 ∧ p = 3 + 2 * k) := by
    intro p hp
    rcases List.mem_append.mp hp with hp | hp
    · exact Or.inl hp
    · exact Or.inr (List.mem_replicate.mp hp)
  have hodd : ¬ 2 ∣ n' := fun h2 => h.odd (h2.trans hn')
  refine ⟨?_, ?_, hn'.trans h.dvd, ?_, ?_, ?_, ?_, ?_, hodd⟩
  · rw [List.prod_append, List.prod_replicate, mul_assoc, ← h2]; exact h.prod
  · exact Nat.pos_of_dvd_of_pos hn' h.pos
  · intro p hp
    rcases hmem p hp with hp | ⟨hv, rfl⟩
    · exact h.prime p hp
    · exact hprime hv
  · intro p hp
    rcases hmem p hp with hp | ⟨hv, rfl⟩
    · exact h.small p hp
    · exact Or.inr hk
  · intro p hp
    rcases hmem p hp with hp | ⟨hv, rfl⟩
    · have := h.lt p hp; omega
    · omega
  · rw [List.pairwise_append]
    refine ⟨h.sorted, List.pairwise_replicate.mpr (Or.inr le_rfl), fun a ha c hc => ?_⟩
    rw [List.mem_replicate.mp hc |>.2]
    exact (h.lt a ha).le
  · intro p hp hd
    have h4 := h.left p hp (hd.trans hn')
    have h5 : p ≠ 3 + 2 * k := by rintro rfl; exact h3 hd
    have h6 : p ≠ 3 + 2 * k + 1 := by
      rintro rfl
      exact hodd (Dvd.dvd.trans ⟨2 + k, by ring⟩ hd)
    omega

theorem trial_fold {N o b : ℕ} (fuel : ℕ) (hf : N < fuel) (hN : 0 < N) (c : ℕ)
    (hc : ∀ k < c, 3 + 2 * k ≤ b) (s : List ℕ × ℕ) (h : TrialInv N o b 0 s) :
    ∃ s', ((List.range c).map fun k => 3 + 2 * k).foldlM (fun s i => divideOut fuel i s) s = .ok s' ∧
      TrialInv N o b c s' := by
  induction c with
  | zero => exact ⟨s, rfl, h⟩
  | succ c ih =>
    obtain ⟨s1, e1, i1⟩ := ih (fun k hk => hc k (by omega))
    obtain ⟨s2, e2, i2⟩ := trial_step i1 (hc c (by omega)) fuel hf hN
    refine ⟨s2, ?_, i2⟩
    rw [List.range_succ, List.map_append, List.foldlM_append, e1, ok_bind, List.map_singleton]
    simp only [List.foldlM_cons, List.foldlM_nil, e2, ok_bind, pure_eq_ok]

open Classical in
/-- Trial division of `o` up to a bound `b` that is at least `√o` and below the prime factors of `o`
that exceed `√o`: the sorted prime factors of the number, followed by a spurious 1 unless some prime
factor of `o` exceeds the square root of `o`. -/
theorem trial_result (v o b : ℕ) (ho : Odd o) (fuel : ℕ) (hf : 2 ^ v * o < fuel) (hlt : o < (b + 1) * (b + 1))
    (hb : ∀ q, q.Prime → q ∣ o → o < q * q → b < q) :
    ∃ acc r, (oddRange b).foldlM (fun s i => divideOut fuel i s) (List.replicate v 2, o) = .ok (acc, r) ∧
      acc ++ [r] = (2 ^ v * o).primeFactorsList ++
        if ∃ q, q.Prime ∧ q ∣ o ∧ o < q * q then [] else [1] := by
  have hopos : 0 < o := ho.pos
  have hNpos : 0 < 2 ^ v * o := by positivity
  have hno : ¬ 2 ∣ o := fun h => by obtain ⟨k, rfl⟩ := ho; omega
  have hb1 : 1 ≤ b := by
    by_contra hc
    have : b = 0 := by omega
    subst this; omega
  have hinv : TrialInv (2 ^ v * o) o b 0 (List.replicate v 2, o) := by
    refine ⟨by simp, hopos, dvd_refl _, ?_, ?_, ?_, List.pairwise_replicate.mpr (Or.inr le_rfl), ?_, hno⟩
    · intro p hp; rw [(List.mem_replicate.mp hp).2]; exact Nat.prime_two
    · intro p hp; exact Or.inl (List.mem_replicate.mp hp).2
    · intro p hp; rw [(List.mem_replicate.mp hp).2]; norm_num
    · intro p hp hd
      have := hp.two_le
      have : p ≠ 2 := by rintro rfl; exact hno hd
      omega
  obtain ⟨⟨acc, r⟩, e2, inv⟩ := trial_fold fuel hf hNpos ((b - 1) / 2) (fun k hk => by omega) _ hinv
  refine ⟨acc, r, e2, ?_⟩
  have hbig : ∀ p, p.Prime → p ∣ r → b < p := by
    intro p hp hd
    have := inv.left p hp hd
    omega
  have hrle : r ≤ o := Nat.le_of_dvd hopos inv.dvd
  by_cases hr1 : r = 1
  · subst hr1
    have hnot : ¬ ∃ q, q.Prime ∧ q ∣ o ∧ o < q * q := by
      rintro ⟨q, hq, hd, hlt'⟩
      have hq' : q ∣ acc.prod := by
        have h5 : acc.prod = 2 ^ v * o := by simpa using inv.prod
        rw [h5]; exact hd.mul_left _
      obtain ⟨p, hp, hdp⟩ := (Nat.Prime.prime hq).dvd_prod_iff.mp hq'
      have : q = p := (Nat.prime_dvd_prime_iff_eq hq (inv.prime p hp)).mp hdp
      subst this
      rcases inv.small q hp with rfl | hle
      · exact hno hd
      · have := hb q hq hd hlt'
        omega
    rw [if_neg hnot]
    congr 1
    refine List.Perm.eq_of_pairwise (fun a b _ _ h1 h2 => le_antisymm h1 h2) inv.sorted
      (Nat.primeFactorsList_sorted _).pairwise ?_
    exact Nat.primeFactorsList_unique (by simpa using inv.prod) inv.prime
  · have hrp : r.Prime := by
      by_contra hnp
      have h7 := Nat.minFac_sq_le_self inv.pos hnp
      have h8 := hbig _ (Nat.minFac_prime hr1) (Nat.minFac_dvd r)
      nlinarith
    rw [if_pos ⟨r, hrp, inv.dvd, by have := hbig r hrp (dvd_refl _); nlinarith⟩, List.append_nil]
    refine List.Perm.eq_of_pairwise (fun a b _ _ h1 h2 => le_antisymm h1 h2) ?_
      (Nat.primeFactorsList_sorted _).pairwise ?_
    · rw [List.pairwise_append]
      refine ⟨inv.sorted, List.pairwise_singleton _ _, fun x hx y hy => ?_⟩
      rw [List.mem_singleton.mp hy]
      exact ((inv.lt x hx).trans_le (inv.left r hrp (dvd_refl _))).le
    · refine Nat.primeFactorsList_unique (by simpa using inv.prod) fun p hp => ?_
      rcases List.mem_append.mp hp with hp | hp
      · exact inv.prime p hp
      · rw [List.mem_singleton.mp hp]; exact hrp

/-- The first loop removes the factors two. -/
theorem divideOut_two (a o : ℕ) (ho : Odd o) (fuel : ℕ) (hf : 2 ^ a * o < fuel) :
    divideOut fuel 2 ([], 2 ^ a * o) = .ok (List.replicate a 2, o) := by
  have hopos : 0 < o := ho.pos
  have hNpos : 0 < 2 ^ a * o := by positivity
  have hno : ¬ 2 ∣ o := fun h => by obtain ⟨k, rfl⟩ := ho; omega
  obtain ⟨v, n', e1, h2, h3⟩ := divideOut_ok (i := 2) (le_refl 2) fuel (2 ^ a * o) [] hNpos hf
  have hv : v = a ∧ n' = o := by
    have hn'0 : n' ≠ 0 := by rintro rfl; simp at h3
    have e : ∀ w m : ℕ, ¬ 2 ∣ m → m ≠ 0 → (2 ^ w * m).factorization 2 = w := by
      intro w m hm hm0
      rw [Nat.factorization_mul (by positivity) hm0, Nat.Prime.factorization_pow Nat.prime_two]
      simp [Nat.factorization_eq_zero_of_not_dvd hm]
    have hva : v = a := by rw [← e v n' h3 hn'0, ← h2, e a o hno hopos.ne']
    subst hva
    exact ⟨rfl, (Nat.eq_of_mul_eq_mul_left (by positivity) h2).symm⟩
  obtain ⟨rfl, rfl⟩ := hv
  rw [e1]; rfl

open Classical in
/-- The result on `2^a * o`: the sorted prime factors of the number, followed by a spurious 1
unless some prime factor of `o` exceeds the square root of `o`. -/
theorem getPrimeFactors_ok (a o : ℕ) (ho : Odd o) (fuel : ℕ) (hf : 2 ^ a * o < fuel) :
    getPrimeFactors fuel (2 ^ a * o) = .ok ((2 ^ a * o).primeFactorsList ++
      if ∃ q, q.Prime ∧ q ∣ o ∧ o < q * q then [] else [1]) := by
  obtain ⟨acc, r, e2, h⟩ := trial_result a o (Nat.sqrt o) ho fuel hf (Nat.lt_succ_sqrt o)
    (fun q _ _ hlt => Nat.sqrt_lt.mpr hlt)
  rw [← h]
  unfold getPrimeFactors
  rw [divideOut_two a o ho fuel hf, ok_bind]
  simp only [e2, ok_bind]
  rfl

theorem getPrimeFactors_zero (fuel : ℕ) : getPrimeFactors fuel 0 = .error .outOfFuel := by
  have : ∀ acc, divideOut fuel 2 (acc, 0) = .error .outOfFuel := by
    induction fuel with
    | zero => exact fun _ => rfl
    | succ fuel ih =>
      intro acc
      have hstep : divideOut (fuel + 1) 2 (acc, 0) = divideOut fuel 2 (acc ++ [2], 0) := by
        unfold divideOut
        rw [pyWhile_step (s' := (acc ++ [2], 0))] <;> simp
      rw [hstep, ih]
  unfold getPrimeFactors
  rw [this]; rfl

end Verif
