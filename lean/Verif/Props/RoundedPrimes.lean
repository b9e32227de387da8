import Verif.Proofs.RoundedPrimes
import Verif.Props.QuantumUtilities

/-! C106: prime factors with Python's numbers. -/
namespace Verif

/-- C106, the part that holds: if the first quotient `n / p` (`p` the least prime factor of `n`) is a
float, in particular for every `n ≤ 2 ^ 54`, the code returns the values of C52, with every rounding.
Missing for the full claim: the superfluous 1 of C52 and the numbers whose first quotient is not a
float (`C106_fails`). -/
theorem C106_exact_partial (R : Rounding) (a o : ℕ) (ho : Odd o) (fuel : ℕ) (hf : 2 ^ a * o < fuel)
    (hq : 2 ^ a * o ≤ 2 ^ 54 ∨ (2 ^ a * o).Prime ∧ 2 ^ a * o < 2 ^ 64 ∨
      IsFloat (((2 ^ a * o) / (2 ^ a * o).minFac : ℕ) : ℝ) ∧ (Odd (2 ^ a * o) → 2 ^ a * o < 2 ^ 64)) :
    ∃ r, getPrimeFactorsR R fuel (2 ^ a * o) = .ok r ∧
      ((∃ q, q.Prime ∧ q ∣ o ∧ o < q * q) →
        factorValues r = (2 ^ a * o).primeFactorsList.map (fun p : ℕ => (p : ℝ))) ∧
      ((¬ ∃ q, q.Prime ∧ q ∣ o ∧ o < q * q) →
        factorValues r = (2 ^ a * o).primeFactorsList.map (fun p : ℕ => (p : ℝ)) ++ [1]) := by
  have hpos : 0 < 2 ^ a * o := Nat.mul_pos (by positivity) ho.pos
  have h64 : Odd (2 ^ a * o) → 2 ^ a * o < 2 ^ 64 := by
    rcases hq with h | ⟨-, h⟩ | ⟨-, h⟩
    · exact fun _ => by omega
    · exact fun _ => h
    · exact h
  have hfl : ∀ i, 2 ≤ i → i ∣ 2 ^ a * o → IsFloat (((2 ^ a * o) / i : ℕ) : ℝ) := by
    intro i hi hd
    rcases hq with h | ⟨h, -⟩ | ⟨h, -⟩
    · refine isFloat_nat ?_
      rw [Nat.div_le_iff_le_mul_add_pred (by omega)]
      nlinarith
    · rcases (Nat.dvd_prime h).mp hd with h1 | h1
      · omega
      · rw [h1, Nat.div_self hpos]; exact isFloat_nat (by norm_num)
    · exact isFloat_quot_of_minFac hpos h hi hd
  obtain ⟨r, l, h1, h2, h3⟩ := getPrimeFactorsR_exact R hpos h64 hfl fuel hf
  obtain ⟨c1, c2⟩ := C52_factors_partial a o ho fuel hf
  refine ⟨r, h1, fun h => ?_, fun h => ?_⟩
  · rw [c1 h] at h2
    rw [h3, ← Except.ok.inj h2]
  · rw [c2 h] at h2
    rw [h3, ← Except.ok.inj h2, List.map_append]
    simp

/-- C106: for every number from 2 on (odd ones below `2 ^ 64`) the code terminates, and the product of
the values it returns is known: only the first division can round. -/
theorem C106_product (R : Rounding) (n : ℕ) (hn : 2 ≤ n) (hodd : Odd n → n < 2 ^ 64) (fuel : ℕ)
    (hf : n < fuel) :
    ∃ r, getPrimeFactorsR R fuel n = .ok r ∧
      (n.Prime → (factorValues r).prod = n) ∧
      (¬ n.Prime → (factorValues r).prod = n.minFac * R.rnd ((n : ℝ) / n.minFac)) := by
  by_cases hp : n.Prime
  · obtain ⟨r, l, h1, h2, h3⟩ := getPrimeFactorsR_exact R (by omega) hodd (fun i hi hd => by
      rcases (Nat.dvd_prime hp).mp hd with h | h
      · omega
      · rw [h, Nat.div_self (by omega)]; exact isFloat_nat (by norm_num)) fuel hf
    refine ⟨r, h1, fun _ => ?_, fun h => absurd hp h⟩
    obtain ⟨l', tail, h4, -, h5, -⟩ := C52_product_partial n (by omega) fuel hf
    rw [h2] at h4
    rw [h3, Except.ok.inj h4, ← h5, ← Nat.coe_castRingHom, map_list_prod]
  · obtain ⟨acc, m, h1, -, h3⟩ := getPrimeFactorsR_composite R hn hp hodd fuel hf
    refine ⟨_, h1, fun h => absurd h hp, fun _ => ?_⟩
    rw [← h3, factorValues, List.prod_append]
    have : (acc.map (fun p : ℕ => (p : ℝ))).prod = ((acc.prod : ℕ) : ℝ) := by
      rw [← Nat.coe_castRingHom, map_list_prod]
    rw [this]
    simp [PyNumber.val]

/-- C106: so the product of the returned values is the number exactly when the number is prime or its
first quotient is a float. -/
theorem C106_product_iff (R : Rounding) (n : ℕ) (hn : 2 ≤ n) (hodd : Odd n → n < 2 ^ 64) (fuel : ℕ)
    (hf : n < fuel) (r : List ℕ × PyNumber) (hr : getPrimeFactorsR R fuel n = .ok r) :
    (factorValues r).prod = n ↔ n.Prime ∨ IsFloat ((n / n.minFac : ℕ) : ℝ) := by
  obtain ⟨r', h1, h2, h3⟩ := C106_product R n hn hodd fuel hf
  rw [hr] at h1
  obtain rfl := Except.ok.inj h1
  by_cases hp : n.Prime
  · exact ⟨fun _ => Or.inl hp, fun _ => h2 hp⟩
  · rw [h3 hp]
    have hpos : (0 : ℝ) < n.minFac := by exact_mod_cast Nat.minFac_pos n
    rw [Nat.cast_div (Nat.minFac_dvd n) hpos.ne']
    constructor
    · intro h
      right
      have : R.rnd ((n : ℝ) / n.minFac) = (n : ℝ) / n.minFac := by
        rw [eq_div_iff hpos.ne', mul_comm]; exact h
      rw [← this]; exact R.isFloat _
    · rintro (h | h)
      · exact absurd h hp
      · rw [R.eq_self h]; field_simp

/-- C106 as stated does not hold: for `2 ^ 55 + 2` the quotient `2 ^ 54 + 1` is rounded, and the
product of the returned values differs from the number, with every rounding to nearest. -/
theorem C106_fails : ¬ ∀ n : ℕ, 2 ≤ n → ∀ R : Rounding, ∃ F, ∀ fuel ≥ F, ∃ r,
    getPrimeFactorsR R fuel n = .ok r ∧ (factorValues r).prod = n := by
  intro h
  obtain ⟨F, hF⟩ := h (2 ^ 55 + 2) (by norm_num) someRounding
  obtain ⟨r, h1, h2⟩ := hF (F + (2 ^ 55 + 3)) (by omega)
  have hmin : (2 ^ 55 + 2).minFac = 2 := (Nat.minFac_eq_two_iff _).mpr (by norm_num)
  rw [C106_product_iff someRounding _ (by norm_num) (fun h => by
    rw [← Nat.not_even_iff_odd] at h; exact absurd (by decide) h) _ (by omega) r h1, hmin] at h2
  rcases h2 with h2 | h2
  · have := (Nat.prime_dvd_prime_iff_eq Nat.prime_two h2).mp (by norm_num)
    omega
  · exact absurd (isFloat_odd h2 (by decide)) (by norm_num)

/-- C106: nor are the returned factors always primes: for `7 · (2 ^ 54 + 9)` the quotient is rounded to
`2 ^ 54 + 8`, and 9 is returned as a factor, although 3 does not divide the number. -/
theorem C106_composite (R : Rounding) (fuel : ℕ) (hf : 7 * (2 ^ 54 + 9) < fuel) :
    ∃ r, getPrimeFactorsR R fuel (7 * (2 ^ 54 + 9)) = .ok r ∧ 9 ∈ r.1 ∧ ¬ 3 ∣ 7 * (2 ^ 54 + 9) := by
  obtain ⟨r, h1, h2⟩ := rounded_nine R fuel hf
  exact ⟨r, h1, h2, by norm_num⟩

/-- C106: an odd number from `2 ^ 64` on is too large for numpy's `sqrt`. -/
theorem C106_raises (R : Rounding) (n : ℕ) (ho : Odd n) (hn : 2 ^ 64 ≤ n) (fuel : ℕ) (hf : 0 < fuel) :
    getPrimeFactorsR R fuel n = .error .typeError := by
  have hno : ¬ 2 ∣ n := fun h => by obtain ⟨k, rfl⟩ := ho; omega
  unfold getPrimeFactorsR
  rw [divideOutR_skip R hf hno, ok_bind]
  simp only [pyIntSqrt]
  rw [if_neg (by omega)]
  rfl

/-- C106 is about runs that end: the numbers 42 and `2 ^ 60` (every quotient a float), and `2 ^ 61 - 2`
(the quotient is the odd number `2 ^ 60 - 1`, not a float). -/
example (R : Rounding) : ∃ r, getPrimeFactorsR R 100 42 = .ok r ∧ factorValues r = [2, 3, 7] := by
  obtain ⟨r, h1, h2, -⟩ := C106_exact_partial R 1 21 (by decide) 100 (by norm_num) (Or.inl (by norm_num))
  refine ⟨r, h1, ?_⟩
  rw [h2 ⟨7, by norm_num, by norm_num, by norm_num⟩]
  have : (2 ^ 1 * 21).primeFactorsList = [2, 3, 7] := by decide +kernel
  rw [this]; simp

example (R : Rounding) (fuel : ℕ) (hf : 2 ^ 60 < fuel) :
    ∃ r, getPrimeFactorsR R fuel (2 ^ 60) = .ok r ∧ (factorValues r).prod = ((2 ^ 60 : ℕ) : ℝ) := by
  have he : ¬ Odd (2 ^ 60) := by decide
  obtain ⟨r, h1, -⟩ := C106_product R (2 ^ 60) (by norm_num) (fun h => absurd h he) fuel hf
  refine ⟨r, h1, (C106_product_iff R _ (by norm_num) (fun h => absurd h he) fuel hf r h1).mpr (Or.inr ?_)⟩
  rw [(Nat.minFac_eq_two_iff _).mpr (by norm_num)]
  exact (isFloat_nat_iff _).mpr ⟨1, 59, by norm_num, by norm_num⟩

example (R : Rounding) (fuel : ℕ) (hf : 2 ^ 61 - 2 < fuel) (r : List ℕ × PyNumber)
    (hr : getPrimeFactorsR R fuel (2 ^ 61 - 2) = .ok r) : (factorValues r).prod ≠ ((2 ^ 61 - 2 : ℕ) : ℝ) := by
  have he : ¬ Odd (2 ^ 61 - 2) := by decide
  rw [Ne, C106_product_iff R _ (by norm_num) (fun h => absurd h he) fuel hf r hr,
    (Nat.minFac_eq_two_iff _).mpr (by norm_num)]
  rintro (h | h)
  · have := (Nat.prime_dvd_prime_iff_eq Nat.prime_two h).mp (by norm_num)
    omega
  · exact absurd (isFloat_odd h (by decide)) (by norm_num)

end Verif
