import Verif.Proofs.IdentityNetwork
import Verif.Props.SeparableMixture

/-! C118: the distances of C113 are attained. -/
namespace Verif

open Finset
open scoped ENNReal

variable {m : ℕ}

/-- The decomposition of the identity on `m` modes. -/
noncomputable def unitSvd (m : ℕ) : Svd m := { V := 1, s := fun _ => 1, U := 1 }

theorem unitSvd_isSvd : IsSvd (1 : Matrix (Fin m) (Fin m) ℂ) (unitSvd m) :=
  ⟨one_mem _, one_mem _, fun _ => zero_le_one, fun _ _ _ => le_rfl, by simp [unitSvd]⟩

theorem unit_network : NetworkOf (fun x => .ok x) (1 : Matrix (Fin m) (Fin m) ℂ) := by
  intro x
  rw [Matrix.one_mulVec]

theorem thrownProb_identity (n k : ℕ) (T : List ℕ) (hT : T.length = m) :
    thrownProb (rowsOf (1 : Matrix (Fin m) (Fin m) ℂ)) m 0 n k T
      = (∑ f : Fin k → Fin n, if thrown m f = T then (1 : ℝ) else 0) / (n : ℝ) ^ k := by
  rw [thrownProb]
  congr 1
  exact sum_congr rfl fun f _ => lossyProb_identity _ T (thrown_length m f) hT

theorem survivorsProb_identity {S : List ℕ} (hF : FirstModes m S) (k : ℕ) (T : List ℕ) (hT : T.length = m) :
    survivorsProb (rowsOf (1 : Matrix (Fin m) (Fin m) ℂ)) 0 S k T
      = (∑ f : Fin k → Fin S.sum with Function.Injective f, if thrown m f = T then (1 : ℝ) else 0) / S.sum.descFactorial k := by
  rw [survivorsProb_eq hF hF.le]
  congr 1
  exact sum_congr rfl fun f _ => lossyProb_identity _ T (thrown_length m f) hT

/-- C118, the sampler with `k` particles left: for modes that are not coupled the distance equals the bound of C113. -/
theorem C118_fixed (k : ℕ) (S : List ℕ) (hS : 1 ≤ S.sum) (hF : FirstModes m S) (hk : k ≤ S.sum) (N : ℤ) (i : ℕ)
    (hi : i < N.toNat) :
    1 / 2 * ∑ T ∈ statesFin m k, |((fixedSimulate (fun x => .ok x) m k S N).prob
          fun r => ∃ l, r = .ok l ∧ l[i]? = some T).toReal
        - survivorsProb (rowsOf (1 : Matrix (Fin m) (Fin m) ℂ)) 0 S k T|
      = 1 - S.sum.descFactorial k / (S.sum : ℝ) ^ k := by
  have hSm := hF.le
  rw [sum_congr rfl fun T hT => by
    have hT := ((mem_statesFin _ _ T).mp hT).1
    rw [C112_fixed unit_network (unitSvd m) unitSvd_isSvd (fun _ => le_rfl) (unitary_isDilation (one_mem _)) k S hS hSm N i hi T hT,
      ENNReal.toReal_ofReal (thrownProb_nonneg _ _ _ _ _ _), thrownProb_identity _ _ T hT, survivorsProb_identity hF k T hT],
    placements_distance hSm hS hk]
  ring

/-- C118, the sampler with uniform losses: for modes that are not coupled the distance is the probability that two of the
surviving particles, each put into a random one of the first `n` modes, coincide. -/
theorem C118_uniform (fuel : ℕ) (hf : m < fuel) (eta : ℝ) (h0 : 0 ≤ eta) (h1 : eta ≤ 1) (S : List ℕ) (hS : 1 ≤ S.sum)
    (hF : FirstModes m S) (N : ℤ) (i : ℕ) (hi : i < N.toNat) :
    1 / 2 * ∑ T ∈ statesUpTo m S.sum, |((uniformSimulate fuel (unitSvd m) m eta S N).prob
          fun r => ∃ l, r = .ok l ∧ l[i]? = some T).toReal
        - ∑ l ∈ range (S.sum + 1), binomialWeight S.sum l eta * survivorsProb (rowsOf (1 : Matrix (Fin m) (Fin m) ℂ)) 0 S l T|
      = ∑ l ∈ range (S.sum + 1), binomialWeight S.sum l eta * (1 - S.sum.descFactorial l / (S.sum : ℝ) ^ l) := by
  have hSm := hF.le
  have hb := fun l => binomialWeight_nonneg S.sum l h0 h1
  have hz : ∀ l T, T ∈ statesUpTo m S.sum → l ≠ T.sum →
      thrownProb (rowsOf (1 : Matrix (Fin m) (Fin m) ℂ)) m 0 S.sum l T = 0 ∧
      survivorsProb (rowsOf (1 : Matrix (Fin m) (Fin m) ℂ)) 0 S l T = 0 := by
    intro l T hT hl
    have hT := ((mem_statesUpTo _ _ T).mp hT).1
    have : ∀ f : Fin l → Fin S.sum, thrown m f ≠ T := fun f e => hl (by rw [← e, thrown_sum hSm])
    rw [thrownProb_identity _ _ T hT, survivorsProb_identity hF l T hT]
    simp [this]
  have e : ∀ l ∈ range (S.sum + 1), ∀ T ∈ statesFin m l,
      |((uniformSimulate fuel (unitSvd m) m eta S N).prob fun r => ∃ l, r = .ok l ∧ l[i]? = some T).toReal
        - ∑ l ∈ range (S.sum + 1), binomialWeight S.sum l eta * survivorsProb (rowsOf (1 : Matrix (Fin m) (Fin m) ℂ)) 0 S l T|
      = binomialWeight S.sum l eta * |(∑ f : Fin l → Fin S.sum, if thrown m f = T then (1 : ℝ) else 0) / (S.sum : ℝ) ^ l
        - (∑ f : Fin l → Fin S.sum with Function.Injective f, if thrown m f = T then (1 : ℝ) else 0) / S.sum.descFactorial l| := by
    intro l hl T hT
    obtain ⟨h2, h3⟩ := (mem_statesFin _ _ T).mp hT
    have hl := mem_range.mp hl
    have hT' : T ∈ statesUpTo m S.sum := (mem_statesUpTo _ _ T).mpr ⟨h2, by omega⟩
    rw [C112_uniform (unitSvd m) unitSvd_isSvd (fun _ => le_rfl) (unitary_isDilation (one_mem _)) fuel hf eta h0 h1 S hS hSm N i
        hi T h2, ENNReal.toReal_ofReal (sum_nonneg fun l _ => mul_nonneg (hb l) (thrownProb_nonneg _ _ _ _ _ _)),
      sum_eq_single l (fun l' _ hl' => by rw [(hz l' T hT' (by omega)).1, mul_zero]) (fun h => absurd (mem_range.mpr hl) h),
      sum_eq_single l (fun l' _ hl' => by rw [(hz l' T hT' (by omega)).2, mul_zero]) (fun h => absurd (mem_range.mpr hl) h),
      ← mul_sub, abs_mul, abs_of_nonneg (hb l), thrownProb_identity _ _ T h2, survivorsProb_identity hF l T h2]
  rw [statesUpTo, sum_biUnion, mul_sum]
  · refine sum_congr rfl fun l hl => ?_
    rw [sum_congr rfl (e l hl), ← mul_sum, placements_distance hSm hS (by have := mem_range.mp hl; omega)]
    ring
  · intro a _ b _ hab
    refine disjoint_left.mpr fun T ha hb => hab ?_
    rw [← ((mem_statesFin _ _ T).mp ha).2, ((mem_statesFin _ _ T).mp hb).2]

/-- C118: the bound `η² (n - 1) / 2` of C113 is attained in the limit of strong losses: the distance is at least
`η² (1 - η)^(n-2) (n - 1) / 2`. -/
theorem C118_order (fuel : ℕ) (hf : m < fuel) (eta : ℝ) (h0 : 0 ≤ eta) (h1 : eta ≤ 1) (S : List ℕ) (hS : 2 ≤ S.sum)
    (hF : FirstModes m S) (N : ℤ) (i : ℕ) (hi : i < N.toNat) :
    eta ^ 2 * (1 - eta) ^ (S.sum - 2) * (S.sum - 1) / 2
      ≤ 1 / 2 * ∑ T ∈ statesUpTo m S.sum, |((uniformSimulate fuel (unitSvd m) m eta S N).prob
          fun r => ∃ l, r = .ok l ∧ l[i]? = some T).toReal
        - ∑ l ∈ range (S.sum + 1), binomialWeight S.sum l eta *
            survivorsProb (rowsOf (1 : Matrix (Fin m) (Fin m) ℂ)) 0 S l T| := by
  rw [C118_uniform fuel hf eta h0 h1 S (by omega) hF N i hi]
  have hn : (0 : ℝ) < S.sum := by exact_mod_cast (show 0 < S.sum by omega)
  refine le_trans (le_of_eq ?_) (single_le_sum (f := fun l => binomialWeight S.sum l eta *
    (1 - (S.sum.descFactorial l : ℝ) / (S.sum : ℝ) ^ l)) (fun l _ => mul_nonneg (binomialWeight_nonneg _ _ h0 h1) ?_)
    (mem_range.mpr (show 2 < S.sum + 1 by omega)))
  · have hc : ((S.sum.choose 2 : ℕ) : ℝ) = S.sum * (S.sum - 1) / 2 := Nat.cast_choose_two ℝ S.sum
    have hd : ((S.sum.descFactorial 2 : ℕ) : ℝ) = S.sum * (S.sum - 1) := by
      rw [show S.sum.descFactorial 2 = (S.sum - 1) * S.sum by simp [Nat.descFactorial], Nat.cast_mul, Nat.cast_sub (by omega)]
      push_cast; ring
    simp only [binomialWeight]
    rw [hc, hd]
    generalize (S.sum : ℝ) = n at hn
    field_simp
    ring
  · rw [sub_nonneg, div_le_one (by positivity)]
    exact_mod_cast Nat.descFactorial_le_pow _ _

/-- Concrete cases: three of five particles left, then three particles with `η = 1/10`. -/
example : 1 / 2 * ∑ T ∈ statesFin 6 3, |((fixedSimulate (fun x => .ok x) 6 3 [1, 1, 1, 1, 1, 0] 2).prob
        fun r => ∃ l, r = .ok l ∧ l[1]? = some T).toReal
      - survivorsProb (rowsOf (1 : Matrix (Fin 6) (Fin 6) ℂ)) 0 [1, 1, 1, 1, 1, 0] 3 T| = 13 / 25 := by
  have := C118_fixed (m := 6) 3 [1, 1, 1, 1, 1, 0] (by decide) (by rfl) (by decide) 2 1 (by decide)
  rw [show [1, 1, 1, 1, 1, 0].sum = 5 from rfl] at this
  refine this.trans ?_
  norm_num [Nat.descFactorial]

example : 9 / 1000 ≤ 1 / 2 * ∑ T ∈ statesUpTo 3 3, |((uniformSimulate 4 (unitSvd 3) 3 (1 / 10) [1, 1, 1] 2).prob
        fun r => ∃ l, r = .ok l ∧ l[1]? = some T).toReal
      - ∑ l ∈ range 4, binomialWeight 3 l (1 / 10) *
          survivorsProb (rowsOf (1 : Matrix (Fin 3) (Fin 3) ℂ)) 0 [1, 1, 1] l T| := by
  have := C118_order (m := 3) 4 (by decide) (1 / 10) (by norm_num) (by norm_num) [1, 1, 1] (by decide) (by rfl) 2 1 (by decide)
  refine le_trans ?_ this
  norm_num

end Verif
