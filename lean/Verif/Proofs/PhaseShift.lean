import Verif.Proofs.BobsRuns
import Verif.Spec.Bobs

/-! Uniform phases may be shifted; so all columns of a Fourier transform followed by uniform phases have the same law. -/
namespace Verif

open Finset MeasureTheory
open scoped ENNReal

theorem lintegral_shift (c : ℝ) (h0 : 0 ≤ c) (h1 : c < 1) (h : ℝ → ℝ≥0∞) :
    ∫⁻ u in Set.Ico (0 : ℝ) 1, h (Int.fract (u + c)) = ∫⁻ u in Set.Ico (0 : ℝ) 1, h u := by
  have tr : ∀ (a b d : ℝ) (f : ℝ → ℝ≥0∞), ∫⁻ u in Set.Ico a b, f (u + d) = ∫⁻ u in Set.Ico (a + d) (b + d), f u := by
    intro a b d f
    rw [← lintegral_indicator measurableSet_Ico, ← lintegral_indicator measurableSet_Ico,
      ← lintegral_add_right_eq_self (fun u => (Set.Ico (a + d) (b + d)).indicator f u) d]
    congr 1
    funext u
    simp only [Set.indicator, Set.mem_Ico, add_le_add_iff_right, add_lt_add_iff_right]
  rw [← Set.Ico_union_Ico_eq_Ico (show (0 : ℝ) ≤ 1 - c by linarith) (show 1 - c ≤ 1 by linarith),
    lintegral_union measurableSet_Ico (Set.Ico_disjoint_Ico_same)]
  have e1 : ∫⁻ u in Set.Ico (0 : ℝ) (1 - c), h (Int.fract (u + c)) = ∫⁻ u in Set.Ico c 1, h u := by
    rw [setLIntegral_congr_fun measurableSet_Ico (g := fun u => h (u + c)) (fun u hu => by
      rw [Set.mem_Ico] at hu
      simp only [Int.fract_eq_self.mpr ⟨show 0 ≤ u + c by linarith, show u + c < 1 by linarith⟩]), tr]
    simp
  have e2 : ∫⁻ u in Set.Ico (1 - c) (1 : ℝ), h (Int.fract (u + c)) = ∫⁻ u in Set.Ico 0 c, h u := by
    rw [setLIntegral_congr_fun measurableSet_Ico (g := fun u => h (u + (c - 1))) (fun u hu => by
      rw [Set.mem_Ico] at hu
      have : Int.fract (u + c) = u + (c - 1) := by
        rw [Int.fract_eq_iff]
        exact ⟨by linarith, by linarith, 1, by push_cast; ring⟩
      simp only [this]), tr]
    congr 3 <;> ring
  rw [e1, e2, add_comm, ← lintegral_union measurableSet_Ico Set.Ico_disjoint_Ico_same,
    Set.Ico_union_Ico_eq_Ico h0 h1.le, Set.Ico_union_Ico_eq_Ico (by linarith) (by linarith)]

theorem expUniform_shift (n : ℕ) (c : Fin n → ℝ) (h0 : ∀ i, 0 ≤ c i) (h1 : ∀ i, c i < 1) (g : (Fin n → ℝ) → ℝ≥0∞) :
    expUniform n (fun us => g fun i => Int.fract (us i + c i)) = expUniform n g := by
  induction n with
  | zero => simp only [expUniform]; congr 1; funext i; exact i.elim0
  | succ n ih =>
    rw [expUniform, expUniform,
      ← lintegral_shift (c 0) (h0 0) (h1 0) (fun u => expUniform n fun us => g (Fin.cons u us))]
    refine lintegral_congr fun u => ?_
    rw [← ih (fun i => c i.succ) (fun i => h0 _) (fun i => h1 _) (fun us => g (Fin.cons (Int.fract (u + c 0)) us))]
    refine expUniform_congr _ _ _ fun us => ?_
    congr 1
    funext i
    refine Fin.cases ?_ (fun i => ?_) i <;> simp

/-- The law only depends on the columns the particles enter. -/
theorem lossyProb_relabel {B B' W W' : List (List ℂ)} {m b b' : ℕ} (h : IsDilation B W m b) (h' : IsDilation B' W' m b')
    (S S' T : List ℕ) (f : ℕ → ℕ) (hp : particles S' = (particles S).map f) (hfac : factProd S' = factProd S)
    (hS : ∀ x ∈ particles S, x < m) (hS' : ∀ x ∈ particles S, f x < m)
    (hf : ∀ x ∈ particles S, ∀ y ∈ particles S, f x = f y → x = y)
    (hB : ∀ r < m, ∀ x ∈ particles S, mget B' r (f x) = mget B r x)
    (hT : T.length = m) (hle : T.sum ≤ S.sum) :
    lossyProb W' b' S' T = lossyProb W b S T := by
  have hsum : S'.sum = S.sum := by rw [← particles_length, hp, List.length_map, particles_length]
  apply Complex.ofReal_injective
  rw [lossyProb_eq_env W' b' S' T (by omega), lossyProb_eq_env W b S T hle, multFact_particles, multFact_particles, hfac,
    hsum, hp]
  congr 1
  have hm : envSum (colOf W') T.length b' (particles T) (S.sum - T.sum) ((particles S).map f) ((particles S).map f)
      = envSum (fun x => colOf W' (f x)) T.length b' (particles T) (S.sum - T.sum) (particles S) (particles S) := by
    simp only [envSum, amp, List.map_map]
    rfl
  rw [hm]
  refine envSum_congr _ _ _ _ _ _ _ _ _ _ ?_ ?_
  · intro r hr x hx
    have hr' := particlesFrom_range hr
    have hx' : x ∈ particles S := by tauto
    simp only [colOf]
    rw [h.embeds r (by omega) x (hS x hx'), h'.embeds r (by omega) (f x) (hS' x hx'), hB r (by omega) x hx']
  · intro x hx y hy
    have key : ∀ (B W : List (List ℂ)) (b : ℕ), IsDilation B W m b → ∀ x < m, ∀ y < m,
        ∑ r ∈ range b, colOf W x (T.length + r) * (starRingEnd ℂ) (colOf W y (T.length + r))
          = (if y = x then 1 else 0) - ∑ r ∈ range m, mget B r x * (starRingEnd ℂ) (mget B r y) := by
      intro B W b hW x hx y hy
      rw [hT, eq_sub_iff_add_eq', ← hW.isometric y hy x hx, sum_range_add]
      congr 1
      · refine sum_congr rfl fun r hr => ?_
        have hr := mem_range.mp hr
        rw [hW.embeds r hr x hx, hW.embeds r hr y hy, mul_comm]
      · exact sum_congr rfl fun r _ => by simp only [colOf]; rw [mul_comm]
    rw [key B' W' b' h' _ (hS' x hx) _ (hS' y hy), key B W b h _ (hS x hx) _ (hS y hy)]
    congr 1
    · by_cases e : y = x
      · rw [if_pos e, if_pos (by rw [e])]
      · rw [if_neg e, if_neg fun e' => e (hf y hy x hx e')]
    · exact sum_congr rfl fun r hr => by rw [hB r (mem_range.mp hr) x hx, hB r (mem_range.mp hr) y hy]

/-- Shifting the phases by `i j / k` turns column 0 of the Fourier transform into column `j`. -/
theorem smearing_column {m k : ℕ} (A : Matrix (Fin m) (Fin m) ℂ) (us : Fin k → ℝ) (j : ℕ) (hj : j < k) (hk : k ≤ m)
    (r : Fin m) :
    (A * phaseMatrix k m (fun i => Int.fract (us i + Int.fract ((i : ℕ) * (j : ℝ) / k))) * dftMatrix k m) r ⟨0, by omega⟩
      = (A * phaseMatrix k m us * dftMatrix k m) r ⟨j, by omega⟩ := by
  rw [Matrix.mul_assoc, Matrix.mul_assoc, Matrix.mul_apply, Matrix.mul_apply]
  refine sum_congr rfl fun i _ => ?_
  congr 1
  rw [phaseMatrix, phaseMatrix, Matrix.diagonal_mul, Matrix.diagonal_mul, dftMatrix]
  simp only [Matrix.of_apply]
  by_cases hi : (i : ℕ) < k
  · rw [dif_pos hi, dif_pos hi, if_pos ⟨hi, by omega⟩, if_pos ⟨hi, hj⟩, ← mul_div_assoc, ← mul_div_assoc]
    congr 1
    rw [← Complex.exp_add, ← Complex.exp_add, Complex.exp_eq_exp_iff_exists_int]
    obtain ⟨a, ha⟩ : ∃ a : ℤ, Int.fract (((i : ℕ) : ℝ) * j / k) = ((i : ℕ) : ℝ) * j / k - a := ⟨_, rfl⟩
    obtain ⟨b, hb⟩ : ∃ b : ℤ, Int.fract (us ⟨i, hi⟩ + Int.fract (((i : ℕ) : ℝ) * j / k))
      = us ⟨i, hi⟩ + (((i : ℕ) : ℝ) * j / k - a) - b := ⟨⌊us ⟨i, hi⟩ + Int.fract (((i : ℕ) : ℝ) * j / k)⌋, by
        rw [← ha]; rfl⟩
    refine ⟨-a - b, ?_⟩
    rw [hb]
    push_cast
    ring
  · have h0 : i ≠ ⟨0, by omega⟩ := by intro e; have := congrArg Fin.val e; simp only at this; omega
    have h1 : i ≠ ⟨j, by omega⟩ := by intro e; have := congrArg Fin.val e; simp only at this; omega
    simp [hi, h0, h1]

/-- The other columns do not depend on the phases. -/
theorem smearing_other {m k : ℕ} (A : Matrix (Fin m) (Fin m) ℂ) (us us' : Fin k → ℝ) (r x : Fin m) (hx : k ≤ (x : ℕ)) :
    (A * phaseMatrix k m us' * dftMatrix k m) r x = (A * phaseMatrix k m us * dftMatrix k m) r x := by
  rw [Matrix.mul_assoc, Matrix.mul_assoc, Matrix.mul_apply, Matrix.mul_apply]
  refine sum_congr rfl fun i _ => ?_
  congr 1
  rw [phaseMatrix, phaseMatrix, Matrix.diagonal_mul, Matrix.diagonal_mul, dftMatrix]
  simp only [Matrix.of_apply]
  rw [if_neg (fun h => by omega)]
  by_cases hi : i = x
  · subst hi
    rw [dif_neg (by omega), dif_neg (by omega)]
  · rw [if_neg hi, mul_zero, mul_zero]

theorem expLoss_zeros (eta : ℝ) (n : ℕ) (S : List ℕ) (g : List ℕ → ℝ≥0∞) :
    expLoss eta (List.replicate n 0 ++ S) g = expLoss eta S fun L => g (List.replicate n 0 ++ L) := by
  induction n generalizing g with
  | zero => rfl
  | succ n ih =>
    rw [List.replicate_succ, List.cons_append, expLoss]
    simp only [zero_add, sum_range_one, ih, binomialWeight]
    simp

theorem factProd_bunched (j n l : ℕ) (L : List ℕ) :
    factProd (List.replicate j 0 ++ l :: (List.replicate n 0 ++ L)) = l.factorial * factProd L := by
  simp [factProd]

theorem particles_bunched (j n l : ℕ) (L : List ℕ) :
    particles (List.replicate j 0 ++ l :: (List.replicate n 0 ++ L))
      = List.replicate l j ++ particlesFrom (j + 1 + n) L := by
  have z : ∀ n k, particlesFrom k (List.replicate n 0) = [] := by
    intro n
    induction n with
    | zero => intro k; rfl
    | succ n ih => intro k; rw [List.replicate_succ, particlesFrom, ih]; rfl
  rw [particles, particlesFrom_append, z, List.nil_append, particlesFrom, particlesFrom_append, z, List.nil_append]
  simp

end Verif
