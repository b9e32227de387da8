import Verif.Proofs.PhaseMeasurement
import Verif.Props.UniformBobs
import Verif.Props.Bobs
import Verif.Props.Symmetry

/-! C117: the sampler for uniform losses with approximated modes as an exact sampler that measures its input on the way. -/
namespace Verif

open Finset
open scoped ENNReal

variable {m : ℕ}

theorem lossyProb_permuted (U : Matrix (Fin m) (Fin m) ℂ) (σ : Equiv.Perm (Fin m)) (R T : List ℕ) (hR : R.length = m)
    (hT : T.length = m) :
    lossyProb (rowsOf (U.submatrix id σ)) 0 R T = lossyProb (rowsOf U) 0 (moved σ R) T := by
  rw [lossyProb_zero, lossyProb_zero, moved_sum σ R hR]
  split_ifs with h
  · have hr : Relabelled (1 : Equiv.Perm (Fin m)) σ (fun _ => 1) (fun _ => 1) (rowsOf U) (rowsOf (U.submatrix id σ)) := by
      refine ⟨fun i j => ?_, fun i => by simp, fun i => by simp⟩
      rw [mget_rowsOf _ _ _ i.2 j.2, mget_rowsOf _ _ _ (Fin.is_lt _) (Fin.is_lt _)]
      simp
    rw [bosonProb_relabelled hr R T hR hT h.symm, moved_one T hT]
  · rfl

theorem shuffled_measured (V U : List (List ℂ)) (L T : List ℕ) :
    ∑ σ : Equiv.Perm (Fin m), (1 / (m.factorial : ℝ)) * measuredThen m V L (fun R => lossyProb U 0 (moved σ R) T)
      = measuredThen m V L fun R => shuffledProb m U R T := by
  unfold measuredThen shuffledProb
  simp only [mul_sum]
  rw [sum_comm]
  refine sum_congr rfl fun R _ => ?_
  rw [sum_div, mul_sum]
  exact sum_congr rfl fun σ _ => by ring

/-- The average over phases and permutations. -/
theorem uBobs_measured (U : Matrix (Fin m) (Fin m) ℂ) (hU : U ∈ Matrix.unitaryGroup (Fin m) ℂ) (h : ℕ) (hm : h < m)
    (L T : List ℕ) (hLl : L.length = m) (hT : T.length = m) :
    (expUniform (m - h) fun us => (∑ σ : Equiv.Perm (Fin m), ENNReal.ofReal (lossyProb
        (rowsOf (U.submatrix id σ * phaseMatrix (m - h) m us * dftMatrix (m - h) m)) 0 L T)) / m.factorial)
      = ENNReal.ofReal (measuredThen m (rowsOf (dftMatrix (m - h) m)) L fun R => shuffledProb m (rowsOf U) R T) := by
  have hF : (0 : ℝ) < m.factorial := by exact_mod_cast m.factorial_pos
  have hQ := (generateQft_eq (m - h) m (by omega)).2
  have e : ∀ us : Fin (m - h) → ℝ, (∑ σ : Equiv.Perm (Fin m), ENNReal.ofReal (lossyProb
        (rowsOf (U.submatrix id σ * phaseMatrix (m - h) m us * dftMatrix (m - h) m)) 0 L T)) / (m.factorial : ℝ≥0∞)
      = ENNReal.ofReal (∑ σ : Equiv.Perm (Fin m), (1 / (m.factorial : ℝ)) * lossyProb
        (rowsOf (U.submatrix id σ * phaseMatrix (m - h) m us * dftMatrix (m - h) m)) 0 L T) := by
    intro us
    rw [← ENNReal.ofReal_sum_of_nonneg fun σ _ => lossyProb_nonneg _ _ _ _, ← mul_sum, one_div, mul_comm, ← div_eq_mul_inv,
      ENNReal.ofReal_div_of_pos hF, ENNReal.ofReal_natCast]
  rw [expUniform_congr _ _ _ e]
  have hfix : FixesLast (m - (m - h)) (dftMatrix (m - h) m) := by
    intro i j hij
    rw [dftMatrix, Matrix.of_apply, if_neg (by omega)]
  have key := phase_network (ι := Equiv.Perm (Fin m)) univ (fun _ => 1 / (m.factorial : ℝ)) (fun _ _ => by positivity)
    (show m - h ≤ m by omega) hQ hfix (fun σ => U.submatrix id σ) (fun σ => rowsOf (U.submatrix id σ))
    (fun σ => unitary_isDilation (submatrix_unitary hU σ)) (fun σ us => rowsOf (uBobsNet U h us σ))
    (fun σ us => unitary_isDilation (uBobsNet_unitary hU h us σ)) L T hLl hT
  unfold uBobsNet at key
  rw [key]
  rw [← shuffled_measured]
  refine congrArg ENNReal.ofReal (sum_congr rfl fun σ _ => congrArg (1 / (m.factorial : ℝ) * ·) ?_)
  exact sum_congr rfl fun R _ => congrArg (_ * ·) (lossyProb_permuted U σ _ T List.length_ofFn hT)

/-- C117: the samples have the law of the following exact experiment. Of the `n` particles of the approximated modes a
binomial number `l` survives and enters mode `h`, the particles of the exactly treated modes survive independently. This state
passes the Fourier transform of the first `m - h` modes, the numbers of particles leaving it are measured, and the measured
state enters the given interferometer through modes assigned at random. -/
theorem C117_sample (hash : List ℕ → ℤ) (fuel : ℕ) (U : Matrix (Fin m) (Fin m) ℂ) (hU : U ∈ Matrix.unitaryGroup (Fin m) ℂ)
    (cpu : ℕ) (hc : 0 < cpu) (eta : ℝ) (h0 : 0 ≤ eta) (h1 : eta ≤ 1) (h : ℕ) (hh : 1 ≤ h) (hm : h < m) (t : ℤ)
    (o : UBobsObj m) (ho : uBobsInit U cpu eta h t = .ok o) (S : List ℕ) (hS : S.length = m)
    (hp : eta = 0 ∨ eta = 1 ∨ ∀ a ∈ S.take h, a ≤ 1) (hhash : HashOk hash (S.take h)) (hf : (S.sum + 1) ^ m ≤ fuel)
    (N : ℤ) (i : ℕ) (hi : i < N.toNat) (T : List ℕ) (hT : T.length = m) :
    (uBobsSimulate hash (ryserSubPermanents fuel) fuel o S N).prob (fun r => ∃ l, r = .ok l ∧ l[i]? = some T)
      = ∑ l ∈ range ((S.drop h).sum + 1), ENNReal.ofReal (binomialWeight (S.drop h).sum l eta) *
          expLoss eta (S.take h) fun p => ENNReal.ofReal
            (measuredThen m (rowsOf (dftMatrix (m - h) m)) (p ++ l :: List.replicate (m - h - 1) 0) fun R =>
              shuffledProb m (rowsOf U) R T) := by
  rw [C60_sample hash fuel U hU cpu hc eta h0 h1 h hh hm t o ho S hS hp hhash hf N i hi T hT]
  refine sum_congr rfl fun l _ => ?_
  congr 1
  refine expLoss_congr _ _ _ _ fun p hpS => ?_
  have hpl : p.length = h := by rw [hpS.length_eq, List.length_take]; omega
  exact uBobs_measured U hU h hm _ T (by simp [hpl]; omega) hT

/-! ### Two particles meeting in the Fourier transform -/

theorem dft_two (i j : Fin 3) : dftMatrix (3 - 1) 3 i j
    = if (i : ℕ) < 2 ∧ (j : ℕ) < 2 then (if (i : ℕ) = 1 ∧ (j : ℕ) = 1 then -1 else 1) / (Real.sqrt 2 : ℂ)
      else if i = j then 1 else 0 := by
  rw [dftMatrix, Matrix.of_apply]
  fin_cases i <;> fin_cases j <;> simp
  rw [show 2 * (Real.pi : ℂ) * Complex.I / 2 = Real.pi * Complex.I by ring, Complex.exp_pi_mul_I]

/-- One particle in each of the first two modes leaves the Fourier transform of these modes with both in the same mode. -/
theorem dft_pair : bosonProb (rowsOf (dftMatrix (3 - 1) 3)) [1, 1, 0] [2, 0, 0] = 1 / 2 ∧
    bosonProb (rowsOf (dftMatrix (3 - 1) 3)) [1, 1, 0] [0, 2, 0] = 1 / 2 ∧
    ∀ R ∈ statesFin 3 2, R ≠ [2, 0, 0] → R ≠ [0, 2, 0] → bosonProb (rowsOf (dftMatrix (3 - 1) 3)) [1, 1, 0] R = 0 := by
  have hF : ∀ (i j : ℕ) (hi : i < 3) (hj : j < 3), mget (rowsOf (dftMatrix (3 - 1) 3)) i j
      = if i < 2 ∧ j < 2 then (if i = 1 ∧ j = 1 then -1 else 1) / (Real.sqrt 2 : ℂ) else if i = j then 1 else 0 := by
    intro i j hi hj
    rw [mget_rowsOf _ _ _ hi hj, dft_two]
    simp [Fin.ext_iff]
  have h00 := hF 0 0 (by decide) (by decide)
  have h01 := hF 0 1 (by decide) (by decide)
  have h10 := hF 1 0 (by decide) (by decide)
  have h11 := hF 1 1 (by decide) (by decide)
  have h20 := hF 2 0 (by decide) (by decide)
  have h21 := hF 2 1 (by decide) (by decide)
  norm_num at h00 h01 h10 h11 h20 h21
  rw [neg_div, one_div] at h11
  have hs : (Real.sqrt 2 : ℂ) * (Real.sqrt 2 : ℂ) = 2 := by
    rw [← Complex.ofReal_mul, Real.mul_self_sqrt (by norm_num)]; norm_num
  have hi : ((Real.sqrt 2 : ℂ))⁻¹ * ((Real.sqrt 2 : ℂ))⁻¹ = 1 / 2 := by
    rw [← mul_inv, hs, one_div]
  generalize ((Real.sqrt 2 : ℂ))⁻¹ = z at hi h00 h01 h10 h11
  generalize rowsOf (dftMatrix (3 - 1) 3) = F at h00 h01 h10 h11 h20 h21
  refine ⟨?_, ?_, fun R hR h1 h2 => ?_⟩
  · rw [bosonProb_eq_phi _ _ _ (by decide), phi, multFact_particles]
    simp [amp, lperm, picks, particles, particlesFrom, colOf, factProd, List.replicate_succ, h00, h01, hi, Nat.factorial]
    norm_num
  · rw [bosonProb_eq_phi _ _ _ (by decide), phi, multFact_particles]
    simp [amp, lperm, picks, particles, particlesFrom, colOf, factProd, List.replicate_succ, h10, h11, hi, Nat.factorial]
    norm_num
  · have hR' : R ∈ ({[2, 0, 0], [0, 2, 0], [0, 0, 2], [1, 1, 0], [1, 0, 1], [0, 1, 1]} : Finset (List ℕ)) := by
      have e : statesFin 3 2 = {[2, 0, 0], [0, 2, 0], [0, 0, 2], [1, 1, 0], [1, 0, 1], [0, 1, 1]} := by decide
      rwa [e] at hR
    simp only [mem_insert, mem_singleton] at hR'
    rcases hR' with rfl | rfl | rfl | rfl | rfl | rfl
    · exact absurd rfl h1
    · exact absurd rfl h2
    all_goals
      rw [bosonProb_eq_phi _ _ _ (by decide), phi, multFact_particles]
      simp [amp, lperm, picks, particles, particlesFrom, colOf, factProd, List.replicate_succ, h00, h01, h10, h11, h20, h21, hi,
        Nat.factorial]

theorem perms_three (f : List ℕ → ℝ) :
    ∑ σ : Equiv.Perm (Fin 3), f (moved σ [2, 0, 0]) = 2 * (f [2, 0, 0] + f [0, 2, 0] + f [0, 0, 2]) ∧
      ∑ σ : Equiv.Perm (Fin 3), f (moved σ [0, 2, 0]) = 2 * (f [2, 0, 0] + f [0, 2, 0] + f [0, 0, 2]) := by
  have hu : (univ : Finset (Equiv.Perm (Fin 3))) = {1, Equiv.swap 0 1, Equiv.swap 0 2, Equiv.swap 1 2,
      Equiv.swap 0 1 * Equiv.swap 1 2, Equiv.swap 1 2 * Equiv.swap 0 1} := by decide
  constructor
  · rw [hu, sum_insert (by decide), sum_insert (by decide), sum_insert (by decide), sum_insert (by decide),
      sum_insert (by decide), sum_singleton,
      show moved (1 : Equiv.Perm (Fin 3)) [2, 0, 0] = [2, 0, 0] by decide,
      show moved (Equiv.swap (0 : Fin 3) 1) [2, 0, 0] = [0, 2, 0] by decide,
      show moved (Equiv.swap (0 : Fin 3) 2) [2, 0, 0] = [0, 0, 2] by decide,
      show moved (Equiv.swap (1 : Fin 3) 2) [2, 0, 0] = [2, 0, 0] by decide,
      show moved (Equiv.swap (0 : Fin 3) 1 * Equiv.swap 1 2) [2, 0, 0] = [0, 2, 0] by decide,
      show moved (Equiv.swap (1 : Fin 3) 2 * Equiv.swap 0 1) [2, 0, 0] = [0, 0, 2] by decide]
    ring
  · rw [hu, sum_insert (by decide), sum_insert (by decide), sum_insert (by decide), sum_insert (by decide),
      sum_insert (by decide), sum_singleton,
      show moved (1 : Equiv.Perm (Fin 3)) [0, 2, 0] = [0, 2, 0] by decide,
      show moved (Equiv.swap (0 : Fin 3) 1) [0, 2, 0] = [2, 0, 0] by decide,
      show moved (Equiv.swap (0 : Fin 3) 2) [0, 2, 0] = [0, 2, 0] by decide,
      show moved (Equiv.swap (1 : Fin 3) 2) [0, 2, 0] = [0, 0, 2] by decide,
      show moved (Equiv.swap (0 : Fin 3) 1 * Equiv.swap 1 2) [0, 2, 0] = [0, 0, 2] by decide,
      show moved (Equiv.swap (1 : Fin 3) 2 * Equiv.swap 0 1) [0, 2, 0] = [2, 0, 0] by decide]
    ring

/-- C117, three modes of which the first is treated exactly, no losses, one particle in each of the first two modes, any
interferometer: the two particles meet in the Fourier transform, so each sample is one of the given interferometer for two
particles in the same mode, which is chosen at random. -/
theorem C117_pair (U : Matrix (Fin 3) (Fin 3) ℂ) (hU : U ∈ Matrix.unitaryGroup (Fin 3) ℂ) (o : UBobsObj 3)
    (ho : uBobsInit U 4 1 1 2 = .ok o) (N : ℤ) (i : ℕ) (hi : i < N.toNat) (T : List ℕ) (hT : T.length = 3) :
    (uBobsSimulate (fun l => (Encodable.encode l : ℤ)) (ryserSubPermanents 27) 27 o [1, 1, 0] N).prob
        (fun r => ∃ l, r = .ok l ∧ l[i]? = some T)
      = ENNReal.ofReal ((lossyProb (rowsOf U) 0 [2, 0, 0] T + lossyProb (rowsOf U) 0 [0, 2, 0] T +
          lossyProb (rowsOf U) 0 [0, 0, 2] T) / 3) := by
  rw [C117_sample _ 27 U hU 4 (by decide) 1 zero_le_one le_rfl 1 le_rfl (by decide) 2 o ho [1, 1, 0] rfl
    (.inr (.inl rfl)) (hashOk_encode _) (by decide) N i hi T hT]
  simp only [List.drop_succ_cons, List.drop_zero, List.sum_cons, List.sum_nil, List.take_succ_cons, List.take_zero,
    expLoss_one, add_zero, Nat.reduceAdd]
  rw [sum_range_succ, sum_range_succ, sum_range_zero, show binomialWeight 1 0 1 = 0 by norm_num [binomialWeight],
    show binomialWeight 1 1 1 = 1 by norm_num [binomialWeight], ENNReal.ofReal_zero, zero_mul, zero_add, zero_add,
    ENNReal.ofReal_one, one_mul]
  congr 1
  have hl : [1] ++ 1 :: List.replicate (3 - 1 - 1) 0 = [1, 1, 0] := rfl
  obtain ⟨d1, d2, d3⟩ := dft_pair
  rw [hl, measuredThen_eq, show [1, 1, 0].sum = 2 from rfl, ← sum_subset (s₁ := {[2, 0, 0], [0, 2, 0]}) (by decide) fun R hR hR' => by
    simp only [mem_insert, mem_singleton, not_or] at hR'
    rw [d3 R hR hR'.1 hR'.2, zero_mul], sum_pair (by decide), d1, d2, shuffledProb, shuffledProb,
    (perms_three fun R => lossyProb (rowsOf U) 0 R T).1, (perms_three fun R => lossyProb (rowsOf U) 0 R T).2]
  norm_num [Nat.factorial]
  ring

/-- With modes that are not coupled the two particles are always found together, although the only possible outcome has one
in each of the first two modes. Only one particle is in an approximated mode. -/
theorem C117_identity (o : UBobsObj 3) (ho : uBobsInit 1 4 1 1 2 = .ok o) (N : ℤ) (i : ℕ) (hi : i < N.toNat) :
    bosonProb (rowsOf (1 : Matrix (Fin 3) (Fin 3) ℂ)) [1, 1, 0] [1, 1, 0] = 1 ∧
    (uBobsSimulate (fun l => (Encodable.encode l : ℤ)) (ryserSubPermanents 27) 27 o [1, 1, 0] N).prob
        (fun r => ∃ l, r = .ok l ∧ l[i]? = some [1, 1, 0]) = 0 ∧
    ∀ T ∈ ({[2, 0, 0], [0, 2, 0], [0, 0, 2]} : Finset (List ℕ)),
      (uBobsSimulate (fun l => (Encodable.encode l : ℤ)) (ryserSubPermanents 27) 27 o [1, 1, 0] N).prob
        (fun r => ∃ l, r = .ok l ∧ l[i]? = some T) = ENNReal.ofReal (1 / 3) := by
  have hb : ∀ R ∈ ({[2, 0, 0], [0, 2, 0], [0, 0, 2], [1, 1, 0]} : Finset (List ℕ)),
      ∀ T ∈ ({[2, 0, 0], [0, 2, 0], [0, 0, 2], [1, 1, 0]} : Finset (List ℕ)),
        lossyProb (rowsOf (1 : Matrix (Fin 3) (Fin 3) ℂ)) 0 R T = if R = T then 1 else 0 := by
    intro R hR T hT
    simp only [mem_insert, mem_singleton] at hR hT
    rcases hR with rfl | rfl | rfl | rfl <;> rcases hT with rfl | rfl | rfl | rfl <;>
    · rw [lossyProb_zero, if_pos (by decide), bosonProb_eq_phi _ _ _ (by decide), phi, multFact_particles]
      simp [amp, lperm, picks, particles, particlesFrom, colOf, mget, rowsOf, factProd, List.replicate_succ, Matrix.one_apply,
        Nat.factorial]
      try norm_num
  refine ⟨?_, ?_, fun T hT => ?_⟩
  · have := hb [1, 1, 0] (by decide) [1, 1, 0] (by decide)
    rwa [lossyProb_zero, if_pos rfl, if_pos rfl] at this
  · rw [C117_pair 1 (one_mem _) o ho N i hi _ rfl, hb _ (by decide) _ (by decide), hb _ (by decide) _ (by decide),
      hb _ (by decide) _ (by decide)]
    norm_num
  · simp only [mem_insert, mem_singleton] at hT
    rcases hT with rfl | rfl | rfl <;>
    · rw [C117_pair 1 (one_mem _) o ho N i hi _ rfl, hb _ (by decide) _ (by decide), hb _ (by decide) _ (by decide),
        hb _ (by decide) _ (by decide)]
      norm_num

end Verif
