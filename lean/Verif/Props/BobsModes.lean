import Verif.Proofs.OneMode
import Verif.Proofs.PhaseShift
import Verif.Proofs.UniformBobsRuns
import Verif.Props.Bobs

/-! C58: the mode into which the particles of the approximated modes are put does not matter. C59: a single approximated
mode changes nothing. -/
namespace Verif

open Finset
open scoped ENNReal

variable {m : ℕ}

/-- C58, for one number `l` of remaining particles in mode `j` and in mode 0. -/
theorem bunched_law {A : Matrix (Fin m) (Fin m) ℂ} {K : ℕ} (hK : K ≤ m) (W : (Fin K → ℝ) → List (List ℂ)) (b : ℕ)
    (hW : ∀ us, IsDilation (rowsOf (A * phaseMatrix K m us * dftMatrix K m)) (W us) m b)
    (j : ℕ) (hj : j < K) (l : ℕ) (L T : List ℕ) (hL : K + L.length = m) (hT : T.length = m) :
    (expUniform K fun us => ENNReal.ofReal (lossyProb (W us) b
        (List.replicate j 0 ++ l :: (List.replicate (K - 1 - j) 0 ++ L)) T))
      = expUniform K fun us => ENNReal.ofReal (lossyProb (W us) b (l :: (List.replicate (K - 1) 0 ++ L)) T) := by
  have hk0 : (0 : ℝ) < K := by exact_mod_cast Nat.zero_lt_of_lt hj
  rw [← expUniform_shift K (fun i => Int.fract ((i : ℕ) * (j : ℝ) / K)) (fun i => Int.fract_nonneg _)
    (fun i => Int.fract_lt_one _)
    (fun us => ENNReal.ofReal (lossyProb (W us) b (l :: (List.replicate (K - 1) 0 ++ L)) T))]
  refine expUniform_congr _ _ _ fun us => ?_
  congr 1
  have e0 := particles_bunched 0 (K - 1) l L
  have ej := particles_bunched j (K - 1 - j) l L
  rw [List.replicate_zero, List.nil_append, show 0 + 1 + (K - 1) = K by omega] at e0
  rw [show j + 1 + (K - 1 - j) = K by omega] at ej
  have f0 := factProd_bunched 0 (K - 1) l L
  rw [List.replicate_zero, List.nil_append] at f0
  have cases : ∀ x ∈ particles (List.replicate j 0 ++ l :: (List.replicate (K - 1 - j) 0 ++ L)),
      x = j ∨ K ≤ x ∧ x < m := by
    intro x hx
    rw [ej, List.mem_append] at hx
    rcases hx with hx | hx
    · exact .inl (List.eq_of_mem_replicate hx)
    · have := particlesFrom_range hx
      exact .inr (by omega)
  by_cases hle : T.sum ≤ (List.replicate j 0 ++ l :: (List.replicate (K - 1 - j) 0 ++ L)).sum
  · symm
    refine lossyProb_relabel (hW us) (hW _) _ _ T (fun x => if x = j then 0 else x) ?_ ?_ ?_ ?_ ?_ ?_ hT hle
    · rw [e0, ej, List.map_append]
      congr 1
      · simp
      · symm
        refine (List.map_congr_left fun x hx => ?_).trans (List.map_id _)
        have := particlesFrom_range hx
        rw [if_neg (by omega)]; rfl
    · rw [f0, factProd_bunched]
    · intro x hx
      rcases cases x hx with rfl | h <;> omega
    · intro x hx
      split_ifs
      · omega
      · rcases cases x hx with rfl | h <;> omega
    · intro x hx y hy
      rcases cases x hx with rfl | h <;> rcases cases y hy with h' | h' <;> split_ifs <;> omega
    · intro r hr x hx
      rcases cases x hx with rfl | h
      · rw [if_pos rfl, mget_rowsOf _ _ _ hr (by omega), mget_rowsOf _ _ _ hr (by omega), smearing_column A us x hj hK]
      · rw [if_neg (by omega), mget_rowsOf _ _ _ hr h.2, mget_rowsOf _ _ _ hr h.2]
        exact smearing_other A _ _ _ _ h.1
  · have z : ∀ (V : List (List ℂ)) (S : List ℕ), ¬ T.sum ≤ S.sum → lossyProb V b S T = 0 := by
      intro V S h
      rw [lossyProb, sum_eq_zero]
      intro E hE
      have := (mem_filter.mp hE).2
      omega
    rw [z _ _ hle, z]
    simpa using hle

/-- C58: the law of a sample is the same for each of the approximated modes into which their particles may be put: the
random phases follow the Fourier transform, whose columns differ by phases only. So the random choice of the mode in the
code has no influence on the law. -/
theorem C58_mode {A : Matrix (Fin m) (Fin m) ℂ} {K : ℕ} (hK : K ≤ m) (W : (Fin K → ℝ) → List (List ℂ)) (b : ℕ)
    (hW : ∀ us, IsDilation (rowsOf (A * phaseMatrix K m us * dftMatrix K m)) (W us) m b)
    (p : ℕ) (eta : ℝ) (S T : List ℕ) (hS : S.length = m) (hT : T.length = m) (j : ℕ) (hj : j < K) :
    approxLaw K p eta W b S T
      = expLoss eta (List.replicate j 0 ++ p :: List.replicate (K - 1 - j) 0 ++ S.drop K) fun L =>
          expUniform K fun us => ENNReal.ofReal (lossyProb (W us) b L T) := by
  have key : ∀ i < K, (expLoss eta (List.replicate i 0 ++ p :: List.replicate (K - 1 - i) 0 ++ S.drop K) fun L =>
        expUniform K fun us => ENNReal.ofReal (lossyProb (W us) b L T))
      = ∑ l ∈ range (p + 1), ENNReal.ofReal (binomialWeight p l eta) * expLoss eta (S.drop K) fun L =>
          expUniform K fun us => ENNReal.ofReal (lossyProb (W us) b (l :: (List.replicate (K - 1) 0 ++ L)) T) := by
    intro i hi
    rw [List.append_assoc, List.cons_append, expLoss_zeros, expLoss]
    refine sum_congr rfl fun l _ => ?_
    rw [expLoss_zeros]
    congr 1
    refine expLoss_congr eta _ _ _ fun L hL => ?_
    exact bunched_law hK W b hW i hi l L T (by rw [hL.length_eq, List.length_drop]; omega) hT
  rw [approxLaw, average, bunchedStates, if_neg (by omega), List.map_map, key j hj]
  rw [List.map_congr_left (f := (fun st => expLoss eta st fun L => expUniform K fun us =>
        ENNReal.ofReal (lossyProb (W us) b L T)) ∘ fun j =>
          List.replicate j 0 ++ p :: List.replicate (K - 1 - j) 0 ++ S.drop K) (g := fun _ => ∑ l ∈ range (p + 1), ENNReal.ofReal (binomialWeight p l eta) *
      expLoss eta (S.drop K) fun L => expUniform K fun us =>
        ENNReal.ofReal (lossyProb (W us) b (l :: (List.replicate (K - 1) 0 ++ L)) T))
      (fun i hi => key i (List.mem_range.mp hi))]
  rw [List.map_const', List.sum_replicate, List.length_map, List.length_range, nsmul_eq_mul, mul_comm]
  exact ENNReal.mul_div_cancel_right (by exact_mod_cast (by omega : K ≠ 0)) (ENNReal.natCast_ne_top _)

/-- Three modes, two of them approximated with three particles, and a particle in the third: putting the three
particles into the second mode gives the same law. -/
example (eta : ℝ) : ∃ W : (Fin 2 → ℝ) → List (List ℂ),
    (∀ us, IsDilation (rowsOf ((1 : Matrix (Fin 3) (Fin 3) ℂ) * phaseMatrix 2 3 us * dftMatrix 2 3)) (W us) 3 0) ∧
    approxLaw 2 3 eta W 0 [1, 2, 1] [1, 1, 1]
      = expLoss eta [0, 3, 1] fun L => expUniform 2 fun us => ENNReal.ofReal (lossyProb (W us) 0 L [1, 1, 1]) := by
  have hW : ∀ us, IsDilation (rowsOf ((1 : Matrix (Fin 3) (Fin 3) ℂ) * phaseMatrix 2 3 us * dftMatrix 2 3))
      (rowsOf ((1 : Matrix (Fin 3) (Fin 3) ℂ) * phaseMatrix 2 3 us * dftMatrix 2 3)) 3 0 := fun us =>
    unitary_isDilation (mul_mem (mul_mem (one_mem _) (generatePhases_eq 2 3 (by decide) us).2)
      (generateQft_eq 2 3 (by decide)).2)
  exact ⟨_, hW, C58_mode (by decide) _ 0 hW 3 eta [1, 2, 1] [1, 1, 1] rfl rfl 1 (by decide)⟩

/-! ### C59: one approximated mode -/

theorem unit_phase (u : ℝ) (x : ℕ) : ‖(if x < 1 then Complex.exp (2 * Real.pi * u * Complex.I) else 1 : ℂ)‖ = 1 := by
  split_ifs
  · rw [show (2 * Real.pi * u * Complex.I : ℂ) = ((2 * Real.pi * u : ℝ) : ℂ) * Complex.I by push_cast; ring]
    exact Complex.norm_exp_ofReal_mul_I _
  · simp

/-- C59: with one approximated mode the samples follow exactly the law of the lossy network too, on a new object or after
calls without particles in that mode. -/
theorem C59_one_mode {M : Matrix (Fin m) (Fin m) ℂ} {d : Svd m} {cpu : ℕ} {k t : ℤ} {A : Matrix (Fin m) (Fin m) ℂ} {l eta : ℝ}
    {th fuel : ℕ} {svd : Matrix (Fin m) (Fin m) ℂ → Svd m}
    (h : BobsSetup M d cpu k t A l eta 1 th) (hsvd : ∀ B, IsSvd B (svd B)) (htol : l = 0 ∨ 1e-8 < l)
    {calls : List (List ℕ × ℤ)} {o : BobsObj m} (hh : BobsHistory svd (ryserSubPermanents fuel) fuel d cpu k t calls o)
    (hp : ∀ c ∈ calls, ∀ x ∈ c.1.take 1, x = 0)
    (S : List ℕ) (hS : S.length = m) (N : ℤ) (hN : 1 ≤ N) (hf : (S.sum + 1) ^ m ≤ fuel) (hf' : m < fuel)
    (W : List (List ℂ)) (b : ℕ) (hW : IsDilation (rowsOf M) W m b)
    (i : ℕ) (hi : i < N.toNat) (T : List ℕ) (hT : T.length = m) :
    (bobsSimulate svd (ryserSubPermanents fuel) fuel o S N).prob
        (fun r => ∃ samples o', r = .ok (samples, o') ∧ samples[i]? = some T)
      = ENNReal.ofReal (lossyProb W b S T) := by
  obtain ⟨h3, -, -, -, h7⟩ := hh.inv h
  obtain ⟨d', hd', hd1⟩ := h3.contraction
  have hl0 : 0 ≤ l := h7 ▸ h3.loss0
  have hl1 : l ≤ 1 := h7 ▸ h3.loss1
  have he : eta = 1 - l := by
    rw [h.left]
    rcases htol with rfl | h1
    · norm_num
    · rw [if_neg (not_le.mpr h1)]
  have hm : 0 < m := by have := h.modes; omega
  rw [C58_sample h hsvd hh hp S hS N hN hf hf'
    (fun us => phasedColumns (rowsOf (expandedMatrix d')) m m fun x =>
      if x < 1 then Complex.exp (2 * Real.pi * us 0 * Complex.I) else 1) m
    (fun us => phasedColumns_isDilation (expanded_isDilation hd' hd1) _ (unit_phase (us 0))
      fun r hr x hx => smearing_one A us r x hr hx) i hi T hT]
  have hst : bunchedStates 1 (S.take 1).sum S = [S] := by
    cases S with
    | nil => simp at hS; omega
    | cons a S => simp [bunchedStates]
  rw [approxLaw, hst]
  simp only [average, List.map_cons, List.map_nil, List.sum_cons, List.sum_nil, add_zero,
    List.length_cons, List.length_nil, zero_add, Nat.cast_one, div_one]
  rw [expLoss_congr eta S _ (fun L => ENNReal.ofReal (lossyProb (rowsOf (expandedMatrix d')) m L T)) fun L hL => by
    rw [expUniform_congr _ _ (fun _ => ENNReal.ofReal (lossyProb (rowsOf (expandedMatrix d')) m L T)) fun us => by
      rw [lossyProb_phased _ _ _ _ (unit_phase (us 0)) L T (hL.length_eq.trans hS) hT], expUniform_const]]
  rw [he]
  exact lossyProb_uniform A (1 - l) (by linarith) (by linarith) (expanded_isDilation hd' hd1) (h.split ▸ hW) S T hS hT

/-- The lossy single-mode network with its mode approximated: the particle still comes out with probability 1/4. -/
example (svd : Matrix (Fin 1) (Fin 1) ℂ → Svd 1) (hsvd : ∀ B, IsSvd B (svd B)) :
    ∃ o, bobsInit halfSvd 4 1 3 = .ok o ∧
      (bobsSimulate svd (ryserSubPermanents 2) 2 o [1] 5).prob
        (fun r => ∃ samples o', r = .ok (samples, o') ∧ samples[4]? = some [1]) = ENNReal.ofReal (1 / 4) := by
  have hs : BobsSetup (Matrix.of fun _ _ => (1 / 2 : ℂ)) halfSvd 4 1 3 1 (3 / 4) (1 / 4) 1 3 :=
    ⟨halfSetup.isSvd, halfSetup.le_one, halfSetup.nonzero, halfSetup.cpu_pos, halfSetup.greatest, halfSetup.split,
      halfSetup.left, by decide, by decide⟩
  obtain ⟨o, h1, -⟩ := hs.inv
  refine ⟨o, h1, ?_⟩
  rw [C59_one_mode hs hsvd (.inr (by norm_num)) (.new h1) (by simp) [1] rfl 5 (by decide) (by decide) (by decide)
    [[1 / 2], [(Real.sqrt 3 : ℝ) / 2]] 1 half_dilation 4 (by decide) [1] rfl, half_lossyProb]

end Verif
