import Verif.Proofs.SampleMeans
import Verif.Props.UniformBobsLevels

/-!
C83: mean numbers of particles. The claim for every sampler: in each sample the mean number of particles in mode `j`
is `η ∑_c S_c |U_jc|²`, the intensity of particles sent through the network one by one, `η` being the probability that
a particle survives. `meanCount` and `intensity` are defined in `Spec/Means.lean`.
-/
namespace Verif

open Finset
open scoped ENNReal

variable {m : ℕ}

theorem sum_states {f : List ℕ → ℝ} {outcomes : List (List ℕ)} (hn : outcomes.Nodup) {𝒯 : Finset (List ℕ)}
    (h : ∀ T, T ∈ outcomes ↔ T ∈ 𝒯) : (outcomes.map f).sum = ∑ T ∈ 𝒯, f T := by
  rw [← List.sum_toFinset f hn]
  refine sum_congr (Finset.ext fun T => ?_) fun _ _ => rfl
  rw [List.mem_toFinset, h]

section
variable (gray : ℕ → List ℕ) (hgray : ∀ n, IsGrayCode n (gray n)) (t : ℤ)

/-! ### Exact calculators and samplers -/

include hgray in
/-- C83, the exact calculators: the averages over their distributions. The fixed-loss calculator for `k` of `n` particles
gives `k/n · ∑_c S_c |U_jc|²`, the one for uniform losses `η ∑_c S_c |U_jc|²`. -/
theorem C83_calculators (hash : List ℕ → ℤ) {U : List (List ℂ)} {S : List ℕ} (h : Interferometer U S) (k : ℕ) (hk : k ≤ S.sum)
    (eta : ℝ) (h0 : 0 ≤ eta) (h1 : eta ≤ 1)
    (hinj : ∀ a b : List ℕ, StateLE a S → StateLE b S → a.sum = b.sum → hash a = hash b → a = b)
    (j : ℕ) (hj : j < S.length) :
    ∃ F, ∀ fuel ≥ F,
      (∃ outcomes dist, fixedLossOutcomes fuel (expConfig U S k eta) = .ok outcomes ∧
        fixedLossDistribution Complex.normSq (factoryPermanent gray t fuel) hash fuel (expConfig U S k eta) = .ok dist ∧
        (List.zipWith (fun T p => p * (T.getD j 0 : ℝ)) outcomes dist).sum = k / S.sum * intensity U S j) ∧
      (∃ outcomes dist, uniformOutcomes fuel (expConfig U S k eta) = .ok outcomes ∧
        uniformDistribution Complex.normSq (factoryPermanent gray t fuel) hash fuel (uniformCalc (expConfig U S k eta))
          = .ok dist ∧
        (List.zipWith (fun T p => p * (T.getD j 0 : ℝ)) outcomes dist).sum = eta * intensity U S j) := by
  obtain ⟨o1, F1, e1⟩ := C23_distribution gray hgray t hash U S k eta h.square h.len h.ne h.ortho hk
    fun a b ha hb hc hd => hinj a b ha hc (hb.trans hd.symm)
  obtain ⟨o2, d2, F2, e2, e3, e4, e5, -⟩ := C24_distribution gray hgray t hash U S k eta h0 h1 h.square h.len h.ne h.ortho hinj
  refine ⟨F1 + F2, fun fuel hf => ⟨⟨_, _, (e1 fuel (by omega)).1, (e1 fuel (by omega)).2.1, ?_⟩,
    ⟨_, _, (e2 fuel (by omega)).1, (e2 fuel (by omega)).2, ?_⟩⟩⟩
  · obtain ⟨-, -, a1, a2, -⟩ := e1 fuel (by omega)
    rw [List.zipWith_map_right, List.zipWith_self, sum_states a1 (𝒯 := statesFin S.length k) fun T => by
      rw [a2, mem_statesFin]]
    exact fixedLoss_mean h.used k hk j hj
  · rw [e3, List.zipWith_map_right, List.zipWith_self, sum_states e4 (𝒯 := statesUpTo S.length S.sum) fun T => by
      rw [e5, mem_statesUpTo]]
    exact uniformLoss_mean h.used eta j hj

include hgray in
/-- C83, the exact samplers, on objects with any contents. -/
theorem C83_exact {U : List (List ℂ)} {S : List ℕ} (h : Interferometer U S) (fuel : ℕ)
    (hf : (S.map (· + 1)).prod ≤ fuel) (o : GccObj) (N : ℕ) (i : ℕ) (hi : i < N) (j : ℕ) (hj : j < S.length) :
    meanCount (gccStrategy gccA (factoryPermanent gray t fuel) U fuel o S N) id i j = ENNReal.ofReal (intensity U S j) ∧
    meanCount (gccStrategy gccAssignment (factoryPermanent gray t fuel) U fuel o S N) id i j
      = ENNReal.ofReal (intensity U S j) ∧
    meanCount (gccbStrategy (ryserSubPermanents fuel) U fuel S N) id i j = ENNReal.ofReal (intensity U S j) := by
  rw [← boson_mean h.used j hj]
  have ht := boson_total' (h.bok fuel hf)
  exact ⟨meanCount_expIid (fun T _ => bosonProb_nonneg _ _ _) ht (gccStrategy_wp gray hgray t (okA S) h fuel hf o N) i hi j,
    meanCount_expIid (fun T _ => bosonProb_nonneg _ _ _) ht
      (gccStrategy_wp gray hgray t (okAssignment S h.ne) h fuel hf o N) i hi j,
    meanCount_expIid (fun T _ => bosonProb_nonneg _ _ _) ht (gccbStrategy_wp h fuel hf N) i hi j⟩

include hgray in
/-- C83, the exact samplers with uniform losses. -/
theorem C83_uniform {U : List (List ℂ)} {S : List ℕ} (h : Interferometer U S) (eta : ℝ) (h0 : 0 ≤ eta) (h1 : eta ≤ 1)
    (o : GccuObj) (ho : o.eta = eta) (N : ℕ) (i : ℕ) (hi : i < N) (j : ℕ) (hj : j < S.length) :
    ∃ F, ∀ fuel ≥ F,
      meanCount (gccuStrategy (factoryPermanent gray t fuel) U fuel o S N) id i j
        = ENNReal.ofReal (eta * intensity U S j) ∧
      meanCount (gccbLossyStrategy (ryserSubPermanents fuel) U fuel eta S N) id i j
        = ENNReal.ofReal (eta * intensity U S j) := by
  rw [← uniformLoss_mean h.used eta j hj]
  obtain ⟨k, hk⟩ : ∃ k, S.length = k + 1 := ⟨S.length - 1, by omega⟩
  refine ⟨genFuel k S.sum + (S.map (· + 1)).prod, fun fuel hf => ?_⟩
  have hf' : (S.map (· + 1)).prod ≤ fuel := by omega
  have ht := uniformLoss_total (h.bok fuel hf') h0 h1
  exact ⟨meanCount_expIid (fun T _ => uniformLossProb_nonneg _ _ h0 h1 _) ht
      (gccuStrategy_wp gray hgray t h h0 h1 o ho k hk fuel hf N) i hi j,
    meanCount_expIid (fun T _ => uniformLossProb_nonneg _ _ h0 h1 _) ht (gccbLossyStrategy_wp h h0 h1 fuel hf' N) i hi j⟩

end

/-- C83, the sampler for a lossy network `M` (the losses are those of the matrix). -/
theorem C83_network (M : Matrix (Fin m) (Fin m) ℂ) (d : Svd m) (h : IsSvd M d) (h1 : ∀ i, d.s i ≤ 1)
    (S : List ℕ) (hS : S.length = m) (fuel : ℕ) (hf : (S.map (· + 1)).prod ≤ fuel) (hf' : m < fuel)
    (N : ℕ) (i : ℕ) (hi : i < N) (j : Fin m) :
    meanCount (lossyNetSimulate (ryserSubPermanents fuel) d fuel S N) id i j = ENNReal.ofReal (intensity (rowsOf M) S j) :=
  lossyNet_mean M d h h1 S hS fuel hf hf' N i hi j

/-! ### Independent particles -/

/-- C83, the sampler with a fixed number `k` of particles left: the mean is `k/n ∑_c |A_jc|²` over the first `n` modes,
which is the claim for the input with one particle in each of the first `n` modes, whatever the given input with `n`
particles was. -/
theorem C83_fixed_partial {net : List ℂ → Py (List ℂ)} {A : Matrix (Fin m) (Fin m) ℂ} (h : NetworkOf net A) (d : Svd m)
    (hd : IsSvd A d) (hs : ∀ i, d.s i ≤ 1) (k : ℤ) (S : List ℕ) (hS : 1 ≤ S.sum) (N : ℤ) (i : ℕ) (hi : i < N.toNat)
    (j : Fin m) :
    meanCount (fixedSimulate net m k S N) id i j
      = ENNReal.ofReal (k.toNat / S.sum * ∑ c : Fin m, if (c : ℕ) < S.sum then Complex.normSq (A j c) else 0) ∧
    (S = (List.range m).map (fun c => if c < S.sum then 1 else 0) →
      meanCount (fixedSimulate net m k S N) id i j = ENNReal.ofReal (k.toNat / S.sum * intensity (rowsOf A) S j)) := by
  have hm : 0 < m := by have := j.2; omega
  have e : meanCount (fixedSimulate net m k S N) id i j
      = ENNReal.ofReal (k.toNat / S.sum * intensity (rowsOf A) (firstModes m S.sum) j) := by
    rw [fixedSimulate, fixedLoop_eq, meanCount_repeatN (fixedSample_all net m hm h.total k S) _ i hi,
      fixedSample_mean h d hd hs k S hS j]
  refine ⟨?_, fun hS' => ?_⟩
  · rw [e, intensity_first]
  · rw [e, firstModes, ← hS']

/-- C83, the same sampler with uniform losses. -/
theorem C83_separable_partial {A : Matrix (Fin m) (Fin m) ℂ} (d : Svd m) (hd : IsSvd A d) (hs : ∀ i, d.s i ≤ 1)
    (fuel : ℕ) (hf : m < fuel) (eta : ℝ) (h0 : 0 ≤ eta) (h1 : eta ≤ 1) (S : List ℕ) (hS : 1 ≤ S.sum) (N : ℤ) (i : ℕ)
    (hi : i < N.toNat) (j : Fin m) :
    meanCount (uniformSimulate fuel d m eta S N) id i j
      = ENNReal.ofReal (eta * ∑ c : Fin m, if (c : ℕ) < S.sum then Complex.normSq (A j c) else 0) ∧
    (S = (List.range m).map (fun c => if c < S.sum then 1 else 0) →
      meanCount (uniformSimulate fuel d m eta S N) id i j = ENNReal.ofReal (eta * intensity (rowsOf A) S j)) := by
  have hm : 0 < m := by have := j.2; omega
  have hn := (networkOf_strategies A d hd fuel hf).1
  have e : meanCount (uniformSimulate fuel d m eta S N) id i j
      = ENNReal.ofReal (eta * intensity (rowsOf A) (firstModes m S.sum) j) := by
    rw [uniformSimulate, uniformLoop_eq, meanCount_repeatN (uniformSample_all hn hm h0 h1 S) _ i hi,
      uniformSample_mean hn d hd hs h0 h1 S hS j]
  refine ⟨?_, fun hS' => ?_⟩
  · rw [e, intensity_first]
  · rw [e, firstModes, ← hS']

/-! ### The approximation of Brod and Oszmaniec -/

section
variable {M A : Matrix (Fin m) (Fin m) ℂ} {d : Svd m} {cpu : ℕ} {k t : ℤ} {l₀ eta : ℝ} {K th : ℕ} {fuel : ℕ}
  {svd : Matrix (Fin m) (Fin m) ℂ → Svd m}

/-- C83, the sampler for non-uniform losses, after any completed calls: the particles of the `K` approximated modes
(with those of the earlier calls) are spread evenly over these modes. -/
theorem C83_bobs_partial (h : BobsSetup M d cpu k t A l₀ eta K th) (hsvd : ∀ B, IsSvd B (svd B))
    {calls : List (List ℕ × ℤ)} {o : BobsObj m}
    (hh : BobsHistory svd (ryserSubPermanents fuel) fuel d cpu k t calls o) (S : List ℕ) (hS : S.length = m) (N : ℤ)
    (hN : 1 ≤ N) (hf : (pastParticles K calls + S.sum + 1) ^ m ≤ fuel) (hf' : m < fuel)
    (i : ℕ) (hi : i < N.toNat) (j : Fin m) :
    meanCount (bobsSimulate svd (ryserSubPermanents fuel) fuel o S N) Prod.fst i j
      = ENNReal.ofReal (eta * ∑ c : Fin m, (if (c : ℕ) < K then ((pastParticles K calls + (S.take K).sum : ℕ) : ℝ) / K
          else S.getD c 0) * Complex.normSq (A j c)) := by
  obtain ⟨h3, h4, h5, h6, h7⟩ := hh.inv h
  subst h4
  obtain ⟨o', e1, e2, e3, e4, e5, e6, e7, mx, e8, e9⟩ := h3.prepare S hS
  have hfm : (mx + 1) ^ m ≤ fuel := (Nat.pow_le_pow_left (by omega) m).trans hf
  have hi' : i < o'.threads * (N.toNat / o'.threads + 1) := by
    have h8 := Nat.div_add_mod N.toNat o'.threads
    have h9 := Nat.mod_lt N.toNat e7.threads
    rw [Nat.mul_add, Nat.mul_one]; omega
  have hall := bobsSample_all e9 svd hsvd fuel hfm hf'
  have e6' : o'.state = List.replicate o'.k 0 ++ S.drop o'.k := by rw [e6, e2]
  have hst : bobsStates o' = bunchedStates o.k (pastParticles o.k calls + (S.take o.k).sum) S := by
    rw [bunchedStates_eq o' S e6', e2, e5, h5]
  have hl : 1 - appliedLosses o'.losses = eta := by
    rw [h.eta_eq (h7 ▸ h3.loss0), e4, h7]
  have hl0 : 0 ≤ l₀ := h7 ▸ h3.loss0
  have hl1 : l₀ ≤ 1 := h7 ▸ h3.loss1
  have heta : 0 ≤ eta ∧ eta ≤ 1 := by
    rw [h.left]
    split_ifs
    · exact ⟨zero_le_one, le_rfl⟩
    · constructor <;> linarith
  rw [bobsSimulate_eq svd _ fuel o o' S N hN e1 e7.threads]
  have e : meanCount (((bobsSample svd (ryserSubPermanents fuel) fuel o').repeatN
        (o'.threads * (N.toNat / o'.threads + 1))).bind fun l => .done (.ok (l, o'))) Prod.fst i j
      = meanCount ((bobsSample svd (ryserSubPermanents fuel) fuel o').repeatN
        (o'.threads * (N.toNat / o'.threads + 1))) id i j := by
    unfold meanCount
    rw [Prog.wp_bind]
    refine Prog.wp_congr _ _ _ fun r _ => ?_
    cases r <;> simp [Prog.post, Prog.wp]
  rw [e, meanCount_repeatN hall _ i hi', bobsSample_mean e9 svd hsvd fuel hfm hf' (by rw [hl]; exact heta.1)
    (by rw [hl]; exact heta.2), hl, hst, e2]
  exact bunched_mean o.k (e2 ▸ e9.kle) _ S hS eta A j

/-- C83: so the means are those of the network `M` if no earlier call left particles behind and the approximated modes
are equally occupied. -/
theorem C83_bobs_even (h : BobsSetup M d cpu k t A l₀ eta K th) (hsvd : ∀ B, IsSvd B (svd B)) (htol : l₀ = 0 ∨ 1e-8 < l₀)
    {calls : List (List ℕ × ℤ)} {o : BobsObj m}
    (hh : BobsHistory svd (ryserSubPermanents fuel) fuel d cpu k t calls o) (hp : pastParticles K calls = 0)
    (S : List ℕ) (hS : S.length = m) (s : ℕ) (hs : ∀ x ∈ S.take K, x = s) (N : ℤ)
    (hN : 1 ≤ N) (hf : (S.sum + 1) ^ m ≤ fuel) (hf' : m < fuel)
    (i : ℕ) (hi : i < N.toNat) (j : Fin m) :
    meanCount (bobsSimulate svd (ryserSubPermanents fuel) fuel o S N) Prod.fst i j
      = ENNReal.ofReal (intensity (rowsOf M) S j) := by
  rw [C83_bobs_partial h hsvd hh S hS N hN (by rw [hp, Nat.zero_add]; exact hf) hf' i hi j, hp, Nat.zero_add]
  congr 1
  obtain ⟨h3, -, -, -, h7⟩ := hh.inv h
  have hl1 : l₀ ≤ 1 := h7 ▸ h3.loss1
  have he : eta = 1 - l₀ := by
    rw [h.left]
    rcases htol with rfl | h1
    · norm_num
    · rw [if_neg (not_le.mpr h1)]
  have hK : K ≤ m := by have := h.modes; omega
  rw [intensity, hS, Finset.sum_range, mul_sum]
  refine sum_congr rfl fun c _ => ?_
  rw [mget_rowsOf _ _ _ j.2 c.2, h.split, Matrix.smul_apply, smul_eq_mul, Complex.normSq_mul, Complex.normSq_ofReal,
    Real.mul_self_sqrt (by linarith), he]
  have hc : (if (c : ℕ) < K then ((S.take K).sum : ℝ) / K else S.getD c 0) = S.getD c 0 := by
    split_ifs with hc
    · have e : S.take K = List.replicate K s := by
        rw [List.eq_replicate_iff]
        exact ⟨by simp; omega, hs⟩
      have e' : S.getD c 0 = s := by
        rw [getD_of_lt _ _ (by omega)]
        exact hs _ (by rw [List.mem_take_iff_getElem]; exact ⟨c, by omega, rfl⟩)
      have hK0 : (K : ℝ) ≠ 0 := by exact_mod_cast (by omega : K ≠ 0)
      rw [e', e, List.sum_replicate, smul_eq_mul]
      push_cast
      field_simp
    · rfl
  rw [hc]
  ring

end

/-- C83, the sampler for uniform losses with `h` exactly treated modes: the means are the same in all modes, whatever
the interferometer and the input. -/
theorem C83_uniform_bobs_partial (hash : List ℕ → ℤ) (fuel : ℕ) (U : Matrix (Fin m) (Fin m) ℂ)
    (hU : U ∈ Matrix.unitaryGroup (Fin m) ℂ)
    (cpu : ℕ) (hc : 0 < cpu) (eta : ℝ) (h0 : 0 ≤ eta) (h1 : eta ≤ 1) (h : ℕ) (hh : 1 ≤ h) (hm : h < m) (t : ℤ)
    (o : UBobsObj m) (ho : uBobsInit U cpu eta h t = .ok o) (S : List ℕ) (hS : S.length = m)
    (hp : eta = 0 ∨ eta = 1 ∨ ∀ a ∈ S.take h, a ≤ 1) (hhash : HashOk hash (S.take h)) (hf : (S.sum + 1) ^ m ≤ fuel)
    (N : ℤ) (i : ℕ) (hi : i < N.toNat) (j : Fin m) :
    meanCount (uBobsSimulate hash (ryserSubPermanents fuel) fuel o S N) id i j = ENNReal.ofReal (eta * S.sum / m) := by
  obtain rfl := uBobsInit_ok ho
  obtain ⟨L, h2, h3, -⟩ := uBobsSimulate_eq hash (ryserSubPermanents fuel) fuel (uBobsNew U cpu eta h t) S hS hhash
    (uBobsThreadsNumber_pos cpu hc t) N (by omega)
  rw [h3 hm, meanCount_repeatN (uBobsSample_all (o := uBobsNew U cpu eta h t) hh hm rfl hU h0 h1 hp hS L h2 fuel hf) _ i hi]
  exact uBobsSample_mean (o := uBobsNew U cpu eta h t) hh hm rfl hU h0 h1 hp hS L h2 fuel hf j

/-! ### Where the claim fails -/

/-- The decomposition of the lossless identity network on two modes. -/
noncomputable def idSvd : Svd 2 := { V := 1, s := fun _ => 1, U := 1 }

theorem idSvd_isSvd : IsSvd (1 : Matrix (Fin 2) (Fin 2) ℂ) idSvd := by
  refine ⟨one_mem _, one_mem _, fun i => by simp [idSvd], fun i j _ => le_rfl, ?_⟩
  simp [idSvd]

theorem idSetup : BobsSetup (1 : Matrix (Fin 2) (Fin 2) ℂ) idSvd 1 2 1 1 0 1 2 1 := by
  refine ⟨idSvd_isSvd, fun i => by simp [idSvd], one_ne_zero, by decide, ?_, by simp, by norm_num, by decide, by decide⟩
  refine ⟨⟨0, by simp [idSvd]⟩, ?_⟩
  rintro _ ⟨i, rfl⟩
  simp [idSvd]

theorem intensity_id (a b : ℕ) : intensity (rowsOf (1 : Matrix (Fin 2) (Fin 2) ℂ)) [a, b] 0 = a ∧
    intensity (rowsOf (1 : Matrix (Fin 2) (Fin 2) ℂ)) [a, b] 1 = b := by
  simp [intensity, sum_range_succ, mget, rowsOf]

theorem identity_network : NetworkOf (fun x => .ok x) (1 : Matrix (Fin 2) (Fin 2) ℂ) := by
  intro x
  rw [Matrix.one_mulVec]

/-- C83, the claim fails for the approximate samplers already if nothing happens to the only particle (the network is the
identity, there are no losses): the sampler with a fixed number of particles left shows the particle of mode 1 always
in mode 0; the two samplers after Brod and Oszmaniec show a particle of mode 0 in mode 1 in half of the samples. -/
theorem C83_fails (svd : Matrix (Fin 2) (Fin 2) ℂ → Svd 2) (hsvd : ∀ B, IsSvd B (svd B)) (o : UBobsObj 2)
    (ho : uBobsInit 1 4 1 1 2 = .ok o) :
    (intensity (rowsOf (1 : Matrix (Fin 2) (Fin 2) ℂ)) [0, 1] 0 = 0 ∧
      meanCount (fixedSimulate (fun x => .ok x) 2 1 [0, 1] 1) id 0 0 = 1) ∧
    intensity (rowsOf (1 : Matrix (Fin 2) (Fin 2) ℂ)) [1, 0] 1 = 0 ∧
    (∃ o', BobsHistory svd (ryserSubPermanents 4) 4 idSvd 1 2 1 [] o' ∧
      meanCount (bobsSimulate svd (ryserSubPermanents 4) 4 o' [1, 0] 1) Prod.fst 0 1 = ENNReal.ofReal (1 / 2)) ∧
    meanCount (uBobsSimulate (fun l => (Encodable.encode l : ℤ)) (ryserSubPermanents 4) 4 o [1, 0] 1) id 0 1
      = ENNReal.ofReal (1 / 2) := by
  refine ⟨⟨by simpa using (intensity_id 0 1).1, ?_⟩, by simpa using (intensity_id 1 0).2, ?_, ?_⟩
  · have := (C83_fixed_partial identity_network idSvd idSvd_isSvd (fun i => by simp [idSvd]) 1 [0, 1] (by decide) 1 0
      (by decide) 0).1
    refine this.trans ?_
    simp
  · obtain ⟨o', h1, -⟩ := idSetup.inv
    refine ⟨o', .new h1, (C83_bobs_partial idSetup hsvd (.new h1) [1, 0] rfl 1 le_rfl (by decide) (by decide) 0 (by decide)
      1).trans ?_⟩
    congr 1
    simp [Fin.sum_univ_two, pastParticles]
  · refine (C83_uniform_bobs_partial _ 4 1 (one_mem _) 4 (by decide) 1 zero_le_one le_rfl 1 le_rfl (by decide) 2 o ho [1, 0]
      rfl (.inr (.inl rfl)) (hashOk_encode _) (by decide) 1 0 (by decide) 1).trans ?_
    congr 1
    norm_num

/-! ### Concrete cases -/

theorem rotation_intensity (a b : ℕ) : intensity [[3 / 5, 4 / 5], [4 / 5, -3 / 5]] [a, b] 1 = a * (16 / 25) + b * (9 / 25) := by
  have h1 : Complex.normSq (4 / 5 : ℂ) = 16 / 25 := by
    rw [show (4 / 5 : ℂ) = ((4 / 5 : ℝ) : ℂ) by push_cast; ring, Complex.normSq_ofReal]; norm_num
  have h2 : Complex.normSq (-3 / 5 : ℂ) = 9 / 25 := by
    rw [show (-3 / 5 : ℂ) = ((-3 / 5 : ℝ) : ℂ) by push_cast; ring, Complex.normSq_ofReal]; norm_num
  simp only [intensity, List.length_cons, List.length_nil, zero_add, Nat.reduceAdd, sum_range_succ, sum_range_zero, mget,
    List.getD_cons_succ, List.getD_cons_zero, h1, h2]

/-- Two particles in mode 0: in each of three samples 32/25 particles in mode 1 on average. -/
example (gray : ℕ → List ℕ) (hgray : ∀ n, IsGrayCode n (gray n)) (t : ℤ) :
    meanCount (gccStrategy gccA (factoryPermanent gray t 9) [[3 / 5, 4 / 5], [4 / 5, -3 / 5]] 9 gccInit [2, 0] 3) id 2 1
      = ENNReal.ofReal (32 / 25) := by
  refine (C83_exact gray hgray t (rotation_interferometer [2, 0] rfl) 9 (by decide) gccInit 3 2 (by decide) 1
    (by decide)).1.trans ?_
  rw [rotation_intensity]
  norm_num

/-- The same with transmissivity 1/4. -/
example (gray : ℕ → List ℕ) (hgray : ∀ n, IsGrayCode n (gray n)) (t : ℤ) :
    ∃ F, ∀ fuel ≥ F,
      meanCount (gccbLossyStrategy (ryserSubPermanents fuel) [[3 / 5, 4 / 5], [4 / 5, -3 / 5]] fuel (1 / 4) [2, 0] 3) id 2 1
        = ENNReal.ofReal (8 / 25) := by
  obtain ⟨F, hF⟩ := C83_uniform gray hgray t (rotation_interferometer [2, 0] rfl) (1 / 4) (by norm_num) (by norm_num)
    (gccuInit (1 / 4) false) rfl 3 2 (by decide) 1 (by decide)
  refine ⟨F, fun fuel hf => ?_⟩
  refine (hF fuel hf).2.trans ?_
  rw [rotation_intensity]
  norm_num

/-- One of two particles left, by the exact calculator. -/
example (gray : ℕ → List ℕ) (hgray : ∀ n, IsGrayCode n (gray n)) (t : ℤ) :
    ∃ F, ∀ fuel ≥ F, ∃ (outcomes : List (List ℕ)) (dist : List ℝ),
      fixedLossDistribution Complex.normSq (factoryPermanent gray t fuel) (fun l => (Encodable.encode l : ℤ)) fuel
        (expConfig [[3 / 5, 4 / 5], [4 / 5, -3 / 5]] [2, 0] 1 (1 / 4)) = .ok dist ∧
      (List.zipWith (fun T p => p * (T.getD 1 0 : ℝ)) outcomes dist).sum = 16 / 25 := by
  obtain ⟨F, hF⟩ := C83_calculators gray hgray t (fun l => (Encodable.encode l : ℤ)) (rotation_interferometer [2, 0] rfl) 1
    (by decide) (1 / 4) (by norm_num) (by norm_num)
    (fun a b _ _ _ h => Encodable.encode_injective (by exact_mod_cast h)) 1 (by decide)
  refine ⟨F, fun fuel hf => ?_⟩
  obtain ⟨outcomes, dist, -, h2, h3⟩ := (hF fuel hf).1
  refine ⟨outcomes, dist, h2, h3.trans ?_⟩
  rw [rotation_intensity]
  norm_num

/-- Half of the amplitude is transmitted: 3/4 particles are left of three. -/
example : meanCount (lossyNetSimulate (ryserSubPermanents 4) halfSvd 4 [3] 2) id 1 0 = ENNReal.ofReal (3 / 4) := by
  refine (C83_network (Matrix.of fun _ _ => (1 / 2 : ℂ)) halfSvd halfSvd_isSvd (fun i => by simp only [halfSvd]; norm_num) [3]
    rfl 4 (by decide) (by decide) 2 1 (by decide) 0).trans ?_
  congr 1
  simp [intensity, mget, rowsOf, Complex.normSq_apply]
  norm_num

/-- Both modes approximated and occupied by one particle each. -/
example (svd : Matrix (Fin 2) (Fin 2) ℂ → Svd 2) (hsvd : ∀ B, IsSvd B (svd B)) :
    ∃ o, meanCount (bobsSimulate svd (ryserSubPermanents 9) 9 o [1, 1] 5) Prod.fst 4 1 = 1 := by
  obtain ⟨o, h1, -⟩ := idSetup.inv
  refine ⟨o, (C83_bobs_even (fuel := 9) idSetup hsvd (.inl rfl) (.new h1) rfl [1, 1] rfl 1 (by simp) 5 (by decide) (by decide)
    (by decide) 4 (by decide) 1).trans ?_⟩
  have := (intensity_id 1 1).2
  rw [show ((1 : Fin 2) : ℕ) = 1 from rfl, this]
  simp

/-- Uniform losses in the sampler with independent particles: both modes occupied. -/
example : meanCount (uniformSimulate 3 idSvd 2 (1 / 3) [1, 1] 2) id 1 0 = ENNReal.ofReal (1 / 3) := by
  refine ((C83_separable_partial idSvd idSvd_isSvd (fun i => by simp [idSvd]) 3 (by decide) (1 / 3) (by norm_num) (by norm_num)
    [1, 1] (by decide) 2 1 (by decide) 0).2 (by decide)).trans ?_
  have := (intensity_id 1 1).1
  rw [show ((0 : Fin 2) : ℕ) = 0 from rfl, this]
  norm_num

end Verif
