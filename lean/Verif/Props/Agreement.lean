import Verif.Proofs.UniformAgree
import Verif.Props.Distributions

/-!
C66: the samplers for lossy experiments and the exact calculator agree on uniform losses. Helper lemmas
are in `Proofs/UniformAgree.lean`.
-/
namespace Verif

open Finset
open scoped ENNReal

variable {m : ℕ} {U : Matrix (Fin m) (Fin m) ℂ} {d : Svd m}

/-- C66: the sampler for lossy networks, given the network `√eta U`, samples from the law of the
samplers with uniform losses: a binomial number of particles survives, every set of that many particles
being equally likely, and the survivors enter `U`. -/
theorem C66_lossy_network (hU : U ∈ Matrix.unitaryGroup (Fin m) ℂ) (eta : ℝ) (h0 : 0 ≤ eta) (h1 : eta ≤ 1)
    (hd : IsSvd (((Real.sqrt eta : ℝ) : ℂ) • U) d) (S : List ℕ) (hS : S.length = m) (hm : 0 < m) (fuel : ℕ)
    (hf : (S.map (· + 1)).prod ≤ fuel) (hf' : m < fuel) (N : ℤ) (i : ℕ) (hi : i < N.toNat) (T : List ℕ)
    (hT : T.length = m) (hs : T.sum ≤ S.sum) :
    (lossyNetSimulate (ryserSubPermanents fuel) d fuel S N).prob (fun r => ∃ l, r = .ok l ∧ l[i]? = some T)
      = ENNReal.ofReal (binomialWeight S.sum T.sum eta * fixedLossProb (rowsOf U) S T.sum T) := by
  have hle : ∀ i, d.s i ≤ 1 := fun i => by
    have := svd_uniform hU eta h0 hd i
    nlinarith [hd.nonneg i]
  rw [C35_dilation _ d hd hle _ m (expanded_isDilation hd hle) S hS hm fuel hf hf' N i hi T hT]
  exact lossyProb_binomial hU eta h0 h1 (expanded_isDilation hd hle) S T hS hT hs

/-- The setup of the approximate sampler for `√eta U`. -/
theorem uniformSetup (hU : U ∈ Matrix.unitaryGroup (Fin m) ℂ) (eta : ℝ) (h0 : 0 < eta) (h1 : eta ≤ 1) (hm : 0 < m)
    (hd : IsSvd (((Real.sqrt eta : ℝ) : ℂ) • U) d) (cpu : ℕ) (hcpu : 0 < cpu) (k t : ℤ) :
    ∃ eta' K th, BobsSetup (((Real.sqrt eta : ℝ) : ℂ) • U) d cpu k t U (1 - eta) eta' K th := by
  have hs := svd_uniform hU eta h0.le hd
  have hthr : 0 ≤ (if 1 ≤ t ∧ t ≤ cpu then t else cpu : ℤ) := by split_ifs <;> omega
  refine ⟨_, (max 0 (min k m)).toNat, (if 1 ≤ t ∧ t ≤ cpu then t else cpu : ℤ).toNat, hd,
    fun i => by have := hs i; nlinarith [hd.nonneg i], ?_, hcpu, ?_, ?_, rfl,
    Int.toNat_of_nonneg (le_max_left _ _), Int.toNat_of_nonneg hthr⟩
  · intro h
    have hU' := Matrix.mem_unitaryGroup_iff'.mp hU
    have hne : ((Real.sqrt eta : ℝ) : ℂ) ≠ 0 := by
      rw [Complex.ofReal_ne_zero]; exact (Real.sqrt_pos.mpr h0).ne'
    rcases smul_eq_zero.mp h with h | h
    · exact hne h
    · rw [h, Matrix.mul_zero] at hU'
      have := congrFun (congrFun hU' ⟨0, hm⟩) ⟨0, hm⟩
      simp at this
  · rw [show 1 - (1 - eta) = eta by ring]
    refine ⟨⟨⟨0, hm⟩, hs _⟩, ?_⟩
    rintro _ ⟨i, rfl⟩
    exact (hs i).le
  · rw [show 1 - (1 - eta) = eta by ring]

/-- C66: the approximate sampler without approximated modes, given `√eta U`, samples from the same law
after every history of calls, unless `eta` is so close to 1 that the losses are taken for absent. -/
theorem C66_bobs (hU : U ∈ Matrix.unitaryGroup (Fin m) ℂ) (eta : ℝ) (h0 : 0 < eta) (h1 : eta ≤ 1)
    (htol : eta = 1 ∨ 1e-8 < 1 - eta) (hd : IsSvd (((Real.sqrt eta : ℝ) : ℂ) • U) d)
    (svd : Matrix (Fin m) (Fin m) ℂ → Svd m) (hsvd : ∀ B, IsSvd B (svd B)) (cpu : ℕ) (hcpu : 0 < cpu) (k t : ℤ)
    (hk : k ≤ 0) {fuel : ℕ} {calls : List (List ℕ × ℤ)} {o : BobsObj m}
    (hh : BobsHistory svd (ryserSubPermanents fuel) fuel d cpu k t calls o) (S : List ℕ) (hS : S.length = m)
    (hm : 0 < m) (N : ℤ) (hf : (S.sum + 1) ^ m ≤ fuel) (hf' : m < fuel) (i : ℕ) (hi : i < N.toNat) (T : List ℕ)
    (hT : T.length = m) (hs : T.sum ≤ S.sum) :
    (bobsSimulate svd (ryserSubPermanents fuel) fuel o S N).prob
        (fun r => ∃ samples o', r = .ok (samples, o') ∧ samples[i]? = some T)
      = ENNReal.ofReal (binomialWeight S.sum T.sum eta * fixedLossProb (rowsOf U) S T.sum T) := by
  obtain ⟨eta', K, th, hset⟩ := uniformSetup hU eta h0 h1 hm hd cpu hcpu k t
  rw [C59_exact hset hsvd hk (htol.imp (fun h => by rw [h, sub_self]) id) hh S hS N (by omega) hf hf' _ m
    (expanded_isDilation hd hset.le_one) i hi T hT]
  exact lossyProb_binomial hU eta h0.le h1 (expanded_isDilation hd hset.le_one) S T hS hT hs

/-- C66: the exact calculator and four samplers agree on uniform losses: there are outcomes `outs` and
probabilities `dist`, the result of the exact calculator, such that each of the samplers shows `outs[j]`
as its `i`-th sample with probability `dist[j]`. -/
theorem C66_agree (gray : Nat → List Nat) (hgray : ∀ n, IsGrayCode n (gray n)) (thr : Int) (hash : List ℕ → Int)
    (hU : U ∈ Matrix.unitaryGroup (Fin m) ℂ) (eta : ℝ) (h0 : 0 < eta) (h1 : eta ≤ 1)
    (htol : eta = 1 ∨ 1e-8 < 1 - eta) (hd : IsSvd (((Real.sqrt eta : ℝ) : ℂ) • U) d)
    (svd : Matrix (Fin m) (Fin m) ℂ → Svd m) (hsvd : ∀ B, IsSvd B (svd B)) (cpu : ℕ) (hcpu : 0 < cpu) (k t : ℤ)
    (hk : k ≤ 0) (o : GccuObj) (ho : o.eta = eta) (S : List ℕ) (hS : S.length = m) (hm : 0 < m)
    (hinj : ∀ a b : List ℕ, StateLE a S → StateLE b S → a.sum = b.sum → hash a = hash b → a = b) :
    ∃ outs dist F, outs.length = dist.length ∧ outs.Nodup ∧
      (∀ T, T ∈ outs ↔ T.length = m ∧ T.sum ≤ S.sum) ∧ ∀ fuel ≥ F,
      uniformOutcomes fuel (expConfig (rowsOf U) S S.sum eta) = .ok outs ∧
      uniformDistribution Complex.normSq (factoryPermanent gray thr fuel) hash fuel
        (uniformCalc (expConfig (rowsOf U) S S.sum eta)) = .ok dist ∧
      ∀ (calls : List (List ℕ × ℤ)) (o' : BobsObj m),
        BobsHistory svd (ryserSubPermanents fuel) fuel d cpu k t calls o' →
      ∀ (N : ℤ) (i : ℕ), i < N.toNat → ∀ (j : ℕ) (T : List ℕ) (p : ℝ), outs[j]? = some T → dist[j]? = some p →
        (gccuSimulate (factoryPermanent gray thr fuel) (rowsOf U) fuel o S N).prob
          (fun r => ∃ l o', r = .ok (l, o') ∧ l[i]? = some T) = ENNReal.ofReal p ∧
        (gccbLossySimulate (ryserSubPermanents fuel) (rowsOf U) fuel eta S N).prob
          (fun r => ∃ l, r = .ok l ∧ l[i]? = some T) = ENNReal.ofReal p ∧
        (lossyNetSimulate (ryserSubPermanents fuel) d fuel S N).prob
          (fun r => ∃ l, r = .ok l ∧ l[i]? = some T) = ENNReal.ofReal p ∧
        (bobsSimulate svd (ryserSubPermanents fuel) fuel o' S N).prob
          (fun r => ∃ l o'', r = .ok (l, o'') ∧ l[i]? = some T) = ENNReal.ofReal p := by
  have hI := rowsOf_interferometer hU hm S hS
  obtain ⟨outs, dist, F, hF, hdist, hn, hm', -⟩ := C24_distribution gray hgray thr hash (rowsOf U) S S.sum eta h0.le h1
    hI.square hI.len hI.ne hI.ortho hinj
  obtain ⟨F', hF'⟩ := C31_sample gray hgray thr hI eta h0.le h1 o ho
  rw [hS] at hm'
  refine ⟨outs, dist, F + F' + (S.map (· + 1)).prod + (S.sum + 1) ^ m + m + 1, by rw [hdist]; simp, hn, hm',
    fun fuel hfuel => ⟨(hF fuel (by omega)).1, (hF fuel (by omega)).2, fun calls o' hh N i hi j T p hj hp => ?_⟩⟩
  have hT := (hm' T).mp (List.mem_of_getElem? hj)
  have hp' : p = binomialWeight S.sum T.sum eta * fixedLossProb (rowsOf U) S T.sum T := by
    rw [hdist, List.getElem?_map, hj] at hp
    simpa using hp.symm
  rw [hp']
  exact ⟨hF' fuel (by omega) N i hi T (by rw [hT.1, hS]) hT.2,
    C32_sample hI eta h0.le h1 fuel (by omega) N i hi T (by rw [hT.1, hS]) hT.2,
    C66_lossy_network hU eta h0.le h1 hd S hS hm fuel (by omega) (by omega) N i hi T hT.1 hT.2,
    C66_bobs hU eta h0 h1 htol hd svd hsvd cpu hcpu k t hk hh S hS hm N (by omega) (by omega) i hi T hT.1 hT.2⟩

/-- The hypotheses can be met: half of the particles survive a swap of two modes. -/
example : ∃ (d : Svd 2) (svd : Matrix (Fin 2) (Fin 2) ℂ → Svd 2),
    (!![0, 1; 1, 0] : Matrix (Fin 2) (Fin 2) ℂ) ∈ Matrix.unitaryGroup (Fin 2) ℂ ∧
    IsSvd (((Real.sqrt (1 / 2) : ℝ) : ℂ) • !![0, 1; 1, 0]) d ∧ (∀ B, IsSvd B (svd B)) ∧
    (lossyNetSimulate (ryserSubPermanents 9) d 9 [2, 0] 1).prob (fun r => ∃ l, r = .ok l ∧ l[0]? = some [0, 1])
      = ENNReal.ofReal (1 / 2) := by
  have hU : (!![0, 1; 1, 0] : Matrix (Fin 2) (Fin 2) ℂ) ∈ Matrix.unitaryGroup (Fin 2) ℂ := by
    rw [Matrix.mem_unitaryGroup_iff']
    ext i j; fin_cases i <;> fin_cases j <;> simp [Matrix.mul_apply, Matrix.star_apply, Fin.sum_univ_two]
  obtain ⟨d, hd⟩ := svd_exists (((Real.sqrt (1 / 2) : ℝ) : ℂ) • !![0, 1; 1, 0])
  refine ⟨d, fun B => (svd_exists B).choose, hU, hd, fun B => (svd_exists B).choose_spec, ?_⟩
  rw [C66_lossy_network hU (1 / 2) (by norm_num) (by norm_num) hd [2, 0] rfl (by norm_num) 9 (by decide) (by decide) 1 0
    (by decide) [0, 1] rfl (by decide)]
  congr 1
  rw [fixedLossProb, sum_stateOf [2, 0] _ {[1, 0]} (by
    intro l
    constructor
    · intro h
      rw [mem_singleton] at h
      subst h
      exact ⟨(mem_lowerStates _ _).mp (by decide), rfl⟩
    · rintro ⟨h1, h2⟩
      have := (mem_lowerStates _ _).mpr h1
      simp [lowerStates, List.range_succ] at this
      rcases this with rfl | rfl | rfl <;> simp at h2 ⊢)
    (fun L => bosonProb (rowsOf (!![0, 1; 1, 0] : Matrix (Fin 2) (Fin 2) ℂ)) L [0, 1]), sum_singleton]
  have : scatteringPermanent (rowsOf (!![0, 1; 1, 0] : Matrix (Fin 2) (Fin 2) ℂ)) [1, 0] [0, 1] = 1 := by
    have hp : particles [0, 1] = [1] := by decide
    have hq : particles [1, 0] = [0] := by decide
    unfold scatteringPermanent
    rw [hp, hq]
    change Matrix.permanent (Matrix.of fun (a b : Fin 1) => _) = _
    simp [Matrix.permanent, mget, rowsOf]
  rw [bosonProb, this]
  simp [factProd, binomialWeight]
  norm_num

end Verif
