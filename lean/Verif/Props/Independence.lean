import Verif.Proofs.Independence
import Verif.Props.LossyNetworks
import Verif.Props.FixedLoss
import Verif.Props.Bobs
import Verif.Props.UniformBobs

/-!
C70: the samples of one call are independent. For each sampler the probability that a call returns
exactly the list `l` is the product over `l` of the law of a single sample, so no sample influences
another one. C30 states this for the two samplers of the first version; here are the others.
-/
namespace Verif

open Finset Matrix
open scoped ENNReal

variable {m : ℕ}

/-- C70, version B. -/
theorem C70_version_b {U : List (List ℂ)} {S : List ℕ} (h : Interferometer U S) (fuel : ℕ)
    (hf : (S.map (· + 1)).prod ≤ fuel) (l : List (List ℕ)) (hl : ∀ T ∈ l, T.length = S.length ∧ T.sum = S.sum) :
    (gccbSimulate (ryserSubPermanents fuel) U fuel S l.length).prob (fun r => r = .ok l)
      = (l.map fun T => ENNReal.ofReal (bosonProb U S T)).prod := by
  unfold Prog.prob
  refine (gccbStrategy_wp h fuel hf l.length _).trans ?_
  simp only [Except.ok.injEq]
  exact expIid_indicator _ _ l fun T hT => (mem_statesFin _ _ T).mpr (hl T hT)

/-- A concrete case: twice the same outcome. -/
example : (gccbSimulate (ryserSubPermanents 4) [[3 / 5, 4 / 5], [4 / 5, -3 / 5]] 4 [1, 1] 2).prob
    (fun r => r = .ok [[1, 1], [1, 1]]) = ENNReal.ofReal (49 / 625) * ENNReal.ofReal (49 / 625) := by
  have := C70_version_b (rotation_interferometer [1, 1] rfl) 4 (by decide) [[1, 1], [1, 1]] (by simp)
  rw [List.map_cons, List.map_cons, List.map_nil, List.prod_cons, List.prod_cons, List.prod_nil, mul_one,
    rotation_prob] at this
  exact this

/-- C70, version B with uniform losses of transmissivity `η`. -/
theorem C70_uniform_b {U : List (List ℂ)} {S : List ℕ} (h : Interferometer U S) (eta : ℝ) (h0 : 0 ≤ eta) (h1 : eta ≤ 1)
    (fuel : ℕ) (hf : (S.map (· + 1)).prod ≤ fuel) (l : List (List ℕ))
    (hl : ∀ T ∈ l, T.length = S.length ∧ T.sum ≤ S.sum) :
    (gccbLossySimulate (ryserSubPermanents fuel) U fuel eta S l.length).prob (fun r => r = .ok l)
      = (l.map fun T => ENNReal.ofReal (binomialWeight S.sum T.sum eta * fixedLossProb U S T.sum T)).prod := by
  unfold Prog.prob
  refine (gccbLossyStrategy_wp h h0 h1 fuel hf l.length _).trans ?_
  simp only [Except.ok.injEq]
  exact expIid_indicator _ _ l fun T hT => (mem_statesUpTo _ _ T).mpr (hl T hT)

/-- A concrete case: in both samples all particles survive. -/
example : (gccbLossySimulate (ryserSubPermanents 4) [[3 / 5, 4 / 5], [4 / 5, -3 / 5]] 4 (1 / 2) [1, 1] 2).prob
    (fun r => r = .ok [[1, 1], [1, 1]]) = ENNReal.ofReal (1 / 4 * (49 / 625)) * ENNReal.ofReal (1 / 4 * (49 / 625)) := by
  have e : fixedLossProb [[3 / 5, 4 / 5], [4 / 5, -3 / 5]] [1, 1] 2 [1, 1] = 49 / 625 := by
    rw [← rotation_prob]; exact fixedLossProb_full _ [1, 1] [1, 1]
  have := C70_uniform_b (rotation_interferometer [1, 1] rfl) (1 / 2) (by norm_num) (by norm_num) 4 (by decide)
    [[1, 1], [1, 1]] (by simp)
  simp only [List.map_cons, List.map_nil, List.prod_cons, List.prod_nil, mul_one, List.sum_cons, List.sum_nil,
    Nat.reduceAdd, e, binomialWeight] at this
  refine this.trans ?_
  norm_num

section
variable (gray : Nat → List Nat) (hgray : ∀ n, IsGrayCode n (gray n)) (t : Int)
include hgray

/-- C70, the first version with uniform losses of transmissivity `η`. -/
theorem C70_uniform {U : List (List ℂ)} {S : List ℕ} (h : Interferometer U S) (eta : ℝ) (h0 : 0 ≤ eta) (h1 : eta ≤ 1)
    (o : GccuObj) (ho : o.eta = eta) :
    ∃ F, ∀ fuel ≥ F, ∀ l : List (List ℕ), (∀ T ∈ l, T.length = S.length ∧ T.sum ≤ S.sum) →
      (gccuSimulate (factoryPermanent gray t fuel) U fuel o S l.length).prob (fun r => ∃ o', r = .ok (l, o'))
        = (l.map fun T => ENNReal.ofReal (binomialWeight S.sum T.sum eta * fixedLossProb U S T.sum T)).prod := by
  classical
  obtain ⟨m, hm⟩ : ∃ m, S.length = m + 1 := ⟨S.length - 1, by have := List.length_pos_of_ne_nil h.ne; omega⟩
  refine ⟨genFuel m S.sum + (S.map (· + 1)).prod, fun fuel hf l hl => ?_⟩
  have key := gccuStrategy_wp gray hgray t h h0 h1 o ho m hm fuel hf l.length (fun r => if r = .ok l then 1 else 0)
  simp only [Except.ok.injEq] at key
  rw [expIid_indicator _ _ l fun T hT => (mem_statesUpTo _ _ T).mpr (hl T hT)] at key
  refine Eq.trans ?_ key
  unfold Prog.prob gccuStrategy
  rw [Prog.bind_eq, Prog.wp_bind]
  refine Prog.wp_congr _ _ _ fun r _ => ?_
  cases r with
  | error e => simp [Prog.post]
  | ok r =>
    obtain ⟨l', o'⟩ := r
    simp only [Prog.post, Prog.pure_eq, Prog.wp, Except.ok.injEq, Prod.mk.injEq]
    by_cases e : l' = l
    · rw [if_pos ⟨o', e, rfl⟩, if_pos e]
    · rw [if_neg (fun ⟨_, e', _⟩ => e e'), if_neg e]

end

/-- C70, the sampler for lossy networks. -/
theorem C70_network (M : Matrix (Fin m) (Fin m) ℂ) (d : Svd m) (h : IsSvd M d) (h1 : ∀ i, d.s i ≤ 1)
    (W : List (List ℂ)) (b : ℕ) (hW : IsDilation (rowsOf M) W m b)
    (S : List ℕ) (hS : S.length = m) (hm : 0 < m) (fuel : ℕ) (hf : (S.map (· + 1)).prod ≤ fuel) (hf' : m < fuel)
    (l : List (List ℕ)) (hl : ∀ T ∈ l, T.length = m) :
    (lossyNetSimulate (ryserSubPermanents fuel) d fuel S l.length).prob (fun r => r = .ok l)
      = (l.map fun T => ENNReal.ofReal (lossyProb W b S T)).prod := by
  classical
  have hB := lossyNet_bok h h1 hS hm fuel hf
  have ht := boson_total' hB
  rw [expanded_sum, expanded_len, hS] at ht
  have key : ∀ N : ℕ, ∀ f : Py (List (List ℕ)) → ℝ≥0∞,
      (lossyNetSimulate (ryserSubPermanents fuel) d fuel S N).wp f
        = expIid (statesFin (m + m) S.sum) (fun T => ENNReal.ofReal
            (bosonProb (rowsOf (expandedMatrix d)) (S ++ S.map fun _ => 0) T)) N
          fun l' => f (.ok (l'.map fun T => T.take m)) := by
    intro N f
    unfold lossyNetSimulate
    simp only
    rw [Prog.bind_eq, Prog.wp_bind, gccbSimulate_eq, gccbLoop_wp hB fuel (by
      rw [expanded_sum]; exact lt_of_lt_of_le (sum_lt_prod_succ S) hf), expanded_sum, expanded_len, hS]
    refine expIid_congr _ _ _ fun l' hl' hl'' => ?_
    simp only [Prog.post, Prog.lift_def]
    rw [mapM_trim fuel m hf' l' fun T hT => ((mem_statesFin _ _ T).mp (hl'' T hT)).1]
    rfl
  have single : ∀ T ∈ l, ∑ T' ∈ statesFin (m + m) S.sum, ENNReal.ofReal
      (bosonProb (rowsOf (expandedMatrix d)) (S ++ S.map fun _ => 0) T') * (if T'.take m = T then 1 else 0)
        = ENNReal.ofReal (lossyProb W b S T) := by
    intro T hT
    rw [← C35_dilation M d h h1 W b hW S hS hm fuel hf hf' 1 0 (by decide) T (hl T hT)]
    refine Eq.trans ?_ (key 1 _).symm
    rw [expIid_congr _ _ (fun l => if (l.getD 0 []).take m = T then 1 else 0)]
    · exact (expIid_at ht _ 0 (by decide) (fun T' => if T'.take m = T then 1 else 0)).symm
    · intro l' hl' _
      match l', hl' with
      | [T'], _ => simp
  unfold Prog.prob
  rw [key]
  simp only [Except.ok.injEq]
  rw [expIid_indicator_map, List.map_congr_left single]

/-- A concrete case: a lossless single mode. -/
example : (lossyNetSimulate (ryserSubPermanents 5) oneSvd 5 [3] 2).prob (fun r => r = .ok [[3], [3]]) = 1 := by
  have := C70_network 1 oneSvd oneSvd_isSvd (fun i => by simp [oneSvd]) _ 0 (unitary_isDilation (one_mem _)) [3] rfl
    one_pos 5 (by decide) (by decide) [[3], [3]] (by simp)
  refine this.trans ?_
  simp only [List.map_cons, List.map_nil, List.prod_cons, List.prod_nil, mul_one, lossyProb_single (one_mem _),
    ENNReal.ofReal_one]

/-- C70, the sampler with a fixed number of particles left. -/
theorem C70_fixed {net : List ℂ → Py (List ℂ)} {A : Matrix (Fin m) (Fin m) ℂ} (h : NetworkOf net A) (hm : 0 < m)
    (d : Svd m) (hd : IsSvd A d) (hs : ∀ i, d.s i ≤ 1) (k : ℤ) (S : List ℕ) (hS : 1 ≤ S.sum) (l : List (List ℕ))
    (hl : ∀ T ∈ l, T.length = m ∧ T.sum ≤ k.toNat) :
    (fixedSimulate net m k S l.length).prob (fun r => r = .ok l)
      = (l.map fun T => expUniform m fun us => ENNReal.ofReal (multinomialProb
          (List.ofFn fun i => Complex.normSq ((A *ᵥ smeared m S.sum us) i)) k.toNat T)).prod := by
  rw [fixedSimulate, fixedLoop_eq, Int.toNat_natCast, Prog.repeatN_joint]
  congr 1
  refine List.map_congr_left fun T hT => ?_
  exact fixedSample_law h hm d hd hs k S hS T (hl T hT).1 (hl T hT).2

/-- C70, the approximate sampler with uniform losses. -/
theorem C70_separable {A : Matrix (Fin m) (Fin m) ℂ} (hm : 0 < m) (d : Svd m) (hd : IsSvd A d) (hs : ∀ i, d.s i ≤ 1)
    (fuel : ℕ) (hf : m < fuel) (eta : ℝ) (h0 : 0 ≤ eta) (h1 : eta ≤ 1) (S : List ℕ) (hS : 1 ≤ S.sum)
    (l : List (List ℕ)) (hl : ∀ T ∈ l, T.length = m) :
    (uniformSimulate fuel d m eta S l.length).prob (fun r => r = .ok l)
      = (l.map fun T => ∑ k ∈ Icc T.sum S.sum, ENNReal.ofReal ((S.sum.choose k : ℝ) * eta ^ k * (1 - eta) ^ (S.sum - k)) *
          expUniform m fun us => ENNReal.ofReal (multinomialProb
            (List.ofFn fun i => Complex.normSq ((A *ᵥ smeared m S.sum us) i)) k T)).prod := by
  rw [uniformSimulate, uniformLoop_eq, Int.toNat_natCast, Prog.repeatN_joint]
  congr 1
  refine List.map_congr_left fun T hT => ?_
  rw [← C57_sample hm d hd hs fuel hf eta h0 h1 S hS 1 0 (by decide) T (hl T hT), uniformSimulate, uniformLoop_eq,
    Prog.repeatN_marginal (uniformSample_all (networkOf_strategies A d hd fuel hf).1 hm h0 h1 S) _ 0 (by decide) T]

section
variable {M A : Matrix (Fin m) (Fin m) ℂ} {d : Svd m} {cpu : ℕ} {k t : ℤ} {l₀ eta : ℝ} {K th : ℕ} {fuel : ℕ}
  {svd : Matrix (Fin m) (Fin m) ℂ → Svd m}

/-- C70, the sampler for non-uniform losses, after any completed calls: also the samples drawn in different
processes are independent. -/
theorem C70_bobs (h : BobsSetup M d cpu k t A l₀ eta K th) (hsvd : ∀ B, IsSvd B (svd B))
    {calls : List (List ℕ × ℤ)} {o : BobsObj m}
    (hh : BobsHistory svd (ryserSubPermanents fuel) fuel d cpu k t calls o) (S : List ℕ) (hS : S.length = m) (N : ℤ)
    (hN : 1 ≤ N) (hf : (pastParticles K calls + S.sum + 1) ^ m ≤ fuel) (hf' : m < fuel)
    (W : (Fin K → ℝ) → List (List ℂ)) (b : ℕ)
    (hW : ∀ us, IsDilation (rowsOf (A * phaseMatrix K m us * dftMatrix K m)) (W us) m b)
    (l : List (List ℕ)) (hc : l.length = th * (N.toNat / th + 1)) (hl : ∀ T ∈ l, T.length = m) :
    (bobsSimulate svd (ryserSubPermanents fuel) fuel o S N).prob (fun r => ∃ o', r = .ok (l, o'))
      = (l.map fun T => approxLaw K (pastParticles K calls + (S.take K).sum) eta W b S T).prod := by
  classical
  obtain ⟨h3, h4, h5, h6, h7⟩ := hh.inv h
  obtain ⟨o', e1, e2, e3, e4, e5, e6, e7, mx, e8, e9⟩ := h3.prepare S hS
  have hfm : (mx + 1) ^ m ≤ fuel := (Nat.pow_le_pow_left (by omega) m).trans hf
  have single : ∀ T ∈ l, (bobsSample svd (ryserSubPermanents fuel) fuel o').prob (fun r => r = .ok T)
      = approxLaw K (pastParticles K calls + (S.take K).sum) eta W b S T := by
    intro T hT
    rw [← C40_law_partial h hsvd hh S hS N hN hf hf' W b hW 0 (by omega) T (hl T hT)]
    exact (bobsSimulate_prob svd hsvd S N hN e1 e7.threads e9 fuel hfm hf' 0
      (Nat.mul_pos e7.threads (Nat.succ_pos _)) T).symm
  rw [bobsSimulate_eq svd _ fuel o o' S N hN e1 e7.threads, e3, h6, ← hc, ← List.map_congr_left single,
    ← Prog.repeatN_joint]
  unfold Prog.prob
  rw [Prog.wp_bind]
  refine Prog.wp_congr _ _ _ fun r _ => ?_
  cases r with
  | error e => simp [Prog.post]
  | ok l' => simp [Prog.post, Prog.wp]

end

/-- A concrete case: a lossless single mode, approximated; a call for one sample in one process returns two. -/
example (svd : Matrix (Fin 1) (Fin 1) ℂ → Svd 1) (hsvd : ∀ B, IsSvd B (svd B)) :
    ∃ o, BobsHistory svd (ryserSubPermanents 3) 3 oneSvd 1 1 1 [] o ∧
      (bobsSimulate svd (ryserSubPermanents 3) 3 o [1] 1).prob (fun r => ∃ o', r = .ok ([[1], [1]], o')) = 1 := by
  obtain ⟨o, h1, -⟩ := oneSetup.inv
  have hh : BobsHistory svd (ryserSubPermanents 3) 3 oneSvd 1 1 1 [] o := .new h1
  refine ⟨o, hh, (C70_bobs oneSetup hsvd hh [1] rfl 1 le_rfl (by decide) (by decide) _ 0 (fun us =>
    unitary_isDilation (mul_mem (mul_mem (one_mem _) (generatePhases_eq 1 1 le_rfl us).2) (generateQft_eq 1 1 le_rfl).2))
    [[1], [1]] (by decide) (by simp)).trans ?_⟩
  have := one_law 1
  simp only [pastParticles, List.map_nil, List.sum_nil, List.take_succ_cons, List.take_zero, List.sum_cons, add_zero,
    zero_add, List.map_cons, List.prod_cons, List.prod_nil, this, mul_one]

/-- C70, the sampler for uniform losses with `h` exactly treated modes. -/
theorem C70_uniform_bobs (hash : List ℕ → ℤ) (fuel : ℕ) (U : Matrix (Fin m) (Fin m) ℂ)
    (hU : U ∈ Matrix.unitaryGroup (Fin m) ℂ)
    (cpu : ℕ) (hc : 0 < cpu) (eta : ℝ) (h0 : 0 ≤ eta) (h1 : eta ≤ 1) (h : ℕ) (hh : 1 ≤ h) (hm : h < m) (t : ℤ)
    (o : UBobsObj m) (ho : uBobsInit U cpu eta h t = .ok o) (S : List ℕ) (hS : S.length = m)
    (hp : eta = 0 ∨ eta = 1 ∨ ∀ a ∈ S.take h, a ≤ 1) (hhash : HashOk hash (S.take h)) (hf : (S.sum + 1) ^ m ≤ fuel)
    (l : List (List ℕ)) (hne : l ≠ []) (hl : ∀ T ∈ l, T.length = m) :
    (uBobsSimulate hash (ryserSubPermanents fuel) fuel o S l.length).prob (fun r => r = .ok l)
      = (l.map fun T => ∑ k ∈ range ((S.drop h).sum + 1), ENNReal.ofReal (binomialWeight (S.drop h).sum k eta) *
          expLoss eta (S.take h) fun p => expUniform (m - h) fun us =>
            (∑ σ : Equiv.Perm (Fin m), ENNReal.ofReal (lossyProb
              (rowsOf (U.submatrix id σ * phaseMatrix (m - h) m us * dftMatrix (m - h) m)) 0
              (p ++ k :: List.replicate (m - h - 1) 0) T)) / m.factorial).prod := by
  have hlen := List.length_pos_of_ne_nil hne
  obtain rfl := uBobsInit_ok ho
  obtain ⟨L, h2, h3, -⟩ := uBobsSimulate_eq hash (ryserSubPermanents fuel) fuel (uBobsNew U cpu eta h t) S hS hhash
    (uBobsThreadsNumber_pos cpu hc t) l.length (by omega)
  rw [h3 hm, Int.toNat_natCast, Prog.repeatN_joint]
  congr 1
  refine List.map_congr_left fun T hT => ?_
  exact uBobsSample_prob (o := uBobsNew U cpu eta h t) hh hm rfl hU h0 h1 hp hS L h2 fuel hf T (hl T hT)

/-- A concrete case: the interferometer does nothing, the only particle is in the exactly treated first mode;
two samples both show it in the second mode with probability `1/4`. -/
example (o : UBobsObj 2) (ho : uBobsInit 1 4 1 1 2 = .ok o) :
    (uBobsSimulate (fun l => (Encodable.encode l : ℤ)) (ryserSubPermanents 4) 4 o [1, 0] 2).prob
      (fun r => r = .ok [[0, 1], [0, 1]]) = ENNReal.ofReal (1 / 2) * ENNReal.ofReal (1 / 2) := by
  refine (C70_uniform_bobs _ 4 1 (one_mem _) 4 (by decide) 1 zero_le_one le_rfl 1 le_rfl (by decide) 2 o ho [1, 0] rfl
    (.inr (.inl rfl)) (hashOk_encode _) (by decide) [[0, 1], [0, 1]] (by simp) (by simp)).trans ?_
  have e := C60_permuted o ho
  rw [C60_sample _ 4 1 (one_mem _) 4 (by decide) 1 zero_le_one le_rfl 1 le_rfl (by decide) 2 o ho [1, 0] rfl
    (.inr (.inl rfl)) (hashOk_encode _) (by decide) 5 3 (by decide) [0, 1] rfl] at e
  rw [List.map_cons, List.map_cons, List.map_nil, List.prod_cons, List.prod_cons, List.prod_nil, mul_one, e]

end Verif
