import Verif.Proofs.ApproxStatistics
import Verif.Props.NetworkStatistics
import Verif.Props.SeparableMixture
import Verif.Props.BobsMixture

/-!
C116: distributions estimated from the samples of the approximate samplers.
-/
namespace Verif

open Finset
open scoped ENNReal

variable {m : ℕ}

theorem thrownProb_total {A : Matrix (Fin m) (Fin m) ℂ} {d : Svd m} (hd : IsSvd A d) (hs : ∀ i, d.s i ≤ 1)
    {W : List (List ℂ)} {b : ℕ} (hW : IsDilation (rowsOf A) W m b) {n : ℕ} (hn : 1 ≤ n) (hnm : n ≤ m) (k : ℕ) :
    ∑ T ∈ statesUpTo m k, thrownProb W m b n k T = 1 := by
  simp only [thrownProb]
  rw [← sum_div, sum_comm, sum_congr rfl fun f _ => ?_]
  · rw [sum_const, card_univ, Fintype.card_fun, Fintype.card_fin, Fintype.card_fin, nsmul_eq_mul, mul_one, Nat.cast_pow]
    exact div_self (pow_ne_zero _ (by exact_mod_cast (show n ≠ 0 by omega)))
  · have h1 := (lossyNet_law hd hs hW (thrown_length m f) (by omega) (((thrown m f).map (· + 1)).prod + (m + 1)) (by omega)
      (by omega) 1).2
    rw [thrown_length, thrown_sum hnm, ← ENNReal.ofReal_sum_of_nonneg fun T _ => lossyProb_nonneg W b _ T,
      ENNReal.ofReal_eq_one] at h1
    exact h1

/-- The samples of the fixed-loss sampler are independent, each with the law of C112. -/
theorem fixed_iid {net : List ℂ → Py (List ℂ)} {A : Matrix (Fin m) (Fin m) ℂ} (h : NetworkOf net A) (d : Svd m)
    (hd : IsSvd A d) (hs : ∀ i, d.s i ≤ 1) {W : List (List ℂ)} {b : ℕ} (hW : IsDilation (rowsOf A) W m b) (k : ℕ)
    (S : List ℕ) (hS : 1 ≤ S.sum) (hSm : S.sum ≤ m) (N : ℕ) (f : Py (List (List ℕ)) → ℝ≥0∞)
    (hf : ∀ l : List (List ℕ), l.length = N → (∀ T ∈ l, T ∈ statesUpTo m k) → f (.ok l) ≠ ⊤) :
    (fixedSimulate net m k S N).wp f
      = expIid (statesUpTo m k) (fun T => ENNReal.ofReal (thrownProb W m b S.sum k T)) N fun l => f (.ok l) := by
  have hall := fixedSample_all net m (by omega) h.total k S
  have hp : ∀ T ∈ statesUpTo m k, (fixedSample net m k S).prob (fun r => r = .ok T)
      = ENNReal.ofReal (thrownProb W m b S.sum k T) := by
    intro T hT
    rw [mem_statesUpTo] at hT
    rw [← C112_fixed h d hd hs hW k S hS hSm 1 0 (by decide) T hT.1, fixedSimulate, fixedLoop_eq,
      Prog.repeatN_marginal hall _ 0 (by decide) T]
  rw [fixedSimulate, fixedLoop_eq, Int.toNat_natCast, repeatN_iid (statesUpTo m k) ?_ ?_ N f hf]
  · exact expIid_congr_law hp N _
  · exact Prog.all_mono hall (fun T hT => (mem_statesUpTo _ _ T).mpr ⟨hT.1, by simpa using hT.2.1⟩) fun _ h => h
  · rw [sum_congr rfl hp, ← ENNReal.ofReal_sum_of_nonneg fun T _ => thrownProb_nonneg _ _ _ _ _ _,
      thrownProb_total hd hs hW hS hSm k, ENNReal.ofReal_one]

/-- C116, `k` particles left: for one particle in each of the first `n` modes, the distribution estimated from `N` samples of the
fixed-loss sampler fails to be within `count_tv_distance_error_bound_of_experiment_results(len(outs), N, δ)` plus the bound of C113
of the exact distribution for `k` random survivors with probability at most `δ`. -/
theorem C116_fixed {net : List ℂ → Py (List ℂ)} {A : Matrix (Fin m) (Fin m) ℂ} (h : NetworkOf net A) (d : Svd m)
    (hd : IsSvd A d) (hs : ∀ i, d.s i ≤ 1) {W : List (List ℂ)} {b : ℕ} (hW : IsDilation (rowsOf A) W m b) (k : ℕ)
    (S : List ℕ) (hS : 1 ≤ S.sum) (hF : FirstModes m S) (hk : k ≤ S.sum)
    (outs : List (List ℕ)) (hn : outs.Nodup) (ho : ∀ T, T ∈ outs ↔ T.length = m ∧ T.sum ≤ k)
    (fuel N : ℕ) (δ : ℝ) (left j : ℤ) (hN : 0 < N) (hδ0 : 0 < δ) (hδ1 : δ ≤ 1) :
    (approximateDistribution (fixedSimulate net m k) fuel ⟨S, S.length, left, some outs, j⟩ N).prob
        (Misses (outs.map (survivorsProb W b S k)) (tvErrorBound outs.length N δ + (k : ℝ) * (k - 1) / (2 * S.sum)))
      ≤ ENNReal.ofReal δ := by
  have hSm := hF.le
  obtain ⟨-, h2⟩ := C113_fixed h d hd hs hW k S hS hF hk 1 0 (by decide) ∅ (by simp)
  have h3 := thrown_survivors hd hs hW k hS hSm hF hk (statesUpTo m k) fun T hT => ((mem_statesUpTo _ _ T).mp hT).1
  refine approximateDistribution_bias (fixedSimulate net m k) fuel ⟨S, S.length, left, some outs, j⟩ N N hN le_rfl m (statesUpTo m k)
    (thrownProb W m b S.sum k) (survivorsProb W b S k) (fun f hf => fixed_iid h d hd hs hW k S hS hSm N f hf)
    (thrownProb_nonneg _ _ _ _ _) ?_ (fun T hT => ((mem_statesUpTo _ _ T).mp hT).1) outs rfl
    (fun T => by rw [ho, mem_statesUpTo]) hn δ hδ0 hδ1 (1 - S.sum.descFactorial k / (S.sum : ℝ) ^ k) _ (by linarith)
    (by rw [sub_self, zero_div]; linarith)
  rw [← ENNReal.ofReal_sum_of_nonneg fun T _ => thrownProb_nonneg _ _ _ _ _ _, thrownProb_total hd hs hW hS hSm k,
    ENNReal.ofReal_one]

/-! ### Uniform losses -/

/-- The law of a sample of the uniform-loss sampler. -/
noncomputable def thinnedProb (W : List (List ℂ)) (m b n : ℕ) (eta : ℝ) (T : List ℕ) : ℝ :=
  ∑ l ∈ range (n + 1), binomialWeight n l eta * thrownProb W m b n l T

theorem thinnedProb_nonneg (W : List (List ℂ)) (m b n : ℕ) {eta : ℝ} (h0 : 0 ≤ eta) (h1 : eta ≤ 1) (T : List ℕ) :
    0 ≤ thinnedProb W m b n eta T :=
  sum_nonneg fun _ _ => mul_nonneg (binomialWeight_nonneg _ _ h0 h1) (thrownProb_nonneg _ _ _ _ _ _)

theorem thinnedProb_total {A : Matrix (Fin m) (Fin m) ℂ} {d : Svd m} (hd : IsSvd A d) (hs : ∀ i, d.s i ≤ 1)
    {W : List (List ℂ)} {b : ℕ} (hW : IsDilation (rowsOf A) W m b) {n : ℕ} (hn : 1 ≤ n) (hnm : n ≤ m) (eta : ℝ) :
    ∑ T ∈ statesUpTo m n, thinnedProb W m b n eta T = 1 := by
  simp only [thinnedProb]
  rw [sum_comm, sum_congr rfl fun l hl => ?_, binomialWeight_sum n eta]
  rw [mem_range] at hl
  rw [← mul_sum, ← sum_subset (s₁ := statesUpTo m l), thrownProb_total hd hs hW hn hnm l, mul_one]
  · intro T hT
    rw [mem_statesUpTo] at hT ⊢
    exact ⟨hT.1, by omega⟩
  · intro T hT hT'
    rw [mem_statesUpTo] at hT hT'
    rw [thrownProb, sum_eq_zero, zero_div]
    exact fun f _ => lossyProb_above _ _ _ _ (by rw [thrown_sum hnm]; omega)

/-- The samples of the uniform-loss sampler are independent, each with the law of C112. -/
theorem uniform_iid {A : Matrix (Fin m) (Fin m) ℂ} (d : Svd m) (hd : IsSvd A d) (hs : ∀ i, d.s i ≤ 1)
    {W : List (List ℂ)} {b : ℕ} (hW : IsDilation (rowsOf A) W m b) (fuel : ℕ) (hfu : m < fuel) (eta : ℝ) (h0 : 0 ≤ eta)
    (h1 : eta ≤ 1) (S : List ℕ) (hS : 1 ≤ S.sum) (hSm : S.sum ≤ m) (N : ℕ) (f : Py (List (List ℕ)) → ℝ≥0∞)
    (hf : ∀ l : List (List ℕ), l.length = N → (∀ T ∈ l, T ∈ statesUpTo m S.sum) → f (.ok l) ≠ ⊤) :
    (uniformSimulate fuel d m eta S N).wp f
      = expIid (statesUpTo m S.sum) (fun T => ENNReal.ofReal (thinnedProb W m b S.sum eta T)) N fun l => f (.ok l) := by
  have hn := (networkOf_strategies A d hd fuel hfu).1
  have hall := uniformSample_all hn (by omega) h0 h1 S
  have hp : ∀ T ∈ statesUpTo m S.sum, (uniformSample (lossySimulate fuel d) m eta S).prob (fun r => r = .ok T)
      = ENNReal.ofReal (thinnedProb W m b S.sum eta T) := by
    intro T hT
    rw [mem_statesUpTo] at hT
    rw [thinnedProb, ← C112_uniform d hd hs hW fuel hfu eta h0 h1 S hS hSm 1 0 (by decide) T hT.1, uniformSimulate,
      uniformLoop_eq, Prog.repeatN_marginal hall _ 0 (by decide) T]
  rw [uniformSimulate, uniformLoop_eq, Int.toNat_natCast, repeatN_iid (statesUpTo m S.sum) ?_ ?_ N f hf]
  · exact expIid_congr_law hp N _
  · exact Prog.all_mono hall (fun T hT => (mem_statesUpTo _ _ T).mpr hT) fun _ h => h
  · rw [sum_congr rfl hp, ← ENNReal.ofReal_sum_of_nonneg fun T _ => thinnedProb_nonneg _ _ _ _ h0 h1 _,
      thinnedProb_total hd hs hW hS hSm eta, ENNReal.ofReal_one]

/-- C116, uniform losses: for one particle in each of the first `n` modes of a possibly lossy network, the distribution estimated
from `N` samples of the uniform-loss sampler fails to be within the computed error bound plus `η² (n - 1) / 2` of the exact
distribution, in which each particle survives with probability `η`, with probability at most `δ`. -/
theorem C116_uniform {A : Matrix (Fin m) (Fin m) ℂ} (d : Svd m) (hd : IsSvd A d) (hs : ∀ i, d.s i ≤ 1)
    {W : List (List ℂ)} {b : ℕ} (hW : IsDilation (rowsOf A) W m b) (fuel : ℕ) (hf : m < fuel) (eta : ℝ) (h0 : 0 ≤ eta)
    (h1 : eta ≤ 1) (S : List ℕ) (hS : 1 ≤ S.sum) (hF : FirstModes m S)
    (outs : List (List ℕ)) (hn : outs.Nodup) (ho : ∀ T, T ∈ outs ↔ T.length = m ∧ T.sum ≤ S.sum)
    (N : ℕ) (δ : ℝ) (left j : ℤ) (hN : 0 < N) (hδ0 : 0 < δ) (hδ1 : δ ≤ 1) :
    (approximateDistribution (uniformSimulate fuel d m eta) fuel ⟨S, S.length, left, some outs, j⟩ N).prob
        (Misses (outs.map fun T => ∑ l ∈ range (S.sum + 1), binomialWeight S.sum l eta * survivorsProb W b S l T)
          (tvErrorBound outs.length N δ + eta ^ 2 * (S.sum - 1) / 2))
      ≤ ENNReal.ofReal δ := by
  have hSm := hF.le
  refine approximateDistribution_bias (uniformSimulate fuel d m eta) fuel ⟨S, S.length, left, some outs, j⟩ N N hN le_rfl m
    (statesUpTo m S.sum) (thinnedProb W m b S.sum eta) _ (fun f hf' => uniform_iid d hd hs hW fuel hf eta h0 h1 S hS hSm N f hf')
    (thinnedProb_nonneg _ _ _ _ h0 h1) ?_ (fun T hT => ((mem_statesUpTo _ _ T).mp hT).1) outs rfl
    (fun T => by rw [ho, mem_statesUpTo]) hn δ hδ0 hδ1 (eta ^ 2 * (S.sum - 1) / 2) _ ?_ (by rw [sub_self, zero_div, add_zero])
  · rw [← ENNReal.ofReal_sum_of_nonneg fun T _ => thinnedProb_nonneg _ _ _ _ h0 h1 _, thinnedProb_total hd hs hW hS hSm eta,
      ENNReal.ofReal_one]
  · refine le_trans (le_of_eq ?_) (C113_uniform d hd hs hW fuel hf eta h0 h1 S hS hF 1 0 (by decide) (statesUpTo m S.sum)
      fun T hT => ((mem_statesUpTo _ _ T).mp hT).1)
    congr 1
    refine sum_congr rfl fun T hT => ?_
    rw [C112_uniform d hd hs hW fuel hf eta h0 h1 S hS hSm 1 0 (by decide) T ((mem_statesUpTo _ _ T).mp hT).1,
      ENNReal.toReal_ofReal (show 0 ≤ ∑ l ∈ range (S.sum + 1), binomialWeight S.sum l eta * thrownProb W m b S.sum l T from
        thinnedProb_nonneg W m b S.sum h0 h1 T)]
    rfl

theorem pairStates (T : List ℕ) :
    T ∈ [[0, 0], [1, 0], [0, 1], [2, 0], [1, 1], [0, 2]] ↔ T.length = 2 ∧ T.sum ≤ ([1, 1] : List ℕ).sum := by
  constructor
  · intro hT
    simp only [List.mem_cons, List.not_mem_nil, or_false] at hT
    rcases hT with rfl | rfl | rfl | rfl | rfl | rfl <;> decide
  · rintro ⟨h1, h2⟩
    obtain ⟨a, b, rfl⟩ := List.length_eq_two.mp h1
    simp only [List.sum_cons, List.sum_nil, Nat.add_zero, Nat.reduceAdd] at h2
    have ha : a ≤ 2 := by omega
    have hb : b ≤ 2 := by omega
    interval_cases a <;> interval_cases b <;> simp_all

/-- Two particles in two modes that are not coupled, of which each survives with probability 1/10: the distribution estimated
from 1000 samples misses the exact one by more than the error bound plus 1/200 with probability at most 1/100. -/
example (fuel : ℕ) (hf : 2 < fuel) :
    (approximateDistribution (uniformSimulate fuel idSvd 2 (1 / 10)) fuel
        ⟨[1, 1], 2, 0, some [[0, 0], [1, 0], [0, 1], [2, 0], [1, 1], [0, 2]], 0⟩ (1000 : ℕ)).prob
      (Misses ([[0, 0], [1, 0], [0, 1], [2, 0], [1, 1], [0, 2]].map fun T => ∑ l ∈ range 3, binomialWeight 2 l (1 / 10) *
          survivorsProb (rowsOf (1 : Matrix (Fin 2) (Fin 2) ℂ)) 0 [1, 1] l T)
        (tvErrorBound 6 1000 (1 / 100) + 1 / 200)) ≤ ENNReal.ofReal (1 / 100) := by
  have h := C116_uniform idSvd idSvd_isSvd (fun i => by simp [idSvd]) (unitary_isDilation (one_mem _)) fuel hf (1 / 10)
    (by norm_num) (by norm_num) [1, 1] (by decide) rfl [[0, 0], [1, 0], [0, 1], [2, 0], [1, 1], [0, 2]] (by decide) pairStates
    1000 (1 / 100) 0 0 (by decide) (by norm_num) (by norm_num)
  refine le_trans (le_of_eq ?_) h
  congr 2
  push_cast
  norm_num

/-- C116 against the exact calculator for uniform losses, without losses in the network itself. -/
theorem C116_calculator (gray : Nat → List Nat) (hgray : ∀ n, IsGrayCode n (gray n)) (t : Int) (hash : List ℕ → Int)
    {U : Matrix (Fin m) (Fin m) ℂ} (hU : U ∈ Matrix.unitaryGroup (Fin m) ℂ) (d : Svd m) (hd : IsSvd U d) (hs : ∀ i, d.s i ≤ 1)
    (eta : ℝ) (h0 : 0 ≤ eta) (h1 : eta ≤ 1) (S : List ℕ) (hS : 1 ≤ S.sum) (hF : FirstModes m S)
    (hinj : ∀ a b : List ℕ, StateLE a S → StateLE b S → a.sum = b.sum → hash a = hash b → a = b) :
    ∃ outs exact F, ∀ fuel ≥ F,
      uniformOutcomes fuel (expConfig (rowsOf U) S S.sum eta) = .ok outs ∧
      uniformDistribution Complex.normSq (factoryPermanent gray t fuel) hash fuel
        (uniformCalc (expConfig (rowsOf U) S S.sum eta)) = .ok exact ∧
      ∀ (N : ℕ) (δ : ℝ) (left j : ℤ), 0 < N → 0 < δ → δ ≤ 1 →
        (approximateDistribution (uniformSimulate fuel d m eta) fuel ⟨S, S.length, left, some outs, j⟩ N).prob
          (Misses exact (tvErrorBound exact.length N δ + eta ^ 2 * (S.sum - 1) / 2)) ≤ ENNReal.ofReal δ := by
  have hSm := hF.le
  have hl : S.length = m := by rw [hF]; simp
  have h := rowsOf_interferometer hU (by omega) S hl
  obtain ⟨outs, F, _, -, hF', hn, hm', hex⟩ := uniform_exact gray hgray t hash h eta h0 h1 hinj
  refine ⟨outs, _, F + (m + 1), fun fuel hf => ⟨(hex fuel (by omega)).1, (hex fuel (by omega)).2, fun N δ left j hN hδ0 hδ1 => ?_⟩⟩
  rw [List.length_map]
  have e : outs.map (uniformLossProb (rowsOf U) S eta)
      = outs.map fun T => ∑ l ∈ range (S.sum + 1), binomialWeight S.sum l eta * survivorsProb (rowsOf U) 0 S l T := by
    refine List.map_congr_left fun T hT => ?_
    rw [survivors_uniform _ _ _ _ ((mem_statesUpTo _ _ T).mp ((hm' T).mp hT)).2]
    rfl
  rw [e]
  exact C116_uniform d hd hs (unitary_isDilation hU) fuel (by omega) eta h0 h1 S hS hF outs hn
    (fun T => by rw [hm', mem_statesUpTo, hl]) N δ left j hN hδ0 hδ1

/-! ### Non-uniform losses -/

section
variable {M A : Matrix (Fin m) (Fin m) ℂ} {d : Svd m} {cpu : ℕ} {k t : ℤ} {l eta : ℝ} {K th fuel : ℕ}
  {svd : Matrix (Fin m) (Fin m) ℂ → Svd m}

/-- `simulate` of the sampler for non-uniform losses, `NonuniformLossesApproximationStrategy`, on an object `o`, as the strategy of
a sample-based calculator. -/
noncomputable def bobsStrategy (svd : Matrix (Fin m) (Fin m) ℂ → Svd m) (fuel : ℕ) (o : BobsObj m) : Strategy := fun S N => do
  let r ← bobsSimulate svd (ryserSubPermanents fuel) fuel o S N
  pure r.1

theorem scrambledProb_total {d' : Svd m} (hd : IsSvd M d') (hs : ∀ i, d'.s i ≤ 1)
    {W : List (List ℂ)} {b : ℕ} (hW : IsDilation (rowsOf M) W m b) (hm : 0 < m) (hKm : K ≤ m) (p : ℕ) (hK : 0 < K ∨ p = 0)
    {S : List ℕ} (hS : S.length = m) :
    ∑ T ∈ statesUpTo m (p + (S.drop K).sum), scrambledProb W b K p S T = 1 := by
  simp only [scrambledProb]
  rw [← sum_div, sum_comm, sum_congr rfl fun f _ => ?_]
  · rw [sum_const, card_univ, Fintype.card_fun, Fintype.card_fin, Fintype.card_fin, nsmul_eq_mul, mul_one, Nat.cast_pow]
    rcases hK with hK | rfl
    · exact div_self (pow_ne_zero _ (by exact_mod_cast hK.ne'))
    · simp
  · have hl : (thrown K f ++ S.drop K).length = m := by rw [List.length_append, thrown_length, List.length_drop]; omega
    have h1 := (lossyNet_law hd hs hW hl hm (((thrown K f ++ S.drop K).map (· + 1)).prod + (m + 1)) (by omega)
      (by omega) 1).2
    rw [hl, List.sum_append, thrown_sum le_rfl, ← ENNReal.ofReal_sum_of_nonneg fun T _ => lossyProb_nonneg W b _ T,
      ENNReal.ofReal_eq_one] at h1
    exact h1

theorem bunched_le {o' : BobsObj m} {S T : List ℕ} {past : ℕ} (e2 : o'.k = K) (e5 : o'.number = past + (S.take K).sum)
    (e6 : o'.state = List.replicate K 0 ++ S.drop K) (hT : ∃ st ∈ bobsStates o', T.sum ≤ st.sum) : T.sum ≤ past + S.sum := by
  obtain ⟨st, hst, hle⟩ := hT
  subst e2
  have hsum : past + (S.take o'.k).sum + (S.drop o'.k).sum = past + S.sum := by
    rw [add_assoc, ← List.sum_append, List.take_append_drop]
  rw [bunchedStates_eq o' S e6, bunchedStates] at hst
  refine hle.trans ?_
  split_ifs at hst with hK
  · rw [List.mem_singleton.mp hst]
    exact Nat.le_add_left _ _
  · obtain ⟨j, -, rfl⟩ := List.mem_map.mp hst
    rw [← hsum, e5]
    simp

/-- The samples of a call are independent, each with the law of C114. -/
theorem bobs_iid (h : BobsSetup M d cpu k t A l eta K th) (hsvd : ∀ B, IsSvd B (svd B)) (htol : l = 0 ∨ 1e-8 < l)
    {calls : List (List ℕ × ℤ)} {o : BobsObj m} (hh : BobsHistory svd (ryserSubPermanents fuel) fuel d cpu k t calls o)
    (S : List ℕ) (hS : S.length = m) (N : ℕ) (hN : 0 < N) (hf : (pastParticles K calls + S.sum + 1) ^ m ≤ fuel) (hf' : m < fuel)
    (W : List (List ℂ)) (b : ℕ) (hW : IsDilation (rowsOf M) W m b) (f : Py (List (List ℕ)) → ℝ≥0∞)
    (hfin : ∀ l : List (List ℕ), l.length = th * (N / th + 1) →
      (∀ T ∈ l, T ∈ statesUpTo m (pastParticles K calls + S.sum)) → f (.ok l) ≠ ⊤) :
    (bobsStrategy svd fuel o S N).wp f
      = expIid (statesUpTo m (pastParticles K calls + S.sum)) (fun T => ENNReal.ofReal
          (scrambledProb W b K (pastParticles K calls + (S.take K).sum) S T)) (th * (N / th + 1)) fun l => f (.ok l) := by
  have law := fun T hT => C114_sample h hsvd htol hh S hS 1 le_rfl hf hf' W b hW 0 (by decide) T hT
  obtain ⟨h3, h4, h5, h6, h7⟩ := hh.inv h
  obtain ⟨o', e1, e2, e3, e4, e5, e6, e7, mx, e8, e9⟩ := h3.prepare S hS
  have hfm : (mx + 1) ^ m ≤ fuel := (Nat.pow_le_pow_left (by omega) m).trans hf
  have hth : o'.threads = th := by rw [e3, h6]
  have hsum : pastParticles K calls + (S.take K).sum + (S.drop K).sum = pastParticles K calls + S.sum := by
    rw [add_assoc, ← List.sum_append, List.take_append_drop]
  have hp : ∀ T ∈ statesUpTo m (pastParticles K calls + S.sum),
      (bobsSample svd (ryserSubPermanents fuel) fuel o').prob (fun r => r = .ok T)
        = ENNReal.ofReal (scrambledProb W b K (pastParticles K calls + (S.take K).sum) S T) := by
    intro T hT
    rw [mem_statesUpTo] at hT
    rw [← law T hT.1, bobsSimulate_prob svd hsvd S 1 le_rfl e1 e7.threads e9 fuel hfm hf' 0 (Nat.mul_pos e7.threads (Nat.succ_pos _)) T]
  have hall := bobsSample_all e9 svd hsvd fuel hfm hf'
  have hassoc : bobsStrategy svd fuel o S N
      = ((bobsSample svd (ryserSubPermanents fuel) fuel o').repeatN (th * (N / th + 1))).bind fun l => .done (.ok l) := by
    rw [bobsStrategy, bobsSimulate_eq svd _ fuel o o' S N (by exact_mod_cast hN) e1 e7.threads, hth, Int.toNat_natCast,
      Prog.bind_eq, Prog.bind_assoc]
    rfl
  have hpost : Prog.post (fun l : List (List ℕ) => (Prog.done (.ok l) : Prog _)) f = f := by
    funext r
    cases r <;> rfl
  rw [hassoc, Prog.wp_bind, hpost, repeatN_iid (statesUpTo m (pastParticles K calls + S.sum)) ?_ ?_ _ f hfin]
  · exact expIid_congr_law hp _ _
  · refine Prog.all_mono hall (fun T hT => (mem_statesUpTo _ _ T).mpr ⟨hT.1, ?_⟩) fun _ h => h
    exact bunched_le (by rw [e2, h4]) (by rw [e5, h4, h5]) (by rw [e6, h4]) hT.2
  · rw [sum_congr rfl hp, ← ENNReal.ofReal_sum_of_nonneg fun T _ => scrambledProb_nonneg _ _ _ _ _ _, ← hsum,
      scrambledProb_total h.isSvd h.le_one hW h3.pos h.modes_le _ ?_ hS, ENNReal.ofReal_one]
    rcases Nat.eq_zero_or_pos K with rfl | hK
    · right
      rw [pastParticles_zero]
      simp
    · exact .inl hK

/-- C116, non-uniform losses: for one particle in each of the `K` approximated modes, any particles in the other modes, and no
particles in the approximated modes in earlier calls, the distribution estimated with `samples_number = N` is, except with
probability `δ`, within the error bound for the `N' > N` samples that are drawn, plus `η² (K - 1) / 2` of C115, plus
`(N' - N) / (2 N)` because the counts of `N'` samples are divided by `N`. -/
theorem C116_bobs (h : BobsSetup M d cpu k t A l eta K th) (hsvd : ∀ B, IsSvd B (svd B)) (htol : l = 0 ∨ 1e-8 < l)
    {calls : List (List ℕ × ℤ)} {o : BobsObj m} (hh : BobsHistory svd (ryserSubPermanents fuel) fuel d cpu k t calls o)
    (hp : ∀ c ∈ calls, ∀ x ∈ c.1.take K, x = 0)
    (S : List ℕ) (hS : S.length = m) (hK : 0 < K) (hones : S.take K = List.replicate K 1)
    (hf : (S.sum + 1) ^ m ≤ fuel) (hf' : m < fuel) (W : List (List ℂ)) (b : ℕ) (hW : IsDilation (rowsOf M) W m b)
    (outs : List (List ℕ)) (hn : outs.Nodup) (ho : ∀ T, T ∈ outs ↔ T.length = m ∧ T.sum ≤ S.sum)
    (N N' : ℕ) (hN' : N' = th * (N / th + 1)) (δ : ℝ) (left j : ℤ) (hN : 0 < N) (hδ0 : 0 < δ) (hδ1 : δ ≤ 1) :
    (approximateDistribution (bobsStrategy svd fuel o) fuel ⟨S, S.length, left, some outs, j⟩ N).prob
        (Misses (outs.map (lossyProb W b S))
          (tvErrorBound outs.length N' δ + eta ^ 2 * (K - 1) / 2 + ((N' : ℝ) - N) / (2 * N)))
      ≤ ENNReal.ofReal δ := by
  have hpast : pastParticles K calls = 0 := by
    unfold pastParticles
    rw [List.sum_eq_zero_iff]
    intro x hx
    obtain ⟨c, hc, rfl⟩ := List.mem_map.mp hx
    split_ifs
    · rfl
    · exact List.sum_eq_zero_iff.mpr (hp c hc)
  have hfp : (pastParticles K calls + S.sum + 1) ^ m ≤ fuel := by rw [hpast, Nat.zero_add]; exact hf
  have hinv := (hh.inv h).1
  have hth : 0 < th := by rw [← (hh.inv h).2.2.2.1]; exact hinv.threads
  have hle : N ≤ N' := by
    have h1 := Nat.div_add_mod N th
    have h2 := Nat.mod_lt N hth
    rw [hN', Nat.mul_add, Nat.mul_one]
    omega
  have hsum : (S.take K).sum + (S.drop K).sum = S.sum := by rw [← List.sum_append, List.take_append_drop]
  have law := fun T hT => C114_sample h hsvd htol hh S hS 1 le_rfl hfp hf' W b hW 0 (by decide) T hT
  have iid := fun f => bobs_iid h hsvd htol hh S hS N hN hfp hf' W b hW f
  rw [hpast] at law iid
  simp only [Nat.zero_add] at law iid
  subst hN'
  refine approximateDistribution_bias (bobsStrategy svd fuel o) fuel ⟨S, S.length, left, some outs, j⟩ N _ hN hle m
    (statesUpTo m S.sum) (scrambledProb W b K (S.take K).sum S) _ iid (scrambledProb_nonneg _ _ _ _ _) ?_
    (fun T hT => ((mem_statesUpTo _ _ T).mp hT).1) outs rfl (fun T => by rw [ho, mem_statesUpTo]) hn δ hδ0 hδ1
    (eta ^ 2 * (K - 1) / 2) _ ?_ le_rfl
  · rw [← ENNReal.ofReal_sum_of_nonneg fun T _ => scrambledProb_nonneg _ _ _ _ _ _, ← hsum,
      scrambledProb_total h.isSvd h.le_one hW hinv.pos h.modes_le _ (.inl hK) hS, ENNReal.ofReal_one]
  · refine le_trans (le_of_eq ?_) (C115_distance h hsvd htol hh hp S hS hK hones 1 le_rfl hf hf' W b hW 0 (by decide)
      (statesUpTo m S.sum) fun T hT => ((mem_statesUpTo _ _ T).mp hT).1)
    congr 1
    refine sum_congr rfl fun T hT => ?_
    rw [law T ((mem_statesUpTo _ _ T).mp hT).1, ENNReal.toReal_ofReal (scrambledProb_nonneg _ _ _ _ _ _)]

/-- C116, non-uniform losses: the estimate is never a probability distribution. In every history every estimate over all
outcomes returns frequencies that add up to `N' / N > 1`. -/
theorem C116_total (h : BobsSetup M d cpu k t A l eta K th) (hsvd : ∀ B, IsSvd B (svd B))
    {calls : List (List ℕ × ℤ)} {o : BobsObj m} (hh : BobsHistory svd (ryserSubPermanents fuel) fuel d cpu k t calls o)
    (S : List ℕ) (hS : S.length = m) (hf : (pastParticles K calls + S.sum + 1) ^ m ≤ fuel) (hf' : m < fuel)
    (outs : List (List ℕ)) (hn : outs.Nodup) (ho : ∀ T, T ∈ outs ↔ T.length = m ∧ T.sum ≤ pastParticles K calls + S.sum)
    (N : ℕ) (left j : ℤ) (hN : 0 < N) (r : Py (List ℚ))
    (hr : (approximateDistribution (bobsStrategy svd fuel o) fuel ⟨S, S.length, left, some outs, j⟩ N).Runs r) :
    ∃ freq, r = .ok freq ∧ freq.length = outs.length ∧ freq.sum = ((th * (N / th + 1) : ℕ) : ℚ) / N ∧ 1 < freq.sum := by
  obtain ⟨h3, h4, h5, h6, h7⟩ := hh.inv h
  have hN1 : (1 : ℤ) ≤ N := by exact_mod_cast hN
  have hN0 : (N : ℤ) ≠ 0 := by omega
  have hth : 0 < th := by rw [← h6]; exact h3.threads
  have runs : ∀ x : Py (List (List ℕ)), (bobsStrategy svd fuel o S N).Runs x →
      ∃ samples, x = .ok samples ∧ samples.length = th * (N / th + 1) ∧ ∀ T ∈ samples, T ∈ outs := by
    intro x hx
    rw [bobsStrategy, Prog.bind_eq, Prog.runs_bind] at hx
    rcases hx with ⟨⟨samples, o'⟩, hx, hx'⟩ | ⟨e, hx, -⟩
    · rcases bobsSimulate_all h3 svd hsvd S hS N hN1 fuel (by rw [h5]; exact hf) hf' _ hx with ⟨_, h8, h9, h10, h11⟩ | ⟨_, _, h8⟩
      · cases h8
        obtain ⟨o'', e1, e2, e3, e4, e5, e6, -⟩ := h3.prepare S hS
        rw [h9, Except.ok.injEq] at e1
        subst e1
        rw [h6, Int.toNat_natCast] at h10
        exact ⟨samples, hx', h10, fun T hT => (ho T).mpr ⟨(h11 T hT).1,
          bunched_le (by rw [e2, h4]) (by rw [e5, h4, h5]) (by rw [e6, h4]) (h11 T hT).2⟩⟩
      · exact h8.elim
    · rcases bobsSimulate_all h3 svd hsvd S hS N hN1 fuel (by rw [h5]; exact hf) hf' _ hx with ⟨_, h8, -⟩ | ⟨_, _, h8⟩
      · cases h8
      · exact h8.elim
  have hs : ∀ samples, (bobsStrategy svd fuel o S N).Runs (.ok samples) → ∀ s ∈ samples, s.length = m := by
    intro samples hx s hsm
    obtain ⟨_, h8, -, h9⟩ := runs _ hx
    cases h8
    exact ((ho s).mp (h9 s hsm)).1
  rcases (approximateDistribution_eq (bobsStrategy svd fuel o) fuel ⟨S, S.length, left, some outs, j⟩ N hN0 m outs rfl
    (fun T hT => ((ho T).mp hT).1) hn hs r).mp hr with ⟨samples, hx, rfl⟩ | ⟨e, hx, -⟩
  · obtain ⟨_, h8, hl, hm⟩ := runs _ hx
    cases h8
    have hsum : ((outs.map fun T => (samples.count T : ℚ) / ((N : ℤ) : ℚ)).sum) = ((th * (N / th + 1) : ℕ) : ℚ) / N := by
      have h9 := count_sum_nodup outs samples hn
      rw [List.countP_eq_length.mpr (by simpa using hm), hl] at h9
      rw [← h9]
      simp only [div_eq_mul_inv]
      rw [List.sum_map_mul_right]
      congr 1
      · rw [Nat.cast_list_sum, List.map_map]
        rfl
    refine ⟨_, rfl, by simp, hsum, ?_⟩
    rw [hsum, one_lt_div (by exact_mod_cast hN)]
    have h1 := Nat.div_add_mod N th
    have h2 := Nat.mod_lt N hth
    have h3 : N < th * (N / th + 1) := by rw [Nat.mul_add, Nat.mul_one]; omega
    exact_mod_cast h3
  · obtain ⟨_, h8, -⟩ := runs _ hx
    cases h8

/-- Two particles in two modes that are not coupled, both modes approximated: an estimate from one sample returns frequencies
that add up to 2, and an estimate from 1000 samples, that draws 1001, misses the exact distribution by more than
`1/2 + 1/2000` and the error bound for 1001 samples with probability at most 1/100. -/
example (svd : Matrix (Fin 2) (Fin 2) ℂ → Svd 2) (hsvd : ∀ B, IsSvd B (svd B)) :
    ∃ o, bobsInit idSvd 1 2 1 = .ok o ∧
      (∀ r, (approximateDistribution (bobsStrategy svd 9 o) 9
          ⟨[1, 1], 2, 0, some [[0, 0], [1, 0], [0, 1], [2, 0], [1, 1], [0, 2]], 0⟩ (1 : ℕ)).Runs r →
        ∃ freq, r = .ok freq ∧ freq.sum = 2) ∧
      (approximateDistribution (bobsStrategy svd 9 o) 9
          ⟨[1, 1], 2, 0, some [[0, 0], [1, 0], [0, 1], [2, 0], [1, 1], [0, 2]], 0⟩ (1000 : ℕ)).prob
        (Misses ([[0, 0], [1, 0], [0, 1], [2, 0], [1, 1], [0, 2]].map
            (lossyProb (rowsOf (1 : Matrix (Fin 2) (Fin 2) ℂ)) 0 [1, 1]))
          (tvErrorBound 6 1001 (1 / 100) + 1 / 2 + 1 / 2000)) ≤ ENNReal.ofReal (1 / 100) := by
  obtain ⟨o, h1, -⟩ := idSetup.inv
  refine ⟨o, h1, fun r hr => ?_, ?_⟩
  · obtain ⟨freq, h2, -, h3, -⟩ := C116_total idSetup hsvd (.new h1) [1, 1] rfl (by decide) (by decide)
      [[0, 0], [1, 0], [0, 1], [2, 0], [1, 1], [0, 2]] (by decide) pairStates 1 0 0 (by decide) r hr
    exact ⟨freq, h2, by rw [h3]; norm_num⟩
  · have h2 := C116_bobs (fuel := 9) idSetup hsvd (.inl rfl) (.new h1) (by simp) [1, 1] rfl (by decide) rfl (by decide) (by decide) _ 0
      (unitary_isDilation (one_mem _)) [[0, 0], [1, 0], [0, 1], [2, 0], [1, 1], [0, 2]] (by decide) pairStates 1000 1001
      (by norm_num) (1 / 100) 0 0 (by decide) (by norm_num) (by norm_num)
    refine le_trans (le_of_eq ?_) h2
    congr 2
    push_cast
    norm_num

end

end Verif
