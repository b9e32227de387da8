import Verif.Proofs.NetworkSymmetry
import Verif.Props.Symmetry
import Verif.Props.Bobs
import Verif.Proofs.NetworkThinning
import Verif.Props.Thinning

/-! C78, C79, C80, C81 for the sampler of lossy networks. -/
namespace Verif

open Finset
open scoped ENNReal

variable {m : ℕ} {M M' : Matrix (Fin m) (Fin m) ℂ} {d d' : Svd m}

/-- C79, lossy networks: relabelling the inputs and outputs of the network relabels the samples, whatever the decompositions
of the two networks. -/
theorem C79_network {σ τ : Equiv.Perm (Fin m)} {a b : Fin m → ℂ} (hr : Relabelled σ τ a b (rowsOf M) (rowsOf M'))
    (h : IsSvd M d) (h1 : ∀ i, d.s i ≤ 1) (h' : IsSvd M' d')
    (S : List ℕ) (hS : S.length = m) (hm : 0 < m) (fuel : ℕ) (hf : (S.map (· + 1)).prod ≤ fuel) (hf' : m < fuel) (N : ℕ)
    (Q : List (List ℕ) → Prop) :
    (lossyNetSimulate (ryserSubPermanents fuel) d' fuel S N).prob (fun r => ∃ l, r = .ok l ∧ Q (l.map (moved σ)))
      = (lossyNetSimulate (ryserSubPermanents fuel) d fuel (moved τ S) N).prob (fun r => ∃ l, r = .ok l ∧ Q l) := by
  have h1' := relabelled_le_one hr h h1 h'
  have e1 := lossyNet_samples M d h h1 (moved τ S) (moved_length τ S) hm fuel
    (by rw [((moved_perm τ S hS).map _).prod_eq]; exact hf) hf' N
  have e2 := lossyNet_samples M' d' h' h1' S hS hm fuel hf hf' N
  rw [moved_length, moved_sum τ S hS] at e1
  rw [hS] at e2
  obtain ⟨m1, m2, m3, m4⟩ := moved_statesUpTo σ S.sum
  refine e1.map e2 (moved σ) (moved σ.symm) m1 m2 m3 m4 (fun T hT => ?_) Q
  rw [mem_statesUpTo] at hT
  exact lossyProb_relabelled (expanded_isDilation h h1) (expanded_isDilation h' h1') hr S T hS hT.1 hT.2

theorem sameModuli_le_one (hr : SameModuli m (rowsOf M) (rowsOf M'))
    (h : IsSvd M d) (h1 : ∀ i, d.s i ≤ 1) (h' : IsSvd M' d') (i : Fin m) : d'.s i ≤ 1 := by
  rcases hr with ⟨a, b, hr⟩ | hr
  · exact relabelled_le_one hr h h1 h' i
  · exact conjugated_le_one hr h h1 h' i

/-- C78, lossy networks: phases at the inputs and outputs of the network and complex conjugation do not change the joint
law of the samples. -/
theorem C78_network (hr : SameModuli m (rowsOf M) (rowsOf M'))
    (h : IsSvd M d) (h1 : ∀ i, d.s i ≤ 1) (h' : IsSvd M' d')
    (S : List ℕ) (hS : S.length = m) (hm : 0 < m) (fuel : ℕ) (hf : (S.map (· + 1)).prod ≤ fuel) (hf' : m < fuel) (N : ℕ)
    (Q : List (List ℕ) → Prop) :
    (lossyNetSimulate (ryserSubPermanents fuel) d' fuel S N).prob (fun r => ∃ l, r = .ok l ∧ Q l)
      = (lossyNetSimulate (ryserSubPermanents fuel) d fuel S N).prob (fun r => ∃ l, r = .ok l ∧ Q l) := by
  have h1' := sameModuli_le_one hr h h1 h'
  have e := SamplesFrom.map (lossyNet_samples M d h h1 S hS hm fuel hf hf' N)
    (lossyNet_samples M' d' h' h1' S hS hm fuel hf hf' N) id id (fun _ h => h) (fun _ h => h)
    (fun _ _ => rfl) (fun _ _ => rfl) (fun T hT => by
      rw [mem_statesUpTo, hS] at hT
      rcases hr with ⟨a, b, hr⟩ | hr
      · rw [lossyProb_relabelled (expanded_isDilation h h1) (expanded_isDilation h' h1') hr S T hS hT.1 hT.2,
          moved_one _ hS, moved_one _ hT.1]
        rfl
      · exact lossyProb_conjugated (expanded_isDilation h h1) (expanded_isDilation h' h1') hr S T hS hT.1 hT.2) Q
  simpa only [List.map_id] using e

/-- C80, lossy networks: outcomes without lost particles are as probable from `T` to `S` through the conjugate transpose of
the network as from `S` to `T` through the network. -/
theorem C80_network (h : IsSvd M d) (h1 : ∀ i, d.s i ≤ 1) (h' : IsSvd M.conjTranspose d')
    (S : List ℕ) (hS : S.length = m) (hm : 0 < m) (T : List ℕ) (hT : T.length = m) (hs : T.sum = S.sum)
    (fuel : ℕ) (hf : (S.map (· + 1)).prod ≤ fuel) (hfT : (T.map (· + 1)).prod ≤ fuel) (hf' : m < fuel) (N : ℤ)
    (i : ℕ) (hi : i < N.toNat) :
    (lossyNetSimulate (ryserSubPermanents fuel) d' fuel T N).prob (fun r => ∃ l, r = .ok l ∧ l[i]? = some S)
      = (lossyNetSimulate (ryserSubPermanents fuel) d fuel S N).prob (fun r => ∃ l, r = .ok l ∧ l[i]? = some T) := by
  have h1' := reversed_le_one h h1 h'
  rw [C35_dilation _ d' h' h1' _ m (expanded_isDilation h' h1') T hT hm fuel hfT hf' N i hi S hS,
    C35_dilation _ d h h1 _ m (expanded_isDilation h h1) S hS hm fuel hf hf' N i hi T hT,
    lossyProb_full (expanded_isDilation h' h1') T S hT hS hs.symm, lossyProb_full (expanded_isDilation h h1) S T hS hT hs,
    bosonProb_reversed (U := rowsOf M) (m := m) ?_ S T hS hT hs.symm]
  intro i hi j hj
  rw [mget_rowsOf _ _ _ hi hj, mget_rowsOf _ _ _ hj hi]
  rfl

/-- C81, lossy networks: the samples after losses with transmissivity `y` have the joint law of the samples of the network
with all amplitudes multiplied by `√y`. -/
theorem C81_network {y : ℝ} (hy0 : 0 ≤ y) (hy1 : y ≤ 1) (h : IsSvd M d) (h1 : ∀ i, d.s i ≤ 1)
    (h' : IsSvd (((Real.sqrt y : ℝ) : ℂ) • M) d')
    (S : List ℕ) (hS : S.length = m) (hm : 0 < m) (fuel : ℕ) (hf : (S.map (· + 1)).prod ≤ fuel) (hf' : m < fuel) (N : ℕ)
    (f : Py (List (List ℕ)) → ℝ≥0∞) :
    (lossyNetSimulate (ryserSubPermanents fuel) d fuel S N).wp (afterLoss y f)
      = (lossyNetSimulate (ryserSubPermanents fuel) d' fuel S N).wp f := by
  have h1' := scaled_le_one hy0 hy1 h h1 h'
  rw [lossyNet_samples M d h h1 S hS hm fuel hf hf' N, lossyNet_samples _ d' h' h1' S hS hm fuel hf hf' N, hS]
  exact expIid_expLossAll (fun g => lossyProb_expLoss hy0 hy1 (expanded_isDilation h h1) (expanded_isDilation h' h1') S hS g)
    N _

/-! ### Concrete cases -/

/-- A decomposition with the singular values 1 and 1/2. -/
noncomputable def unevenSvd (V U : Matrix (Fin 2) (Fin 2) ℂ) : Svd 2 := { V := V, s := ![1, 1 / 2], U := U }

theorem unevenSvd_isSvd {V U M : Matrix (Fin 2) (Fin 2) ℂ} (hV : V ∈ Matrix.unitaryGroup (Fin 2) ℂ)
    (hU : U ∈ Matrix.unitaryGroup (Fin 2) ℂ) (hM : M = V * !![1, 0; 0, 1 / 2] * U) :
    IsSvd M (unevenSvd V U) ∧ ∀ i, (unevenSvd V U).s i ≤ 1 := by
  refine ⟨⟨hV, hU, fun i => ?_, fun i j h => ?_, ?_⟩, fun i => ?_⟩
  · fin_cases i <;> simp [unevenSvd]
  · fin_cases i <;> fin_cases j <;> simp [unevenSvd] at h ⊢; norm_num
  · rw [hM]
    simp only [unevenSvd]
    congr 2
    ext i j
    fin_cases i <;> fin_cases j <;> simp
  · fin_cases i <;> simp [unevenSvd]; norm_num

/-- The two modes exchanged, with a phase. -/
def swapPhase (z : ℂ) : Matrix (Fin 2) (Fin 2) ℂ := !![0, z; 1, 0]

theorem swapPhase_unitary (z : ℂ) (hz : ‖z‖ = 1) : swapPhase z ∈ Matrix.unitaryGroup (Fin 2) ℂ := by
  rw [Matrix.mem_unitaryGroup_iff]
  have := conj_mul_phase z hz
  ext i j
  fin_cases i <;> fin_cases j <;> simp [swapPhase, Matrix.mul_apply, Matrix.star_apply, mul_comm z, this]

/-- C79: a network that lets half of the amplitude of mode 1 pass, and the network followed by an exchange of the modes. -/
example (S : List ℕ) (hS : S.length = 2) (fuel : ℕ) (hf : (S.map (· + 1)).prod ≤ fuel) (hf' : 2 < fuel) (N : ℕ)
    (Q : List (List ℕ) → Prop) :
    (lossyNetSimulate (ryserSubPermanents fuel) (unevenSvd (swapPhase 1) 1) fuel S N).prob
        (fun r => ∃ l, r = .ok l ∧ Q (l.map (moved (Equiv.swap (0 : Fin 2) 1))))
      = (lossyNetSimulate (ryserSubPermanents fuel) (unevenSvd 1 1) fuel (moved (1 : Equiv.Perm (Fin 2)) S) N).prob
          (fun r => ∃ l, r = .ok l ∧ Q l) := by
  obtain ⟨a1, a2⟩ := unevenSvd_isSvd (M := !![1, 0; 0, 1 / 2]) (one_mem _) (one_mem _) (by simp)
  obtain ⟨b1, -⟩ := unevenSvd_isSvd (M := !![0, 1 / 2; 1, 0]) (swapPhase_unitary 1 (by simp)) (one_mem _) (by simp [swapPhase])
  refine C79_network (a := fun _ => 1) (b := fun _ => 1) ⟨fun i j => ?_, by simp, by simp⟩ a1 a2 b1 S hS (by decide) fuel hf
    hf' N Q
  fin_cases i <;> fin_cases j <;> simp [mget, rowsOf]

/-- C78: the phase `i` at an output of that network. -/
example (S : List ℕ) (hS : S.length = 2) (fuel : ℕ) (hf : (S.map (· + 1)).prod ≤ fuel) (hf' : 2 < fuel) (N : ℕ)
    (Q : List (List ℕ) → Prop) :
    (lossyNetSimulate (ryserSubPermanents fuel) (unevenSvd (swapPhase Complex.I) 1) fuel S N).prob
        (fun r => ∃ l, r = .ok l ∧ Q l)
      = (lossyNetSimulate (ryserSubPermanents fuel) (unevenSvd (swapPhase 1) 1) fuel S N).prob
          (fun r => ∃ l, r = .ok l ∧ Q l) := by
  obtain ⟨a1, a2⟩ := unevenSvd_isSvd (M := !![0, 1 / 2; 1, 0]) (swapPhase_unitary 1 (by simp)) (one_mem _) (by simp [swapPhase])
  obtain ⟨b1, -⟩ := unevenSvd_isSvd (M := !![0, Complex.I / 2; 1, 0]) (swapPhase_unitary Complex.I (by simp)) (one_mem _)
    (by simp [swapPhase]; rfl)
  refine C78_network (.inl ⟨fun i => if i = 0 then Complex.I else 1, fun _ => 1, fun i j => ?_, fun i => ?_, by simp⟩)
    a1 a2 b1 S hS (by decide) fuel hf hf' N Q
  · fin_cases i <;> fin_cases j <;> simp [mget, rowsOf, div_eq_mul_inv]
  · split_ifs <;> simp

/-- C80: two particles entering mode 1 of the exchanging network come out of mode 0 as often as two particles entering mode 0
of the reversed network come out of mode 1. -/
example (N : ℤ) (i : ℕ) (hi : i < N.toNat) :
    (lossyNetSimulate (ryserSubPermanents 5) (unevenSvd 1 (swapPhase 1)) 5 [2, 0] N).prob
        (fun r => ∃ l, r = .ok l ∧ l[i]? = some [0, 2])
      = (lossyNetSimulate (ryserSubPermanents 5) (unevenSvd (swapPhase 1) 1) 5 [0, 2] N).prob
          (fun r => ∃ l, r = .ok l ∧ l[i]? = some [2, 0]) := by
  obtain ⟨a1, a2⟩ := unevenSvd_isSvd (M := !![0, 1 / 2; 1, 0]) (swapPhase_unitary 1 (by simp)) (one_mem _) (by simp [swapPhase])
  obtain ⟨b1, -⟩ := unevenSvd_isSvd (M := (!![0, 1 / 2; 1, 0] : Matrix (Fin 2) (Fin 2) ℂ).conjTranspose) (one_mem _)
    (swapPhase_unitary 1 (by simp)) (by
      ext i j
      fin_cases i <;> fin_cases j <;> simp [swapPhase])
  exact C80_network a1 a2 b1 [0, 2] rfl (by decide) [2, 0] rfl rfl 5 (by decide) (by decide) (by decide) N i hi

/-- C81: losing three quarters of the particles after a lossless mode, and a mode that lets half of the amplitude pass. -/
example (n N : ℕ) (f : Py (List (List ℕ)) → ℝ≥0∞) :
    (lossyNetSimulate (ryserSubPermanents (n + 2)) oneSvd (n + 2) [n] N).wp (afterLoss (1 / 4) f)
      = (lossyNetSimulate (ryserSubPermanents (n + 2)) halfSvd (n + 2) [n] N).wp f := by
  refine C81_network (by norm_num) (by norm_num) oneSvd_isSvd (fun i => by simp [oneSvd]) ?_ [n] rfl (by decide) (n + 2) (by simp) (by omega) N f
  have e : ((Real.sqrt (1 / 4) : ℝ) : ℂ) • (1 : Matrix (Fin 1) (Fin 1) ℂ) = Matrix.of fun _ _ => (1 / 2 : ℂ) := by
    rw [show (1 / 4 : ℝ) = (1 / 2) ^ 2 by norm_num, Real.sqrt_sq (by norm_num)]
    ext i j
    simp [Subsingleton.elim i j]
  rw [e]
  exact halfSvd_isSvd

end Verif
