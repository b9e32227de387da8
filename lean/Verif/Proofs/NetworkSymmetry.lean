import Verif.Proofs.BlockNetworks
import Verif.Proofs.Symmetry

/-! Helper lemmas: the laws of relabelled, conjugated and reversed lossy networks. -/
namespace Verif

open Finset

section
variable {m : ℕ}

/-- The dilation `W` with new labels and phases of the modes of the network; the other output modes stay as they are. -/
noncomputable def relabelledRows (W : List (List ℂ)) (b : ℕ) (σ τ : Equiv.Perm (Fin m)) (p q : Fin m → ℂ) : List (List ℂ) :=
  (List.range (m + b)).map fun r => (List.range m).map fun x =>
    (if h : r < m then p ⟨r, h⟩ else 1) * mget W (extend σ r) (extend τ x) * (if h : x < m then q ⟨x, h⟩ else 1)

theorem mget_relabelledRows (W : List (List ℂ)) (b : ℕ) (σ τ : Equiv.Perm (Fin m)) (p q : Fin m → ℂ) {r x : ℕ}
    (hr : r < m + b) (hx : x < m) :
    mget (relabelledRows W b σ τ p q) r x
      = (if h : r < m then p ⟨r, h⟩ else 1) * mget W (extend σ r) (extend τ x) * (if h : x < m then q ⟨x, h⟩ else 1) := by
  simp [mget, relabelledRows, hr, hx]

theorem conj_mul_phase (z : ℂ) (h : ‖z‖ = 1) : (starRingEnd ℂ) z * z = 1 := by
  rw [← Complex.normSq_eq_conj_mul_self, Complex.normSq_eq_norm_sq, h]; norm_num

theorem relabelledRows_isDilation {B B' W : List (List ℂ)} {b : ℕ} (h : IsDilation B W m b) {σ τ : Equiv.Perm (Fin m)}
    {p q : Fin m → ℂ} (hr : Relabelled σ τ p q B B') : IsDilation B' (relabelledRows W b σ τ p q) m b := by
  refine ⟨fun i hi j hj => ?_, fun x hx y hy => ?_⟩
  · have e := hr.entry ⟨i, hi⟩ ⟨j, hj⟩
    simp only at e
    rw [mget_relabelledRows _ _ _ _ _ _ (by omega) hj, e, dif_pos hi, dif_pos hj, extend, extend, dif_pos hi, dif_pos hj,
      h.embeds _ (Fin.is_lt _) _ (Fin.is_lt _)]
  · have ex : ∀ x (hx : x < m), extend τ x = (τ ⟨x, hx⟩ : Fin m) := fun x hx => by simp [extend, hx]
    have e := h.isometric (extend τ x) (by rw [ex x hx]; exact Fin.is_lt _) (extend τ y) (by rw [ex y hy]; exact Fin.is_lt _)
    have hxy : (extend τ x = extend τ y) ↔ x = y := by
      rw [ex x hx, ex y hy, Fin.val_inj, τ.injective.eq_iff, Fin.mk.injEq]
    have hterm : ∀ r ∈ range (m + b), (starRingEnd ℂ) (mget (relabelledRows W b σ τ p q) r x)
          * mget (relabelledRows W b σ τ p q) r y
        = (starRingEnd ℂ) (q ⟨x, hx⟩) * q ⟨y, hy⟩ *
          ((starRingEnd ℂ) (mget W (extend σ r) (extend τ x)) * mget W (extend σ r) (extend τ y)) := by
      intro r hr'
      rw [mget_relabelledRows _ _ _ _ _ _ (mem_range.mp hr') hx, mget_relabelledRows _ _ _ _ _ _ (mem_range.mp hr') hy,
        dif_pos hx, dif_pos hy, map_mul, map_mul]
      have : (starRingEnd ℂ) (if h : r < m then p ⟨r, h⟩ else 1) * (if h : r < m then p ⟨r, h⟩ else 1) = 1 := by
        split_ifs with h
        · exact conj_mul_phase _ (hr.output _)
        · simp
      linear_combination ((starRingEnd ℂ) (q ⟨x, hx⟩) * q ⟨y, hy⟩ *
          ((starRingEnd ℂ) (mget W (extend σ r) (extend τ x)) * mget W (extend σ r) (extend τ y))) * this
    have hperm : ∑ r ∈ range (m + b), ((starRingEnd ℂ) (mget W (extend σ r) (extend τ x)) * mget W (extend σ r) (extend τ y))
        = ∑ r ∈ range (m + b), ((starRingEnd ℂ) (mget W r (extend τ x)) * mget W r (extend τ y)) := by
      rw [sum_range_add, sum_range_add]
      congr 1
      · rw [sum_range, sum_range]
        simp only [extend_fin]
        exact Equiv.sum_comp σ fun r : Fin m => (starRingEnd ℂ) (mget W r (extend τ x)) * mget W r (extend τ y)
      · refine sum_congr rfl fun r _ => ?_
        rw [show extend σ (m + r) = m + r by simp [extend]]
    rw [sum_congr rfl hterm, ← mul_sum, hperm, e]
    by_cases exy : x = y
    · subst exy
      rw [if_pos rfl, if_pos rfl, mul_one, conj_mul_phase _ (hr.input _)]
    · rw [if_neg exy, if_neg (fun h => exy (hxy.mp h)), mul_zero]

theorem particles_moved_append (σ : Equiv.Perm (Fin m)) (T E : List ℕ) (hT : T.length = m) :
    ((particles (T ++ E)).map (extend σ)).Perm (particles (moved σ T ++ E)) := by
  rw [particles, particles, particlesFrom_append, particlesFrom_append, List.map_append, moved_length, hT]
  refine (particles_moved σ T hT).append (List.Perm.of_eq ?_)
  refine (List.map_congr_left fun x hx => ?_).trans (List.map_id _)
  have := particlesFrom_range hx
  simp only [extend, id]
  rw [dif_neg (by omega)]

theorem lossyProb_relabelledRows (W : List (List ℂ)) (b : ℕ) (σ τ : Equiv.Perm (Fin m)) (p q : Fin m → ℂ)
    (hp : ∀ i, ‖p i‖ = 1) (hq : ∀ i, ‖q i‖ = 1) (S T : List ℕ) (hS : S.length = m) (hT : T.length = m) :
    lossyProb (relabelledRows W b σ τ p q) b S T = lossyProb W b (moved τ S) (moved σ T) := by
  unfold lossyProb
  rw [moved_sum τ S hS, moved_sum σ T hT]
  refine sum_congr rfl fun E hE => ?_
  have hE := (mem_filter.mp hE).2
  have hs : S.sum = (T ++ List.ofFn E).sum := by rw [List.sum_append, List.sum_ofFn]; omega
  have hs' : (moved τ S).sum = (moved σ T ++ List.ofFn E).sum := by
    rw [moved_sum τ S hS, List.sum_append, moved_sum σ T hT, List.sum_ofFn]; omega
  have hn : ∀ (f : Fin m → ℂ), (∀ i, ‖f i‖ = 1) → ∀ l : List ℕ,
      Complex.normSq ((l.map fun i => if h : i < m then f ⟨i, h⟩ else 1).prod) = 1 := by
    intro f hf l
    induction l with
    | nil => simp
    | cons x l ih =>
      rw [List.map_cons, List.prod_cons, map_mul, ih, mul_one]
      split_ifs with hx
      · rw [Complex.normSq_eq_norm_sq, hf, one_pow]
      · simp
  have hfac : factProd (moved σ T ++ List.ofFn E) = factProd (T ++ List.ofFn E) := by
    have := factProd_moved σ T hT
    simp only [factProd, List.map_append, List.prod_append] at this ⊢
    rw [this]
  unfold bosonProb
  rw [factProd_moved _ _ hS, hfac, normSq_scattering _ S _ hs, normSq_scattering W _ _ hs',
    ← amp_perm_rows _ _ (particles_moved_append σ T _ hT), ← amp_perm _ _ (particles_moved τ S hS),
    amp_relabelled (colOf W) (colOf (relabelledRows W b σ τ p q)) (extend σ) (extend τ)
      (fun i => if h : i < m then p ⟨i, h⟩ else 1)
      (fun i => if h : i < m then q ⟨i, h⟩ else 1) (particles (T ++ List.ofFn E)) (particles S)
      (by rw [particlesFrom_length, particlesFrom_length, hs]), map_mul, map_mul, hn p hp, hn q hq, one_mul, one_mul]
  intro i hi j hj
  have hi' : i < m + b := particles_lt (by simp [hT]) hi
  exact mget_relabelledRows W b σ τ p q hi' (particles_lt hS hj)

/-- The law of a relabelled network. -/
theorem lossyProb_relabelled {B B' W W' : List (List ℂ)} {b b' : ℕ} (h : IsDilation B W m b) (h' : IsDilation B' W' m b')
    {σ τ : Equiv.Perm (Fin m)} {p q : Fin m → ℂ} (hr : Relabelled σ τ p q B B') (S T : List ℕ) (hS : S.length = m)
    (hT : T.length = m) (hle : T.sum ≤ S.sum) :
    lossyProb W' b' S T = lossyProb W b (moved τ S) (moved σ T) := by
  rw [lossyProb_indep h' (relabelledRows_isDilation h hr) S T (fun x hx => particles_lt hS hx) hT hle,
    lossyProb_relabelledRows W b σ τ p q hr.output hr.input S T hS hT]

/-- The dilation with conjugated entries. -/
noncomputable def conjugatedRows (W : List (List ℂ)) (m b : ℕ) : List (List ℂ) :=
  (List.range (m + b)).map fun r => (List.range m).map fun x => (starRingEnd ℂ) (mget W r x)

theorem mget_conjugatedRows (W : List (List ℂ)) (m b : ℕ) {r x : ℕ} (hr : r < m + b) (hx : x < m) :
    mget (conjugatedRows W m b) r x = (starRingEnd ℂ) (mget W r x) := by
  simp [mget, conjugatedRows, hr, hx]

/-- The law of the network with conjugated entries. -/
theorem lossyProb_conjugated {B B' W W' : List (List ℂ)} {b b' : ℕ} (h : IsDilation B W m b) (h' : IsDilation B' W' m b')
    (hr : Conjugated m B B') (S T : List ℕ) (hS : S.length = m) (hT : T.length = m) (hle : T.sum ≤ S.sum) :
    lossyProb W' b' S T = lossyProb W b S T := by
  have hd : IsDilation B' (conjugatedRows W m b) m b := by
    refine ⟨fun i hi j hj => ?_, fun x hx y hy => ?_⟩
    · rw [mget_conjugatedRows _ _ _ (by omega) hj, hr i hi j hj, h.embeds i hi j hj]
    · have e := congrArg (starRingEnd ℂ) (h.isometric x hx y hy)
      rw [map_sum] at e
      rw [show (if x = y then (1 : ℂ) else 0) = (starRingEnd ℂ) (if x = y then 1 else 0) by split_ifs <;> simp, ← e]
      refine sum_congr rfl fun r hr' => ?_
      rw [mget_conjugatedRows _ _ _ (mem_range.mp hr') hx, mget_conjugatedRows _ _ _ (mem_range.mp hr') hy, map_mul]
  rw [lossyProb_indep h' hd S T (fun x hx => particles_lt hS hx) hT hle]
  unfold lossyProb
  refine sum_congr rfl fun E hE => ?_
  have hE := (mem_filter.mp hE).2
  have hs : S.sum = (T ++ List.ofFn E).sum := by rw [List.sum_append, List.sum_ofFn]; omega
  unfold bosonProb
  rw [normSq_scattering _ S _ hs, normSq_scattering W S _ hs, amp_conj (colOf W) (colOf (conjugatedRows W m b)),
    Complex.normSq_conj]
  intro i hi j hj
  have hi' : i < m + b := particles_lt (by simp [hT]) hi
  exact mget_conjugatedRows W m b hi' (particles_lt hS hj)

/-- If no particle is lost, only the network itself matters. -/
theorem lossyProb_full {B W : List (List ℂ)} {b : ℕ} (h : IsDilation B W m b) (S T : List ℕ) (hS : S.length = m)
    (hT : T.length = m) (hs : T.sum = S.sum) : lossyProb W b S T = bosonProb B S T := by
  have h0 : statesFin b 0 = {List.replicate b 0} := by
    ext E
    rw [mem_statesFin, mem_singleton, List.eq_replicate_iff, List.sum_eq_zero_iff]
  rw [lossyProb_eq_states _ _ _ _ hs.le, hs, Nat.sub_self, h0, sum_singleton]
  have hs' : S.sum = (T ++ List.replicate b 0).sum := by rw [List.sum_append]; simp [hs]
  have hfac : factProd (T ++ List.replicate b 0) = factProd T := by simp [factProd]
  unfold bosonProb
  rw [normSq_scattering _ S _ hs', normSq_scattering B S _ hs.symm, particles_zeros, hfac,
    amp_relabelled (colOf B) (colOf W) id id (fun _ => 1) (fun _ => 1) _ _
      (by rw [particlesFrom_length, particlesFrom_length, hs])]
  · simp
  · intro i hi j hj
    simp only [colOf, id, one_mul, mul_one]
    exact h.embeds i (particles_lt hT hi) j (particles_lt hS hj)

end

/-! ### The related networks do not amplify either -/

section

open Matrix

variable {M M' : Matrix (Fin m) (Fin m) ℂ} {d d' : Svd m}

theorem relabelled_le_one {σ τ : Equiv.Perm (Fin m)} {a b : Fin m → ℂ} (hr : Relabelled σ τ a b (rowsOf M) (rowsOf M'))
    (h : IsSvd M d) (h1 : ∀ i, d.s i ≤ 1) (h' : IsSvd M' d') (i : Fin m) : d'.s i ≤ 1 := by
  refine svd_le_one M' d' h' (fun x => ?_) i
  have e := normSq_contraction M d h h1 fun j => b (τ.symm j) * x (τ.symm j)
  have e1 : ∀ i, (M' *ᵥ x) i = a i * (M *ᵥ fun j => b (τ.symm j) * x (τ.symm j)) (σ i) := by
    intro i
    simp only [mulVec, dotProduct]
    rw [mul_sum, ← Equiv.sum_comp τ fun j => a i * (M (σ i) j * (b (τ.symm j) * x (τ.symm j)))]
    refine sum_congr rfl fun j _ => ?_
    have := hr.entry i j
    rw [mget_rowsOf _ _ _ i.2 j.2, mget_rowsOf _ _ _ (σ i).2 (τ j).2] at this
    simp only [Fin.eta] at this
    rw [this, Equiv.symm_apply_apply]
    ring
  have n1 : ∀ z : ℂ, ‖z‖ = 1 → Complex.normSq z = 1 := fun z hz => by rw [Complex.normSq_eq_norm_sq, hz, one_pow]
  simp only [Complex.normSq_mul, n1 _ (hr.input _)] at e
  simp only [e1, Complex.normSq_mul, n1 _ (hr.output _)]
  have s1 := Equiv.sum_comp σ fun i => 1 * Complex.normSq ((M *ᵥ fun j => b (τ.symm j) * x (τ.symm j)) i)
  rw [s1]
  have s2 := Equiv.sum_comp τ.symm fun j => 1 * Complex.normSq (x j)
  rw [s2] at e
  simpa using e

theorem conjugated_le_one (hr : Conjugated m (rowsOf M) (rowsOf M'))
    (h : IsSvd M d) (h1 : ∀ i, d.s i ≤ 1) (h' : IsSvd M' d') (i : Fin m) : d'.s i ≤ 1 := by
  refine svd_le_one M' d' h' (fun x => ?_) i
  have e := normSq_contraction M d h h1 fun j => (starRingEnd ℂ) (x j)
  have e1 : ∀ i, (M' *ᵥ x) i = (starRingEnd ℂ) ((M *ᵥ fun j => (starRingEnd ℂ) (x j)) i) := by
    intro i
    simp only [mulVec, dotProduct, map_sum, map_mul, Complex.conj_conj]
    refine sum_congr rfl fun j _ => ?_
    have := hr i i.2 j j.2
    rw [mget_rowsOf _ _ _ i.2 j.2, mget_rowsOf _ _ _ i.2 j.2] at this
    simp only [Fin.eta] at this
    rw [this]
  simp only [Complex.normSq_conj] at e
  simpa only [e1, Complex.normSq_conj] using e

theorem reversed_le_one (h : IsSvd M d) (h1 : ∀ i, d.s i ≤ 1) (h' : IsSvd M.conjTranspose d') (i : Fin m) : d'.s i ≤ 1 := by
  have hd : IsSvd M.conjTranspose { V := star d.U, s := d.s, U := star d.V } := by
    refine ⟨Unitary.star_mem h.unitaryU, Unitary.star_mem h.unitaryV, h.nonneg, h.descending, ?_⟩
    conv_lhs => rw [h.product]
    rw [conjTranspose_mul, conjTranspose_mul, diagonal_conjTranspose, mul_assoc]
    congr 3
    ext i
    simp
  exact svd_le_one _ d' h' (normSq_contraction _ _ hd h1) i

theorem scaled_le_one {y : ℝ} (hy0 : 0 ≤ y) (hy1 : y ≤ 1) (h : IsSvd M d) (h1 : ∀ i, d.s i ≤ 1)
    (h' : IsSvd (((Real.sqrt y : ℝ) : ℂ) • M) d') (i : Fin m) : d'.s i ≤ 1 := by
  refine svd_le_one _ d' h' (fun x => ?_) i
  refine le_trans (sum_le_sum fun i _ => ?_) (normSq_contraction M d h h1 x)
  rw [smul_mulVec, Pi.smul_apply, smul_eq_mul, Complex.normSq_mul, Complex.normSq_ofReal, Real.mul_self_sqrt hy0]
  exact mul_le_of_le_one_left (Complex.normSq_nonneg _) hy1

end

end Verif
