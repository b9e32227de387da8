import Verif.Spec.Symmetry
import Verif.Proofs.Layer
import Mathlib.Data.Matrix.Mul
import Mathlib.LinearAlgebra.Matrix.NonsingularInverse

/-! Helper lemmas: the probabilities of relabelled, conjugated and reversed interferometers. -/
namespace Verif

open Finset

theorem amp_relabelled (c c' : ℕ → ℕ → ℂ) (σ τ : ℕ → ℕ) (a b : ℕ → ℂ) (rs cs : List ℕ) (hl : rs.length = cs.length)
    (h : ∀ i ∈ rs, ∀ j ∈ cs, c' j i = a i * c (τ j) (σ i) * b j) :
    amp c' rs cs = (rs.map a).prod * (cs.map b).prod * amp c (rs.map σ) (cs.map τ) := by
  induction rs generalizing cs with
  | nil =>
    obtain rfl : cs = [] := List.length_eq_zero_iff.mp hl.symm
    simp [amp, lperm]
  | cons r rs ih =>
    rw [amp_cons, List.map_cons (f := σ), amp_cons, picks_map, List.map_map, ← List.sum_map_mul_left]
    congr 1
    refine List.map_congr_left fun p hp => ?_
    have hperm := picks_perm hp
    have hlen : rs.length = p.2.length := by
      have := hperm.length_eq
      simp only [List.length_cons] at this hl
      omega
    have hb : (cs.map b).prod = b p.1 * (p.2.map b).prod := by
      rw [← (hperm.map b).prod_eq, List.map_cons, List.prod_cons]
    rw [h r (by simp) p.1 (hperm.mem_iff.mp (by simp)),
      ih p.2 hlen fun i hi j hj => h i (by simp [hi]) j (hperm.mem_iff.mp (by simp [hj])), hb]
    simp only [List.map_cons, List.prod_cons, Function.comp]
    ring

theorem amp_conj (c c' : ℕ → ℕ → ℂ) (rs cs : List ℕ)
    (h : ∀ i ∈ rs, ∀ j ∈ cs, c' j i = (starRingEnd ℂ) (c j i)) :
    amp c' rs cs = (starRingEnd ℂ) (amp c rs cs) := by
  induction rs generalizing cs with
  | nil => cases cs <;> simp [amp, lperm]
  | cons r rs ih =>
    rw [amp_cons, amp_cons, map_list_sum, List.map_map]
    congr 1
    refine List.map_congr_left fun p hp => ?_
    have hperm := picks_perm hp
    rw [h r (by simp) p.1 (hperm.mem_iff.mp (by simp)),
      ih p.2 fun i hi j hj => h i (by simp [hi]) j (hperm.mem_iff.mp (by simp [hj]))]
    simp

section
variable {m : ℕ}

theorem moved_length (σ : Equiv.Perm (Fin m)) (T : List ℕ) : (moved σ T).length = m := by simp [moved]

theorem moved_getD (σ : Equiv.Perm (Fin m)) (T : List ℕ) (i : Fin m) : (moved σ T).getD i 0 = T.getD (σ.symm i) 0 := by
  rw [getD_of_lt _ _ (by rw [moved_length]; exact i.2)]
  simp [moved]

/-- The permutation of the numbers below `m`, as a function on all numbers. -/
def extend (σ : Equiv.Perm (Fin m)) (i : ℕ) : ℕ := if h : i < m then σ ⟨i, h⟩ else i

theorem extend_fin (σ : Equiv.Perm (Fin m)) (i : Fin m) : extend σ i = σ i := by simp [extend]

theorem particles_lt {T : List ℕ} (hT : T.length = m) {x : ℕ} (hx : x ∈ particles T) : x < m := by
  have := particlesFrom_range hx; omega

theorem particles_moved (σ : Equiv.Perm (Fin m)) (T : List ℕ) (hT : T.length = m) :
    ((particles T).map (extend σ)).Perm (particles (moved σ T)) := by
  have hinj : ∀ x < m, ∀ y < m, extend σ x = extend σ y → x = y := by
    intro x hx y hy h
    simp only [extend, hx, hy, dif_pos] at h
    simpa using σ.injective (Fin.ext h)
  rw [List.perm_iff_count]
  intro j
  rw [count_particles]
  by_cases hj : j < m
  · have e : j = extend σ (σ.symm ⟨j, hj⟩) := by rw [extend_fin]; simp
    have e' := moved_getD σ T ⟨j, hj⟩
    simp only at e'
    rw [e', ← count_particles]
    conv_lhs => rw [e]
    have : ∀ l : List ℕ, (∀ x ∈ l, x < m) →
        (l.map (extend σ)).count (extend σ (σ.symm ⟨j, hj⟩ : Fin m)) = l.count ((σ.symm ⟨j, hj⟩ : Fin m) : ℕ) := by
      intro l hl
      induction l with
      | nil => rfl
      | cons x l ih =>
        rw [List.map_cons, List.count_cons, List.count_cons, ih fun y hy => hl y (by simp [hy])]
        congr 1
        by_cases hx : x = ((σ.symm ⟨j, hj⟩ : Fin m) : ℕ)
        · simp [hx]
        · have : extend σ x ≠ extend σ (σ.symm ⟨j, hj⟩ : Fin m) :=
            fun h => hx (hinj _ (hl x (by simp)) _ (Fin.is_lt _) h)
          simp [hx, this]
    exact this _ fun x hx => particles_lt hT hx
  · rw [List.getD_eq_getElem?_getD, List.getElem?_eq_none (by rw [moved_length]; omega), Option.getD_none, List.count_eq_zero]
    intro h
    obtain ⟨x, hx, rfl⟩ := List.mem_map.mp h
    have hx' := particles_lt hT hx
    simp only [extend, hx', dif_pos] at hj
    exact hj (Fin.is_lt _)

theorem moved_sum (σ : Equiv.Perm (Fin m)) (T : List ℕ) (hT : T.length = m) : (moved σ T).sum = T.sum := by
  have := (particles_moved σ T hT).length_eq
  rw [List.length_map, particlesFrom_length, particlesFrom_length] at this
  exact this.symm

theorem moved_perm (σ : Equiv.Perm (Fin m)) (T : List ℕ) (hT : T.length = m) : (moved σ T).Perm T := by
  have e : T = List.ofFn fun i : Fin m => T.getD i 0 := by
    apply List.ext_getElem
    · simp [hT]
    · intro i h1 h2
      rw [List.getElem_ofFn]
      exact (getD_of_lt _ _ h1).symm
  conv_rhs => rw [e]
  exact Equiv.Perm.ofFn_comp_perm σ.symm fun i : Fin m => T.getD i 0

theorem factProd_moved (σ : Equiv.Perm (Fin m)) (T : List ℕ) (hT : T.length = m) : factProd (moved σ T) = factProd T :=
  ((moved_perm σ T hT).map _).prod_eq

theorem normSq_scattering (U : List (List ℂ)) (S T : List ℕ) (h : S.sum = T.sum) :
    scatteringPermanent U S T = amp (colOf U) (particles T) (particles S) := (lperm_scattering U S T h).symm

theorem bosonProb_relabelled {σ τ : Equiv.Perm (Fin m)} {a b : Fin m → ℂ} {U U' : List (List ℂ)}
    (h : Relabelled σ τ a b U U') (S T : List ℕ) (hS : S.length = m) (hT : T.length = m) (hs : S.sum = T.sum) :
    bosonProb U' S T = bosonProb U (moved τ S) (moved σ T) := by
  have hs' : (moved τ S).sum = (moved σ T).sum := by rw [moved_sum _ _ hS, moved_sum _ _ hT, hs]
  have hn : ∀ (f : Fin m → ℂ), (∀ i, ‖f i‖ = 1) → ∀ l : List ℕ,
      Complex.normSq ((l.map fun i => if h : i < m then f ⟨i, h⟩ else 1).prod) = 1 := by
    intro f hf l
    induction l with
    | nil => simp
    | cons x l ih =>
      rw [List.map_cons, List.prod_cons, map_mul, ih, mul_one]
      split_ifs with hx
      · rw [Complex.normSq_eq_norm_sq, hf, one_pow]
      · simp
  unfold bosonProb
  rw [factProd_moved _ _ hS, factProd_moved _ _ hT, normSq_scattering U' S T hs, normSq_scattering U _ _ hs',
    ← amp_perm_rows _ _ (particles_moved σ T hT), ← amp_perm _ _ (particles_moved τ S hS),
    amp_relabelled (colOf U) (colOf U') (extend σ) (extend τ) (fun i => if h : i < m then a ⟨i, h⟩ else 1)
      (fun i => if h : i < m then b ⟨i, h⟩ else 1) (particles T) (particles S)
      (by rw [particlesFrom_length, particlesFrom_length, hs]), map_mul, map_mul, hn a h.output, hn b h.input, one_mul,
    one_mul]
  intro i hi j hj
  have hi' := particles_lt hT hi
  have hj' := particles_lt hS hj
  have := h.entry ⟨i, hi'⟩ ⟨j, hj'⟩
  simp only [extend, hi', hj', dif_pos, colOf] at this ⊢
  exact this

theorem bosonProb_conjugated {U U' : List (List ℂ)} (h : Conjugated m U U') (S T : List ℕ) (hS : S.length = m)
    (hT : T.length = m) (hs : S.sum = T.sum) : bosonProb U' S T = bosonProb U S T := by
  unfold bosonProb
  rw [normSq_scattering U' S T hs, normSq_scattering U S T hs, amp_conj (colOf U) (colOf U'), Complex.normSq_conj]
  exact fun i hi j hj => h i (particles_lt hT hi) j (particles_lt hS hj)

theorem bosonProb_reversed {U U' : List (List ℂ)} (h : Reversed m U U') (S T : List ℕ) (hS : S.length = m)
    (hT : T.length = m) (hs : S.sum = T.sum) : bosonProb U' T S = bosonProb U S T := by
  unfold bosonProb
  have hc : scatteringPermanent U' T S = (starRingEnd ℂ) (scatteringPermanent U S T) := by
    have e1 : scatteringPermanent U S T = Matrix.permanent (Matrix.of fun (a b : Fin S.sum) =>
        mget U ((particles T).getD a 0) ((particles S).getD b 0)) := by
      unfold scatteringPermanent
      rw [hs]
    rw [e1]
    unfold scatteringPermanent
    rw [← Matrix.permanent_transpose, Matrix.permanent, Matrix.permanent, map_sum]
    refine sum_congr rfl fun p _ => ?_
    rw [map_prod]
    refine prod_congr rfl fun x _ => ?_
    simp only [Matrix.transpose_apply, Matrix.of_apply]
    have l1 : ∀ y : Fin S.sum, (particles T).getD y 0 < m := fun y => by
      have hy : (y : ℕ) < (particles T).length := by rw [particlesFrom_length, ← hs]; exact y.2
      rw [getD_of_lt _ _ hy]
      exact particles_lt hT (List.getElem_mem _)
    have l2 : ∀ y : Fin S.sum, (particles S).getD y 0 < m := fun y => by
      have hy : (y : ℕ) < (particles S).length := by rw [particlesFrom_length]; exact y.2
      rw [getD_of_lt _ _ hy]
      exact particles_lt hS (List.getElem_mem _)
    exact h _ (l2 _) _ (l1 _)
  rw [hc, Complex.normSq_conj, mul_comm]

theorem fixedLossProb_congr {U U' : List (List ℂ)} (S : List ℕ) (k : ℕ) (T : List ℕ) (hT : T.sum = k)
    (h : ∀ L : List ℕ, L.length = S.length → L.sum = T.sum → bosonProb U' L T = bosonProb U L T) :
    fixedLossProb U' S k T = fixedLossProb U S k T := by
  unfold fixedLossProb
  congr 1
  refine sum_congr rfl fun A hA => h _ (stateOf_length A) ?_
  rw [stateOf_sum, (mem_powersetCard.mp hA).2, hT]

theorem getD_ofFn_self (T : List ℕ) (hT : T.length = m) : (List.ofFn fun i : Fin m => T.getD i 0) = T := by
  apply List.ext_getElem
  · simp [hT]
  · intro i h1 h2
    rw [List.getElem_ofFn]
    exact getD_of_lt _ _ h2

theorem moved_symm (σ : Equiv.Perm (Fin m)) (T : List ℕ) (hT : T.length = m) : moved σ.symm (moved σ T) = T := by
  rw [← getD_ofFn_self T hT]
  unfold moved
  congr 1
  funext i
  have := moved_getD σ T (σ i)
  unfold moved at this
  simp only [Equiv.symm_symm]
  rw [getD_ofFn_self T hT, this]
  simp

theorem moved_symm' (σ : Equiv.Perm (Fin m)) (T : List ℕ) (hT : T.length = m) : moved σ (moved σ.symm T) = T := by
  have := moved_symm σ.symm T hT
  rwa [Equiv.symm_symm] at this

theorem stateLE_iff (l S : List ℕ) (hS : S.length = m) :
    StateLE l S ↔ l.length = m ∧ ∀ i : Fin m, l.getD i 0 ≤ S.getD i 0 := by
  constructor
  · intro h
    have hl : l.length = m := h.length_eq.trans hS
    refine ⟨hl, fun i => ?_⟩
    have h1 : (i : ℕ) < l.length := by rw [hl]; exact i.2
    have h2 : (i : ℕ) < S.length := by rw [hS]; exact i.2
    rw [getD_of_lt _ _ h1, getD_of_lt _ _ h2]
    exact h.get h1 h2
  · rintro ⟨hl, h⟩
    refine List.forall₂_iff_get.mpr ⟨hl.trans hS.symm, fun i h1 h2 => ?_⟩
    have := h ⟨i, by rw [← hl]; exact h1⟩
    rwa [getD_of_lt _ _ h1, getD_of_lt _ _ h2] at this

theorem zipWith_choose_prod (S l : List ℕ) (hS : S.length = m) (hl : l.length = m) :
    (List.zipWith Nat.choose S l).prod = ∏ i : Fin m, (S.getD i 0).choose (l.getD i 0) := by
  rw [← List.prod_ofFn]
  congr 1
  apply List.ext_getElem
  · simp [hS, hl]
  · intro i h1 h2
    have hi : i < m := by simpa using h2
    rw [List.getElem_ofFn, List.getElem_zipWith]
    simp only
    rw [getD_of_lt _ _ (by omega), getD_of_lt _ _ (by omega)]

theorem fixedLossProb_relabelled {σ τ : Equiv.Perm (Fin m)} {a b : Fin m → ℂ} {U U' : List (List ℂ)}
    (h : Relabelled σ τ a b U U') (S T : List ℕ) (k : ℕ) (hS : S.length = m) (hT : T.length = m) (hs : T.sum = k) :
    fixedLossProb U' S k T = fixedLossProb U (moved τ S) k (moved σ T) := by
  have hm : ∀ (S : List ℕ) l, l ∈ (subStates S k).toFinset ↔ StateLE l S ∧ l.sum = k := fun S l => by
    rw [List.mem_toFinset, mem_subStates]
  unfold fixedLossProb
  rw [moved_sum τ S hS, sum_stateOf S k _ (hm S) fun L => bosonProb U' L T,
    sum_stateOf (moved τ S) k _ (hm _) fun L => bosonProb U L (moved σ T)]
  congr 1
  refine sum_bij' (fun l _ => moved τ l) (fun l _ => moved τ.symm l) ?_ ?_ ?_ ?_ ?_
  · intro l hl
    rw [hm, stateLE_iff _ _ hS] at hl
    rw [hm, stateLE_iff _ _ (moved_length _ _)]
    refine ⟨⟨moved_length _ _, fun i => ?_⟩, by rw [moved_sum _ _ hl.1.1]; exact hl.2⟩
    rw [moved_getD, moved_getD]
    exact hl.1.2 _
  · intro l hl
    rw [hm, stateLE_iff _ _ (moved_length _ _)] at hl
    rw [hm, stateLE_iff _ _ hS]
    refine ⟨⟨moved_length _ _, fun i => ?_⟩, by rw [moved_sum _ _ hl.1.1]; exact hl.2⟩
    have := hl.1.2 (τ i)
    rw [moved_getD] at this ⊢
    simpa using this
  · intro l hl
    rw [hm, stateLE_iff _ _ hS] at hl
    exact moved_symm _ _ hl.1.1
  · intro l hl
    rw [hm, stateLE_iff _ _ (moved_length _ _)] at hl
    exact moved_symm' _ _ hl.1.1
  · intro l hl
    rw [hm, stateLE_iff _ _ hS] at hl
    rw [bosonProb_relabelled h l T hl.1.1 hT (by omega), zipWith_choose_prod S l hS hl.1.1,
      zipWith_choose_prod (moved τ S) (moved τ l) (moved_length _ _) (moved_length _ _),
      ← Equiv.prod_comp τ fun i => ((moved τ S).getD i 0).choose ((moved τ l).getD i 0)]
    congr 3
    funext i
    rw [moved_getD, moved_getD]
    simp

theorem orthonormal_relabelled {σ τ : Equiv.Perm (Fin m)} {a b : Fin m → ℂ} {U U' : List (List ℂ)}
    (h : Relabelled σ τ a b U U') (hU : Orthonormal U m m) : Orthonormal U' m m := by
  have hu : ∀ z : ℂ, ‖z‖ = 1 → (starRingEnd ℂ) z * z = 1 := fun z hz => by
    rw [← Complex.normSq_eq_conj_mul_self, Complex.normSq_eq_norm_sq, hz]; simp
  intro c hc d hd
  rw [sum_range fun r => (starRingEnd ℂ) (mget U' r c) * mget U' r d]
  have key := hU (τ ⟨c, hc⟩) (Fin.is_lt _) (τ ⟨d, hd⟩) (Fin.is_lt _)
  rw [sum_range fun r => (starRingEnd ℂ) (mget U r (τ ⟨c, hc⟩)) * mget U r (τ ⟨d, hd⟩),
    ← Equiv.sum_comp σ] at key
  have e : ∀ i : Fin m, (starRingEnd ℂ) (mget U' i c) * mget U' i d
      = ((starRingEnd ℂ) (b ⟨c, hc⟩) * b ⟨d, hd⟩)
        * ((starRingEnd ℂ) (mget U (σ i) (τ ⟨c, hc⟩)) * mget U (σ i) (τ ⟨d, hd⟩)) := by
    intro i
    have e1 := h.entry i ⟨c, hc⟩
    have e2 := h.entry i ⟨d, hd⟩
    simp only at e1 e2
    rw [e1, e2, map_mul, map_mul]
    linear_combination ((starRingEnd ℂ) (b ⟨c, hc⟩) * b ⟨d, hd⟩
        * ((starRingEnd ℂ) (mget U (σ i) (τ ⟨c, hc⟩)) * mget U (σ i) (τ ⟨d, hd⟩))) * hu (a i) (h.output i)
  rw [sum_congr rfl fun i _ => e i, ← mul_sum, key]
  by_cases hcd : c = d
  · subst hcd
    rw [if_pos rfl, if_pos rfl, mul_one]
    exact hu _ (h.input _)
  · rw [if_neg hcd, if_neg, mul_zero]
    intro h'
    exact hcd (by simpa using τ.injective (Fin.ext h'))

theorem orthonormal_conjugated {U U' : List (List ℂ)} (h : Conjugated m U U') (hU : Orthonormal U m m) :
    Orthonormal U' m m := by
  intro c hc d hd
  have key := congrArg (starRingEnd ℂ) (hU c hc d hd)
  rw [map_sum] at key
  rw [sum_congr rfl fun r hr => by rw [h r (mem_range.mp hr) c hc, h r (mem_range.mp hr) d hd]]
  simp only [map_mul] at key
  rw [key]
  split_ifs <;> simp

theorem orthonormal_reversed {U U' : List (List ℂ)} (h : Reversed m U U') (hU : Orthonormal U m m) :
    Orthonormal U' m m := by
  let A : Matrix (Fin m) (Fin m) ℂ := Matrix.of fun i j => mget U i j
  have h1 : A.conjTranspose * A = 1 := by
    ext i j
    have := hU i i.2 j j.2
    rw [sum_range fun r => (starRingEnd ℂ) (mget U r i) * mget U r j] at this
    rw [Matrix.mul_apply, Matrix.one_apply]
    simp only [Matrix.conjTranspose_apply, A, Matrix.of_apply]
    simp only [Fin.val_inj] at this
    exact this
  have h2 : A * A.conjTranspose = 1 := mul_eq_one_comm.mp h1
  intro c hc d hd
  rw [sum_congr rfl fun r hr => by rw [h r (mem_range.mp hr) c hc, h r (mem_range.mp hr) d hd]]
  have := congrFun (congrFun h2 ⟨c, hc⟩) ⟨d, hd⟩
  rw [Matrix.mul_apply, Matrix.one_apply] at this
  simp only [Matrix.conjTranspose_apply, A, Matrix.of_apply, Fin.mk.injEq] at this
  rw [sum_range]
  simp only [Complex.conj_conj]
  exact this

end

end Verif
