import Verif.Proofs.PermFinal
import Verif.Spec.Mismatch
import Mathlib.Algebra.BigOperators.Ring.Finset
import Mathlib.Data.Fintype.BigOperators
import Mathlib.Algebra.BigOperators.Fin

/-! Helper lemmas: what the permanent calculators return for states holding different numbers of
particles. -/
namespace Verif

open Finset

section sums

variable {K : Type _} [CommRing K] {ι : Type _}

theorem pdiff_ofFn {n : ℕ} (C : Fin n → ι → K) (F : (ι → K) → K) (w : ι → K) :
    pdiff (List.ofFn C) F w = ∑ ε : Fin n → Bool, (∏ j, if ε j then (1 : K) else -1) *
      F (w + ∑ j, if ε j then C j else 0) := by
  induction n generalizing w with
  | zero => simp [pdiff]
  | succ n ih =>
    rw [List.ofFn_succ, pdiff, ih, ih, ← (Fin.consEquiv fun _ : Fin (n + 1) => Bool).sum_comp,
      Fintype.sum_prod_type, Fintype.sum_bool]
    simp only [Fin.consEquiv_apply, Fin.prod_univ_succ, Fin.sum_univ_succ, Fin.cons_zero,
      Fin.cons_succ, if_true, one_mul, Bool.false_eq_true, if_false, zero_add, add_assoc, neg_mul,
      sum_neg_distrib, sub_eq_add_neg]

/-- A signed sum of products of row sums is a sum over maps from rows to columns, weighted by the
sizes of the fibres. -/
theorem sign_sum_prod {m n : ℕ} (a : Fin m → Fin n → K) (s v : Bool → K) :
    ∑ ε : Fin n → Bool, (∏ j, s (ε j)) * ∏ i, ∑ j, v (ε j) * a i j
      = ∑ f : Fin m → Fin n, (∏ i, a i (f i)) *
          ∏ j, ∑ e : Bool, s e * v e ^ (univ.filter fun i => f i = j).card := by
  have h1 : ∀ ε : Fin n → Bool, (∏ j, s (ε j)) * ∏ i, ∑ j, v (ε j) * a i j
      = ∑ f : Fin m → Fin n, (∏ i, a i (f i)) *
          ∏ j, s (ε j) * v (ε j) ^ (univ.filter fun i => f i = j).card := by
    intro ε
    rw [prod_univ_sum, mul_sum, Fintype.piFinset_univ]
    refine sum_congr rfl fun f _ => ?_
    rw [prod_mul_distrib, prod_mul_distrib, ← prod_fiberwise univ f (fun i => v (ε (f i)))]
    have : ∀ j, ∏ i ∈ univ.filter (fun i => f i = j), v (ε (f i))
        = v (ε j) ^ (univ.filter fun i => f i = j).card := by
      intro j
      rw [prod_congr rfl (g := fun _ => v (ε j)) (fun i hi => by rw [(mem_filter.mp hi).2]),
        prod_const]
    simp only [this]
    ring
  rw [sum_congr rfl fun ε _ => h1 ε, sum_comm]
  refine sum_congr rfl fun f _ => ?_
  rw [← mul_sum, prod_univ_sum, Fintype.piFinset_univ]

theorem ofFn_particles (S : List ℕ) :
    particles S = List.ofFn fun b : Fin S.sum => (particles S).getD b 0 := by
  apply List.ext_getElem
  · simp [particles_length]
  · intro i h1 h2
    rw [List.getElem_ofFn, getD_of_lt _ _ h1]

theorem rowProd_ofFn {m : ℕ} (R : Fin m → ι) (w : ι → K) :
    rowProd (List.ofFn R) w = ∏ i, w (R i) := by
  rw [rowProd, List.map_ofFn, List.prod_ofFn]; rfl

/-- Iterated differences of the product over the output particles. -/
theorem pdiff_sign (U : List (List K)) (S T : List ℕ) (α β : K) :
    pdiff ((particles S).map fun ν => fun j => α * mget U j ν) (rowProd (particles T))
        (fun j => β * ∑ b : Fin S.sum, mget U j ((particles S).getD b 0))
      = ∑ f : Fin T.sum → Fin S.sum,
          (∏ a : Fin T.sum, mget U ((particles T).getD a 0) ((particles S).getD (f a) 0)) *
          ∏ b, ((β + α) ^ (univ.filter fun a => f a = b).card
            - β ^ (univ.filter fun a => f a = b).card) := by
  have e2 : (particles S).map (fun ν => fun j => α * mget U j ν)
      = List.ofFn fun b : Fin S.sum => fun j => α * mget U j ((particles S).getD b 0) := by
    conv_lhs => rw [ofFn_particles S]
    rw [List.map_ofFn]; rfl
  rw [e2, pdiff_ofFn]
  have := sign_sum_prod (fun (a : Fin T.sum) (b : Fin S.sum) =>
    mget U ((particles T).getD a 0) ((particles S).getD b 0))
    (fun e => if e then (1 : K) else -1) (fun e => if e then β + α else β)
  simp only [Fintype.sum_bool, if_true, Bool.false_eq_true, if_false, one_mul, neg_mul,
    ← sub_eq_add_neg] at this
  rw [← this]
  refine sum_congr rfl fun ε _ => ?_
  congr 1
  conv_lhs => rw [ofFn_particles T]
  rw [rowProd_ofFn]
  refine prod_congr rfl fun a _ => ?_
  rw [Pi.add_apply, mul_sum, Finset.sum_apply, ← sum_add_distrib]
  refine sum_congr rfl fun b _ => ?_
  by_cases h : ε b <;> simp [h, add_mul]

theorem prod_ite_one {n : ℕ} (p : Fin n → Prop) [DecidablePred p] (x : K) :
    ∏ b, (if p b then x else 0) = if ∀ b, p b then x ^ n else 0 := by
  by_cases h : ∀ b, p b
  · rw [if_pos h, prod_congr rfl (g := fun _ => x) (fun b _ => if_pos (h b))]; simp
  · rw [if_neg h]
    obtain ⟨b, hb⟩ := not_forall.mp h
    exact prod_eq_zero (mem_univ b) (if_neg hb)

theorem card_fibre_ne_zero {m n : ℕ} (f : Fin m → Fin n) :
    (∀ b, (univ.filter fun a => f a = b).card ≠ 0) ↔ Function.Surjective f := by
  refine forall_congr' fun b => ?_
  rw [Finset.card_ne_zero]
  constructor
  · rintro ⟨a, ha⟩; exact ⟨a, (mem_filter.mp ha).2⟩
  · rintro ⟨a, ha⟩; exact ⟨a, by simpa using ha⟩

end sums

variable {K : Type _} [Field K] {U : List (List K)} {S T : List ℕ}

theorem ryser_any (L : List (List Int)) (hL : L.Perm (ibox S)) :
    (L.map (ryserAddend U S T)).sum = assignmentSum U S T Function.Surjective := by
  rw [(hL.map _).sum_eq, ← gterm_ryser]
  have hb := box_pdiff S 0 (colOf U) (rowProd (particles T)) (fun _ => (0 : K))
  have hp := pdiff_sign U S T (1 : K) 0
  simp only [one_mul, zero_mul, zero_add, one_pow] at hp
  rw [show (particlesFrom 0 S).map (colOf U) = (particles S).map (fun ν => fun j => mget U j ν) from rfl,
    hp] at hb
  have hx : ∀ k : ℕ, (1 : K) - 0 ^ k = if k ≠ 0 then 1 else 0 := by
    intro k; by_cases hk : k = 0 <;> simp [hk]
  simp only [hx] at hb
  simp only [prod_ite_one, card_fibre_ne_zero, one_pow, mul_ite, mul_one, mul_zero] at hb
  rw [← sum_filter] at hb
  rw [show assignmentSum U S T Function.Surjective
      = (-1) ^ S.sum * ((-1) ^ S.sum * assignmentSum U S T Function.Surjective) by
    rw [← mul_assoc, ← mul_pow]; simp]
  unfold assignmentSum
  rw [← hb, ← List.sum_map_mul_left]
  congr 1
  refine List.map_congr_left fun r _ => ?_
  simp only [gterm, npNonzero_prod, zero_add]
  rw [mul_assoc, mul_assoc, mul_assoc]
  rfl

theorem sum_particlesFrom (S : List ℕ) (k : ℕ) (v : ℕ → K) :
    ((particlesFrom k S).map v).sum = ∑ ν ∈ range S.length, ((S.getD ν 0 : ℕ) : K) * v (k + ν) := by
  induction S generalizing k with
  | nil => simp [particlesFrom]
  | cons t S ih =>
    rw [particlesFrom, List.map_append, List.sum_append, ih, List.length_cons, sum_range_succ']
    simp only [List.map_replicate, List.sum_replicate, List.getD_cons_zero, List.getD_cons_succ,
      Nat.add_zero, nsmul_eq_mul]
    rw [add_comm]
    congr 1
    refine sum_congr rfl fun ν _ => ?_
    rw [Nat.add_right_comm, Nat.add_assoc]

theorem boxSum_particles (S : List ℕ) (v : ℕ → K) :
    boxSum S.length v (S.map fun (x : ℕ) => (x : Int))
      = ∑ b : Fin S.sum, v ((particles S).getD b 0) := by
  have h1 := sum_particlesFrom S 0 v
  have h2 : ((particles S).map v).sum = ∑ b : Fin S.sum, v ((particles S).getD b 0) := by
    conv_lhs => rw [ofFn_particles S]
    rw [List.map_ofFn, List.sum_ofFn]; rfl
  rw [← h2]
  unfold particles
  rw [h1]
  unfold boxSum
  refine sum_congr rfl fun ν hν => ?_
  have hν' := mem_range.mp hν
  rw [getD_of_lt _ _ (by simpa using hν'), getD_of_lt _ _ hν']
  simp

theorem chinHuh_any [CharZero K] (L : List (List Int)) (hL : L.Perm (ibox S)) :
    (L.map (chinHuhAddend U S T)).sum = assignmentSum U S T OddFibres := by
  rw [(hL.map _).sum_eq, ← gterm_chinHuh]
  have hb := box_pdiff S 0 (fun ν j => (-2) * mget U j ν) (rowProd (particles T))
    (fun j => boxSum S.length (fun ν => mget U j ν) (S.map fun (x : Nat) => (x : Int)))
  have hp := pdiff_sign U S T (-2 : K) 1
  simp only [one_mul, one_pow] at hp
  simp only [← boxSum_particles] at hp
  rw [show (particlesFrom 0 S) = particles S from rfl, hp] at hb
  have hx : ∀ k : ℕ, (1 + -2 : K) ^ k - 1 = if Odd k then -2 else 0 := by
    intro k
    rw [show (1 + -2 : K) = -1 by norm_num]
    by_cases hk : Odd k
    · rw [if_pos hk, hk.neg_one_pow]; norm_num
    · rw [if_neg hk, (Nat.not_odd_iff_even.mp hk).neg_one_pow]; norm_num
  simp only [hx] at hb
  simp only [prod_ite_one, mul_ite, mul_zero] at hb
  rw [← sum_filter, ← sum_mul, mul_left_comm, ← mul_pow] at hb
  have hf : (∑ f : Fin T.sum → Fin S.sum with ∀ b, Odd (univ.filter fun a => f a = b).card,
      ∏ a : Fin T.sum, mget U ((particles T).getD a 0) ((particles S).getD (f a) 0))
      = assignmentSum U S T OddFibres := by
    unfold assignmentSum
    refine sum_congr (filter_congr fun f _ => Iff.rfl) fun _ _ => rfl
  rw [hf] at hb
  have h2 : (2 : K) ^ S.sum ≠ 0 := pow_ne_zero _ two_ne_zero
  have : assignmentSum U S T OddFibres
      = 1 / 2 ^ S.sum * (assignmentSum U S T OddFibres * (-1 * -2) ^ S.sum) := by
    rw [show (-1 * -2 : K) = 2 by norm_num]
    field_simp
  rw [this, ← hb, ← List.sum_map_mul_left]
  congr 1
  refine List.map_congr_left fun r _ => ?_
  simp only [gterm, npNonzero_prod, zero_add]
  rw [mul_assoc, mul_assoc, mul_assoc]
  rfl

theorem ryserPermanent_any [CharZero K] (h : Fits U S T) (fuel : ℕ)
    (hf : (S.map (· + 1)).prod ≤ fuel) :
    ryserPermanent fuel ⟨U, S, T⟩ = .ok (assignmentSum U S T Function.Surjective) := by
  obtain ⟨L, hL, hp, hl⟩ := visits_init S
  obtain ⟨s', e⟩ := ryser_compute h (freshScratch _) hL fuel (by omega)
  rw [ryserPermanent, e, ok_bind, ryser_any L hp]
  rfl

theorem chinHuhPermanent_any [CharZero K] (h : Fits U S T) (fuel : ℕ)
    (hf : (S.map (· + 1)).prod ≤ fuel) :
    chinHuhPermanent fuel ⟨U, S, T⟩ = .ok (assignmentSum U S T OddFibres) := by
  obtain ⟨L, hL, hp, hl⟩ := visits_init S
  obtain ⟨s', e⟩ := chinHuh_compute h (freshScratch _) hL fuel (by omega)
  rw [chinHuhPermanent, e, ok_bind, chinHuh_any L hp]
  rfl

/-! ### Glynn -/

theorem lperm_scatter_rows' (U : List (List K)) (S T : List ℕ) (h : T.sum ≤ S.sum) :
    lperm (List.range T.sum) ((List.range T.sum).map fun i j => mget (scatter U S T) i j)
      = scatteringPermanent U S T := by
  have e1 : List.range T.sum = List.ofFn fun a : Fin T.sum => (a : ℕ) := by
    apply List.ext_getElem <;> simp
  have e2 : (List.range T.sum).map (fun i j => mget (scatter U S T) i j)
      = List.ofFn fun b : Fin T.sum => fun j => mget (scatter U S T) b j := by
    apply List.ext_getElem <;> simp
  rw [e2]
  conv_lhs => rw [e1]
  rw [lperm_eq_permanent, ← Matrix.permanent_transpose]
  unfold scatteringPermanent
  congr 1
  ext a b
  exact mget_scatter U S T a.2 (lt_of_lt_of_le b.2 h)

theorem glynnPermanent_more [CharZero K] (gray : ℕ → List ℕ) (hgray : ∀ n, IsGrayCode n (gray n)) (c : ℕ)
    (hc : ∀ r ∈ U, r.length = c) (hS : S.length ≤ c) (hT : T.length ≤ U.length)
    (hs : T.sum ≤ S.sum) :
    glynnPermanent gray ⟨U, S, T⟩ = .ok (scatteringPermanent U S T) := by
  by_cases h0 : T.sum = 0
  · rw [scatteringPermanent_vacuum _ _ _ h0]
    simp [glynnPermanent, effectiveScatteringMatrix, h0, pure_eq_ok, ok_bind]
  · obtain ⟨m, hm⟩ : ∃ m, T.sum = m + 1 := ⟨T.sum - 1, by omega⟩
    have hsc := effectiveScatteringMatrix_ok U S T c hc hS hT (by omega) h0
    have hl : (scatter U S T).length = m + 1 := by simp [scatter, particles_length, hm]
    have hr : ∀ r ∈ scatter U S T, r.length = S.sum := by
      intro r hr
      obtain ⟨i, -, rfl⟩ := List.mem_map.mp hr
      simp [particles_length]
    rw [glynn_ok gray U S T _ m S.sum hsc hl hr (by omega) (hgray m), ← hm,
      lperm_scatter_rows' U S T hs]

omit [Field K] in
theorem matGet_col (a : List (List K)) {r c i j : ℕ} (hn : a.length = r) (hc : ∀ r ∈ a, r.length = c)
    (hi : i < r) (hj : c ≤ j) : matGet a i j = .error .indexError := by
  have h1 : i < a.length := by omega
  have h2 : a[i].length = c := hc _ (List.getElem_mem _)
  have h3 : a[i][j]? = none := List.getElem?_eq_none (by omega)
  rw [matGet, pyGetN_ok h1, ok_bind, pyGetN, h3]

theorem foldlM_either {α β : Type} (f : β → α → Py β) (e : PyErr) (l : List α)
    (h : ∀ a ∈ l, ∀ b, (∃ b', f b a = .ok b') ∨ f b a = .error e) (b : β) :
    (∃ b', l.foldlM f b = .ok b') ∨ l.foldlM f b = .error e := by
  induction l generalizing b with
  | nil => exact Or.inl ⟨b, rfl⟩
  | cons a l ih =>
    rw [List.foldlM_cons]
    rcases h a (by simp) b with ⟨b', hb⟩ | hb
    · rw [hb, ok_bind]; exact ih (fun a ha => h a (by simp [ha])) b'
    · rw [hb]; exact Or.inr rfl

theorem foldlM_error {α β : Type} (f : β → α → Py β) (e : PyErr) (l : List α)
    (h : ∀ a ∈ l, ∀ b, (∃ b', f b a = .ok b') ∨ f b a = .error e)
    (hx : ∃ a ∈ l, ∀ b, f b a = .error e) (b : β) : l.foldlM f b = .error e := by
  induction l generalizing b with
  | nil => simp at hx
  | cons a l ih =>
    rw [List.foldlM_cons]
    rcases h a (by simp) b with ⟨b', hb⟩ | hb
    · rw [hb, ok_bind]
      refine ih (fun a ha => h a (by simp [ha])) ?_ b'
      obtain ⟨x, hx, hxe⟩ := hx
      rcases List.mem_cons.mp hx with rfl | hx
      · rw [hxe] at hb; cases hb
      · exact ⟨x, hx, hxe⟩
    · rw [hb]; rfl

theorem glynnPermanent_fewer {K : Type} [Field K] {U : List (List K)} (gray : ℕ → List ℕ) (c : ℕ)
    (hc : ∀ r ∈ U, r.length = c) (hS : S.length ≤ c) (hT : T.length ≤ U.length)
    (h0 : S.sum ≠ 0) (hs : S.sum < T.sum) :
    glynnPermanent gray ⟨U, S, T⟩ = .error .indexError := by
  have hsc := effectiveScatteringMatrix_ok U S T c hc hS hT h0 (by omega)
  have hl : (scatter U S T).length = T.sum := by simp [scatter, particles_length]
  have hr : ∀ r ∈ scatter U S T, r.length = S.sum := by
    intro r hr
    obtain ⟨i, -, rfl⟩ := List.mem_map.mp hr
    simp [particles_length]
  have hin : ∀ j, ∀ i ∈ List.range T.sum, ∀ acc : K,
      (∃ b', (do
        let d ← pyGetN (List.replicate T.sum (1 : Int)) i
        let u ← matGet (scatter U S T) i j
        pure (acc + (d : K) * u) : Py K) = .ok b') ∨
      (do
        let d ← pyGetN (List.replicate T.sum (1 : Int)) i
        let u ← matGet (scatter U S T) i j
        pure (acc + (d : K) * u) : Py K) = .error .indexError := by
    intro j i hi acc
    have hi' := List.mem_range.mp hi
    rw [pyGetN_ok (by simpa using hi'), ok_bind]
    by_cases hj : j < S.sum
    · rw [matGet_ok _ hr (by omega) hj]; exact Or.inl ⟨_, rfl⟩
    · rw [matGet_col _ hl hr hi' (by omega)]; exact Or.inr rfl
  unfold glynnPermanent
  simp only
  rw [hsc, ok_bind, if_neg (by omega), hl, List.length_replicate]
  rw [foldlM_error _ .indexError]
  · rfl
  · intro j _ sums
    rcases foldlM_either _ .indexError (List.range T.sum) (hin j) 0 with ⟨w, hw⟩ | hw
    · rw [hw, ok_bind]; exact Or.inl ⟨_, rfl⟩
    · rw [hw]; exact Or.inr rfl
  · refine ⟨S.sum, by simpa using hs, fun sums => ?_⟩
    rw [foldlM_error _ .indexError (List.range T.sum) (hin S.sum)]
    · rfl
    · refine ⟨0, by simp; omega, fun acc => ?_⟩
      rw [pyGetN_ok (by simp; omega), ok_bind, matGet_col _ hl hr (by omega) le_rfl]
      rfl

/-! ### Classic -/

/-- Expansion along the list of rows; columns may be left over. -/
def linj {ι : Type _} : List ι → List (ι → K) → K
  | [], _ => 1
  | r :: rs, cs => ((picks cs).map fun p => p.1 r * linj rs p.2).sum

theorem linj_eq {ι : Type _} {m n : ℕ} (R : Fin n → ι) (C : Fin m → ι → K) (l : List (Fin m))
    (hl : l.Nodup) :
    linj (List.ofFn R) (l.map C)
      = ∑ g : Fin n → Fin m with Function.Injective g ∧ ∀ i, g i ∈ l, ∏ i, C (g i) (R i) := by
  induction n generalizing l with
  | zero =>
    simp only [List.ofFn_zero, linj, univ_unique, prod_empty, univ_eq_empty]
    rw [filter_true_of_mem]
    · simp
    · intro g _
      exact ⟨Function.injective_of_subsingleton g, fun i => i.elim0⟩
  | succ n ih =>
    rw [List.ofFn_succ, linj, picks_map, picks_nodup l hl, List.map_map, List.map_map]
    simp only [Function.comp_def]
    have h1 : ∀ x ∈ l, C x (R 0) * linj (List.ofFn fun i => R i.succ) ((l.erase x).map C)
        = ∑ g : Fin n → Fin m with (Function.Injective g ∧ ∀ i, g i ∈ l.erase x),
            C x (R 0) * ∏ i, C (g i) (R i.succ) := by
      intro x _
      rw [ih _ _ (hl.erase x), mul_sum]
    rw [List.map_congr_left h1, ← List.sum_toFinset _ hl]
    rw [sum_filter (s := (univ : Finset (Fin (n + 1) → Fin m))),
      ← (Fin.consEquiv fun _ : Fin (n + 1) => Fin m).sum_comp, Fintype.sum_prod_type]
    rw [← sum_subset (subset_univ l.toFinset)]
    · refine sum_congr rfl fun x hx => ?_
      have hx' := List.mem_toFinset.mp hx
      rw [sum_filter]
      refine sum_congr rfl fun g _ => ?_
      simp only [Fin.consEquiv_apply, Fin.prod_univ_succ, Fin.cons_zero, Fin.cons_succ]
      refine if_congr ?_ rfl rfl
      change _ ↔ Function.Injective (Fin.cons x g : Fin (n + 1) → Fin m) ∧
        ∀ i, (Fin.cons x g : Fin (n + 1) → Fin m) i ∈ l
      rw [Fin.cons_injective_iff, Fin.forall_fin_succ]
      simp only [Fin.cons_zero, Fin.cons_succ, hl.mem_erase_iff, Set.mem_range, not_exists]
      constructor
      · rintro ⟨a, b⟩; exact ⟨⟨fun i => (b i).1, a⟩, hx', fun i => (b i).2⟩
      · rintro ⟨⟨a, b⟩, -, c⟩; exact ⟨b, fun i => ⟨a i, c i⟩⟩
    · intro x _ hx
      refine sum_eq_zero fun g _ => ?_
      rw [if_neg]
      rintro ⟨-, h⟩
      exact hx (List.mem_toFinset.mpr (by simpa using h 0))

theorem classicRec_any (a : List (List K)) (rows cols : ℕ) (hn : a.length = rows)
    (hc : ∀ r ∈ a, r.length = cols) (todo : ℕ) (selected : List ℕ) (prod : K) (htc : todo ≤ cols) :
    classicRec a rows cols todo selected prod
      = .ok (prod * linj (List.range' (cols - todo) todo)
          ((avail rows selected).map fun i j => mget a i j)) := by
  induction todo generalizing selected prod with
  | zero => simp [classicRec, linj]
  | succ todo ih =>
    rw [classicRec]
    have := foldlM_sum_filter (K := K) (List.range rows) selected (fun row => (do
      let u ← matGet a row (cols - (todo + 1))
      classicRec a rows cols todo (selected ++ [row]) (prod * u) : Py K))
      (fun row => prod * (mget a row (cols - (todo + 1)) * linj (List.range' (cols - todo) todo)
        ((avail rows (selected ++ [row])).map fun i j => mget a i j))) (fun i hi hsel => by
          have hi' := List.mem_range.mp hi
          rw [matGet_ok a hc (by omega) (by omega), ok_bind, ih _ _ (by omega), mul_assoc]) 0
    simp only [bind_assoc] at this
    rw [this, zero_add]
    congr 1
    rw [List.range'_succ, linj, picks_map,
      picks_nodup (avail rows selected) (List.Nodup.filter _ List.nodup_range),
      List.map_map, List.map_map, ← List.sum_map_mul_left]
    congr 1
    refine List.map_congr_left fun x _ => ?_
    simp only [Function.comp]
    rw [← avail_erase, show cols - (todo + 1) + 1 = cols - todo by omega]

theorem classicPermanent_any (c : ℕ) (hc : ∀ r ∈ U, r.length = c)
    (hS : S.length ≤ c) (hT : T.length ≤ U.length) (hS0 : S.sum ≠ 0) (hT0 : T.sum ≠ 0) :
    classicPermanent ⟨U, S, T⟩ = .ok (embeddingSum U S T) := by
  unfold classicPermanent
  simp only
  rw [if_neg hS0, effectiveScatteringMatrix_ok U S T c hc hS hT hS0 hT0, ok_bind]
  have hl : (scatter U S T).length = T.sum := by simp [scatter, particles_length]
  have hr : ∀ r ∈ scatter U S T, r.length = S.sum := by
    intro r hr
    obtain ⟨i, -, rfl⟩ := List.mem_map.mp hr
    simp [particles_length]
  cases hsc : scatter U S T with
  | nil => rw [hsc] at hl; simp at hl; omega
  | cons r rs =>
    have hrl : r.length = S.sum := hr r (by rw [hsc]; simp)
    simp only
    have hav : avail T.sum [] = List.range T.sum := by simp [avail]
    rw [← hsc, hrl, hl, classicRec_any (scatter U S T) T.sum S.sum hl hr S.sum [] 1 (le_refl _),
      hav, one_mul, Nat.sub_self, ← List.range_eq_range']
    have e1 : List.range S.sum = List.ofFn fun a : Fin S.sum => (a : ℕ) := by
      apply List.ext_getElem <;> simp
    have e2 : (List.range T.sum).map (fun i j => mget (scatter U S T) i j)
        = (List.finRange T.sum).map fun (b : Fin T.sum) j => mget (scatter U S T) b j := by
      apply List.ext_getElem <;> simp
    rw [e1, e2, linj_eq _ _ _ (List.nodup_finRange _)]
    unfold embeddingSum
    congr 1
    refine sum_congr (filter_congr fun g _ => by simp) fun g _ => prod_congr rfl fun b _ => ?_
    rw [mget_scatter U S T (g b).2 b.2]

end Verif
