import Verif.Proofs.GuanSum
import Verif.Proofs.PermLink
import Verif.Proofs.States
import Verif.Spec.Permanent

/-! Helper lemmas: sums over the box of sub-states are iterated differences, hence permanents. -/
namespace Verif

open Finset

variable {K : Type _} [Field K] {ι : Type _}

theorem list_sum_range (n : ℕ) (f : ℕ → K) : ((List.range n).map f).sum = ∑ k ∈ range n, f k := rfl

theorem list_sum_finset {β : Type _} (L : List β) (n : ℕ) (g : β → ℕ → K) :
    (L.map fun t => ∑ k ∈ range n, g t k).sum = ∑ k ∈ range n, (L.map fun t => g t k).sum := by
  induction L with
  | nil => simp
  | cons a L ih => simp [ih, sum_add_distrib]

theorem sum_map_flatMap {α β : Type _} (L : List α) (f : α → List β) (g : β → K) :
    ((L.flatMap f).map g).sum = (L.map fun a => ((f a).map g).sum).sum := by
  induction L with
  | nil => simp
  | cons a L ih => simp [ih]

theorem boxProd_cons (m : ℕ) (f : ℕ → ℕ → K) (x : Int) (t : List Int) :
    boxProd (m + 1) f (x :: t) = f 0 x.toNat * boxProd m (fun ν => f (ν + 1)) t := by
  unfold boxProd
  rw [prod_range_succ']
  simp [mul_comm]

theorem boxSum_cons (m : ℕ) (f : ℕ → K) (x : Int) (t : List Int) :
    boxSum (m + 1) f (x :: t) = (x : K) * f 0 + boxSum m (fun ν => f (ν + 1)) t := by
  unfold boxSum
  rw [sum_range_succ']
  simp [add_comm]

theorem box_pdiff (S : List Nat) (k : ℕ) (c : ℕ → ι → K) (F : (ι → K) → K) (w : ι → K) :
    ((ibox S).map fun r => boxProd S.length signF r * boxProd S.length (binF S) r *
      F (fun j => w j + boxSum S.length (fun ν => c (k + ν) j) r)).sum
      = (-1) ^ S.sum * pdiff ((particlesFrom k S).map c) F w := by
  induction S generalizing k w with
  | nil => simp [ibox, boxProd, boxSum, particlesFrom, pdiff]
  | cons s S ih =>
    rw [ibox, sum_map_flatMap, particlesFrom, List.map_append,
      List.map_replicate, pdiff_append, pdiff_replicate]
    simp only [List.map_map, Function.comp_def, list_sum_range]
    rw [list_sum_finset, mul_sum]
    refine sum_congr rfl fun x hx => ?_
    have hxs : x ≤ s := by have := mem_range.mp hx; omega
    have hsign : (-1 : K) ^ (s - x) = (-1) ^ s * (-1) ^ x := by
      obtain ⟨d, rfl⟩ := Nat.exists_eq_add_of_le hxs
      rw [Nat.add_sub_cancel_left, pow_add]
      have : ((-1 : K) ^ x) * (-1) ^ x = 1 := by rw [← mul_pow]; simp
      linear_combination (-(-1 : K) ^ d) * this
    have h := ih (k + 1) (w + x • c k)
    rw [List.sum_cons, pow_add, hsign]
    have e : ∀ a b d e f : K, a * b * (a * d * e * f) = (a * a) * (d * e * (b * f)) := by
      intros; ring
    rw [e, ← h, ← mul_pow]
    simp only [mul_neg, mul_one, neg_neg, one_pow, one_mul]
    rw [← List.sum_map_mul_left]
    congr 1
    refine List.map_congr_left fun t _ => ?_
    simp only [List.length_cons, boxProd_cons, boxSum_cons]
    have e1 : (fun j => w j + (((x : Int) : K) * c (k + 0) j +
          boxSum S.length (fun ν => c (k + (ν + 1)) j) t))
        = fun j => (w + x • c k) j + boxSum S.length (fun ν => c (k + 1 + ν) j) t := by
      funext j
      have : (fun ν => c (k + (ν + 1)) j) = fun ν => c (k + 1 + ν) j := by
        funext ν; rw [show k + (ν + 1) = k + 1 + ν by omega]
      rw [this]
      simp [add_assoc]
    rw [e1]
    have e2 : (fun ν => binF (K := K) (s :: S) (ν + 1)) = binF S := by
      funext ν y; simp [binF]
    have e3 : (fun ν => signF (K := K) (ν + 1)) = signF := rfl
    rw [e2, e3]
    generalize F _ = y
    generalize boxProd S.length (binF (K := K) S) t = z
    generalize boxProd S.length (signF (K := K)) t = z'
    simp only [binF, signF, List.getD_cons_zero, Int.toNat_natCast]
    ring

theorem lperm_smul (a : K) (rows : List ι) (cs : List (ι → K)) :
    lperm rows (cs.map fun c => a • c) = a ^ rows.length * lperm rows cs := by
  induction rows generalizing cs with
  | nil => cases cs <;> simp [lperm]
  | cons r rs ih =>
    rw [lperm, lperm, picks_map, List.map_map, ← List.sum_map_mul_left]
    congr 1
    refine List.map_congr_left fun p _ => ?_
    simp only [Function.comp, ih, Pi.smul_apply, smul_eq_mul, List.length_cons, pow_succ]
    ring

theorem prod_particlesFrom (T : List Nat) (k : ℕ) (v : ℕ → K) :
    ((particlesFrom k T).map v).prod = ∏ ν ∈ range T.length, v (k + ν) ^ T.getD ν 0 := by
  induction T generalizing k with
  | nil => simp [particlesFrom]
  | cons t T ih =>
    rw [particlesFrom, List.map_append, List.prod_append, ih, List.length_cons, prod_range_succ']
    simp only [List.map_replicate, List.prod_replicate, List.getD_cons_zero, List.getD_cons_succ,
      Nat.add_zero]
    rw [mul_comm]
    congr 1
    refine prod_congr rfl fun ν _ => ?_
    rw [show k + (ν + 1) = k + 1 + ν by omega]

theorem prod_filter_ne (l : List ℕ) (p : ℕ → Bool) (f : ℕ → K) (h : ∀ i, p i = false → f i = 1) :
    ((l.filter p).map f).prod = (l.map f).prod := by
  induction l with
  | nil => simp
  | cons a l ih =>
    rw [List.filter_cons]
    by_cases hp : p a
    · simp [hp, ih]
    · simp [hp, ih, h a (by simpa using hp)]

theorem npNonzero_prod (T : List Nat) (v : ℕ → K) :
    ((npNonzero T).map fun j => v j ^ T.getD j 0).prod = rowProd (particles T) v := by
  rw [rowProd, prod_particlesFrom, npNonzero, prod_filter_ne]
  · simp only [Nat.zero_add]
    rfl
  · intro i hi
    have : T.getD i 0 = 0 := by simpa using hi
    rw [this, pow_zero]

theorem particles_length (S : List Nat) : (particles S).length = S.sum := particlesFrom_length 0 S

/-- The column of mode `ν`. -/
def colOf (U : List (List K)) (ν : ℕ) : ℕ → K := fun j => mget U j ν

theorem lperm_scattering (U : List (List K)) (S T : List Nat) (h : S.sum = T.sum) :
    lperm (particles T) ((particles S).map (colOf U)) = scatteringPermanent U S T := by
  have e1 : particles T = List.ofFn fun a : Fin T.sum => (particles T).getD a 0 := by
    apply List.ext_getElem
    · simp [particles_length]
    · intro i h1 h2
      rw [List.getElem_ofFn, getD_of_lt _ _ h1]
  have e2 : (particles S).map (colOf U)
      = List.ofFn fun b : Fin T.sum => colOf U ((particles S).getD b 0) := by
    apply List.ext_getElem
    · simp [particles_length, h]
    · intro i h1 h2
      rw [List.getElem_ofFn, List.getElem_map, getD_of_lt _ _ (by simpa using h1)]
  rw [e2]
  conv_lhs => rw [e1]
  rw [lperm_eq_permanent]
  rfl

end Verif
