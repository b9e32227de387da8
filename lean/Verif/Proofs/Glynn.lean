import Verif.Proofs.GuanCalc
import Verif.Spec.Gray

/-! Helper lemmas: the Glynn calculator. -/
namespace Verif

open Finset

variable {K : Type _} [Field K] {ι : Type _}

/-! ### Glynn's formula -/

theorem pdiff_neg (cs : List (ι → K)) (F : (ι → K) → K) (w : ι → K) :
    pdiff (cs.map fun c => -c) F w = (-1) ^ cs.length * pdiff cs F (w - cs.sum) := by
  induction cs generalizing w with
  | nil => simp [pdiff]
  | cons c cs ih =>
    simp only [List.map_cons, pdiff, ih, List.length_cons, List.sum_cons, pow_succ]
    rw [show w + -c - cs.sum = w - (c + cs.sum) by abel, show w - (c + cs.sum) + c = w - cs.sum by abel]
    ring

theorem pdiff_even (cs : List (ι → K)) (F : (ι → K) → K) (e : K) (hF : ∀ v, F (-v) = e * F v)
    (w : ι → K) : pdiff cs F (-w) = e * pdiff (cs.map fun c => -c) F w := by
  induction cs generalizing w with
  | nil => simp [pdiff, hF]
  | cons c cs ih =>
    simp only [List.map_cons, pdiff]
    rw [show -w + c = -(w + -c) by abel, ih, ih]
    ring

theorem rowProd_neg (rows : List ι) (v : ι → K) :
    rowProd rows (-v) = (-1) ^ rows.length * rowProd rows v := by
  induction rows with
  | nil => simp [rowProd]
  | cons r rows ih =>
    simp only [rowProd, List.map_cons, List.prod_cons, List.length_cons, pow_succ, Pi.neg_apply] at ih ⊢
    rw [ih]; ring

theorem sum_map_smul (a : K) (as : List (ι → K)) : (as.map fun c => a • c).sum = a • as.sum := by
  induction as with
  | nil => simp
  | cons c as ih => simp [ih]

/-- Glynn's formula: differences in all but one direction suffice at the symmetric base point. -/
theorem glynn_formula [CharZero K] (rows : List ι) (as : List (ι → K)) (b : ι → K)
    (h : as.length + 1 = rows.length) :
    pdiff (as.map fun c => (-2 : K) • c) (rowProd rows) (as.sum + b)
      = (-2) ^ as.length * lperm rows (as ++ [b]) := by
  obtain ⟨cs, hcs⟩ : ∃ cs, cs = as.map fun c => (-2 : K) • c := ⟨_, rfl⟩
  have hlen : cs.length = as.length := by simp [hcs]
  have hsum : cs.sum = (-2 : K) • as.sum := by rw [hcs, sum_map_smul]
  have h1 : lperm rows ((as ++ [b]).map fun c => (-2 : K) • c)
      = pdiff ([(-2 : K) • b] ++ cs) (rowProd rows) (as.sum + b) := by
    rw [← lperm_eq_pdiff (by simp [hlen]; omega)]
    apply lperm_perm_cols
    rw [List.map_append, ← hcs]
    exact List.perm_append_comm
  have h2 : pdiff cs (rowProd rows) (as.sum + b + (-2 : K) • b) = - pdiff cs (rowProd rows) (as.sum + b) := by
    have e1 : as.sum + b + (-2 : K) • b = -(b - as.sum) := by
      rw [neg_smul, two_smul]; abel
    rw [e1, pdiff_even _ _ _ (rowProd_neg rows), pdiff_neg, hsum, hlen, ← h, neg_smul, two_smul]
    rw [show b - as.sum - -(as.sum + as.sum) = as.sum + b by abel, pow_succ]
    have : ((-1 : K) ^ as.length) * (-1) ^ as.length = 1 := by rw [← mul_pow]; simp
    linear_combination (-pdiff cs (rowProd rows) (as.sum + b)) * this
  rw [lperm_smul, ← h] at h1
  simp only [List.singleton_append, pdiff] at h1
  rw [h2, pow_succ] at h1
  rw [← hcs]
  have h3 : (-2 : K) ≠ 0 := by norm_num
  apply mul_left_cancel₀ h3
  linear_combination -h1

/-! ### The visited patterns -/

/-- A pattern as a 0/1 vector. -/
def bits (p : List Bool) : List Int := p.map fun b => if b then 1 else 0

theorem flipVisits_length (idx : List Nat) (p q : List Bool) (h : q ∈ flipVisits idx p) :
    q.length = p.length := by
  induction idx generalizing p with
  | nil => simp [flipVisits] at h; rw [h]
  | cons i idx ih =>
    simp only [flipVisits, List.mem_cons] at h
    rcases h with rfl | h
    · rfl
    · simpa using ih _ h

theorem bits_injective : Function.Injective bits := by
  intro p q h
  refine List.map_injective_iff.mpr ?_ h
  intro a b
  cases a <;> cases b <;> simp

theorem gray_perm {n : ℕ} {idx : List Nat} (h : IsGrayCode n idx) :
    ((flipVisits idx (List.replicate n false)).map bits).Perm (ibox (List.replicate n 1)) := by
  rw [List.perm_ext_iff_of_nodup (h.once.map bits_injective) (nodup_ibox _)]
  intro r
  rw [mem_ibox]
  constructor
  · intro hr
    obtain ⟨p, hp, rfl⟩ := List.mem_map.mp hr
    have hl : p.length = n := by simpa using flipVisits_length _ _ _ hp
    subst hl
    clear hp hr h
    induction p with
    | nil => exact List.Forall₂.nil
    | cons b p ih => exact List.Forall₂.cons (by cases b <;> simp) ih
  · intro hr
    have : ∃ p : List Bool, bits p = r ∧ p.length = n := by
      clear h
      induction n generalizing r with
      | zero => cases hr; exact ⟨[], rfl, rfl⟩
      | succ n ih =>
        rw [List.replicate_succ] at hr
        cases hr with
        | cons h1 h2 =>
          rename_i x t
          obtain ⟨p, rfl, rfl⟩ := ih t h2
          have : x = 0 ∨ x = 1 := by have := h1.1; have := h1.2; push_cast at *; omega
          rcases this with rfl | rfl
          · exact ⟨false :: p, rfl, rfl⟩
          · exact ⟨true :: p, rfl, rfl⟩
    obtain ⟨p, rfl, hp⟩ := this
    exact List.mem_map_of_mem (h.all p hp)

/-! ### The loop -/

theorem foldlM_set_range {α : Type} (f : ℕ → α → Py α) (g : ℕ → α → α) (l : List α)
    (h : ∀ j < l.length, ∀ x, f j x = .ok (g j x)) :
    (List.range l.length).foldlM (fun (l : List α) j => do
      let w ← pyGetN l j
      let y ← f j w
      pySetN l j y) l = .ok (l.mapIdx g) := by
  have key : ∀ k ≤ l.length, (List.range k).foldlM (fun (l : List α) j => do
      let w ← pyGetN l j
      let y ← f j w
      pySetN l j y) l = .ok ((l.take k).mapIdx g ++ l.drop k) := by
    intro k
    induction k with
    | zero => intro _; simp
    | succ k ih =>
      intro hk
      rw [List.range_succ, List.foldlM_append, ih (by omega), ok_bind, List.foldlM_cons]
      have hlen : ((l.take k).mapIdx g ++ l.drop k).length = l.length := by simp; omega
      rw [pyGetN_ok (by rw [hlen]; omega), ok_bind, h k (by omega), ok_bind,
        pySetN_ok (by rw [hlen]; omega), ok_bind, List.foldlM_nil]
      have e1 : ((l.take k).mapIdx g ++ l.drop k)[k]'(by rw [hlen]; omega) = l[k] := by
        rw [List.getElem_append_right (by simp)]
        simp [Nat.min_eq_left (by omega : k ≤ l.length)]
      rw [e1]
      congr 1
      rw [List.set_append_right _ _ (by simp), List.take_succ_eq_append_getElem (by omega),
        List.mapIdx_append]
      have e2 : k - ((l.take k).mapIdx g).length = 0 := by
        simp [Nat.min_eq_left (by omega : k ≤ l.length)]
      have e3 : l.drop k = l[k] :: l.drop (k + 1) := List.drop_eq_getElem_cons (by omega)
      rw [e2, e3, List.set_cons_zero]
      simp [Nat.min_eq_left (by omega : k ≤ l.length)]
  rw [key _ (le_refl _)]
  simp

/-- The signs of a pattern; the last row's sign stays 1. -/
def deltaOf (p : List Bool) : List Int := p.map (fun b => if b then -1 else 1) ++ [1]

/-- The column sums at a pattern. -/
def glynnW (a : List (List K)) (n : ℕ) (p : List Bool) (j : ℕ) : K :=
  ∑ i ∈ range n, mget a i j + boxSum (n - 1) (fun ν => (-2) * mget a ν j) (bits p)

def glynnTerm (a : List (List K)) (n : ℕ) (p : List Bool) : K :=
  boxProd (n - 1) signF (bits p) * ((List.range n).map (glynnW a n p)).prod

def glynnState (a : List (List K)) (n : ℕ) (p : List Bool) (acc : K) : K × List Int × List K × K :=
  (boxProd (n - 1) signF (bits p), deltaOf p, (List.range n).map (glynnW a n p), acc)

theorem bits_getD (p : List Bool) (i : ℕ) : (bits p).getD i 0 = if p.getD i false then 1 else 0 := by
  unfold bits
  rw [List.getD_eq_getElem?_getD, List.getElem?_map, List.getD_eq_getElem?_getD]
  cases p[i]? <;> simp

theorem glynnStep_ok (a : List (List K)) (n c : ℕ) (hn : a.length = n) (hc : ∀ r ∈ a, r.length = c) (hnc : n ≤ c)
    (p : List Bool) (hp : p.length + 1 = n) (acc : K) (i : ℕ) (hi : i < p.length) :
    glynnStep a (glynnState a n p acc) i
      = .ok (glynnState a n (p.set i (!p.getD i false))
          (acc + glynnTerm a n (p.set i (!p.getD i false)))) := by
  obtain ⟨b, hb⟩ : ∃ b, b = p.getD i false := ⟨_, rfl⟩
  obtain ⟨δ, hδ⟩ : ∃ δ : Int, δ = if b then -1 else 1 := ⟨_, rfl⟩
  have hδ' : δ = 1 ∨ δ = -1 := by cases b <;> simp [hδ]
  have hbits : bits (p.set i (!b)) = (bits p).set i ((bits p).getD i 0 + δ) := by
    rw [bits_getD, ← hb]
    unfold bits
    rw [List.map_set]
    congr 1
    cases b <;> simp [hδ]
  have hdelta : deltaOf (p.set i (!b)) = (deltaOf p).set i (-δ) := by
    unfold deltaOf
    rw [List.map_set, List.set_append_left _ _ (by simpa using hi)]
    congr 2
    cases b <;> simp [hδ]
  have hget : (deltaOf p)[i]'(by simp [deltaOf]; omega) = δ := by
    have : p[i] = b := by rw [hb, getD_of_lt _ _ hi]
    simp [deltaOf, List.getElem_append_left, hi, this, hδ]
  have hbl : (bits p).length = n - 1 := by simp [bits]; omega
  have h0 : 0 ≤ (bits p).getD i 0 := by rw [bits_getD]; split <;> simp
  have h1 : 0 ≤ (bits p).getD i 0 + δ := by
    rw [bits_getD, ← hb]; cases b <;> simp [hδ]
  have hW : ∀ j, glynnW a n (p.set i (!b)) j = glynnW a n p j + 2 * ((-δ : Int) : K) * mget a i j := by
    intro j
    unfold glynnW
    rw [hbits, boxSum_set _ _ _ _ _ (by omega) hbl]
    push_cast; ring
  have hsign : boxProd (n - 1) (signF (K := K)) (bits (p.set i (!b))) = - boxProd (n - 1) signF (bits p) := by
    rw [hbits, sign_set _ _ _ _ (by omega) hbl hδ' h0 h1]
  unfold glynnStep glynnState
  simp only [← hb]
  rw [pyGetN_ok (by simp [deltaOf]; omega), ok_bind, hget, pySetN_ok (by simp [deltaOf]; omega), ok_bind,
    ← hdelta]
  have hget' : pyGetN (deltaOf (p.set i (!b))) i = .ok (-δ) := by
    rw [hdelta, pyGetN_ok (by simp [deltaOf]; omega)]; simp
  rw [hget']
  have := foldlM_set_range (α := K) (fun j w => (do
      let u ← matGet a i j
      pure (w + 2 * ((-δ : Int) : K) * u) : Py K)) (fun j w => w + 2 * ((-δ : Int) : K) * mget a i j)
      ((List.range n).map (glynnW a n p)) (fun j hj x => by
        rw [matGet_ok a hc (by omega) (by simp at hj; omega)]; rfl)
  simp only [bind_assoc, pure_bind] at this
  simp only [ok_bind]
  rw [this, ok_bind]
  have e : ((List.range n).map (glynnW a n p)).mapIdx (fun j w => w + 2 * ((-δ : Int) : K) * mget a i j)
      = (List.range n).map (glynnW a n (p.set i (!b))) := by
    apply List.ext_getElem
    · simp
    · intro j h1 h2
      simp [hW]
  rw [e, foldl_mul_eq, one_mul]
  simp only [glynnTerm, hsign]
  rfl

theorem glynnLoop_ok (a : List (List K)) (n c : ℕ) (hn : a.length = n) (hc : ∀ r ∈ a, r.length = c) (hnc : n ≤ c)
    (idx : List ℕ) (p : List Bool) (hp : p.length + 1 = n) (hi : ∀ i ∈ idx, i < p.length) (acc : K) :
    ∃ q, idx.foldlM (glynnStep a) (glynnState a n p acc)
      = .ok (glynnState a n q (acc + ((flipVisits idx p).tail.map (glynnTerm a n)).sum)) := by
  induction idx generalizing p acc with
  | nil => exact ⟨p, by simp [flipVisits]⟩
  | cons i idx ih =>
    obtain ⟨q, hq⟩ := ih (p.set i (!p.getD i false)) (by simpa using hp)
      (fun j hj => by simpa using hi j (by simp [hj])) (acc + glynnTerm a n (p.set i (!p.getD i false)))
    refine ⟨q, ?_⟩
    rw [List.foldlM_cons, glynnStep_ok a n c hn hc hnc p hp acc i (hi i (by simp)), ok_bind, hq]
    congr 2
    simp only [flipVisits, List.tail_cons]
    cases idx <;> simp [flipVisits, add_assoc]

theorem particlesFrom_ones (k m : ℕ) : particlesFrom k (List.replicate m 1) = List.range' k m := by
  induction m generalizing k with
  | zero => rfl
  | succ m ih => simp [List.replicate_succ, particlesFrom, ih, List.range'_succ]

theorem glynn_sum [CharZero K] (a : List (List K)) (m : ℕ) (L : List (List Bool))
    (hL : (L.map bits).Perm (ibox (List.replicate m 1))) :
    (L.map (glynnTerm a (m + 1))).sum
      = 2 ^ m * lperm (List.range (m + 1)) ((List.range (m + 1)).map fun i j => mget a i j) := by
  obtain ⟨G, hG⟩ : ∃ G : List Int → K, G = fun r => boxProd m signF r *
    rowProd (List.range (m + 1)) (fun j => ∑ i ∈ range (m + 1), mget a i j
      + boxSum m (fun ν => (-2) * mget a ν j) r) := ⟨_, rfl⟩
  have h1 : L.map (glynnTerm a (m + 1)) = (L.map bits).map G := by
    rw [List.map_map]
    refine List.map_congr_left fun p _ => ?_
    simp only [glynnTerm, hG, rowProd, Function.comp, Nat.add_sub_cancel]
    rfl
  rw [h1, (hL.map G).sum_eq]
  have hb := box_pdiff (List.replicate m 1) 0 (fun ν => (-2 : K) • fun j => mget a ν j)
    (rowProd (List.range (m + 1))) (fun j => ∑ i ∈ range (m + 1), mget a i j)
  have h2 : ((ibox (List.replicate m 1)).map G) = (ibox (List.replicate m 1)).map fun r =>
      boxProd (List.replicate m 1).length signF r * boxProd (List.replicate m 1).length
        (binF (List.replicate m 1)) r * rowProd (List.range (m + 1)) (fun j =>
        (fun j => ∑ i ∈ range (m + 1), mget a i j) j + boxSum (List.replicate m 1).length
          (fun ν => ((-2 : K) • fun j => mget a ν j : ℕ → K) j) r) := by
    refine List.map_congr_left fun r hr => ?_
    have hr' := (mem_ibox _ _).mp hr
    have hone : boxProd m (binF (K := K) (List.replicate m 1)) r = 1 := by
      refine prod_eq_one fun ν hν => ?_
      have := forall₂_getD hr' ν
      have e : (List.replicate m 1).getD ν 0 = 1 := by
        rw [getD_of_lt _ _ (by simpa using mem_range.mp hν)]; simp
      rw [e] at this
      have hx : r.getD ν 0 = 0 ∨ r.getD ν 0 = 1 := by push_cast at this; omega
      rcases hx with hx | hx <;> rw [hx] <;> simp only [binF, e] <;> simp
    simp only [hG, List.length_replicate, hone, mul_one, Pi.smul_apply, smul_eq_mul]
  rw [h2]
  simp only [Nat.zero_add] at hb
  rw [hb, particlesFrom_ones]
  have hw : (fun j => ∑ i ∈ range (m + 1), mget a i j)
      = ((List.range m).map fun i j => mget a i j).sum + fun j => mget a m j := by
    have : ∀ k, (fun j => ∑ i ∈ range k, mget a i j) = ((List.range k).map fun i j => mget a i j).sum := by
      intro k
      induction k with
      | zero => funext j; simp
      | succ k ih => rw [List.range_succ, List.map_append, List.sum_append, ← ih]; funext j
                     simp [sum_range_succ]
    rw [this, List.range_succ, List.map_append, List.sum_append]
    simp
  have hd : (List.range' 0 m).map (fun ν => (-2 : K) • fun j => mget a ν j)
      = ((List.range m).map fun i j => mget a i j).map fun c => (-2 : K) • c := by
    rw [List.map_map, List.range_eq_range']; rfl
  rw [hd, hw, glynn_formula _ _ _ (by simp), List.range_succ (n := m), List.map_append]
  simp only [List.sum_replicate, smul_eq_mul, mul_one, List.length_map, List.length_range,
    List.map_cons, List.map_nil]
  rw [← mul_assoc, ← mul_pow]
  norm_num

theorem glynn_sums_init (a : List (List K)) (n c : ℕ) (hn : a.length = n) (hc : ∀ r ∈ a, r.length = c) (hnc : n ≤ c) :
    (List.range n).foldlM (fun (sums : List K) j => do
      let w ← (List.range n).foldlM (fun (acc : K) i => do
        let d ← pyGetN (List.replicate n (1 : Int)) i
        let u ← matGet a i j
        pure (acc + (d : K) * u)) 0
      pure (sums ++ [w])) [] = .ok ((List.range n).map (glynnW a n (List.replicate (n - 1) false))) := by
  rw [foldlM_ok (fun (sums : List K) (j : ℕ) => (do
      let w ← (List.range n).foldlM (fun (acc : K) i => do
        let d ← pyGetN (List.replicate n (1 : Int)) i
        let u ← matGet a i j
        pure (acc + (d : K) * u)) 0
      pure (sums ++ [w]) : Py _)) (fun sums j => sums ++ [glynnW a n (List.replicate (n - 1) false) j])]
  · congr 1
    rw [show (fun (sums : List K) (j : ℕ) => sums ++ [glynnW a n (List.replicate (n - 1) false) j])
      = fun sums j => sums ++ List.replicate 1 (glynnW a n (List.replicate (n - 1) false) j) from rfl]
    generalize List.range n = l
    have : ∀ acc : List K, l.foldl (fun sums j => sums ++ List.replicate 1
        (glynnW a n (List.replicate (n - 1) false) j)) acc
        = acc ++ l.map (glynnW a n (List.replicate (n - 1) false)) := by
      induction l with
      | nil => simp
      | cons x l ih => intro acc; rw [List.foldl_cons, ih]; simp
    simpa using this []
  · intro sums j hj
    have hj' := List.mem_range.mp hj
    have := foldlM_sum_range (K := K) n (fun i => (do
      let d ← pyGetN (List.replicate n (1 : Int)) i
      let u ← matGet a i j
      pure ((d : K) * u) : Py K)) (fun i => mget a i j) (fun i hi => by
        rw [pyGetN_ok (by simpa using hi), ok_bind, matGet_ok a hc (by omega) (by omega), ok_bind]; simp) 0
    simp only [bind_assoc, pure_bind] at this
    rw [this, ok_bind, zero_add]
    have : bits (List.replicate (n - 1) false) = List.replicate (n - 1) 0 := by simp [bits]
    simp only [glynnW, this, boxSum_zero, add_zero]
    rfl

/-- The Glynn calculator on a non-empty scattering matrix with at least as many columns as rows. -/
theorem glynn_ok [CharZero K] (gray : ℕ → List ℕ) (U : List (List K)) (S T : List ℕ) (a : List (List K))
    (m c : ℕ) (ha : effectiveScatteringMatrix U S T = .ok a) (hn : a.length = m + 1)
    (hc : ∀ r ∈ a, r.length = c) (hnc : m + 1 ≤ c) (hgray : IsGrayCode m (gray m)) :
    glynnPermanent gray ⟨U, S, T⟩
      = .ok (lperm (List.range (m + 1)) ((List.range (m + 1)).map fun i j => mget a i j)) := by
  unfold glynnPermanent
  rw [ha, ok_bind, if_neg (by omega), hn]
  simp only [Nat.add_sub_cancel, List.length_replicate]
  rw [glynn_sums_init a (m + 1) c hn hc hnc, ok_bind]
  have hb : bits (List.replicate m false) = List.replicate m 0 := by simp [bits]
  have hs : ((1 : K), List.replicate (m + 1) (1 : Int),
      (List.range (m + 1)).map (glynnW a (m + 1) (List.replicate m false)),
      1 * ((List.range (m + 1)).map (glynnW a (m + 1) (List.replicate m false))).foldl (· * ·) 1)
      = glynnState a (m + 1) (List.replicate m false) (glynnTerm a (m + 1) (List.replicate m false)) := by
    have h1 : boxProd m (signF (K := K)) (bits (List.replicate m false)) = 1 := by
      rw [hb, boxProd_zero _ _ _ (by simp [signF])]
    simp only [glynnState, glynnTerm, Nat.add_sub_cancel, h1, foldl_mul_eq, one_mul]
    congr 2
    simp [deltaOf, List.replicate_succ']
  rw [Nat.add_sub_cancel, hs]
  obtain ⟨q, hq⟩ := glynnLoop_ok a (m + 1) c hn hc hnc (gray m) (List.replicate m false) (by simp)
    (fun i hi => by simpa using hgray.range i hi) (glynnTerm a (m + 1) (List.replicate m false))
  rw [hq, ok_bind]
  have hsum : glynnTerm a (m + 1) (List.replicate m false)
      + ((flipVisits (gray m) (List.replicate m false)).tail.map (glynnTerm a (m + 1))).sum
      = ((flipVisits (gray m) (List.replicate m false)).map (glynnTerm a (m + 1))).sum := by
    cases gray m <;> simp [flipVisits]
  rw [hsum, glynn_sum a m _ (gray_perm hgray)]
  simp only [glynnState]
  have h2 : (2 : K) ^ m ≠ 0 := pow_ne_zero _ two_ne_zero
  rw [mul_div_cancel_left₀ _ h2]
  rfl

theorem mget_scatter (U : List (List K)) (S T : List ℕ) {a b : ℕ} (ha : a < T.sum) (hb : b < S.sum) :
    mget (scatter U S T) a b = mget U ((particles T).getD a 0) ((particles S).getD b 0) := by
  have ha' : a < (particles T).length := by rw [particles_length]; exact ha
  have hb' : b < (particles S).length := by rw [particles_length]; exact hb
  rw [mget_of_lt _ (by simpa [scatter] using ha') (by simpa [scatter] using hb'), getD_of_lt _ _ ha',
    getD_of_lt _ _ hb']
  simp [scatter]

theorem lperm_scatter_rows (U : List (List K)) (S T : List ℕ) (h : S.sum = T.sum) :
    lperm (List.range T.sum) ((List.range T.sum).map fun i j => mget (scatter U S T) i j)
      = scatteringPermanent U S T := by
  have e1 : List.range T.sum = List.ofFn fun a : Fin T.sum => (a : ℕ) := by
    apply List.ext_getElem <;> simp
  have e2 : (List.range T.sum).map (fun i j => mget (scatter U S T) i j)
      = List.ofFn fun b : Fin T.sum => fun j => mget (scatter U S T) b j := by
    apply List.ext_getElem <;> simp
  rw [e2]
  conv_lhs => rw [e1]
  rw [lperm_eq_permanent, ← Matrix.permanent_transpose]
  unfold scatteringPermanent
  congr 1
  ext a b
  exact mget_scatter U S T a.2 (by rw [h]; exact b.2)

end Verif
