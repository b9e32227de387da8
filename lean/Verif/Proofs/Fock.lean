import Verif.Spec.Fock
import Verif.Proofs.PermLink
import Verif.Proofs.BoxSum
import Verif.Proofs.Arrangements
import Verif.Proofs.Lossy
import Mathlib.Algebra.BigOperators.Fin
import Mathlib.Algebra.BigOperators.Field

/-! Helper lemmas: norms of permanents of matrices with orthonormal columns. -/
namespace Verif

open Finset

theorem picks_fst {α : Type*} (l : List α) : (picks l).map Prod.fst = l := by
  induction l with
  | nil => rfl
  | cons a l ih => simp only [picks, List.map_cons, List.map_map, Function.comp_def]; rw [ih]

/-- Amplitude of the output sequence `rs` for the input particles in the modes `cs`. -/
def amp (c : ℕ → ℕ → ℂ) (rs cs : List ℕ) : ℂ := lperm rs (cs.map c)

theorem amp_cons (c : ℕ → ℕ → ℂ) (r : ℕ) (rs cs : List ℕ) :
    amp c (r :: rs) cs = ((picks cs).map fun p => c p.1 r * amp c rs p.2).sum := by
  unfold amp
  rw [lperm, picks_map, List.map_map]
  rfl

theorem amp_perm (c : ℕ → ℕ → ℂ) (rs : List ℕ) {as bs : List ℕ} (h : as.Perm bs) :
    amp c rs as = amp c rs bs := lperm_perm_cols (h.map c)

theorem amp_perm_rows (c : ℕ → ℕ → ℂ) {rs rs' : List ℕ} (cs : List ℕ) (h : rs.Perm rs') :
    amp c rs cs = amp c rs' cs := lperm_perm_rows h

/-- Orthonormality of the columns `c a`, `a < n`, on `m` rows. -/
def OrthoCols (c : ℕ → ℕ → ℂ) (m n : ℕ) : Prop :=
  ∀ a < n, ∀ b < n, ∑ r ∈ range m, (starRingEnd ℂ) (c a r) * c b r = if a = b then 1 else 0

theorem sum_normSq_amp {c : ℕ → ℕ → ℂ} {m n : ℕ} (hc : OrthoCols c m n) (rs cs : List ℕ)
    (hcs : ∀ a ∈ cs, a < n) :
    ∑ r ∈ range m, Complex.normSq (amp c (r :: rs) cs)
      = ((picks cs).map fun p => (cs.count p.1 : ℝ) * Complex.normSq (amp c rs p.2)).sum := by
  have hmem : ∀ p ∈ picks cs, p.1 < n := fun p hp =>
    hcs _ ((picks_perm hp).mem_iff.mp (by simp))
  rw [← Fin.sum_univ_fun_getElem]
  apply Complex.ofReal_injective
  push_cast
  have e : ∀ r, (Complex.normSq (amp c (r :: rs) cs) : ℂ)
      = ∑ i : Fin (picks cs).length, ∑ j : Fin (picks cs).length,
        ((starRingEnd ℂ) (c (picks cs)[i].1 r) * c (picks cs)[j].1 r) *
          ((starRingEnd ℂ) (amp c rs (picks cs)[i].2) * amp c rs (picks cs)[j].2) := by
    intro r
    rw [Complex.normSq_eq_conj_mul_self, amp_cons, ← Fin.sum_univ_fun_getElem, map_sum, sum_mul_sum]
    refine sum_congr rfl fun i _ => sum_congr rfl fun j _ => ?_
    rw [map_mul]
    simp only [Fin.getElem_fin]
    ring
  simp only [e]
  rw [sum_comm]
  refine sum_congr rfl fun i _ => ?_
  rw [sum_comm]
  simp only [← sum_mul]
  have e2 : ∀ j : Fin (picks cs).length,
      (∑ r ∈ range m, (starRingEnd ℂ) (c (picks cs)[i].1 r) * c (picks cs)[j].1 r) *
        ((starRingEnd ℂ) (amp c rs (picks cs)[i].2) * amp c rs (picks cs)[j].2)
      = (if (picks cs)[j].1 = (picks cs)[i].1 then 1 else 0) *
        (Complex.normSq (amp c rs (picks cs)[i].2) : ℂ) := by
    intro j
    rw [hc _ (hmem (picks cs)[i] (List.getElem_mem _)) _ (hmem (picks cs)[j] (List.getElem_mem _))]
    by_cases h : (picks cs)[i].1 = (picks cs)[j].1
    · rw [if_pos h, if_pos h.symm, Complex.normSq_eq_conj_mul_self]
      have hp : ((picks cs)[i].2).Perm (picks cs)[j].2 := by
        have h1 := picks_perm (List.getElem_mem (l := picks cs) i.2)
        have h2 := picks_perm (List.getElem_mem (l := picks cs) j.2)
        simp only [Fin.getElem_fin] at h
        rw [← h] at h2
        exact (h1.trans h2.symm).cons_inv
      rw [amp_perm c rs hp]
    · rw [if_neg h, if_neg (fun e => h e.symm), zero_mul, zero_mul]
  rw [sum_congr rfl fun j _ => e2 j, ← sum_mul]
  congr 1
  simp only [Fin.getElem_fin]
  rw [Fin.sum_univ_fun_getElem (picks cs) (fun p => if p.1 = (picks cs)[i.1].1 then (1 : ℂ) else 0)]
  generalize (picks cs)[i.1].1 = x
  conv_rhs => rw [← picks_fst cs]
  induction picks cs with
  | nil => simp
  | cons q l ih =>
    simp only [List.map_cons, List.sum_cons, List.count_cons, ih, beq_iff_eq]
    split_ifs <;> push_cast <;> ring

/-- Squared amplitude divided by the factorials of the input multiplicities. -/
noncomputable def phi (c : ℕ → ℕ → ℂ) (rs cs : List ℕ) : ℝ :=
  Complex.normSq (amp c rs cs) / (multFact (cs : Multiset ℕ) : ℝ)

theorem phi_perm (c : ℕ → ℕ → ℂ) (rs : List ℕ) {as bs : List ℕ} (h : as.Perm bs) :
    phi c rs as = phi c rs bs := by
  unfold phi
  rw [amp_perm c rs h, Multiset.coe_eq_coe.mpr h]

theorem phi_perm_rows (c : ℕ → ℕ → ℂ) {rs rs' : List ℕ} (cs : List ℕ) (h : rs.Perm rs') :
    phi c rs cs = phi c rs' cs := by
  unfold phi; rw [amp_perm_rows c cs h]

theorem multFact_pos {α : Type*} [DecidableEq α] (s : Multiset α) : 0 < multFact s :=
  prod_pos fun _ _ => Nat.factorial_pos _

theorem phi_nonneg (c : ℕ → ℕ → ℂ) (rs cs : List ℕ) : 0 ≤ phi c rs cs :=
  div_nonneg (Complex.normSq_nonneg _) (Nat.cast_nonneg _)

theorem phi_marginal {c : ℕ → ℕ → ℂ} {m n : ℕ} (hc : OrthoCols c m n) (rs cs : List ℕ)
    (hcs : ∀ a ∈ cs, a < n) :
    ∑ r ∈ range m, phi c (r :: rs) cs = ((picks cs).map fun p => phi c rs p.2).sum := by
  unfold phi
  rw [← sum_div, sum_normSq_amp hc rs cs hcs, div_eq_mul_inv, ← List.sum_map_mul_right]
  congr 1
  refine List.map_congr_left fun p hp => ?_
  have hperm := picks_perm hp
  have h1 : ((p.2 : List ℕ) : Multiset ℕ) = (cs : Multiset ℕ).erase p.1 := by
    rw [← Multiset.coe_eq_coe.mpr hperm, ← Multiset.cons_coe, Multiset.erase_cons_head]
  have hm : p.1 ∈ (cs : Multiset ℕ) := by
    rw [Multiset.mem_coe]; exact hperm.mem_iff.mp (by simp)
  rw [h1, multFact_erase hm, Multiset.coe_count, Nat.cast_mul]
  have h2 : ((cs.count p.1 : ℕ) : ℝ) ≠ 0 := by
    have := List.count_pos_iff.mpr (Multiset.mem_coe.mp hm)
    exact_mod_cast this.ne'
  have h3 : ((multFact ((cs : Multiset ℕ).erase p.1) : ℕ) : ℝ) ≠ 0 := by
    exact_mod_cast (multFact_pos _).ne'
  field_simp

theorem cons_injective2 : Function.Injective fun p : ℕ × List ℕ => p.1 :: p.2 := fun p q h => by
  have := List.cons.inj h
  exact Prod.ext this.1 this.2

/-- All words of length `k` over the modes `0, …, m-1`. -/
def words (m : ℕ) : ℕ → Finset (List ℕ)
  | 0 => {[]}
  | k + 1 => (range m ×ˢ words m k).map ⟨fun p => p.1 :: p.2, cons_injective2⟩

theorem mem_words {m k : ℕ} {l : List ℕ} : l ∈ words m k ↔ l.length = k ∧ ∀ x ∈ l, x < m := by
  induction k generalizing l with
  | zero =>
    simp only [words, mem_singleton, List.length_eq_zero_iff]
    constructor
    · rintro rfl; simp
    · exact fun h => h.1
  | succ k ih =>
    simp only [words, mem_map, mem_product, mem_range, Function.Embedding.coeFn_mk, Prod.exists, ih]
    constructor
    · rintro ⟨a, b, ⟨h1, h2, h3⟩, rfl⟩
      refine ⟨by simp [h2], fun x hx => ?_⟩
      rcases List.mem_cons.mp hx with rfl | hx
      · exact h1
      · exact h3 x hx
    · rintro ⟨h1, h2⟩
      cases l with
      | nil => simp at h1
      | cons a b => exact ⟨a, b, ⟨h2 a (by simp), by simpa using h1, fun x hx => h2 x (by simp [hx])⟩, rfl⟩

theorem sum_words_succ {A : Type*} [AddCommMonoid A] (m k : ℕ) (f : List ℕ → A) :
    ∑ w ∈ words m (k + 1), f w = ∑ w ∈ words m k, ∑ r ∈ range m, f (r :: w) := by
  rw [words, sum_map, sum_product_right]
  rfl

/-- The squared amplitudes of all output sequences add up to `k!`. -/
theorem phi_total {c : ℕ → ℕ → ℂ} {m n : ℕ} (hc : OrthoCols c m n) (k : ℕ) (cs : List ℕ)
    (hk : cs.length = k) (hcs : ∀ a ∈ cs, a < n) :
    ∑ w ∈ words m k, phi c w cs = (k.factorial : ℝ) := by
  induction k generalizing cs with
  | zero =>
    obtain rfl := List.length_eq_zero_iff.mp hk
    simp [words, phi, amp, lperm, multFact]
  | succ k ih =>
    rw [sum_words_succ]
    simp only [phi_marginal hc _ cs hcs]
    simp only [← Fin.sum_univ_fun_getElem]
    rw [sum_comm]
    rw [sum_congr rfl fun (i : Fin (picks cs).length) _ => ih (picks cs)[i].2 (by
      have := picks_snd_length (List.getElem_mem (l := picks cs) i.2)
      simp only [Fin.getElem_fin]
      omega) (fun a ha => hcs a ((picks_perm (List.getElem_mem (l := picks cs) i.2)).mem_iff.mp
        (List.mem_cons_of_mem _ ha)))]
    rw [sum_const, card_univ, Fintype.card_fin, picks_length, hk, Nat.factorial_succ]
    simp

end Verif
