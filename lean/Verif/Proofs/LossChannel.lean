import Verif.Proofs.BobsSample
import Mathlib.Algebra.Module.LinearMap.End
import Mathlib.Data.Nat.Choose.Sum

/-! Helper lemmas: uniform losses before a lossy network are losses of the network. -/
namespace Verif

open Finset
open scoped ENNReal

/-! ### Sums over subsets of the particles -/

/-- Sum over the sublists of length `n`. -/
def subLen : ℕ → List ℕ → (List ℕ → ℝ) → ℝ
  | 0, _, f => f []
  | _ + 1, [], _ => 0
  | n + 1, a :: l, f => subLen (n + 1) l f + subLen n l fun A => f (a :: A)

theorem subLen_zero (l : List ℕ) (f : List ℕ → ℝ) : subLen 0 l f = f [] := by cases l <;> rfl

theorem subLen_gt (n : ℕ) (l : List ℕ) (f : List ℕ → ℝ) (h : l.length < n) : subLen n l f = 0 := by
  induction l generalizing n f with
  | nil =>
    cases n with
    | zero => simp at h
    | succ n => rfl
  | cons a l ih =>
    cases n with
    | zero => simp at h
    | succ n =>
      simp only [List.length_cons] at h
      rw [subLen, ih _ _ (by omega), ih _ _ (by omega), add_zero]

theorem subLen_add (n : ℕ) (l : List ℕ) (f g : List ℕ → ℝ) :
    subLen n l (fun A => f A + g A) = subLen n l f + subLen n l g := by
  induction l generalizing n f g with
  | nil => cases n <;> simp [subLen]
  | cons a l ih =>
    cases n with
    | zero => rfl
    | succ n => rw [subLen, subLen, subLen, ih, ih]; ring

theorem subLen_congr (n : ℕ) (l : List ℕ) (f g : List ℕ → ℝ)
    (h : ∀ A : List ℕ, A.length = n → (∀ x ∈ A, x ∈ l) → f A = g A) : subLen n l f = subLen n l g := by
  induction l generalizing n f g with
  | nil => cases n with
    | zero => exact h [] rfl (by simp)
    | succ n => rfl
  | cons a l ih =>
    cases n with
    | zero => exact h [] rfl (by simp)
    | succ n =>
      rw [subLen, subLen, ih _ _ _ fun A h1 h2 => h A h1 fun x hx => by simp [h2 x hx],
        ih _ _ _ fun A h1 h2 => h (a :: A) (by simp [h1]) fun x hx => by
          rcases List.mem_cons.mp hx with rfl | hx
          · simp
          · simp [h2 x hx]]

theorem subLen_smul (n : ℕ) (l : List ℕ) (k : ℝ) (f : List ℕ → ℝ) :
    subLen n l (fun A => k * f A) = k * subLen n l f := by
  induction l generalizing n f with
  | nil => cases n <;> simp [subLen]
  | cons a l ih =>
    cases n with
    | zero => rfl
    | succ n => rw [subLen, subLen, ih, ih]; ring

/-- Every subset of size `n` is obtained from `|l| - n` larger ones by removing a particle. -/
theorem subLen_picks (n : ℕ) (l : List ℕ) (f : List ℕ → ℝ) :
    subLen (n + 1) l (fun A => ((picks A).map fun p => f p.2).sum) = ((l.length : ℝ) - n) * subLen n l f := by
  induction l generalizing n f with
  | nil =>
    cases n with
    | zero => simp [subLen]
    | succ n => simp [subLen]
  | cons a l ih =>
    rw [subLen, ih]
    have e : ∀ A, ((picks (a :: A)).map fun p => f p.2).sum
        = f A + ((picks A).map fun p => (fun B => f (a :: B)) p.2).sum := by
      intro A
      simp [picks, Function.comp_def]
    simp only [e]
    rw [subLen_add n l f]
    cases n with
    | zero =>
      simp only [subLen_zero, List.length_cons]
      rw [show picks ([] : List ℕ) = [] from rfl]
      simp
      ring
    | succ n =>
      rw [ih n fun B => f (a :: B), subLen]
      simp only [List.length_cons]
      push_cast
      ring

/-- Every particle survives with probability `eta`. -/
def lossSum (eta : ℝ) : List ℕ → (List ℕ → ℝ) → ℝ
  | [], f => f []
  | a :: l, f => (1 - eta) * lossSum eta l f + eta * lossSum eta l fun A => f (a :: A)

theorem lossSum_eq (eta : ℝ) (l : List ℕ) (f : List ℕ → ℝ) :
    lossSum eta l f = ∑ i ∈ range (l.length + 1), eta ^ i * (1 - eta) ^ (l.length - i) * subLen i l f := by
  induction l generalizing f with
  | nil => simp [lossSum, subLen]
  | cons a l ih =>
    rw [lossSum, ih, ih, List.length_cons, sum_range_succ' _ (l.length + 1)]
    have e : ∀ i ∈ range (l.length + 1), eta ^ (i + 1) * (1 - eta) ^ (l.length + 1 - (i + 1)) * subLen (i + 1) (a :: l) f
        = (1 - eta) * (if i = l.length then 0 else eta ^ (i + 1) * (1 - eta) ^ (l.length - (i + 1)) * subLen (i + 1) l f)
          + eta * (eta ^ i * (1 - eta) ^ (l.length - i) * subLen i l fun A => f (a :: A)) := by
      intro i hi
      have hi := mem_range.mp hi
      rw [subLen]
      split_ifs with h
      · subst h
        rw [subLen_gt (l.length + 1) l f (by omega), Nat.add_sub_add_right]
        ring
      · rw [Nat.add_sub_add_right, show l.length - i = (l.length - (i + 1)) + 1 by omega, pow_succ (1 - eta)]
        ring
    rw [sum_congr rfl e, sum_add_distrib, ← mul_sum, ← mul_sum, sum_range_succ (fun i => if i = l.length then _ else _),
      if_pos rfl, add_zero]
    have e2 : ∑ i ∈ range l.length, (if i = l.length then 0 else
        eta ^ (i + 1) * (1 - eta) ^ (l.length - (i + 1)) * subLen (i + 1) l f)
        = ∑ i ∈ range l.length, eta ^ (i + 1) * (1 - eta) ^ (l.length - (i + 1)) * subLen (i + 1) l f :=
      sum_congr rfl fun i hi => by rw [if_neg (by have := mem_range.mp hi; omega)]
    rw [e2, sum_range_succ' _ l.length]
    simp only [subLen_zero, pow_zero, Nat.sub_zero, one_mul, pow_succ]
    ring

theorem lossSum_nonneg {eta : ℝ} (h0 : 0 ≤ eta) (h1 : eta ≤ 1) (l : List ℕ) (f : List ℕ → ℝ) (hf : ∀ A, 0 ≤ f A) :
    0 ≤ lossSum eta l f := by
  induction l generalizing f with
  | nil => exact hf []
  | cons a l ih =>
    have := ih f hf
    have := ih (fun A => f (a :: A)) fun A => hf _
    have : 0 ≤ 1 - eta := by linarith
    rw [lossSum]
    positivity

theorem lossSum_replicate (eta : ℝ) (a q : ℕ) (l : List ℕ) (f : List ℕ → ℝ) :
    lossSum eta (List.replicate a q ++ l) f
      = ∑ x ∈ range (a + 1), binomialWeight a x eta * lossSum eta l fun A => f (List.replicate x q ++ A) := by
  induction a generalizing f with
  | zero => simp [binomialWeight]
  | succ a ih =>
    rw [List.replicate_succ, List.cons_append, lossSum, ih, ih, sum_range_succ' _ (a + 1)]
    have e : ∀ x ∈ range (a + 1), binomialWeight (a + 1) (x + 1) eta *
          lossSum eta l (fun A => f (List.replicate (x + 1) q ++ A))
        = (1 - eta) * (binomialWeight a (x + 1) eta * lossSum eta l fun A => f (List.replicate (x + 1) q ++ A))
          + eta * (binomialWeight a x eta * lossSum eta l fun A => f (q :: (List.replicate x q ++ A))) := by
      intro x hx
      rw [binomialWeight_succ_succ a x (by have := mem_range.mp hx; omega)]
      simp only [List.replicate_succ, List.cons_append]
      ring
    rw [sum_congr rfl e, sum_add_distrib, ← mul_sum, ← mul_sum, binomialWeight_succ_zero]
    have hz : binomialWeight a (a + 1) eta = 0 := by
      unfold binomialWeight
      rw [Nat.choose_eq_zero_of_lt (by omega)]
      simp
    rw [sum_range_succ (fun x => binomialWeight a (x + 1) eta * _) a, hz, zero_mul, add_zero,
      sum_range_succ' (fun x => binomialWeight a x eta * lossSum eta l fun A => f (List.replicate x q ++ A)) a]
    ring

theorem expLoss_eq {eta : ℝ} (h0 : 0 ≤ eta) (h1 : eta ≤ 1) (q : ℕ) (S : List ℕ) (f : List ℕ → ℝ) (hf : ∀ A, 0 ≤ f A) :
    expLoss eta S (fun L => ENNReal.ofReal (f (particlesFrom q L)))
      = ENNReal.ofReal (lossSum eta (particlesFrom q S) f) := by
  induction S generalizing q f with
  | nil => rfl
  | cons a S ih =>
    rw [expLoss, particlesFrom, lossSum_replicate, ENNReal.ofReal_sum_of_nonneg]
    · refine sum_congr rfl fun x _ => ?_
      rw [ENNReal.ofReal_mul (binomialWeight_nonneg a x h0 h1), ← ih (q + 1) _ fun A => hf _]
      rfl
    · intro x _
      exact mul_nonneg (binomialWeight_nonneg a x h0 h1) (lossSum_nonneg h0 h1 _ _ fun A => hf _)

/-! ### Adding environment rows and removing particles -/

/-- Functions of a sequence of rows and a list of particles. -/
abbrev RowFun := List ℕ → List ℕ → ℝ

/-- Sum over one more output in the rows `m, …, m+b-1`. -/
def opE (m b : ℕ) : Module.End ℝ RowFun where
  toFun g := fun rs X => ∑ r ∈ range b, g ((m + r) :: rs) X
  map_add' f g := by funext rs X; simp [sum_add_distrib]
  map_smul' k f := by funext rs X; simp [mul_sum]

/-- Sum over the removal of one particle. -/
def opD : Module.End ℝ RowFun where
  toFun g := fun rs X => ((picks X).map fun p => g rs p.2).sum
  map_add' f g := by funext rs X; simp
  map_smul' k f := by
    funext rs X
    simp only [Pi.smul_apply, smul_eq_mul, RingHom.id_apply]
    rw [List.sum_map_mul_left]

theorem op_commute (m b : ℕ) : Commute (opE m b) opD := by
  refine LinearMap.ext fun g => ?_
  funext rs X
  change ∑ r ∈ range b, ((picks X).map fun p => g ((m + r) :: rs) p.2).sum
    = ((picks X).map fun p => ∑ r ∈ range b, g ((m + r) :: rs) p.2).sum
  simp only [← Fin.sum_univ_fun_getElem]
  rw [sum_comm]

theorem opD_pow (i j : ℕ) (g : RowFun) (rs X : List ℕ) (h : X.length = i + j) :
    (opD ^ j) g rs X = (j.factorial : ℝ) * subLen i X (g rs) := by
  induction j generalizing i g with
  | zero =>
    have : ∀ (X : List ℕ) (f : List ℕ → ℝ), subLen X.length X f = f X := by
      intro X
      induction X with
      | nil => intro f; rfl
      | cons a l ih =>
        intro f
        rw [List.length_cons, subLen, subLen_gt _ _ _ (by omega), ih, zero_add]
    rw [pow_zero, Nat.factorial_zero, show i = X.length by omega, this]
    simp
  | succ j ih =>
    rw [pow_succ, Module.End.mul_apply, ih (i + 1) _ (by omega)]
    have : (opD g) rs = fun A => ((picks A).map fun p => g rs p.2).sum := rfl
    rw [this, subLen_picks, h, Nat.factorial_succ]
    push_cast
    ring

theorem opE_pow (m b i : ℕ) (g : RowFun) (hg : ∀ rs rs' X, rs.Perm rs' → g rs X = g rs' X) (rs X : List ℕ) :
    (opE m b ^ i) g rs X = ∑ w ∈ words b i, g (w.map (m + ·) ++ rs) X := by
  induction i generalizing rs with
  | zero => simp [words]
  | succ i ih =>
    rw [pow_succ', Module.End.mul_apply]
    change ∑ r ∈ range b, (opE m b ^ i) g ((m + r) :: rs) X = _
    rw [sum_words_succ, sum_comm]
    refine sum_congr rfl fun r _ => ?_
    rw [ih]
    exact sum_congr rfl fun w _ => hg _ _ _ List.perm_middle

/-! ### Amplitudes -/

theorem amp_relabel (c c' : ℕ → ℕ → ℂ) (f : ℕ → ℕ) (a : ℂ) (rs cs : List ℕ)
    (h : ∀ x ∈ cs, ∀ r ∈ rs, c' x (f r) = a * c x r) : amp c' (rs.map f) cs = a ^ rs.length * amp c rs cs := by
  induction rs generalizing cs with
  | nil =>
    rw [List.map_nil, List.length_nil, pow_zero, one_mul]
    cases cs <;> rfl
  | cons r rs ih =>
    rw [List.map_cons, amp_cons, amp_cons, ← List.sum_map_mul_left]
    congr 1
    refine List.map_congr_left fun p hp => ?_
    obtain ⟨h1, h2⟩ := mem_of_picks hp
    rw [h _ h1 r (by simp), ih p.2 fun x hx r' hr' => h x (h2 x hx) r' (by simp [hr']), List.length_cons, pow_succ]
    ring

theorem phi_relabel (c c' : ℕ → ℕ → ℂ) (f : ℕ → ℕ) (a : ℂ) (rs cs : List ℕ)
    (h : ∀ x ∈ cs, ∀ r ∈ rs, c' x (f r) = a * c x r) :
    phi c' (rs.map f) cs = Complex.normSq a ^ rs.length * phi c rs cs := by
  unfold phi
  rw [amp_relabel c c' f a rs cs h, Complex.normSq_mul, map_pow, mul_div_assoc]

/-- One particle in the loss modes. -/
theorem phi_loss (c : ℕ → ℕ → ℂ) (s n : ℕ) (a : ℂ) (h : ∀ x < n, ∀ r < n, c x (s + r) = if x = r then a else 0)
    (rs cs : List ℕ) (hcs : ∀ x ∈ cs, x < n) :
    ∑ r ∈ range n, phi c ((s + r) :: rs) cs = Complex.normSq a * ((picks cs).map fun p => phi c rs p.2).sum := by
  let c' : ℕ → ℕ → ℂ := fun x r => if r < n then (if x = r then 1 else 0) else c x (r - n)
  have hO : OrthoCols c' n n := by
    intro x hx y hy
    simp only [c']
    rw [sum_congr rfl fun r hr => by rw [if_pos (mem_range.mp hr), if_pos (mem_range.mp hr)]]
    rw [sum_eq_single x]
    · by_cases hxy : y = x
      · simp [hxy]
      · rw [if_pos rfl, if_neg hxy, if_neg (Ne.symm hxy)]; simp
    · intro r _ hr; rw [if_neg (Ne.symm hr)]; simp
    · intro h; exact absurd (mem_range.mpr hx) h
  have hr : ∀ (X : List ℕ), amp c' (rs.map (n + ·)) X = amp c rs X := by
    intro X
    have := amp_relabel c c' (n + ·) 1 rs X fun x _ r _ => by simp [c']
    rw [this, one_pow, one_mul]
  have hphi : ∀ X, phi c' (rs.map (n + ·)) X = phi c rs X := fun X => by unfold phi; rw [hr]
  have hm := phi_marginal hO (rs.map (n + ·)) cs hcs
  simp only [hphi] at hm
  rw [← hm, mul_sum]
  refine sum_congr rfl fun r hr' => ?_
  have hr' := mem_range.mp hr'
  have : amp c ((s + r) :: rs) cs = a * amp c' (r :: rs.map (n + ·)) cs := by
    rw [amp_cons, amp_cons, ← List.sum_map_mul_left]
    congr 1
    refine List.map_congr_left fun p hp => ?_
    rw [h _ (hcs _ (mem_of_picks hp).1) r hr', hr]
    simp only [c', if_pos hr']
    split_ifs <;> simp
  unfold phi
  rw [this, Complex.normSq_mul, mul_div_assoc]

theorem words_loss (c c' : ℕ → ℕ → ℂ) (m b n : ℕ) (eta : ℝ) (h0 : 0 ≤ eta) (h1 : eta ≤ 1)
    (hloss : ∀ x < n, ∀ r < n, c' x (m + b + r) = if x = r then ((Real.sqrt (1 - eta) : ℝ) : ℂ) else 0)
    (hkeep : ∀ x < n, ∀ r < m + b, c' x r = ((Real.sqrt eta : ℝ) : ℂ) * c x r)
    (k : ℕ) (rs X : List ℕ) (hrs : ∀ r ∈ rs, r < m + b) (hX : ∀ x ∈ X, x < n) :
    ∑ w ∈ words (b + n) k, phi c' (w.map (m + ·) ++ rs) X
      = eta ^ rs.length * ((eta • opE m b + (1 - eta) • opD) ^ k) (phi c) rs X := by
  have n1 : Complex.normSq ((Real.sqrt eta : ℝ) : ℂ) = eta := by
    rw [Complex.normSq_ofReal, Real.mul_self_sqrt h0]
  have n2 : Complex.normSq ((Real.sqrt (1 - eta) : ℝ) : ℂ) = 1 - eta := by
    rw [Complex.normSq_ofReal, Real.mul_self_sqrt (by linarith)]
  induction k generalizing rs X with
  | zero =>
    rw [words, sum_singleton, List.map_nil, List.nil_append, pow_zero]
    have := phi_relabel c c' id ((Real.sqrt eta : ℝ) : ℂ) rs X fun x hx r hr => hkeep x (hX x hx) r (hrs r hr)
    rw [List.map_id, n1] at this
    exact this
  | succ k ih =>
    rw [sum_words_succ]
    have e : ∀ w ∈ words (b + n) k, ∑ r ∈ range (b + n), phi c' ((r :: w).map (m + ·) ++ rs) X
        = ∑ r ∈ range b, phi c' (w.map (m + ·) ++ (m + r) :: rs) X
          + (1 - eta) * ((picks X).map fun p => phi c' (w.map (m + ·) ++ rs) p.2).sum := by
      intro w _
      rw [sum_range_add]
      congr 1
      · exact sum_congr rfl fun r _ => phi_perm_rows _ _ (by simpa using List.perm_middle.symm)
      · rw [← n2, ← phi_loss c' (m + b) n _ hloss _ X hX]
        refine sum_congr rfl fun r _ => ?_
        simp only [List.map_cons, List.cons_append, Nat.add_assoc]
    rw [sum_congr rfl e, sum_add_distrib, sum_comm, ← mul_sum]
    have s1 : ∀ r ∈ range b, ∑ w ∈ words (b + n) k, phi c' (w.map (m + ·) ++ (m + r) :: rs) X
        = eta ^ rs.length * (eta * ((eta • opE m b + (1 - eta) • opD) ^ k) (phi c) ((m + r) :: rs) X) := by
      intro r hr
      rw [ih ((m + r) :: rs) X (by
        intro x hx
        rcases List.mem_cons.mp hx with rfl | hx
        · have := mem_range.mp hr; omega
        · exact hrs x hx) hX, List.length_cons, pow_succ]
      ring
    have s2 : ∑ w ∈ words (b + n) k, ((picks X).map fun p => phi c' (w.map (m + ·) ++ rs) p.2).sum
        = eta ^ rs.length *
            ((picks X).map fun p => ((eta • opE m b + (1 - eta) • opD) ^ k) (phi c) rs p.2).sum := by
      rw [← List.sum_map_mul_left]
      simp only [← Fin.sum_univ_fun_getElem]
      rw [sum_comm]
      refine sum_congr rfl fun i _ => ?_
      exact ih rs _ hrs fun x hx => hX x ((mem_of_picks (List.getElem_mem (l := picks X) i.2)).2 x hx)
    rw [sum_congr rfl s1, s2, ← mul_sum, ← mul_sum, pow_succ', Module.End.mul_apply]
    change _ = eta ^ rs.length *
      (eta * ∑ r ∈ range b, ((eta • opE m b + (1 - eta) • opD) ^ k) (phi c) ((m + r) :: rs) X
        + (1 - eta) * ((picks X).map fun p => ((eta • opE m b + (1 - eta) • opD) ^ k) (phi c) rs p.2).sum)
    ring

theorem op_pow (m b : ℕ) (eta : ℝ) (k : ℕ) (g : RowFun) (hg : ∀ rs rs' X, rs.Perm rs' → g rs X = g rs' X)
    (rs X : List ℕ) (hk : X.length = rs.length + k) :
    ((eta • opE m b + (1 - eta) • opD) ^ k) g rs X
      = ∑ i ∈ range (k + 1), (k.factorial : ℝ) / i.factorial * eta ^ i * (1 - eta) ^ (k - i) *
          subLen (rs.length + i) X fun A => ∑ w ∈ words b i, g (w.map (m + ·) ++ rs) A := by
  have hc : Commute (eta • opE m b) ((1 - eta) • opD) :=
    ((op_commute m b).smul_left eta).smul_right (1 - eta)
  rw [hc.add_pow, LinearMap.sum_apply, Finset.sum_apply, Finset.sum_apply]
  refine sum_congr rfl fun i hi => ?_
  have hi : i ≤ k := by have := mem_range.mp hi; omega
  have e : (eta • opE m b) ^ i * ((1 - eta) • opD) ^ (k - i) * ((k.choose i : ℕ) : Module.End ℝ RowFun)
      = (eta ^ i * (1 - eta) ^ (k - i) * (k.choose i : ℝ)) • (opD ^ (k - i) * opE m b ^ i) := by
    rw [smul_pow, smul_pow, smul_mul_smul_comm, ((op_commute m b).pow_pow i (k - i)).eq, smul_mul_assoc,
      (Nat.cast_commute (k.choose i) (opD ^ (k - i) * opE m b ^ i)).symm.eq, ← nsmul_eq_mul, ← Nat.cast_smul_eq_nsmul ℝ,
      smul_smul]
  rw [e, LinearMap.smul_apply, Module.End.mul_apply]
  change (eta ^ i * (1 - eta) ^ (k - i) * (k.choose i : ℝ)) * ((opD ^ (k - i)) ((opE m b ^ i) g) rs X) = _
  rw [opD_pow (rs.length + i) (k - i) _ rs X (by omega)]
  have e2 : (opE m b ^ i) g rs = fun A => ∑ w ∈ words b i, g (w.map (m + ·) ++ rs) A := by
    funext A; exact opE_pow m b i g hg rs A
  rw [e2]
  have : (k.choose i : ℝ) * ((k - i).factorial : ℝ) = (k.factorial : ℝ) / i.factorial := by
    rw [eq_div_iff (by exact_mod_cast i.factorial_ne_zero)]
    have := Nat.choose_mul_factorial_mul_factorial hi
    rw [← this]
    push_cast
    ring
  rw [← this]
  ring

/-- The probability of `t` as a function of the list of input particles. -/
noncomputable def lossyVal (c : ℕ → ℕ → ℂ) (m b : ℕ) (t : List ℕ) (F : ℕ) (A : List ℕ) : ℝ :=
  if t.length ≤ A.length then
    (∑ w ∈ words b (A.length - t.length), phi c (w.map (m + ·) ++ t) A) / ((A.length - t.length).factorial * F)
  else 0

theorem lossyVal_nonneg (c : ℕ → ℕ → ℂ) (m b : ℕ) (t : List ℕ) (F : ℕ) (A : List ℕ) : 0 ≤ lossyVal c m b t F A := by
  unfold lossyVal
  split_ifs
  · exact div_nonneg (sum_nonneg fun _ _ => phi_nonneg _ _ _) (by positivity)
  · exact le_rfl

theorem lossyProb_eq_val (W : List (List ℂ)) (b : ℕ) (L T : List ℕ) :
    lossyProb W b L T = lossyVal (colOf W) T.length b (particles T) (factProd T) (particles L) := by
  unfold lossyVal
  rw [particles_length, particles_length]
  split_ifs with h
  · rw [lossyProb_eq_words W b L T h]
    congr 1
    exact sum_congr rfl fun w _ => phi_perm_rows _ _ List.perm_append_comm
  · exact lossyProb_eq_zero W b L T (by omega)

theorem words_val (c c' : ℕ → ℕ → ℂ) (m b n : ℕ) (eta : ℝ) (h0 : 0 ≤ eta) (h1 : eta ≤ 1)
    (hloss : ∀ x < n, ∀ r < n, c' x (m + b + r) = if x = r then ((Real.sqrt (1 - eta) : ℝ) : ℂ) else 0)
    (hkeep : ∀ x < n, ∀ r < m + b, c' x r = ((Real.sqrt eta : ℝ) : ℂ) * c x r)
    (t X : List ℕ) (F : ℕ) (ht : ∀ r ∈ t, r < m + b) (hX : ∀ x ∈ X, x < n) (hle : t.length ≤ X.length) :
    lossyVal c' m (b + n) t F X = lossSum eta X (lossyVal c m b t F) := by
  obtain ⟨k, hk⟩ : ∃ k, X.length = t.length + k := ⟨X.length - t.length, by omega⟩
  rw [lossyVal, if_pos hle, words_loss c c' m b n eta h0 h1 hloss hkeep _ t X ht hX,
    show X.length - t.length = k by omega, op_pow m b eta k (phi c) (fun _ _ _ h => phi_perm_rows _ _ h) t X hk,
    lossSum_eq, hk, show t.length + k + 1 = t.length + (k + 1) by omega,
    sum_range_add (fun i => eta ^ i * (1 - eta) ^ (t.length + k - i) * subLen i X (lossyVal c m b t F))]
  have hz : ∑ i ∈ range t.length, eta ^ i * (1 - eta) ^ (t.length + k - i) * subLen i X (lossyVal c m b t F) = 0 := by
    refine sum_eq_zero fun i hi => ?_
    rw [subLen_congr i X _ (fun A => 0 * A.length) fun A hA _ => by
      rw [lossyVal, if_neg (by have := mem_range.mp hi; omega), zero_mul], subLen_smul, zero_mul, mul_zero]
  rw [hz, zero_add, mul_sum, sum_div]
  refine sum_congr rfl fun i hi => ?_
  have hi : i ≤ k := by have := mem_range.mp hi; omega
  rw [subLen_congr (t.length + i) X (lossyVal c m b t F)
    (fun A => (1 / ((i.factorial : ℝ) * F)) * ∑ w ∈ words b i, phi c (w.map (m + ·) ++ t) A) fun A hA _ => by
      rw [lossyVal, if_pos (by omega), hA, Nat.add_sub_cancel_left]
      ring, subLen_smul, show t.length + k - (t.length + i) = k - i by omega, pow_add]
  have hf : (k.factorial : ℝ) ≠ 0 := by exact_mod_cast k.factorial_ne_zero
  field_simp

/-- The law of a network behind uniform losses. -/
theorem lossyProb_uniform {m : ℕ} (A : Matrix (Fin m) (Fin m) ℂ) (eta : ℝ) (h0 : 0 ≤ eta) (h1 : eta ≤ 1)
    {W W' : List (List ℂ)} {b b' : ℕ} (hW : IsDilation (rowsOf A) W m b)
    (hW' : IsDilation (rowsOf (((Real.sqrt eta : ℝ) : ℂ) • A)) W' m b') (S T : List ℕ) (hS : S.length = m)
    (hT : T.length = m) :
    expLoss eta S (fun L => ENNReal.ofReal (lossyProb W b L T)) = ENNReal.ofReal (lossyProb W' b' S T) := by
  simp only [lossyProb_eq_val W b _ T]
  rw [show particles = particlesFrom 0 from rfl,
    expLoss_eq h0 h1 0 S (lossyVal (colOf W) T.length b (particlesFrom 0 T) (factProd T)) (lossyVal_nonneg _ _ _ _ _)]
  congr 1
  by_cases hle : T.sum ≤ S.sum
  · let c' : ℕ → ℕ → ℂ := fun x r => if r < m + b then ((Real.sqrt eta : ℝ) : ℂ) * colOf W x r else
      if x = r - (m + b) then ((Real.sqrt (1 - eta) : ℝ) : ℂ) else 0
    have hkeep : ∀ x < m, ∀ r < m + b, c' x r = ((Real.sqrt eta : ℝ) : ℂ) * colOf W x r := by
      intro x _ r hr; simp only [c', if_pos hr]
    have hloss : ∀ x < m, ∀ r < m, c' x (m + b + r) = if x = r then ((Real.sqrt (1 - eta) : ℝ) : ℂ) else 0 := by
      intro x _ r _
      simp only [c']
      rw [if_neg (by omega), show m + b + r - (m + b) = r by omega]
    have hX : ∀ x ∈ particlesFrom 0 S, x < m := fun x hx => by have := particlesFrom_range hx; omega
    have hlen : (particles T).length ≤ (particles S).length := by rw [particles_length, particles_length]; exact hle
    have hv := words_val (colOf W) c' m b m eta h0 h1 hloss hkeep (particles T) (particles S) (factProd T)
      (fun r hr => by have := particlesFrom_range hr; omega) hX hlen
    rw [hT]
    refine hv.symm.trans ?_
    apply Complex.ofReal_injective
    rw [lossyProb_eq_env W' b' S T hle, lossyVal, if_pos hlen, particles_length, particles_length, Complex.ofReal_div,
      Complex.ofReal_sum]
    have e : ∀ w ∈ words (b + m) (S.sum - T.sum), ((phi c' (w.map (m + ·) ++ particles T) (particles S) : ℝ) : ℂ)
        = amp c' (particles T ++ w.map (m + ·)) (particles S) *
            (starRingEnd ℂ) (amp c' (particles T ++ w.map (m + ·)) (particles S))
          / (multFact (particles S : Multiset ℕ) : ℂ) := by
      intro w _
      rw [phi_perm_rows c' _ List.perm_append_comm, phi, Complex.mul_conj]
      push_cast
      rfl
    rw [sum_congr rfl e, ← sum_div]
    change envSum c' m (b + m) (particles T) (S.sum - T.sum) (particles S) (particles S) / _ / _ = _
    rw [div_div]
    push_cast
    congr 1
    refine envSum_congr _ _ _ _ _ _ _ _ _ _ ?_ ?_
    · intro r hr x hx
      have hr' := particlesFrom_range hr
      have hx' : x < m := hX x (by tauto)
      rw [hkeep x hx' r (by omega)]
      simp only [colOf]
      rw [hW.embeds r (by omega) x hx', hW'.embeds r (by omega) x hx', mget_rowsOf _ _ _ (by omega) hx',
        mget_rowsOf _ _ _ (by omega) hx']
      simp
    · intro x hx y hy
      have hx := hX x hx
      have hy := hX y hy
      have s1 : ((Real.sqrt eta : ℝ) : ℂ) * ((Real.sqrt eta : ℝ) : ℂ) = (eta : ℂ) := by
        rw [← Complex.ofReal_mul, Real.mul_self_sqrt h0]
      have s2 : ((Real.sqrt (1 - eta) : ℝ) : ℂ) * ((Real.sqrt (1 - eta) : ℝ) : ℂ) = 1 - (eta : ℂ) := by
        rw [← Complex.ofReal_mul, Real.mul_self_sqrt (by linarith)]
        push_cast; ring
      have g1 : ∑ r ∈ range b, colOf W x (m + r) * (starRingEnd ℂ) (colOf W y (m + r))
          = (if y = x then 1 else 0) - ∑ r ∈ range m, colOf W x r * (starRingEnd ℂ) (colOf W y r) := by
        rw [eq_sub_iff_add_eq', ← hW.isometric y hy x hx, sum_range_add]
        congr 1
        · exact sum_congr rfl fun r _ => by simp only [colOf]; rw [mul_comm]
        · exact sum_congr rfl fun r _ => by simp only [colOf]; rw [mul_comm]
      have g2 : ∑ r ∈ range b', colOf W' x (T.length + r) * (starRingEnd ℂ) (colOf W' y (T.length + r))
          = (if y = x then 1 else 0) - (eta : ℂ) * ∑ r ∈ range m, colOf W x r * (starRingEnd ℂ) (colOf W y r) := by
        rw [hT, eq_sub_iff_add_eq', ← hW'.isometric y hy x hx, sum_range_add, mul_sum]
        congr 1
        · refine sum_congr rfl fun r hr => ?_
          have hr := mem_range.mp hr
          simp only [colOf]
          rw [hW.embeds r hr x hx, hW.embeds r hr y hy, hW'.embeds r hr x hx, hW'.embeds r hr y hy,
            mget_rowsOf _ _ _ hr hx, mget_rowsOf _ _ _ hr hx, mget_rowsOf _ _ _ hr hy, mget_rowsOf _ _ _ hr hy]
          simp only [Matrix.smul_apply, smul_eq_mul, map_mul, Complex.conj_ofReal]
          rw [← s1]
          ring
        · exact sum_congr rfl fun r _ => by simp only [colOf]; rw [mul_comm]
      rw [g2, sum_range_add]
      have p1 : ∀ r ∈ range b, c' x (m + r) * (starRingEnd ℂ) (c' y (m + r))
          = (eta : ℂ) * (colOf W x (m + r) * (starRingEnd ℂ) (colOf W y (m + r))) := by
        intro r hr
        have hr := mem_range.mp hr
        rw [hkeep x hx _ (by omega), hkeep y hy _ (by omega), map_mul, Complex.conj_ofReal, ← s1]
        ring
      have p2 : ∑ r ∈ range m, c' x (m + (b + r)) * (starRingEnd ℂ) (c' y (m + (b + r)))
          = (1 - (eta : ℂ)) * if y = x then 1 else 0 := by
        rw [sum_eq_single x]
        · rw [← Nat.add_assoc, hloss x hx x hx, hloss y hy x hx, if_pos rfl]
          split_ifs
          · rw [Complex.conj_ofReal, s2, mul_one]
          · simp
        · intro r hr hne
          rw [← Nat.add_assoc, hloss x hx r (mem_range.mp hr), if_neg (Ne.symm hne), zero_mul]
        · intro h; exact absurd (mem_range.mpr hx) h
      rw [sum_congr rfl p1, p2, ← mul_sum, g1]
      ring
  · have hz : ∀ A : List ℕ, A.length ≤ (particlesFrom 0 S).length →
        lossyVal (colOf W) T.length b (particlesFrom 0 T) (factProd T) A = 0 := by
      intro A hA
      rw [lossyVal, if_neg]
      have h2 := particles_length S
      have h3 := particles_length T
      unfold particles at h2 h3
      omega
    rw [lossyProb_eq_zero _ _ _ _ (not_le.mp hle), lossSum_eq]
    refine sum_eq_zero fun i hi => ?_
    rw [subLen_congr i _ _ (fun A => 0 * A.length) fun A hA _ => by
      rw [hz A (by have := mem_range.mp hi; omega), zero_mul], subLen_smul, zero_mul, mul_zero]

end Verif
