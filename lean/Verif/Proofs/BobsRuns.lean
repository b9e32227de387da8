import Verif.Proofs.LossChannel

/-! Helper lemmas: whole calls of the sampler for non-uniform losses. -/
namespace Verif

open Finset
open scoped ENNReal

theorem Prog.bind_done {α : Type} (p : Prog α) : (p.bind fun s => .done (.ok s)) = p := by
  induction p with
  | done r => cases r <;> rfl
  | uniform k ih => rw [Prog.bind]; congr 1; funext u; exact ih u
  | randint n k ih => rw [Prog.bind]; congr 1; funext u; exact ih u
  | choice n k ih => rw [Prog.bind]; congr 1; funext u; exact ih u
  | shuffle n k ih => rw [Prog.bind]; congr 1; funext u; exact ih u

theorem Prog.repeatN_add {α : Type} (p : Prog α) (a b : ℕ) :
    p.repeatN (a + b) = (p.repeatN a).bind fun l => (p.repeatN b).bind fun l' => .done (.ok (l ++ l')) := by
  induction a with
  | zero =>
    rw [Nat.zero_add]
    exact (Prog.bind_done _).symm
  | succ a ih =>
    rw [Nat.add_right_comm, Prog.repeatN, Prog.repeatN, ih]
    simp only [Prog.bind_eq, Prog.bind_assoc, Prog.pure_eq, Prog.done_ok_bind, List.cons_append]

section
variable {m : ℕ} (svd : Matrix (Fin m) (Fin m) ℂ → Svd m) (sub : CalcCfg ℂ → Py (List ℂ)) (fuel : ℕ) (o : BobsObj m)

theorem bobsTask_eq (n : ℕ) : bobsTask svd sub fuel o n = (bobsSample svd sub fuel o).repeatN n := by
  induction n with
  | zero => rfl
  | succ n ih => rw [bobsTask, ih]; rfl

theorem bobsPool_eq (ns : List ℕ) : bobsPool svd sub fuel o ns = (bobsSample svd sub fuel o).repeatN ns.sum := by
  induction ns with
  | nil => rfl
  | cons n ns ih => rw [bobsPool, bobsTask_eq, ih, List.sum_cons, Prog.repeatN_add]; rfl

end

theorem bobsSplit_sum (t N : ℕ) (ht : 0 < t) : (bobsSplit t N).sum = t * (N / t + 1) := by
  unfold bobsSplit
  simp only [List.sum_replicate, smul_eq_mul]
  congr 1
  have h := Nat.div_add_mod N t
  have : N + t - N % t = t * (N / t + 1) := by rw [Nat.mul_add]; omega
  rw [this, Nat.mul_div_cancel_left _ ht]

/-- The samples a call for `N` samples returns. -/
theorem bobsSimulate_eq {m : ℕ} (svd : Matrix (Fin m) (Fin m) ℂ → Svd m) (sub : CalcCfg ℂ → Py (List ℂ)) (fuel : ℕ)
    (o o' : BobsObj m) (S : List ℕ) (N : ℤ) (hN : 1 ≤ N) (h : bobsPrepare o S = .ok o') (ht : 0 < o'.threads) :
    bobsSimulate svd sub fuel o S N
      = ((bobsSample svd sub fuel o').repeatN (o'.threads * (N.toNat / o'.threads + 1))).bind fun l => .done (.ok (l, o')) := by
  unfold bobsSimulate
  rw [if_neg (by omega), h]
  simp only [Prog.lift_def, Prog.bind_eq, Prog.done_ok_bind, Prog.pure_eq]
  rw [bobsPool_eq, bobsSplit_sum _ _ ht]

/-- What the constructor establishes and the calls keep. -/
structure BobsInv {m : ℕ} (o : BobsObj m) (M : Matrix (Fin m) (Fin m) ℂ) (A : Matrix (Fin m) (Fin m) ℂ) : Prop where
  pos : 0 < m
  kle : o.k ≤ m
  threads : 0 < o.threads
  initial : o.initial = some A
  contraction : ∃ d, IsSvd A d ∧ ∀ i, d.s i ≤ 1
  loss0 : 0 ≤ o.losses
  loss1 : o.losses ≤ 1
  product : M = ((Real.sqrt (1 - o.losses) : ℝ) : ℂ) • A

theorem bobsModes_le (m : ℕ) (k : ℤ) : bobsModes m k ≤ m := by
  unfold bobsModes
  simp only
  split_ifs <;> omega

theorem bobsThreads_pos (cpu : ℕ) (h : 0 < cpu) (t : ℤ) : 0 < bobsThreadsNumber cpu t := by
  unfold bobsThreadsNumber
  split_ifs <;> omega

theorem bobsInit_inv {m : ℕ} {M : Matrix (Fin m) (Fin m) ℂ} {d : Svd m} (h : IsSvd M d) (h0 : ∃ i, d.s i ≠ 0)
    (h1 : ∀ i, d.s i ≤ 1) (cpu : ℕ) (hc : 0 < cpu) (k t : ℤ) :
    ∃ o A, bobsInit d cpu k t = .ok o ∧ BobsInv o M A ∧ o.k = bobsModes m k ∧ o.number = 0 ∧
      o.threads = bobsThreadsNumber cpu t ∧ IsGreatest (Set.range fun i => d.s i ^ 2) (1 - o.losses) := by
  obtain ⟨l, A, e1, e2, e3, d', e4, e5⟩ := C41_split M d h h0
  obtain ⟨i0, hi0⟩ := h0
  obtain ⟨j, hj⟩ := e3.1
  simp only at hj
  refine ⟨{ k := bobsModes m k, losses := l, initial := some A, weights := [],
            threads := bobsThreadsNumber cpu t, state := [], number := 0 }, A, by unfold bobsInit; rw [e1]; rfl,
    ⟨by have := i0.2; omega, bobsModes_le m k, bobsThreads_pos cpu hc t, rfl,
      ⟨d', e4, fun i => e5.2 ⟨i, rfl⟩⟩, ?_, ?_, e2⟩, rfl, rfl, rfl, e3⟩
  · have := h1 j; have := h.nonneg j
    simp only
    nlinarith
  · have := sq_nonneg (d.s j)
    simp only
    linarith

/-- The object after the preparations for the input `S`. -/
theorem BobsInv.prepare {m : ℕ} {o : BobsObj m} {M A : Matrix (Fin m) (Fin m) ℂ} (h : BobsInv o M A) (S : List ℕ)
    (hS : S.length = m) :
    ∃ o', bobsPrepare o S = .ok o' ∧ o'.k = o.k ∧ o'.threads = o.threads ∧ o'.losses = o.losses ∧
      o'.number = o.number + (S.take o.k).sum ∧ o'.state = List.replicate o.k 0 ++ S.drop o.k ∧ BobsInv o' M A ∧
      ∃ mx ≤ o.number + S.sum, BobsReady o' A mx := by
  have hpos := h.pos
  have hkle := h.kle
  obtain ⟨mx, h1, h2, h3, h4⟩ := bobsPrepare_ok o S (by intro h0; rw [h0] at hS; simp at hS; omega) (by omega)
  refine ⟨_, h4, rfl, rfl, rfl, rfl, rfl, ⟨hpos, hkle, h.threads, h.initial, h.contraction, h.loss0, h.loss1, h.product⟩,
    mx, h3, ⟨hpos, hkle, h.initial, h.contraction, rfl, by simp; omega, ?_, h2, h.loss0, h.loss1⟩⟩
  intro x hx
  rcases List.mem_append.mp hx with hx | hx
  · rw [List.eq_of_mem_replicate hx]; omega
  · exact h1 x (List.mem_of_mem_drop hx)

/-- Every call for at least one sample ends, with the number of samples stated. -/
theorem bobsSimulate_all {m : ℕ} {o : BobsObj m} {M A : Matrix (Fin m) (Fin m) ℂ} (h : BobsInv o M A)
    (svd : Matrix (Fin m) (Fin m) ℂ → Svd m) (hsvd : ∀ B, IsSvd B (svd B)) (S : List ℕ) (hS : S.length = m) (N : ℤ)
    (hN : 1 ≤ N) (fuel : ℕ) (hf : (o.number + S.sum + 1) ^ m ≤ fuel) (hf' : m < fuel) :
    (bobsSimulate svd (ryserSubPermanents fuel) fuel o S N).All
      (fun r => bobsPrepare o S = .ok r.2 ∧ r.1.length = o.threads * (N.toNat / o.threads + 1) ∧
        ∀ T ∈ r.1, T.length = m ∧ ∃ st ∈ bobsStates r.2, T.sum ≤ st.sum) fun _ => False := by
  obtain ⟨o', h1, h2, h3, h4, h5, h6, h7, mx, h8, h9⟩ := h.prepare S hS
  rw [bobsSimulate_eq svd _ fuel o o' S N hN h1 h7.threads]
  have hfm : (mx + 1) ^ m ≤ fuel := (Nat.pow_le_pow_left (by omega) m).trans hf
  refine Prog.all_bind (Prog.repeatN_all (bobsSample_all h9 svd hsvd fuel hfm hf') _) fun l hl => ?_
  exact Prog.all_done_ok ⟨h1, by rw [← h3]; exact hl.1, hl.2⟩

theorem bobsSimulate_prob {m : ℕ} {o o' : BobsObj m} {A : Matrix (Fin m) (Fin m) ℂ} {mx : ℕ}
    (svd : Matrix (Fin m) (Fin m) ℂ → Svd m) (hsvd : ∀ B, IsSvd B (svd B)) (S : List ℕ) (N : ℤ) (hN : 1 ≤ N)
    (h : bobsPrepare o S = .ok o') (ht : 0 < o'.threads) (h9 : BobsReady o' A mx) (fuel : ℕ) (hf : (mx + 1) ^ m ≤ fuel)
    (hf' : m < fuel) (i : ℕ) (hi : i < o'.threads * (N.toNat / o'.threads + 1)) (T : List ℕ) :
    (bobsSimulate svd (ryserSubPermanents fuel) fuel o S N).prob (fun r => ∃ l o', r = .ok (l, o') ∧ l[i]? = some T)
      = (bobsSample svd (ryserSubPermanents fuel) fuel o').prob (fun r => r = .ok T) := by
  have hall := bobsSample_all h9 svd hsvd fuel hf hf'
  rw [bobsSimulate_eq svd _ fuel o o' S N hN h ht, ← Prog.repeatN_marginal hall _ i hi T]
  unfold Prog.prob
  rw [Prog.wp_bind]
  refine Prog.wp_congr _ _ _ fun r hr => ?_
  cases r with
  | ok l => simp [Prog.post, Prog.wp]
  | error e => simp [Prog.post]

end Verif
