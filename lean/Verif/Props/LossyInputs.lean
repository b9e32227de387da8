import Verif.Proofs.Multiplicity
import Verif.Proofs.LossyHash

/-! C06, C07: lossy inputs and their multiplicities. -/
namespace Verif

/-- C06: the generated lossy inputs are exactly the sub-states with `k` particles, each once,
for a hash without collisions on these states. -/
theorem C06_exact (hash : List Nat → Int) (s : List Nat) (k : Nat) (hs : s.sum ≠ 0)
    (hinj : ∀ a b : List Nat, StateLE a s → a.sum = k → StateLE b s → b.sum = k →
      hash a = hash b → a = b) :
    ∃ L, generateLossyNParticleInputStates hash s k = .ok L ∧ L.Nodup ∧
      ∀ l : List Nat, l ∈ L ↔
        (l.length = s.length ∧ ∀ i (h : i < l.length) (h' : i < s.length), l[i] ≤ s[i]) ∧
          l.sum = k := by
  refine ⟨_, generateLossy_ok hash s k hs, ?_⟩
  obtain ⟨h1, h2⟩ := hashDedup_spec hash ((itCombinations (particles s) k).map (occOf s.length)) (by
    intro a ha b hb
    rw [mem_occ_combs] at ha hb
    exact hinj a b ha.1 ha.2 hb.1 hb.2)
  refine ⟨h1, fun l => ?_⟩
  rw [h2, mem_occ_combs]
  exact and_congr_left fun _ => List.forall₂_iff_get

/-- C06, for any hash: only sub-states with `k` particles are returned, no two of them with the same
hash, and every such sub-state has the hash of a returned one. -/
theorem C06_any_hash (hash : List Nat → Int) (s : List Nat) (k : Nat) (hs : s.sum ≠ 0) :
    ∃ L, generateLossyNParticleInputStates hash s k = .ok L ∧ (L.map hash).Nodup ∧
      (∀ l ∈ L, StateLE l s ∧ l.sum = k) ∧
      ∀ l, StateLE l s → l.sum = k → ∃ l' ∈ L, hash l' = hash l := by
  refine ⟨_, generateLossy_ok hash s k hs, ?_⟩
  obtain ⟨h1, h2, h3⟩ := hashDedup_any hash ((itCombinations (particles s) k).map (occOf s.length))
  refine ⟨h2, fun l hl => (mem_occ_combs ..).mp (h1 l hl), fun l hl hk => ?_⟩
  exact List.mem_map.mp (h3 l ((mem_occ_combs ..).mpr ⟨hl, hk⟩))

/-- C06: the condition on the hash is needed. All sub-states are returned exactly if no two of them
have the same hash. -/
theorem C06_complete_iff (hash : List Nat → Int) (s : List Nat) (k : Nat) (hs : s.sum ≠ 0) :
    (∃ L, generateLossyNParticleInputStates hash s k = .ok L ∧
      ∀ l, StateLE l s → l.sum = k → l ∈ L) ↔
    ∀ a b : List Nat, StateLE a s → a.sum = k → StateLE b s → b.sum = k → hash a = hash b → a = b := by
  obtain ⟨L, hL, h1, -, -⟩ := C06_any_hash hash s k hs
  constructor
  · rintro ⟨L', hL', h⟩ a b ha hak hb hbk hab
    rw [hL] at hL'
    cases hL'
    exact List.inj_on_of_nodup_map h1 (h a ha hak) (h b hb hbk) hab
  · intro hinj
    obtain ⟨L', hL', -, h⟩ := C06_exact hash s k hs hinj
    exact ⟨L', hL', fun l hl hk => (h l).mpr ⟨List.forall₂_iff_get.mp hl, hk⟩⟩

/-- A collision: with the sum of the occupations as hash only the first sub-state is returned. -/
example : generateLossyNParticleInputStates (fun l => (l.sum : Int)) [1, 2] 2 = .ok [[1, 1]] := by decide

/-- C06: nothing is generated for more particles than the input has. -/
theorem C06_too_many (hash : List Nat → Int) (s : List Nat) (k : Nat) (hs : s.sum ≠ 0)
    (hk : s.sum < k) : generateLossyNParticleInputStates hash s k = .ok [] := by
  rw [generateLossy_ok hash s k hs]
  have : itCombinations (particles s) k = [] := by
    rw [List.eq_nil_iff_forall_not_mem]
    intro c hc
    rw [mem_itCombinations] at hc
    have := hc.1.length_le
    rw [particlesFrom_length] at this
    omega
  rw [this]; rfl

/-- C06: for the vacuum the vacuum is returned, whatever number is requested. -/
theorem C06_vacuum (hash : List Nat → Int) (s : List Nat) (k : Int) (hs : s.sum = 0) :
    generateLossyNParticleInputStates hash s k = .ok [s] := by
  unfold generateLossyNParticleInputStates
  rw [foldlM_range_get s (fun acc i c => pure (acc ++ List.replicate c i))]
  rw [foldlM_ok (fun (acc : List Nat) (p : Nat × Nat) => pure (acc ++ List.replicate p.1 p.2))
    (fun acc p => acc ++ List.replicate p.1 p.2) _ _ (fun _ _ _ => rfl)]
  simp [hs]

example : generateLossyNParticleInputStates (fun l => (l.getD 0 0 : Int) + 10 * (l.getD 1 0 : Int))
    [1, 2] 2 = .ok [[1, 1], [0, 2]] := by decide
example : ∀ a b : List Nat, StateLE a [1, 2] → a.sum = 2 → StateLE b [1, 2] → b.sum = 2 →
    (a.getD 0 0 : Int) + 10 * (a.getD 1 0 : Int) = (b.getD 0 0 : Int) + 10 * (b.getD 1 0 : Int) →
    a = b := by
  intro a b ha _ hb _ h
  rcases ha with _ | ⟨h1, _ | ⟨h2, _ | _⟩⟩
  rcases hb with _ | ⟨h3, _ | ⟨h4, _ | _⟩⟩
  simp at h ⊢
  omega

/-- C07: the multiplicity the exact calculator uses is the number of sets of input particles
(the `s[i]` particles of mode `i` being distinguishable) that have exactly `l[i]` members in every
mode `i`, i.e. of ways to lose particles that leave `l`. -/
theorem C07_multiplicity (s l : List Nat) (hlen : l.length = s.length)
    (hle : ∀ i (h : i < l.length) (h' : i < s.length), l[i] ≤ s[i]) :
    ∃ M, lossyInputMultiplicity s l = .ok M ∧
      M = (Finset.univ.filter fun A : Finset (Σ i : Fin s.length, Fin s[i]) =>
        ∀ i : Fin s.length, (A.filter fun x => x.1 = i).card = l.getD i 0).card := by
  refine ⟨_, lossyInputMultiplicity_ok (List.forall₂_iff_get.mpr ⟨hlen, hle⟩), ?_⟩
  rw [card_subsets, prod_zipWith_choose s l hlen]
  refine Finset.prod_congr rfl fun i _ => ?_
  rw [getD_of_lt l 0 (by rw [hlen]; exact i.2)]

example : lossyInputMultiplicity [3, 2] [1, 1] = .ok 6 := by decide

/-- C07: over the generated lossy inputs the multiplicities add up to `binom(n, k)`. -/
theorem C07_total (hash : List Nat → Int) (s : List Nat) (k : Nat) (hs : s.sum ≠ 0)
    (hinj : ∀ a b : List Nat, StateLE a s → a.sum = k → StateLE b s → b.sum = k →
      hash a = hash b → a = b) :
    ∃ L Ms, generateLossyNParticleInputStates hash s k = .ok L ∧
      L.mapM (lossyInputMultiplicity s) = .ok Ms ∧ Ms.sum = s.sum.choose k := by
  classical
  obtain ⟨L, hL, hnd, hmem⟩ := C06_exact hash s k hs hinj
  refine ⟨L, L.map fun l => (List.zipWith Nat.choose s l).prod, hL, ?_, ?_⟩
  · refine mapM_ok _ _ _ fun l hl => lossyInputMultiplicity_ok ?_
    exact List.forall₂_iff_get.mpr ((hmem l).mp hl).1
  · rw [← List.sum_toFinset _ hnd]
    have hcard : s.sum.choose k
        = (Finset.powersetCard k (Finset.univ : Finset (Σ i : Fin s.length, Fin s[i]))).card := by
      rw [Finset.card_powersetCard, Finset.card_univ, Fintype.card_sigma]
      simp only [Fintype.card_fin]
      congr 1
      exact (Fin.sum_univ_getElem s).symm
    let occ : Finset (Σ i : Fin s.length, Fin s[i]) → List Nat := fun A =>
      List.ofFn fun i : Fin s.length => (A.filter fun x => x.1 = i).card
    have hsum : ∀ A, (occ A).sum = A.card := by
      intro A
      rw [List.sum_ofFn]
      exact (Finset.card_eq_sum_card_fiberwise (s := A) (f := fun x : Σ i : Fin s.length, Fin s[i] => x.1) (t := Finset.univ)
        (fun _ _ => Finset.mem_coe.mpr (Finset.mem_univ _))).symm
    rw [hcard, Finset.card_eq_sum_card_fiberwise (f := occ) (t := L.toFinset)]
    · refine Finset.sum_congr rfl fun l hl => ?_
      rw [List.mem_toFinset] at hl
      obtain ⟨⟨hlen, -⟩, hk⟩ := (hmem l).mp hl
      have hprod : (List.zipWith Nat.choose s l).prod
          = ∏ i : Fin s.length, (s[i]).choose (l.getD i 0) := by
        rw [prod_zipWith_choose s l hlen]
        refine Finset.prod_congr rfl fun i _ => ?_
        rw [getD_of_lt l 0 (by rw [hlen]; exact i.2)]
      rw [hprod, ← card_subsets]
      congr 1
      ext A
      simp only [Finset.mem_filter, Finset.mem_univ, true_and, Finset.mem_powersetCard,
        Finset.subset_univ]
      have : (∀ i : Fin s.length, (A.filter fun x => x.1 = i).card = l.getD i 0)
          ↔ occ A = l := by
        constructor
        · intro h
          apply List.ext_getElem
          · simp [occ, hlen]
          · intro i h1 h2
            simp only [occ, List.getElem_ofFn]
            rw [h ⟨i, by simpa [occ] using h1⟩, getD_of_lt l 0 h2]
        · intro h i
          rw [← h]
          simp [occ]
      rw [this]
      constructor
      · intro h; exact ⟨by rw [← hsum, h, hk], h⟩
      · exact fun h => h.2
    · intro A hA
      rw [Finset.mem_coe, Finset.mem_powersetCard] at hA
      rw [Finset.mem_coe, List.mem_toFinset, hmem]
      refine ⟨⟨by simp [occ], ?_⟩, by rw [hsum, hA.2]⟩
      intro i h h'
      simp only [occ, List.getElem_ofFn]
      refine le_trans (Finset.card_le_card (Finset.filter_subset_filter _ (Finset.subset_univ A))) ?_
      have := card_subsets (fun i : Fin s.length => s[i]) (fun i => s[i])
      have hc : ((Finset.univ : Finset (Σ i : Fin s.length, Fin s[i])).filter
          fun x => x.1 = ⟨i, h'⟩).card = s[i] := by
        have : ((Finset.univ : Finset (Σ i : Fin s.length, Fin s[i])).filter fun x => x.1 = ⟨i, h'⟩)
            = (Finset.univ : Finset (Fin s[i])).map ⟨Sigma.mk (⟨i, h'⟩ : Fin s.length), sigma_mk_injective⟩ := by
          ext ⟨j, y⟩
          simp only [Finset.mem_filter, Finset.mem_univ, true_and, Finset.mem_map,
            Function.Embedding.coeFn_mk]
          constructor
          · rintro rfl; exact ⟨y, rfl⟩
          · rintro ⟨y', h⟩; exact ((Sigma.mk.inj_iff.mp h).1).symm
        rw [this, Finset.card_map]
        simp
      exact hc.le

example : generateLossyNParticleInputStates (fun l => (l.getD 0 0 : Int) + 10 * (l.getD 1 0 : Int))
    [2, 2] 2 = .ok [[2, 0], [1, 1], [0, 2]] := by decide

end Verif
