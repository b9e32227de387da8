import Verif.Proofs.States
import Mathlib.Data.List.Sublists
import Mathlib.Data.List.Forall2

/-! Helper lemmas: combinations and lossy inputs. -/
namespace Verif

theorem itCombinations_map {α β : Type _} (f : α → β) (l : List α) (k : Nat) :
    itCombinations (l.map f) k = (itCombinations l k).map (List.map f) := by
  induction l generalizing k with
  | nil => cases k <;> simp [itCombinations]
  | cons a l ih =>
    cases k with
    | zero => simp [itCombinations]
    | succ k => simp [itCombinations, ih, Function.comp_def]

theorem mem_itCombinations {α : Type _} (l : List α) (k : Nat) (c : List α) :
    c ∈ itCombinations l k ↔ c.Sublist l ∧ c.length = k := by
  induction l generalizing k c with
  | nil =>
    cases k with
    | zero => simp [itCombinations]
    | succ k =>
      simp only [itCombinations, List.not_mem_nil, List.sublist_nil, false_iff]
      rintro ⟨rfl, h⟩; simp at h
  | cons a l ih =>
    cases k with
    | zero =>
      simp only [itCombinations, List.mem_singleton]
      constructor
      · rintro rfl; simp
      · rintro ⟨-, h⟩; exact List.length_eq_zero_iff.mp h
    | succ k =>
      simp only [itCombinations, List.mem_append, List.mem_map, ih]
      constructor
      · rintro (⟨c', ⟨h1, h2⟩, rfl⟩ | ⟨h1, h2⟩)
        · exact ⟨h1.cons_cons a, by simp [h2]⟩
        · exact ⟨h1.cons a, h2⟩
      · rintro ⟨h1, h2⟩
        cases h1 with
        | cons _ h => exact Or.inr ⟨h, h2⟩
        | cons_cons _ h => exact Or.inl ⟨_, ⟨h, by simpa using h2⟩, rfl⟩

theorem itCombinations_length {α : Type _} (l : List α) (k : Nat) :
    (itCombinations l k).length = l.length.choose k := by
  induction l generalizing k with
  | nil => cases k <;> simp [itCombinations]
  | cons a l ih =>
    cases k with
    | zero => simp [itCombinations]
    | succ k => simp [itCombinations, ih, Nat.choose_succ_succ]

theorem combs_get (x0 : List Nat) (k : Nat) :
    (itCombinations (List.range x0.length) k).map (List.map fun i => x0.getD i 0)
      = itCombinations x0 k := by
  rw [← itCombinations_map]
  congr 1
  apply List.ext_getElem
  · simp
  · intro i h1 h2; simp [h2]

/-- The occupation of a list of particles over `m` modes. -/
def occOf (m : Nat) (asg : List Nat) : List Nat := (List.range m).map fun j => asg.count j

theorem occOf_length (m : Nat) (asg : List Nat) : (occOf m asg).length = m := by simp [occOf]

theorem occOf_particles (s : List Nat) : occOf s.length (particles s) = s := occ_eq_counts s

theorem occOf_sum (m : Nat) (asg : List Nat) (h : ∀ x ∈ asg, x < m) :
    (occOf m asg).sum = asg.length := count_sum_range m asg h

/-- Mode-wise comparison of states of the same length. -/
abbrev StateLE (l s : List Nat) : Prop := List.Forall₂ (· ≤ ·) l s

theorem particlesFrom_sublist {l s : List Nat} (h : StateLE l s) (k : Nat) :
    (particlesFrom k l).Sublist (particlesFrom k s) := by
  induction h generalizing k with
  | nil => exact List.Sublist.refl _
  | cons h _ ih =>
    simp only [particlesFrom]
    exact List.Sublist.append (List.replicate_sublist_replicate k |>.mpr h) (ih _)

theorem occOf_le {s : List Nat} {c : List Nat} (h : c.Sublist (particles s)) :
    StateLE (occOf s.length c) s := by
  refine List.forall₂_iff_get.mpr ⟨by simp [occOf], ?_⟩
  intro i h1 h2
  have := h.count_le i
  rw [count_particles] at this
  simp only [List.get_eq_getElem, occOf, List.getElem_map, List.getElem_range]
  simpa [h2] using this

/-- Occupations of the `k`-particle combinations: exactly the sub-states. -/
theorem mem_occ_combs (s : List Nat) (k : Nat) (l : List Nat) :
    l ∈ (itCombinations (particles s) k).map (occOf s.length) ↔ StateLE l s ∧ l.sum = k := by
  rw [List.mem_map]
  constructor
  · rintro ⟨c, hc, rfl⟩
    rw [mem_itCombinations] at hc
    refine ⟨occOf_le hc.1, ?_⟩
    rw [occOf_sum _ _ (fun x hx => by simpa using (particlesFrom_range (hc.1.subset hx)).2), hc.2]
  · rintro ⟨h1, h2⟩
    refine ⟨particles l, ?_, ?_⟩
    · rw [mem_itCombinations]
      exact ⟨particlesFrom_sublist h1 0, by rw [particlesFrom_length, h2]⟩
    · rw [← h1.length_eq]; exact occOf_particles l

/-- First occurrences by hash, as in the code. -/
def hashDedup (hash : List Nat → Int) (l : List (List Nat)) : List (List Nat) × List Int :=
  l.foldl (fun acc occ => if hash occ ∈ acc.2 then acc else (acc.1 ++ [occ], acc.2 ++ [hash occ]))
    ([], [])

theorem hashDedup_spec (hash : List Nat → Int) (l : List (List Nat))
    (hinj : ∀ a ∈ l, ∀ b ∈ l, hash a = hash b → a = b) :
    (hashDedup hash l).1.Nodup ∧ ∀ x, x ∈ (hashDedup hash l).1 ↔ x ∈ l := by
  have key : ∀ (l' : List (List Nat)) (acc : List (List Nat) × List Int),
      (∀ a ∈ l', a ∈ l) → (∀ a ∈ acc.1, a ∈ l) → acc.2 = acc.1.map hash → acc.1.Nodup →
      let r := l'.foldl (fun acc occ => if hash occ ∈ acc.2 then acc
        else (acc.1 ++ [occ], acc.2 ++ [hash occ])) acc
      r.1.Nodup ∧ ∀ x, x ∈ r.1 ↔ x ∈ acc.1 ∨ x ∈ l' := by
    intro l'
    induction l' with
    | nil => intro acc _ _ _ h; simpa using h
    | cons a l' ih =>
      intro acc h1 h2 h3 h4
      simp only [List.foldl_cons]
      by_cases ha : hash a ∈ acc.2
      · rw [if_pos ha]
        have hmem : a ∈ acc.1 := by
          rw [h3, List.mem_map] at ha
          obtain ⟨b, hb, hab⟩ := ha
          rw [← hinj b (h2 b hb) a (h1 a (by simp)) hab]; exact hb
        obtain ⟨r1, r2⟩ := ih acc (fun x hx => h1 x (by simp [hx])) h2 h3 h4
        refine ⟨r1, fun x => ?_⟩
        rw [r2, List.mem_cons]
        constructor
        · rintro (h | h) <;> simp [h]
        · rintro (h | rfl | h) <;> simp [*]
      · rw [if_neg ha]
        have hnm : a ∉ acc.1 := fun h => ha (by rw [h3]; exact List.mem_map_of_mem h)
        obtain ⟨r1, r2⟩ := ih (acc.1 ++ [a], acc.2 ++ [hash a]) (fun x hx => h1 x (by simp [hx]))
          (by
            intro x hx
            rcases List.mem_append.mp hx with h | h
            · exact h2 x h
            · rw [List.mem_singleton.mp h]; exact h1 a (by simp))
          (by simp [h3])
          (by
            rw [List.nodup_append]
            refine ⟨h4, by simp, ?_⟩
            intro x hx y hy
            rw [List.mem_singleton.mp hy]
            rintro rfl; exact hnm hx)
        refine ⟨r1, fun x => ?_⟩
        rw [r2]
        simp only [List.mem_append, List.mem_cons]
        tauto
  have := key l ([], []) (fun _ h => h) (by simp) (by simp) (by simp)
  simpa [hashDedup] using this

theorem generateLossy_ok (hash : List Nat → Int) (s : List Nat) (k : Nat) (hs : s.sum ≠ 0) :
    generateLossyNParticleInputStates hash s k
      = .ok (hashDedup hash ((itCombinations (particles s) k).map (occOf s.length))).1 := by
  unfold generateLossyNParticleInputStates
  rw [foldlM_range_get s (fun acc i c => pure (acc ++ List.replicate c i))]
  rw [foldlM_ok (fun (acc : List Nat) (p : Nat × Nat) => pure (acc ++ List.replicate p.1 p.2))
    (fun acc p => acc ++ List.replicate p.1 p.2) _ _ (fun _ _ _ => rfl)]
  rw [flatMap_foldl, List.nil_append, ← particlesFrom_eq, ok_bind]
  have hk : ¬ ((k : Int) < 0) := by omega
  simp only [if_neg hs, if_neg hk, Int.toNat_natCast]
  have hlen : s.length ≠ 0 := by
    intro h; rw [List.length_eq_zero_iff] at h; subst h; simp at hs
  rw [foldlM_ok _ (fun (acc : List (List Nat) × List Int) comb =>
      let occ := occOf s.length (comb.map fun i => (particles s).getD i 0)
      if hash occ ∈ acc.2 then acc else (acc.1 ++ [occ], acc.2 ++ [hash occ]))]
  · rw [ok_bind, pure_eq_ok]
    congr 1
    unfold hashDedup
    have := combs_get (particles s) k
    rw [particlesFrom_length] at this
    rw [← this, List.map_map, List.foldl_map]
    rfl
  · intro acc comb hc
    rw [mem_itCombinations] at hc
    have hin : ∀ el ∈ comb, el < (particles s).length := by
      intro el hel
      rw [particlesFrom_length]
      exact List.mem_range.mp (hc.1.subset hel)
    rw [mapM_ok _ (fun i => (particles s).getD i 0)]
    · rw [ok_bind]
      rw [asgToOcc_ok _ _ (by omega)]
      · simp only [ok_bind, pure_eq_ok]
        change (if hash (occOf _ _) ∈ acc.2 then _ else _) = _
        split_ifs <;> simp_all [occOf]
      · intro x hx
        obtain ⟨el, hel, rfl⟩ := List.mem_map.mp hx
        have hlt := hin el hel
        have : (particles s).getD el 0 ∈ particles s := by
          simp [hlt]
        simpa using (particlesFrom_range this).2
    · intro el hel
      rw [pyGetN_ok (hin el hel)]
      simp [hin el hel]

end Verif
