import Verif.Model.Multiplicity
import Verif.Proofs.Lossy
import Mathlib.Data.Fintype.Sigma
import Mathlib.Data.Fintype.BigOperators
import Mathlib.Data.Finset.Powerset
import Mathlib.Data.Fintype.Powerset
import Mathlib.Algebra.BigOperators.Fin

/-! Helper lemmas for the multiplicity of lossy inputs. -/
namespace Verif

theorem lossyInputMultiplicity_ok {l s : List Nat} (h : StateLE l s) :
    lossyInputMultiplicity s l = .ok (List.zipWith Nat.choose s l).prod := by
  have key : ∀ (l s : List Nat), StateLE l s → ∀ (pl ps : List Nat) (acc : Nat),
      pl.length = ps.length →
      (List.range' pl.length l.length).foldlM
        (fun acc i => do
          let x ← pyGetN (ps ++ s) i
          let y ← pyGetN (pl ++ l) i
          let d ← natSub x y
          pure (acc * x.choose d)) acc
      = .ok (acc * (List.zipWith Nat.choose s l).prod) := by
    intro l s h
    induction h with
    | nil => intro pl ps acc _; simp
    | @cons a b l s hab _ ih =>
      intro pl ps acc hlen
      rw [List.length_cons, List.range'_succ, List.foldlM_cons]
      rw [pyGetN_ok (by simp [hlen]), ok_bind, pyGetN_ok (by simp), ok_bind]
      rw [List.getElem_append_right (by omega), List.getElem_append_right (by omega)]
      simp only [hlen, Nat.sub_self, List.getElem_cons_zero]
      rw [natSub_ok hab, ok_bind, pure_eq_ok, ok_bind, Nat.choose_symm hab]
      have := ih (pl ++ [a]) (ps ++ [b]) (acc * b.choose a) (by simp [hlen])
      simp only [List.append_assoc, List.singleton_append, List.length_append,
        List.length_singleton, hlen] at this
      rw [this]
      simp [mul_assoc]
  have := key l s h [] [] 1 rfl
  simpa [lossyInputMultiplicity, List.range_eq_range'] using this

/-- Sets of particles with prescribed numbers per mode. -/
theorem card_subsets {m : Nat} (s l : Fin m → Nat) :
    (Finset.univ.filter fun A : Finset (Σ i : Fin m, Fin (s i)) =>
      ∀ i, (A.filter fun x => x.1 = i).card = l i).card = ∏ i, (s i).choose (l i) := by
  classical
  let e : (∀ i : Fin m, Finset (Fin (s i))) → Finset (Σ i : Fin m, Fin (s i)) :=
    fun t => Finset.univ.sigma t
  have hfil : ∀ (t : ∀ i : Fin m, Finset (Fin (s i))) i,
      ((e t).filter fun x => x.1 = i).card = (t i).card := by
    intro t i
    have : ((e t).filter fun x => x.1 = i) = (t i).map ⟨Sigma.mk i, sigma_mk_injective⟩ := by
      ext ⟨j, y⟩
      simp only [e, Finset.mem_filter, Finset.mem_sigma, Finset.mem_univ, true_and, Finset.mem_map,
        Function.Embedding.coeFn_mk]
      constructor
      · rintro ⟨hy, rfl⟩; exact ⟨y, hy, rfl⟩
      · rintro ⟨y', hy', h⟩
        obtain ⟨rfl, h⟩ := Sigma.mk.inj_iff.mp h
        rw [← eq_of_heq h]; exact ⟨hy', rfl⟩
    rw [this, Finset.card_map]
  have hinj : Function.Injective e := by
    intro t t' h
    funext i
    ext y
    have : (⟨i, y⟩ : Σ i : Fin m, Fin (s i)) ∈ e t ↔ ⟨i, y⟩ ∈ e t' := by rw [h]
    simpa [e] using this
  have himg : (Finset.univ.filter fun A : Finset (Σ i : Fin m, Fin (s i)) =>
      ∀ i, (A.filter fun x => x.1 = i).card = l i)
      = (Fintype.piFinset fun i => Finset.powersetCard (l i) (Finset.univ : Finset (Fin (s i)))).image
          e := by
    ext A
    simp only [Finset.mem_filter, Finset.mem_univ, true_and, Finset.mem_image,
      Fintype.mem_piFinset, Finset.mem_powersetCard, Finset.subset_univ]
    constructor
    · intro h
      have hA : e (fun i => Finset.univ.filter fun y => (⟨i, y⟩ : Σ i : Fin m, Fin (s i)) ∈ A) = A := by
        ext ⟨i, y⟩; simp [e]
      refine ⟨_, fun i => ?_, hA⟩
      rw [← h i]
      conv_rhs => rw [← hA]
      rw [hfil]
    · rintro ⟨t, ht, rfl⟩ i
      rw [hfil, ht]
  rw [himg, Finset.card_image_of_injective _ hinj, Fintype.card_piFinset]
  simp

theorem prod_zipWith_choose (s l : List Nat) (h : l.length = s.length) :
    (List.zipWith Nat.choose s l).prod
      = ∏ i : Fin s.length, (s[i]).choose (l[i.1]'(by rw [h]; exact i.2)) := by
  rw [← List.prod_ofFn]
  congr 1
  apply List.ext_getElem
  · simp [h]
  · intro i h1 h2; simp

end Verif
