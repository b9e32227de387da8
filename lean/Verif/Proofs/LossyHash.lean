import Verif.Proofs.Lossy

/-! Removal of repeated states by hash, for any hash function. -/
namespace Verif

theorem hashDedup_any (hash : List Nat → Int) (l : List (List Nat)) :
    (∀ x ∈ (hashDedup hash l).1, x ∈ l) ∧ ((hashDedup hash l).1.map hash).Nodup ∧
      ∀ x ∈ l, hash x ∈ (hashDedup hash l).1.map hash := by
  have key : ∀ (l' : List (List Nat)) (acc : List (List Nat) × List Int),
      acc.2 = acc.1.map hash → (acc.1.map hash).Nodup →
      let r := l'.foldl (fun acc occ => if hash occ ∈ acc.2 then acc
        else (acc.1 ++ [occ], acc.2 ++ [hash occ])) acc
      (∀ x ∈ r.1, x ∈ acc.1 ∨ x ∈ l') ∧ (r.1.map hash).Nodup ∧
        (∀ x ∈ acc.1, hash x ∈ r.1.map hash) ∧ ∀ x ∈ l', hash x ∈ r.1.map hash := by
    intro l'
    induction l' with
    | nil => intro acc _ h; exact ⟨fun x hx => .inl hx, h, fun x hx => List.mem_map_of_mem hx, by simp⟩
    | cons a l' ih =>
      intro acc h1 h2
      simp only [List.foldl_cons]
      by_cases ha : hash a ∈ acc.2
      · rw [if_pos ha]
        obtain ⟨r1, r2, r3, r4⟩ := ih acc h1 h2
        refine ⟨fun x hx => (r1 x hx).imp_right (List.mem_cons_of_mem _), r2, r3, fun x hx => ?_⟩
        rcases List.mem_cons.mp hx with rfl | hx
        · rw [h1, List.mem_map] at ha
          obtain ⟨b, hb, hab⟩ := ha
          rw [← hab]; exact r3 b hb
        · exact r4 x hx
      · rw [if_neg ha]
        obtain ⟨r1, r2, r3, r4⟩ := ih (acc.1 ++ [a], acc.2 ++ [hash a]) (by simp [h1]) (by
          rw [List.map_append, List.nodup_append]
          refine ⟨h2, by simp, ?_⟩
          intro x hx y hy
          rw [← h1] at hx
          simp only [List.map_cons, List.map_nil, List.mem_singleton] at hy
          rintro rfl
          rw [hy] at hx
          exact ha hx)
        refine ⟨fun x hx => ?_, r2, fun x hx => r3 x (by simp [hx]), fun x hx => ?_⟩
        · rcases r1 x hx with h | h
          · rcases List.mem_append.mp h with h | h
            · exact .inl h
            · exact .inr (by rw [List.mem_singleton.mp h]; exact List.mem_cons_self)
          · exact .inr (List.mem_cons_of_mem _ h)
        · rcases List.mem_cons.mp hx with rfl | hx
          · exact r3 x (by simp)
          · exact r4 x hx
  obtain ⟨h1, h2, -, h4⟩ := key l ([], []) (by simp) (by simp)
  exact ⟨fun x hx => (h1 x hx).resolve_left (by simp), h2, h4⟩

end Verif
