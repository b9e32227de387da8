import Verif.Model.GuanCode
import Verif.Proofs.PyLemmas
import Mathlib.Data.List.Basic
import Mathlib.Data.List.Perm.Basic
import Mathlib.Data.List.Nodup
import Mathlib.Data.List.Range
import Mathlib.Data.List.ProdSigma
import Mathlib.Data.List.FinRange
import Mathlib.Tactic.Ring

/-! Helper lemmas: the Guan-code iteration. -/
namespace Verif

/-- One update of the code, structurally: the new vector, the new directions and the index. -/
def gstep : List Int → List Int → List Int → Option (List Int × List Int × Nat)
  | l :: ls, r :: rs, u :: us =>
    if r + u > l ∨ r + u < 0 then
      (gstep ls rs us).map fun p => (r :: p.1, -u :: p.2.1, p.2.2 + 1)
    else some ((r + u) :: rs, u :: us, 0)
  | _, _, _ => none

theorem gstep_length {ls rs us : List Int} {p} (h : gstep ls rs us = some p) :
    p.1.length = rs.length ∧ p.2.1.length = us.length ∧ p.2.2 < rs.length := by
  induction ls generalizing rs us p with
  | nil => simp [gstep] at h
  | cons l ls ih =>
    cases rs with
    | nil => simp [gstep] at h
    | cons r rs =>
      cases us with
      | nil => simp [gstep] at h
      | cons u us =>
        rw [gstep] at h
        split at h
        · simp only [Option.map_eq_some_iff] at h
          obtain ⟨q, hq, rfl⟩ := h
          have := ih hq
          simp_all
        · simp only [Option.some.injEq] at h
          subst h
          simp

/-- The new vector is the old one with one entry replaced; the entry changes by a direction. -/
theorem gstep_set {ls rs us : List Int} {p} (h : gstep ls rs us = some p) :
    p.1 = rs.set p.2.2 (rs.getD p.2.2 0 + us.getD p.2.2 0) ∧
    0 ≤ rs.getD p.2.2 0 + us.getD p.2.2 0 ∧
    rs.getD p.2.2 0 + us.getD p.2.2 0 ≤ ls.getD p.2.2 0 := by
  induction ls generalizing rs us p with
  | nil => simp [gstep] at h
  | cons l ls ih =>
    cases rs with
    | nil => simp [gstep] at h
    | cons r rs =>
      cases us with
      | nil => simp [gstep] at h
      | cons u us =>
        rw [gstep] at h
        split at h
        · simp only [Option.map_eq_some_iff] at h
          obtain ⟨q, hq, rfl⟩ := h
          have := ih hq
          simp only [List.set_cons_succ, List.getD_cons_succ, List.cons.injEq, true_and]
          exact this
        · rename_i hc
          simp only [Option.some.injEq] at h
          subst h
          simp
          omega

theorem gstep_dirs {ls rs us : List Int} {p} (h : gstep ls rs us = some p)
    (hu : ∀ u ∈ us, u = 1 ∨ u = -1) : ∀ u ∈ p.2.1, u = 1 ∨ u = -1 := by
  induction ls generalizing rs us p with
  | nil => simp [gstep] at h
  | cons l ls ih =>
    cases rs with
    | nil => simp [gstep] at h
    | cons r rs =>
      cases us with
      | nil => simp [gstep] at h
      | cons u us =>
        rw [gstep] at h
        split at h
        · simp only [Option.map_eq_some_iff] at h
          obtain ⟨q, hq, rfl⟩ := h
          have := ih hq (fun x hx => hu x (by simp [hx]))
          intro x hx
          rcases List.mem_cons.mp hx with rfl | hx
          · have := hu u (by simp)
            omega
          · exact this x hx
        · simp only [Option.some.injEq] at h
          subst h
          exact hu

/-- The concrete loop, started at index `pr.length`, computes `gstep` on the suffixes. -/
theorem guanLoop_eq (ls rs us pl pr pu : List Int) (k : Int) (todo : Nat)
    (h1 : pl.length = pr.length) (h2 : pu.length = pr.length)
    (h3 : ls.length = rs.length) (h4 : us.length = rs.length)
    (hk : rs ≠ []) (hkk : k = rs.getD 0 0 + us.getD 0 0) (ht : rs.length ≤ todo) :
    guanLoop (pr ++ rs) (pl ++ ls) todo (pu ++ us) pr.length k
      = match gstep ls rs us with
        | none => .ok (pu ++ us.map (- ·), pr.length + rs.length, none)
        | some p => .ok (pu ++ p.2.1, pr.length + p.2.2, some (p.1.getD p.2.2 0)) := by
  induction rs generalizing ls us pl pr pu k todo with
  | nil => exact absurd rfl hk
  | cons r rs ih =>
    cases ls with
    | nil => simp at h3
    | cons l ls =>
    cases us with
    | nil => simp at h4
    | cons u us =>
    cases todo with
    | zero => simp at ht
    | succ todo =>
    simp only [List.getD_cons_zero] at hkk
    subst hkk
    rw [guanLoop, pyGetN_ok (by simp [h1]), ok_bind]
    have e1 : (pl ++ l :: ls)[pr.length]'(by simp [h1]) = l := by simp [← h1]
    rw [e1, gstep]
    by_cases hc : r + u > l ∨ r + u < 0
    · rw [if_pos hc, if_pos hc, pyGetN_ok (by simp [h2]), ok_bind, pySetN_ok (by simp [h2]), ok_bind]
      have e2 : (pu ++ u :: us)[pr.length]'(by simp [h2]) = u := by simp [← h2]
      have e3 : (pu ++ u :: us).set pr.length (-u) = (pu ++ [-u]) ++ us := by
        rw [← h2, List.set_append_right _ _ (le_refl _)]; simp
      rw [e2, e3]
      by_cases hrs : rs = []
      · subst hrs
        have hus : us = [] := by simpa using h4
        have hls : ls = [] := by simpa using h3
        subst hus hls
        rw [if_pos (by simp)]
        simp [gstep]
      · have hpos : 0 < rs.length := List.length_pos_of_ne_nil hrs
        simp only [List.length_cons, Nat.add_right_cancel_iff] at h3 h4
        rw [if_neg (by simp; omega), pyGetN_ok (by simp; omega), ok_bind, pyGetN_ok (by simp; omega),
          ok_bind]
        have := ih ls us (pl ++ [l]) (pr ++ [r]) (pu ++ [-u]) (rs.getD 0 0 + us.getD 0 0) todo
          (by simp [h1]) (by simp [h2]) h3 h4 hrs rfl (by simpa using ht)
        simp only [List.append_assoc, List.singleton_append, List.length_append,
          List.length_singleton] at this
        have e4 : (pr ++ r :: rs)[pr.length + 1]'(by simp; omega) = rs.getD 0 0 := by
          rw [getD_of_lt _ _ hpos]; simp [List.getElem_append_right]
        have e5 : (pu ++ [-u] ++ us)[pr.length + 1]'(by simp; omega) = us.getD 0 0 := by
          rw [getD_of_lt _ _ (by omega), List.getElem_append_right (by simp [h2])]
          simp [h2]
        rw [e4, e5, List.append_assoc, List.singleton_append, this]
        cases gstep ls rs us with
        | none => simp; omega
        | some p => simp; omega
    · rw [if_neg hc, if_neg hc]
      rfl

theorem updateGuanCode_eq (v : GuanVars) (h3 : v.limits.length = v.rVector.length)
    (h4 : v.codeUpdate.length = v.rVector.length) (hne : v.rVector ≠ []) :
    updateGuanCode v = match gstep v.limits v.rVector v.codeUpdate with
      | none => .ok { v with codeUpdate := v.codeUpdate.map (- ·), index := v.rVector.length }
      | some p => .ok { v with rVector := p.1, codeUpdate := p.2.1, index := p.2.2,
                               last := v.rVector.getD p.2.2 0 } := by
  have hpos := List.length_pos_of_ne_nil hne
  unfold updateGuanCode
  rw [pyGetN_ok hpos, ok_bind, pyGetN_ok (by omega), ok_bind]
  have := guanLoop_eq v.limits v.rVector v.codeUpdate [] [] []
    (v.rVector[0] + v.codeUpdate[0]) v.rVector.length rfl rfl h3 h4 hne
    (by rw [getD_of_lt _ _ hpos, getD_of_lt _ _ (by omega)]) (le_refl _)
  simp only [List.nil_append, List.length_nil, Nat.zero_add] at this
  rw [this]
  cases hg : gstep v.limits v.rVector v.codeUpdate with
  | none => rfl
  | some p =>
    have hl := gstep_length hg
    have hs := gstep_set hg
    simp only [ok_bind]
    rw [pyGetN_ok hl.2.2, ok_bind, pySetN_ok hl.2.2, ok_bind, getD_of_lt _ _ hl.2.2]
    congr 2
    rw [hs.1]
    congr 1
    rw [getD_of_lt _ _ (by simpa using hl.2.2)]
    simp

/-- The vectors visited from a state until the code is exhausted. -/
inductive Visits (ls : List Int) : List Int → List Int → List (List Int) → Prop
  | stop {r u} : gstep ls r u = none → Visits ls r u [r]
  | step {r u p L} : gstep ls r u = some p → Visits ls p.1 p.2.1 L → Visits ls r u (r :: L)

theorem Visits.head {ls r u L} (h : Visits ls r u L) : ∃ L', L = r :: L' := by
  cases h <;> exact ⟨_, rfl⟩

/-- All integer vectors between 0 and the limits. -/
def ibox : List Nat → List (List Int)
  | [] => [[]]
  | s :: ss => (ibox ss).flatMap fun t => (List.range (s + 1)).map fun (k : Nat) => (k : Int) :: t

/-- A coordinate at one end of its range and about to move inwards. -/
def FreshAt (s : Nat) (r u : Int) : Prop := (r = 0 ∧ u = 1) ∨ (r = s ∧ u = -1)

def Fresh : List Nat → List Int → List Int → Prop
  | [], [], [] => True
  | s :: ss, r :: rs, u :: us => FreshAt s r u ∧ Fresh ss rs us
  | _, _, _ => False

theorem sweep_up (s : Nat) (ls rs us : List Int) (X : List (List Int)) (d a : Nat) (ha : a + d = s)
    (hX : Visits ((s : Int) :: ls) ((s : Int) :: rs) (1 :: us) X) :
    Visits ((s : Int) :: ls) ((a : Int) :: rs) (1 :: us)
      ((List.range' a d).map (fun (k : Nat) => (k : Int) :: rs) ++ X) := by
  induction d generalizing a with
  | zero => simp at ha; subst ha; simpa using hX
  | succ d ih =>
    rw [List.range'_succ, List.map_cons, List.cons_append]
    refine Visits.step (p := (((a : Int) + 1) :: rs, 1 :: us, 0)) ?_ ?_
    · rw [gstep, if_neg (by omega)]
    · have := ih (a + 1) (by omega)
      simpa using this

theorem sweep_down (s : Nat) (ls rs us : List Int) (X : List (List Int)) (a : Nat) (ha : a ≤ s)
    (hX : Visits ((s : Int) :: ls) (0 :: rs) (-1 :: us) X) :
    Visits ((s : Int) :: ls) ((a : Int) :: rs) (-1 :: us)
      ((List.range' 1 a).reverse.map (fun (k : Nat) => (k : Int) :: rs) ++ X) := by
  induction a with
  | zero => simpa using hX
  | succ a ih =>
    rw [List.range'_concat, List.reverse_append]
    simp only [List.reverse_cons, List.reverse_nil, List.nil_append,
      List.map_cons, List.cons_append, Nat.one_mul]
    have h1 : ((1 + a : Nat) : Int) = ((a + 1 : Nat) : Int) := by omega
    rw [h1]
    refine Visits.step (p := ((a : Int) :: rs, -1 :: us, 0)) ?_ (ih (by omega))
    rw [gstep, if_neg (by omega)]
    simp

theorem visits_cons (s : Nat) (ls rs us : List Int) (L : List (List Int)) (h : Visits ls rs us L) :
    ∀ r u, FreshAt s r u → ∃ L', Visits ((s : Int) :: ls) (r :: rs) (u :: us) L' ∧
      L'.Perm (L.flatMap fun t => (List.range (s + 1)).map fun (k : Nat) => (k : Int) :: t) := by
  -- the sweep of the head
  have sweep : ∀ rs us r u, FreshAt s r u →
      ∃ e, FreshAt s e (-u) ∧ ∃ P : List (List Int),
        (∀ X, Visits ((s : Int) :: ls) (e :: rs) (u :: us) X →
          Visits ((s : Int) :: ls) (r :: rs) (u :: us) (P ++ X)) ∧
        (P ++ [e :: rs]).Perm ((List.range (s + 1)).map fun (k : Nat) => (k : Int) :: rs) := by
    intro rs us r u hf
    rcases hf with ⟨rfl, rfl⟩ | ⟨rfl, rfl⟩
    · refine ⟨s, Or.inr ⟨rfl, rfl⟩, (List.range' 0 s).map (fun (k : Nat) => (k : Int) :: rs),
        fun X hX => ?_, ?_⟩
      · exact sweep_up s ls rs us X s 0 (by simp) hX
      · rw [List.range_succ, List.map_append, List.range_eq_range']
        exact List.Perm.refl _
    · refine ⟨0, Or.inl ⟨rfl, rfl⟩, (List.range' 1 s).reverse.map (fun (k : Nat) => (k : Int) :: rs),
        fun X hX => ?_, ?_⟩
      · exact sweep_down s ls rs us X s (le_refl _) hX
      · rw [List.range_eq_range', List.range'_succ, List.map_cons]
        refine (List.perm_append_singleton _ _).trans ?_
        simp only [Nat.cast_zero]
        exact List.Perm.cons _ ((List.reverse_perm _).map _)
  induction h with
  | @stop rs us hn =>
    intro r u hf
    obtain ⟨e, he, P, hP, hperm⟩ := sweep rs us r u hf
    refine ⟨P ++ [e :: rs], hP _ (Visits.stop ?_), by simpa using hperm⟩
    rw [gstep, hn, if_pos]
    · rfl
    · rcases he with ⟨rfl, h⟩ | ⟨rfl, h⟩ <;> omega
  | @step rs us p L hg _ ih =>
    intro r u hf
    obtain ⟨e, he, P, hP, hperm⟩ := sweep rs us r u hf
    obtain ⟨L', hL', hp'⟩ := ih e (-u) he
    refine ⟨P ++ (e :: rs) :: L', hP _ (Visits.step (p := (e :: p.1, -u :: p.2.1, p.2.2 + 1)) ?_ hL'), ?_⟩
    · rw [gstep, hg, if_pos]
      · rfl
      · rcases he with ⟨rfl, h⟩ | ⟨rfl, h⟩ <;> omega
    · rw [List.flatMap_cons]
      have : P ++ (e :: rs) :: L' = (P ++ [e :: rs]) ++ L' := by simp
      rw [this]
      exact hperm.append hp'

theorem visits_fresh (S : List Nat) (r u : List Int) (h : Fresh S r u) :
    ∃ L, Visits (S.map fun (x : Nat) => (x : Int)) r u L ∧ L.Perm (ibox S) := by
  induction S generalizing r u with
  | nil =>
    cases r <;> cases u <;> simp only [Fresh] at h
    exact ⟨[[]], Visits.stop rfl, List.Perm.refl _⟩
  | cons s S ih =>
    cases r with
    | nil => cases u <;> simp [Fresh] at h
    | cons r rs =>
      cases u with
      | nil => simp [Fresh] at h
      | cons u us =>
        obtain ⟨hf, hF⟩ := h
        obtain ⟨L, hL, hp⟩ := ih rs us hF
        obtain ⟨L', hL', hp'⟩ := visits_cons s _ rs us L hL r u hf
        exact ⟨L', hL', hp'.trans (hp.flatMap_right _)⟩

theorem fresh_init (S : List Nat) : Fresh S (List.replicate S.length 0) (List.replicate S.length 1) := by
  induction S with
  | nil => trivial
  | cons s S ih => exact ⟨Or.inl ⟨rfl, rfl⟩, ih⟩

theorem mem_ibox (S : List Nat) (r : List Int) :
    r ∈ ibox S ↔ List.Forall₂ (fun (x : Int) (s : Nat) => 0 ≤ x ∧ x ≤ s) r S := by
  induction S generalizing r with
  | nil => simp [ibox]
  | cons s S ih =>
    simp only [ibox, List.mem_flatMap, List.mem_map, List.mem_range]
    constructor
    · rintro ⟨t, ht, k, hk, rfl⟩
      exact List.Forall₂.cons ⟨by omega, by omega⟩ ((ih t).mp ht)
    · intro h
      cases h with
      | cons h1 h2 =>
        rename_i x t
        exact ⟨t, (ih t).mpr h2, x.toNat, by omega, by rw [Int.toNat_of_nonneg h1.1]⟩

theorem nodup_ibox (S : List Nat) : (ibox S).Nodup := by
  induction S with
  | nil => simp [ibox]
  | cons s S ih =>
    rw [ibox, List.nodup_flatMap]
    refine ⟨fun t _ => ?_, ?_⟩
    · refine List.Nodup.map (fun a b h => ?_) List.nodup_range
      simpa using h
    · refine ih.imp ?_
      intro a b hab x hx hy
      simp only [List.mem_map, List.mem_range] at hx hy
      obtain ⟨_, _, rfl⟩ := hx
      obtain ⟨_, _, h⟩ := hy
      simp at h
      exact hab h.2.symm

end Verif
