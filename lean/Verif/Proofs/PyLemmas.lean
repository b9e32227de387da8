import Verif.Py
import Mathlib.Data.List.Basic
import Mathlib.Tactic.Linarith

/-! Basic facts about the Python layer. -/
namespace Verif

@[simp] theorem ok_bind {α β : Type _} (a : α) (f : α → Py β) :
    ((Except.ok a : Py α) >>= f) = f a := rfl

@[simp] theorem error_bind {α β : Type _} (e : PyErr) (f : α → Py β) :
    ((Except.error e : Py α) >>= f) = Except.error e := rfl

@[simp] theorem pure_eq_ok {α : Type _} (a : α) : (pure a : Py α) = Except.ok a := rfl

@[simp] theorem map_ok {α β : Type _} (a : α) (f : α → β) :
    (f <$> (Except.ok a : Py α)) = Except.ok (f a) := rfl

theorem pyGetN_ok {α : Type _} {l : List α} {i : Nat} (h : i < l.length) :
    pyGetN l i = .ok l[i] := by
  simp [pyGetN, h]

theorem pyGetN_err {α : Type _} {l : List α} {i : Nat} (h : l.length ≤ i) :
    pyGetN l i = .error .indexError := by
  simp [pyGetN, h]

theorem pyGet_nonneg {α : Type _} (l : List α) (i : Nat) :
    pyGet l (i : Int) = pyGetN l i := by
  unfold pyGet pyGetN pyIdx
  by_cases h : i < l.length
  · simp [h]
  · simp [h]

theorem pySet_nonneg {α : Type _} (l : List α) (i : Nat) (v : α) :
    pySet l (i : Int) v = pySetN l i v := by
  unfold pySet pySetN pyIdx
  by_cases h : i < l.length
  · simp [h]
  · simp [h]

theorem pySetN_ok {α : Type _} {l : List α} {i : Nat} (h : i < l.length) (v : α) :
    pySetN l i v = .ok (l.set i v) := by simp [pySetN, h]

theorem pyGet_last {α : Type _} (l : List α) (a : α) : pyGet (l ++ [a]) (-1) = .ok a := by
  unfold pyGet pyIdx
  simp

theorem getD_of_lt {α : Type _} (l : List α) (d : α) {i : Nat} (h : i < l.length) :
    l.getD i d = l[i] := by simp [h]

theorem natSub_ok {a b : Nat} (h : b ≤ a) : natSub a b = .ok (a - b) := by simp [natSub, h]

theorem foldlM_ok {α β : Type _} (f : β → α → Py β) (g : β → α → β) (l : List α) (b : β)
    (h : ∀ b, ∀ a ∈ l, f b a = .ok (g b a)) : l.foldlM f b = .ok (l.foldl g b) := by
  induction l generalizing b with
  | nil => rfl
  | cons a l ih =>
    rw [List.foldlM_cons, h b a (by simp), ok_bind, ih _ (fun b a ha => h b a (by simp [ha]))]
    rfl

theorem mapM_ok {α β : Type _} (f : α → Py β) (g : α → β) (l : List α)
    (h : ∀ a ∈ l, f a = .ok (g a)) : l.mapM f = .ok (l.map g) := by
  induction l with
  | nil => rfl
  | cons a l ih =>
    rw [List.mapM_cons, h a (by simp), ok_bind, ih (fun a ha => h a (by simp [ha]))]
    rfl

theorem mapM_congr' {α β : Type _} (f g : α → Py β) (l : List α)
    (h : ∀ a ∈ l, f a = g a) : l.mapM f = l.mapM g := by
  induction l with
  | nil => rfl
  | cons a l ih =>
    rw [List.mapM_cons, List.mapM_cons, h a (by simp), ih (fun a ha => h a (by simp [ha]))]

theorem foldlM_congr' {α β : Type _} (f g : β → α → Py β) (l : List α) (b : β)
    (h : ∀ b, ∀ a ∈ l, f b a = g b a) : l.foldlM f b = l.foldlM g b := by
  induction l generalizing b with
  | nil => rfl
  | cons a l ih =>
    rw [List.foldlM_cons, List.foldlM_cons, h b a (by simp)]
    congr 1
    funext b'
    exact ih _ (fun b a ha => h b a (by simp [ha]))

/-- An index loop with in-range reads is a loop over the elements with their indices. -/
theorem foldlM_range_get {α β : Type _} (l : List α) (f : β → Nat → α → Py β) (b : β) :
    (List.range l.length).foldlM (fun acc i => do let c ← pyGetN l i; f acc i c) b
      = l.zipIdx.foldlM (fun acc p => f acc p.2 p.1) b := by
  have h : List.range l.length = l.zipIdx.map Prod.snd := by
    simp [List.range_eq_range']
  rw [h, List.foldlM_map]
  refine foldlM_congr' _ _ _ _ ?_
  rintro b ⟨x, i⟩ hp
  rw [List.mem_zipIdx_iff_getElem?] at hp
  simp only at hp ⊢
  have hi : i < l.length := by
    by_contra hc
    simp [List.getElem?_eq_none (not_lt.mp hc)] at hp
  rw [pyGetN_ok hi, ok_bind]
  rw [List.getElem?_eq_getElem hi] at hp
  simp only [Option.some.injEq] at hp
  rw [hp]

theorem flatMap_foldl {α β : Type _} (l : List α) (f : α → List β) (b : List β) :
    l.foldl (fun acc a => acc ++ f a) b = b ++ l.flatMap f := by
  induction l generalizing b with
  | nil => simp
  | cons a l ih => simp [ih, List.append_assoc]

theorem foldl_append_replicate {α : Type _} (c : Nat) (a : α) (acc : List α) :
    (List.range c).foldl (fun l _ => l ++ [a]) acc = acc ++ List.replicate c a := by
  rw [flatMap_foldl]
  congr 1
  induction c with
  | zero => rfl
  | succ c ih => rw [List.range_succ, List.flatMap_append, ih, List.replicate_succ']; rfl

theorem pyWhile_succ {σ : Type _} (fuel : Nat) (c : σ → Py Bool) (b : σ → Py σ) (s : σ) :
    pyWhile (fuel + 1) c b s
      = (c s >>= fun t => if t then (b s >>= fun s' => pyWhile fuel c b s') else pure s) := by
  rfl

theorem pyWhile_stop {σ : Type _} {fuel : Nat} {c : σ → Py Bool} {b : σ → Py σ} {s : σ}
    (hc : c s = .ok false) (hf : 0 < fuel) : pyWhile fuel c b s = .ok s := by
  obtain ⟨f, rfl⟩ := Nat.exists_eq_succ_of_ne_zero hf.ne'
  rw [Nat.succ_eq_add_one, pyWhile_succ, hc]; rfl

theorem pyWhile_step {σ : Type _} {fuel : Nat} {c : σ → Py Bool} {b : σ → Py σ} {s s' : σ}
    (hc : c s = .ok true) (hb : b s = .ok s') :
    pyWhile (fuel + 1) c b s = pyWhile fuel c b s' := by
  rw [pyWhile_succ, hc, ok_bind, if_pos rfl, hb]; rfl

end Verif
