import Verif.Proofs.CliffordsU
import Verif.Spec.Recorded
import Mathlib.Data.Set.Card
import Verif.Proofs.ProgLoop

/-! Helper lemmas for C76: which entries of the partial distributions are filled, and when. -/
namespace Verif

open Finset
open scoped ENNReal

/-- Entry `i` of both distributions is the exact probability. -/
def ExactAt (U : List (List ℂ)) (S : List ℕ) (eta : ℝ) (outputs : List (List ℕ)) (d : List ℝ × List ℝ)
    (i : ℕ) : Prop :=
  d.1.getD i 0 = uniformLossProb U S eta (outputs.getD i []) ∧
    d.2.getD i 0 = fixedLossProb U S (outputs.getD i []).sum (outputs.getD i [])

/-- `d'` arises from `d` by filling in exact entries for the states satisfying `P`. -/
structure Fills (U : List (List ℂ)) (S : List ℕ) (eta : ℝ) (outputs : List (List ℕ)) (P : List ℕ → Prop)
    (d d' : List ℝ × List ℝ) : Prop where
  len1 : d'.1.length = outputs.length
  len2 : d'.2.length = outputs.length
  hit : ∀ i < outputs.length, P (outputs.getD i []) → ExactAt U S eta outputs d' i
  miss : ∀ i < outputs.length, ¬ P (outputs.getD i []) → d'.1.getD i 0 = d.1.getD i 0 ∧ d'.2.getD i 0 = d.2.getD i 0

theorem recordEntry_fills (U : List (List ℂ)) (S : List ℕ) (eta : ℝ) (outputs : List (List ℕ)) (T : List ℕ)
    (hT : T.sum ≤ S.sum) (d : List ℝ × List ℝ) (h1 : d.1.length = outputs.length) (h2 : d.2.length = outputs.length) :
    ∃ d', recordEntry outputs (gccuWeights S.sum eta) T (seqProb (colOf U) S T.sum (particles T)) d = .ok d' ∧
      Fills U S eta outputs (· = T) d d' := by
  have hx : T.foldl (fun (x : ℝ) val => x / (val.factorial : ℝ))
      (seqProb (colOf U) S T.sum (particles T) * (T.sum.factorial : ℝ)) = fixedLossProb U S T.sum T := by
    rw [foldl_div_fact, fixedLossProb_eq_seq U S T T.sum rfl]
    ring
  have hw : T.sum < (gccuWeights S.sum eta).length := by rw [gccuWeights_eq, gccbWeights_length]; omega
  have hwv : (gccuWeights S.sum eta)[T.sum] = binomialWeight S.sum T.sum eta := by
    rw [← getD_of_lt _ 0 hw, gccuWeights_eq, gccbWeights_getD _ _ _ hT]
  have key : ∀ l : List ℕ, (∀ i ∈ l, i < outputs.length) → ∀ d : List ℝ × List ℝ, d.1.length = outputs.length →
      d.2.length = outputs.length →
      ∃ d', l.foldlM (fun (d : List ℝ × List ℝ) i => (do
        let t ← pyGetN outputs i
        if T = t then
          let x := T.foldl (fun (x : ℝ) val => x / (val.factorial : ℝ))
            (seqProb (colOf U) S T.sum (particles T) * (T.sum.factorial : ℝ))
          let udist ← pySetN d.2 i x
          let w ← pyGetN (gccuWeights S.sum eta) T.sum
          let dist ← pySetN d.1 i (x * w)
          pure (dist, udist)
        else pure d : Py _)) d = .ok d' ∧ d'.1.length = outputs.length ∧ d'.2.length = outputs.length ∧
        ∀ i < outputs.length, (i ∈ l ∧ outputs.getD i [] = T → ExactAt U S eta outputs d' i) ∧
          (¬ (i ∈ l ∧ outputs.getD i [] = T) → d'.1.getD i 0 = d.1.getD i 0 ∧ d'.2.getD i 0 = d.2.getD i 0) := by
    intro l
    induction l with
    | nil => intro _ d h1 h2; exact ⟨d, rfl, h1, h2, fun i _ => ⟨fun h => by simp at h, fun _ => ⟨rfl, rfl⟩⟩⟩
    | cons j l ih =>
      intro hl d h1 h2
      have hj : j < outputs.length := hl j (by simp)
      have hjT : outputs.getD j [] = outputs[j] := getD_of_lt _ _ hj
      rw [List.foldlM_cons, pyGetN_ok hj, ok_bind]
      by_cases e : T = outputs[j]
      · rw [if_pos e]
        simp only [hx]
        rw [pySetN_ok (by omega), ok_bind, pyGetN_ok hw, ok_bind, pySetN_ok (by omega), ok_bind, hwv, pure_eq_ok, ok_bind]
        obtain ⟨d', e1, e2, e3, e4⟩ := ih (fun i hi => hl i (by simp [hi]))
          (d.1.set j (fixedLossProb U S T.sum T * binomialWeight S.sum T.sum eta), d.2.set j (fixedLossProb U S T.sum T))
          (by simpa using h1) (by simpa using h2)
        simp only [hx] at e1
        rw [pyGetN_ok hw, hwv] at e1
        refine ⟨d', e1, e2, e3, fun i hi => ?_⟩
        obtain ⟨e5, e6⟩ := e4 i hi
        by_cases hil : i ∈ l ∧ outputs.getD i [] = T
        · exact ⟨fun _ => e5 hil, fun h => absurd ⟨by simp [hil.1], hil.2⟩ h⟩
        · obtain ⟨e7, e8⟩ := e6 hil
          rw [getD_set _ _ _ _ (by omega)] at e7 e8
          by_cases hij : j = i
          · subst hij
            rw [if_pos rfl] at e7 e8
            refine ⟨fun _ => ⟨?_, ?_⟩, fun h => absurd ⟨by simp, by rw [hjT, e]⟩ h⟩
            · rw [e7, hjT, ← e, uniformLossProb, mul_comm]
            · rw [e8, hjT, ← e]
          · rw [if_neg hij] at e7 e8
            refine ⟨fun h => absurd ⟨?_, h.2⟩ hil, fun _ => ⟨e7, e8⟩⟩
            rcases List.mem_cons.mp h.1 with h' | h'
            · exact absurd h'.symm hij
            · exact h'
      · rw [if_neg e, pure_eq_ok, ok_bind]
        obtain ⟨d', e1, e2, e3, e4⟩ := ih (fun i hi => hl i (by simp [hi])) d h1 h2
        refine ⟨d', e1, e2, e3, fun i hi => ?_⟩
        have : (i ∈ j :: l ∧ outputs.getD i [] = T) ↔ (i ∈ l ∧ outputs.getD i [] = T) := by
          constructor
          · rintro ⟨h, h'⟩
            rcases List.mem_cons.mp h with rfl | h
            · exact absurd (by rw [← hjT, h']) e
            · exact ⟨h, h'⟩
          · rintro ⟨h, h'⟩; exact ⟨by simp [h], h'⟩
        rw [this]
        exact e4 i hi
  obtain ⟨d', e1, e2, e3, e4⟩ := key (List.range outputs.length) (by simp) d h1 h2
  refine ⟨d', e1, e2, e3, fun i hi hP => (e4 i hi).1 ⟨by simpa using hi, hP⟩, fun i hi hP => (e4 i hi).2 fun h => hP h.2⟩

section

variable {perm : CalcCfg ℂ → Py ℂ} {U : List (List ℂ)} {S : List ℕ} {eta ph : ℝ} {outputs : List (List ℕ)}

/-- A new layer fills in exactly the successors of the current state. -/
theorem gccuNewLayer_fills (hp : PermOn perm U S) (o : GccuObj) (ho : UInv U S eta ph outputs o)
    (hr : o.base.r.length = S.length) (hk : o.base.r.sum < S.sum) :
    ∃ o', gccuNewLayer perm U o = .ok o' ∧
      Fills U S eta outputs (· ∈ gccA.next S o.base.r) (o.dist, o.udist) (o'.dist, o'.udist) ∧
      ∃ P, o'.base.pmfs = assocSet o.base.pmfs o.base.key P := by
  unfold gccuNewLayer
  simp only [ho.cache.input, ho.cache.labeled]
  rw [labeledStates_get]
  change ∃ o', (layerWeights S (subStates S (o.base.r.sum + 1)) >>= _) = _ ∧ _
  rw [layerWeights_ok S _ hk, ok_bind]
  have hnext : gccA.next S o.base.r = (List.range S.length).map fun j => o.base.r.modify j (· + 1) :=
    (okA S).next _ hr
  have hfold : ∀ outs : List (List ℕ), (∀ T ∈ outs, T.length = S.length ∧ T.sum = o.base.r.sum + 1) →
      ∀ acc : List ℝ × (List ℝ × List ℝ), acc.2.1.length = outputs.length → acc.2.2.length = outputs.length →
      ∃ a, outs.foldlM (fun (acc : List ℝ × (List ℝ × List ℝ)) out => (do
        let p ← pmfEntry perm U (subStates S (o.base.r.sum + 1)) ((subStates S (o.base.r.sum + 1)).map fun l =>
          ((List.zipWith Nat.choose S l).prod : ℝ) / (S.sum.choose (o.base.r.sum + 1) : ℝ)) out
        let d ← recordEntry o.outputs o.binw out p acc.2
        pure (acc.1 ++ [p], d) : Py _)) acc = .ok a ∧ Fills U S eta outputs (· ∈ outs) acc.2 a.2 := by
    intro outs houts
    induction outs with
    | nil => intro acc h1 h2; exact ⟨acc, rfl, h1, h2, fun i _ h => by simp at h, fun i _ _ => ⟨rfl, rfl⟩⟩
    | cons T outs ih =>
      intro acc h1 h2
      obtain ⟨h3, h4⟩ := houts T (by simp)
      rw [List.foldlM_cons, pmfEntry_ok hp _ T h3 h4, ok_bind, ho.outs, ho.binw]
      obtain ⟨d, hd1, hd2⟩ := recordEntry_fills U S eta outputs T (by omega) acc.2 h1 h2
      rw [h4] at hd1
      rw [hd1, ok_bind, pure_eq_ok, ok_bind]
      obtain ⟨a, ha1, ha2⟩ := ih (fun T hT => houts T (by simp [hT]))
        (acc.1 ++ [seqProb (colOf U) S (o.base.r.sum + 1) (particles T)], d) hd2.len1 hd2.len2
      rw [ho.outs, ho.binw] at ha1
      refine ⟨a, ha1, ha2.len1, ha2.len2, fun i hi hP => ?_, fun i hi hP => ?_⟩
      · by_cases h : outputs.getD i [] ∈ outs
        · exact ha2.hit i hi h
        · have e : outputs.getD i [] = T := by
            rcases List.mem_cons.mp hP with h' | h'
            · exact h'
            · exact absurd h' h
          obtain ⟨e1, e2⟩ := ha2.miss i hi h
          obtain ⟨e3, e4⟩ := hd2.hit i hi e
          exact ⟨e1.trans e3, e2.trans e4⟩
      · rw [List.mem_cons, not_or] at hP
        obtain ⟨e1, e2⟩ := ha2.miss i hi hP.2
        obtain ⟨e3, e4⟩ := hd2.miss i hi hP.1
        exact ⟨e1.trans e3, e2.trans e4⟩
  obtain ⟨a, h1, h2⟩ := hfold (gccA.next S o.base.r) (by
    intro T hT
    rw [hnext] at hT
    obtain ⟨j, hj, rfl⟩ := List.mem_map.mp hT
    have hj := List.mem_range.mp hj
    exact ⟨by simpa using hr, modify_sum _ _ (by omega)⟩) ([], (o.dist, o.udist)) ho.dist.len1 ho.dist.len2
  change ∃ o', ((gccA.next S o.base.r).foldlM (fun (acc : List ℝ × (List ℝ × List ℝ)) out => (do
        let p ← pmfEntry perm U (subStates S (o.base.r.sum + 1)) ((subStates S (o.base.r.sum + 1)).map fun l =>
          ((List.zipWith Nat.choose S l).prod : ℝ) / (S.sum.choose (o.base.r.sum + 1) : ℝ)) out
        let d ← recordEntry o.outputs o.binw out p acc.2
        pure (acc.1 ++ [p], d) : Py _)) ([], (o.dist, o.udist)) >>= _) = _ ∧ _
  rw [h1, ok_bind]
  exact ⟨_, rfl, h2, _, rfl⟩


/-- The object between two draws, with the entries that are filled. -/
structure XInv (U : List (List ℂ)) (S : List ℕ) (eta ph : ℝ) (outputs : List (List ℕ)) (o : GccuObj) : Prop where
  u : UInv U S eta ph outputs o
  keys : ∀ r P, assocGet o.base.pmfs r = some P → r.length = S.length → r.sum < S.sum → ∀ i < outputs.length,
    outputs.getD i [] ∈ gccA.next S r → ExactAt U S eta outputs (o.dist, o.udist) i
  un : ∀ i < outputs.length, ¬ Recordable U S eta (outputs.getD i []) →
    o.dist.getD i 0 = (if (outputs.getD i []).sum = 0 then uniformLossProb U S eta (outputs.getD i []) else ph) ∧
    o.udist.getD i 0 = ph

theorem fixedLoss_pos_iff (U : List (List ℂ)) (S T : List ℕ) :
    0 < fixedLossProb U S T.sum T ↔ 0 < seqProb (colOf U) S T.sum (particles T) := by
  rw [fixedLossProb_eq_seq U S T T.sum rfl]
  have h0 : (0 : ℝ) < T.sum.factorial := by exact_mod_cast Nat.factorial_pos _
  have h1 : (0 : ℝ) < factProd T := by exact_mod_cast factProd_pos T
  exact mul_pos_iff_of_pos_left (by positivity)

theorem mem_next {S r T : List ℕ} (hr : r.length = S.length) :
    T ∈ gccA.next S r ↔ ∃ j < S.length, T = r.modify j (· + 1) := by
  have hnext : gccA.next S r = (List.range S.length).map fun j => r.modify j (· + 1) := (okA S).next _ hr
  rw [hnext]
  simp [eq_comm]

/-- One surviving photon: afterwards all successors of the current state are recorded. -/
theorem gccuPrepare_fills (hp : PermOn perm U S) (heta : 0 < eta) (o : GccuObj) (ho : XInv U S eta ph outputs o)
    (hr : o.base.r.length = S.length) (hkey : o.base.key = o.base.r) (hk : o.base.r.sum < S.sum)
    (hpos : 0 < seqProb (colOf U) S o.base.r.sum (particles o.base.r)) :
    ∃ o', (if assocGet o.base.pmfs o.base.key = none then gccuNewLayer perm U o else pure o : Py _) = .ok o' ∧
      XInv U S eta ph outputs o' ∧ o'.base.r = o.base.r ∧ o'.base.key = o.base.r ∧
      assocGet o'.base.pmfs o'.base.key = some (pmfOf (okA S) U o.base.r) ∧
      assocGet o'.base.outs o'.base.key = some (gccA.next S o.base.r) ∧
      (∀ i < outputs.length, ExactAt U S eta outputs (o.dist, o.udist) i → ExactAt U S eta outputs (o'.dist, o'.udist) i) ∧
      ∀ i < outputs.length, outputs.getD i [] ∈ gccA.next S o.base.r → ExactAt U S eta outputs (o'.dist, o'.udist) i := by
  obtain ⟨o', e1, e2, e3, e4, e5, e6⟩ := gccuPrepare_ok hp o ho.u hr hkey hk
  by_cases h : assocGet o.base.pmfs o.base.key = none
  · obtain ⟨o'', f1, f2, P, f3⟩ := gccuNewLayer_fills hp o ho.u hr hk
    have : o'' = o' := by
      have e1' := e1
      rw [if_pos h, f1] at e1'
      exact Except.ok.inj e1'
    subst this
    have hmono : ∀ i < outputs.length, ExactAt U S eta outputs (o.dist, o.udist) i →
        ExactAt U S eta outputs (o''.dist, o''.udist) i := by
      intro i hi hx
      by_cases hn : outputs.getD i [] ∈ gccA.next S o.base.r
      · exact f2.hit i hi hn
      · obtain ⟨g1, g2⟩ := f2.miss i hi hn
        exact ⟨g1.trans hx.1, g2.trans hx.2⟩
    refine ⟨o'', e1, ⟨e2, ?_, ?_⟩, e3, e4, e5, e6, hmono, f2.hit⟩
    · intro r Q hQ hr' hs' i hi hm
      rw [f3, assocGet_set] at hQ
      by_cases hrr : o.base.key = r
      · subst hrr
        rw [hkey] at hm
        exact f2.hit i hi hm
      · rw [if_neg (Ne.symm hrr)] at hQ
        exact hmono i hi (ho.keys r Q hQ hr' hs' i hi hm)
    · intro i hi hn
      have hm : outputs.getD i [] ∉ gccA.next S o.base.r := by
        intro hm
        obtain ⟨j, hj, e⟩ := (mem_next hr).mp hm
        exact hn ⟨heta, o.base.r, j, hr, hk, hj, (fixedLoss_pos_iff U S _).mpr hpos, e⟩
      obtain ⟨g1, g2⟩ := f2.miss i hi hm
      obtain ⟨g3, g4⟩ := ho.un i hi hn
      exact ⟨g1.trans g3, g2.trans g4⟩
  · have : o = o' := by
      have e1' := e1
      rw [if_neg h] at e1'
      exact Except.ok.inj e1'
    subst this
    refine ⟨o, e1, ho, e3, e4, e5, e6, fun i _ h => h, fun i hi hm => ?_⟩
    rw [e4] at e5
    exact ho.keys _ _ e5 hr hk i hi hm

/-- What holds while the photons of one draw are treated. -/
structure XRun (U : List (List ℂ)) (S : List ℕ) (eta ph : ℝ) (outputs : List (List ℕ)) (o : GccuObj) : Prop where
  x : XInv U S eta ph outputs o
  len : o.base.r.length = S.length
  key : o.base.key = o.base.r
  pos : 0 < seqProb (colOf U) S o.base.r.sum (particles o.base.r)

/-- Drawing the next state from the stored pmf: no exception, and the new state is possible. -/
theorem sample_fills (hc : UsedOrtho (colOf U) S.length S) (o' : GccuObj) (r : List ℕ) (hr : r.length = S.length)
    (hk : r.sum < S.sum) (hpos : 0 < seqProb (colOf U) S r.sum (particles r)) (e2 : XInv U S eta ph outputs o')
    (e5 : assocGet o'.base.pmfs o'.base.key = some (pmfOf (okA S) U r))
    (e6 : assocGet o'.base.outs o'.base.key = some (gccA.next S r)) :
    (sampleFromLatestPmf o'.base).All (fun b => XRun U S eta ph outputs { o' with base := b } ∧ b.r.sum = r.sum + 1)
      (fun _ => False) := by
  rw [sample_eq o'.base _ _ e5 e6]
  refine Prog.all_uniform fun u' h0' h1' => ?_
  have hseq : (particles r).length = r.sum := particlesFrom_length _ _
  have hsum : (pmfOf (okA S) U r).sum = seqProb (colOf U) S r.sum (particles r) := by
    have := pmfOf_sum (okA S) hc r (by change (particles r).length < _; omega)
    rw [this]
    change seqProb _ _ (particles r).length _ = _
    rw [hseq]; rfl
  have hpos : 0 < (pmfOf (okA S) U r).sum := by rw [hsum]; exact hpos
  obtain ⟨hi, hw⟩ := scanIndex_lt (pmfOf (okA S) U r) (u' * (pmfOf (okA S) U r).sum) 0
    (mul_nonneg h0' hpos.le) (by rw [zero_add]; exact mul_lt_of_lt_one_left hpos h1')
  revert hi hw
  generalize scanIndex (u' * (pmfOf (okA S) U r).sum) (pmfOf (okA S) U r) 0 = i
  intro hi hw
  have hlen : (pmfOf (okA S) U r).length = S.length := by simp [pmfOf]
  have hi' : i < S.length := by omega
  have hnext : gccA.next S r = (List.range S.length).map fun j => r.modify j (· + 1) := (okA S).next _ hr
  rw [pyGetN_ok hi, hnext, pyGetN_ok (by simpa using hi')]
  simp only [Prog.done_ok_bind, List.getElem_map, List.getElem_range]
  have hms := modify_sum r i (by omega)
  have e9 : (pmfOf (okA S) U r).getD i 0 = seqProb (colOf U) S (r.sum + 1) (i :: particles r) := by
    rw [getD_of_lt _ _ (by rw [hlen]; exact hi')]
    unfold pmfOf
    rw [List.getElem_map, List.getElem_range]
    change seqProb _ _ ((particles r).length + 1) _ = _
    rw [hseq]; rfl
  refine Prog.all_done_ok ⟨⟨⟨⟨⟨e2.u.cache.input, e2.u.cache.labeled, e2.u.cache.cache⟩, e2.u.heta, e2.u.outs, e2.u.binw,
        e2.u.dist⟩, e2.keys, e2.un⟩, ?_, rfl, ?_⟩, hms⟩
  · simpa using hr
  · simp only
    rw [hms, seqProb_perm _ _ _ (modify_particles r i (by omega)), ← e9]
    exact hw

theorem gccuPhotons_fills (hp : PermOn perm U S) (hc : UsedOrtho (colOf U) S.length S) (d : ℕ) (o : GccuObj)
    (ho : XRun U S eta ph outputs o) (hk : o.base.r.sum + d ≤ S.sum) :
    (gccuPhotons perm U d o).All (fun o' => XRun U S eta ph outputs o' ∧ o'.base.r.sum ≤ o.base.r.sum + d ∧
      ∀ i < outputs.length, ExactAt U S eta outputs (o.dist, o.udist) i → ExactAt U S eta outputs (o'.dist, o'.udist) i)
      (fun _ => False) := by
  induction d generalizing o with
  | zero => exact Prog.all_done_ok ⟨ho, by omega, fun _ _ h => h⟩
  | succ d ih =>
    rw [gccuPhotons_succ]
    refine Prog.all_uniform fun u hu0 hu1 => ?_
    by_cases hu : u ≥ o.eta
    · rw [if_pos hu]
      exact Prog.all_mono (ih o ho (by omega)) (fun o' h => ⟨h.1, by omega, h.2.2⟩) fun _ h => h
    · rw [if_neg hu]
      have heta : 0 < eta := by rw [ho.x.u.heta] at hu; exact lt_of_le_of_lt hu0 (not_le.mp hu)
      obtain ⟨o', e1, e2, e3, e4, e5, e6, e7, e8⟩ := gccuPrepare_fills hp heta o ho.x ho.len ho.key (by omega) ho.pos
      rw [e1, Prog.done_ok_bind]
      refine Prog.all_bind (sample_fills hc o' _ ho.len (by omega) ho.pos e2 e5 e6) fun b hb => ?_
      refine Prog.all_mono (ih _ hb.1 (by simp only; rw [hb.2]; omega))
        (fun o'' h => ⟨h.1, ?_, fun i hi hx => h.2.2 i hi (e7 i hi hx)⟩) fun _ h => h
      have := h.2.1
      simp only at this
      rw [hb.2] at this
      omega

theorem gccuPhotons_add (perm : CalcCfg ℂ → Py ℂ) (U : List (List ℂ)) (a b : ℕ) (o : GccuObj) :
    gccuPhotons perm U (a + b) o = (gccuPhotons perm U a o).bind fun o' => gccuPhotons perm U b o' := by
  induction a generalizing o with
  | zero => rw [Nat.zero_add]; rfl
  | succ a ih =>
    rw [Nat.succ_add, gccuPhotons_succ, gccuPhotons_succ]
    simp only [Prog.bind]
    congr 1
    funext u
    split
    · exact ih o
    · rw [Prog.bind_assoc]
      congr 1
      funext o'
      rw [Prog.bind_assoc]
      congr 1
      funext b
      exact ih _

/-- The start of a draw. -/
theorem XInv.start (hU : U.length = S.length) {o : GccuObj} (ho : XInv U S eta ph outputs o) :
    XRun U S eta ph outputs { o with base := { o.base with r := U.map fun _ => 0, key := U.map fun _ => 0 } } := by
  have hz : (U.map fun _ => 0 : List ℕ).sum = 0 := by simp
  have hpz : particles (U.map fun _ => 0) = [] := by
    apply List.eq_nil_of_length_eq_zero
    rw [particlesFrom_length, hz]
  refine ⟨⟨⟨⟨ho.u.cache.input, ho.u.cache.labeled, ho.u.cache.cache⟩, ho.u.heta, ho.u.outs, ho.u.binw, ho.u.dist⟩,
    ho.keys, ho.un⟩, by simpa using hU, rfl, ?_⟩
  simp only [hz, hpz, seqProb_zero]
  exact zero_lt_one

theorem gccuFill_fills (hp : PermOn perm U S) (hc : UsedOrtho (colOf U) S.length S) (hU : U.length = S.length)
    (o : GccuObj) (ho : XInv U S eta ph outputs o) :
    (gccuFill perm U o).All (fun o' => XInv U S eta ph outputs o' ∧
      ∀ i < outputs.length, ExactAt U S eta outputs (o.dist, o.udist) i → ExactAt U S eta outputs (o'.dist, o'.udist) i)
      (fun _ => False) := by
  unfold gccuFill
  rw [ho.u.cache.input]
  exact Prog.all_mono (gccuPhotons_fills hp hc S.sum _ (ho.start hU) (by simp)) (fun o' h => ⟨h.1.x, h.2.2⟩) fun _ h => h

open Classical in
/-- A recordable state is recorded with a probability that does not depend on the object. -/
theorem gccuFill_records (hp : PermOn perm U S) (hc : UsedOrtho (colOf U) S.length S) (hU : U.length = S.length)
    (h0 : 0 ≤ eta) (h1 : eta ≤ 1) (r : List ℕ) (j : ℕ) (hr : r.length = S.length) (hs : r.sum < S.sum) (hj : j < S.length)
    (o : GccuObj) (ho : XInv U S eta ph outputs o) (i : ℕ) (hi : i < outputs.length)
    (hT : outputs.getD i [] = r.modify j (· + 1)) :
    ENNReal.ofReal (eta ^ (r.sum + 1) * fixedLossProb U S r.sum r) ≤
      (gccuFill perm U o).prob (fun x => ∃ o', x = .ok o' ∧ ExactAt U S eta outputs (o'.dist, o'.udist) i) := by
  have hz : (U.map fun _ => 0 : List ℕ).sum = 0 := by simp
  have hpz : particles (U.map fun _ => 0) = [] := by
    apply List.eq_nil_of_length_eq_zero
    rw [particlesFrom_length, hz]
  obtain ⟨b, hb⟩ : ∃ b, S.sum = r.sum + (b + 1) := ⟨S.sum - r.sum - 1, by omega⟩
  set f1 : Py GccuObj → ℝ≥0∞ := fun x => match x with
    | .ok o' => if o'.base.r = r then 1 else 0
    | .error _ => 0 with hf1
  have hstart := ho.start hU
  have hA := gccuPhotons_wp (ph := ph) (outputs := outputs) hp hc h0 h1 f1 (fun w => if occOf S.length w = r then 1 else 0)
    (fun a b hab => by rw [occOf_perm hab])
    (fun o ho hr' => by simp only [hf1]; rw [← hr', occOf_particles]) r.sum
    { o with base := { o.base with r := U.map fun _ => 0, key := U.map fun _ => 0 } }
    hstart.x.u hstart.len rfl (by simp only [hz]; omega)
  simp only [hz, hpz, List.append_nil, zero_add, seqProb_zero, ENNReal.ofReal_one, one_mul] at hA
  have hlow : ENNReal.ofReal (eta ^ r.sum * fixedLossProb U S r.sum r) ≤
      (gccuPhotons perm U r.sum { o with base := { o.base with r := U.map fun _ => 0, key := U.map fun _ => 0 } }).wp f1 := by
    rw [hA]
    refine le_trans ?_ (single_le_sum (f := fun l => ENNReal.ofReal (binomialWeight r.sum l eta) *
      ∑ w ∈ words S.length l, ENNReal.ofReal (seqProb (colOf U) S l w) * if occOf S.length w = r then 1 else 0)
      (fun _ _ => zero_le) (mem_range.mpr (Nat.lt_succ_self r.sum)))
    rw [sum_seq_states U S S.length r.sum (fun w => if occOf S.length w = r then 1 else 0) (fun a b hab => by rw [occOf_perm hab])]
    refine le_trans ?_ (mul_le_mul_right (single_le_sum (f := fun T => ENNReal.ofReal (fixedLossProb U S r.sum T) *
      if occOf S.length (particles T) = r then 1 else 0) (fun _ _ => zero_le) ((mem_statesFin _ _ r).mpr ⟨hr, rfl⟩)) _)
    rw [← hr, occOf_particles, if_pos rfl, mul_one, ENNReal.ofReal_mul (pow_nonneg h0 _)]
    have : binomialWeight r.sum r.sum eta = eta ^ r.sum := by simp [binomialWeight]
    rw [this]
  unfold gccuFill Prog.prob
  rw [ho.u.cache.input, hb, gccuPhotons_add, Prog.wp_bind]
  rw [pow_succ, mul_right_comm, mul_comm _ eta, ENNReal.ofReal_mul h0]
  refine (mul_le_mul_right hlow _).trans ?_
  rw [← Prog.wp_const_mul _ _ ENNReal.ofReal_ne_top]
  refine Prog.wp_mono _ _ _ fun x hx => ?_
  rcases gccuPhotons_fills hp hc r.sum _ hstart (by simp only [hz]; omega) x hx with ⟨o1, rfl, hx1, -, -⟩ | ⟨_, _, h⟩
  swap
  · exact h.elim
  simp only [hf1, Prog.post]
  by_cases hr1 : o1.base.r = r
  swap
  · rw [if_neg hr1, mul_zero]; exact zero_le
  rw [if_pos hr1, mul_one]
  rcases h0.eq_or_lt with h | heta
  · rw [← h, ENNReal.ofReal_zero]; exact zero_le
  obtain ⟨o', e1, e2, e3, e4, e5, e6, e7, e8⟩ := gccuPrepare_fills hp heta o1 hx1.x hx1.len hx1.key (by rw [hr1]; exact hs) hx1.pos
  rw [gccuPhotons_succ, e1]
  simp only [Prog.done_ok_bind, Prog.wp]
  rw [lintegral_bernoulli (eta := eta) h0 h1 _ _ _
    (fun u hu => by rw [if_pos (by rw [hx1.x.u.heta]; exact hu)]) (fun u hu => by rw [if_neg (by rw [hx1.x.u.heta]; exact hu)])]
  refine le_trans ?_ le_add_self
  have hex := e8 i hi (by rw [hr1]; exact (mem_next hr).mpr ⟨j, hj, hT⟩)
  have hall : ((sampleFromLatestPmf o'.base).bind fun b' => gccuPhotons perm U b { o' with base := b' }).All
      (fun o' => ExactAt U S eta outputs (o'.dist, o'.udist) i) (fun _ => False) := by
    refine Prog.all_bind (sample_fills hc o' _ hx1.len (by rw [hr1]; exact hs) hx1.pos e2 e5 e6) fun b' hb' => ?_
    exact Prog.all_mono (gccuPhotons_fills hp hc b _ hb'.1 (by simp only; rw [hb'.2, hr1]; omega))
      (fun o'' h => h.2.2 i hi hex) fun _ h => h
  rw [Prog.wp_congr _ _ (fun _ => 1) fun x hx => ?_, Prog.wp_const, mul_one]
  rcases hall x hx with ⟨a, rfl, ha⟩ | ⟨_, _, h⟩
  · exact if_pos ⟨a, rfl, ha⟩
  · exact h.elim

end


/-! Sums of the final values. -/

theorem sum_getD_range (l : List ℝ) : l.sum = ∑ i ∈ range l.length, l.getD i 0 := by
  induction l with
  | nil => simp
  | cons a l ih => rw [List.sum_cons, List.length_cons, sum_range_succ', ih, add_comm]; simp

theorem sum_getD_states (m n : ℕ) (g : List ℕ → ℝ) :
    ∑ i ∈ range (allStates m n true).length, g ((allStates m n true).getD i []) = ∑ T ∈ statesUpTo (m + 1) n, g T := by
  have h1 : ∑ i ∈ range (allStates m n true).length, g ((allStates m n true).getD i [])
      = ((allStates m n true).map g).sum := by
    rw [sum_getD_range, List.length_map]
    refine sum_congr rfl fun i hi => ?_
    have hi := mem_range.mp hi
    rw [getD_of_lt _ _ hi, getD_of_lt _ _ (by simpa using hi), List.getElem_map]
  rw [h1, ← List.sum_toFinset _ (allStates_nodup m n true)]
  refine sum_congr ?_ fun _ _ => rfl
  ext T
  rw [List.mem_toFinset, mem_allStates, mem_statesUpTo]
  simp

theorem not_recordable_vacuum {U : List (List ℂ)} {S T : List ℕ} {eta : ℝ} (h : T.sum = 0) : ¬ Recordable U S eta T := by
  rintro ⟨-, r, j, h1, -, h3, -, rfl⟩
  rw [modify_sum _ _ (by omega)] at h
  omega

/-- A possible state with at least one photon can be recorded. -/
theorem fixedLoss_zero_of_not_recordable {U : List (List ℂ)} {S T : List ℕ} {eta : ℝ}
    (hc : UsedOrtho (colOf U) S.length S) (heta : 0 < eta) (hl : T.length = S.length) (hs : T.sum ≤ S.sum)
    (h0 : T.sum ≠ 0) (h : ¬ Recordable U S eta T) : fixedLossProb U S T.sum T = 0 := by
  obtain ⟨j, hj, hpos⟩ : ∃ j, ∃ _ : j < T.length, 0 < T[j] := by
    by_contra hno
    push Not at hno
    refine h0 (List.sum_eq_zero fun x hx => ?_)
    obtain ⟨j, hj, rfl⟩ := List.getElem_of_mem hx
    have := hno j hj
    omega
  have hT : T = (T.modify j (· - 1)).modify j (· + 1) := by
    apply List.ext_getElem (by simp)
    intro i h1 h2
    rw [List.getElem_modify, List.getElem_modify]
    by_cases e : j = i
    · subst e; simp; omega
    · simp [e]
  set r := T.modify j (· - 1) with hr
  have hrl : r.length = S.length := by rw [hr, List.length_modify, hl]
  have hrs : T.sum = r.sum + 1 := by
    rw [hT]; exact modify_sum _ _ (by omega)
  have hz : ¬ 0 < fixedLossProb U S r.sum r := fun hp => h ⟨heta, r, j, hrl, by omega, by omega, hp, hT⟩
  rw [fixedLoss_pos_iff] at hz
  have hz := le_antisymm (not_lt.mp hz) (seqProb_nonneg _ _ _ _)
  rw [fixedLossProb_eq_seq U S T T.sum rfl, hrs]
  have hperm := modify_particles r j (by omega)
  rw [← hT] at hperm
  rw [seqProb_perm _ _ _ hperm, phi_zero_of_cons hc _ (by omega) _ hz j (by omega), mul_zero]

theorem uniformLoss_zero_of_not_recordable {U : List (List ℂ)} {S T : List ℕ} {eta : ℝ} (h0' : 0 ≤ eta)
    (hc : UsedOrtho (colOf U) S.length S) (hl : T.length = S.length) (hs : T.sum ≤ S.sum)
    (h0 : T.sum ≠ 0) (h : ¬ Recordable U S eta T) : uniformLossProb U S eta T = 0 := by
  unfold uniformLossProb
  rcases h0'.eq_or_lt with e | heta
  · subst e
    simp [binomialWeight, h0]
  · rw [fixedLoss_zero_of_not_recordable hc heta hl hs h0 h, mul_zero]

open Classical in
/-- The values the entries of `distribution` end with. -/
noncomputable def final1 (U : List (List ℂ)) (S : List ℕ) (eta ph : ℝ) (T : List ℕ) : ℝ :=
  if T.sum = 0 ∨ Recordable U S eta T then uniformLossProb U S eta T else ph

open Classical in
/-- The values the entries of `unweighted_distribution` end with. -/
noncomputable def final2 (U : List (List ℂ)) (S : List ℕ) (eta ph : ℝ) (T : List ℕ) : ℝ :=
  if Recordable U S eta T then fixedLossProb U S T.sum T else ph

open Classical in
theorem unrecordable_eq (U : List (List ℂ)) (S : List ℕ) (eta : ℝ) :
    unrecordable U S eta = ((statesUpTo S.length S.sum).filter fun T => T.sum ≠ 0 ∧ ¬ Recordable U S eta T).card := by
  unfold unrecordable
  rw [← Set.ncard_coe_finset]
  congr 1
  ext T
  simp [mem_statesUpTo, and_assoc]

theorem final1_total {U : List (List ℂ)} {S : List ℕ} {eta : ℝ} (ph : ℝ) (h0 : 0 ≤ eta)
    (hc : UsedOrtho (colOf U) S.length S)
    (htot : ∑ T ∈ statesUpTo S.length S.sum, uniformLossProb U S eta T = 1) :
    ∑ T ∈ statesUpTo S.length S.sum, final1 U S eta ph T = 1 + ph * unrecordable U S eta := by
  classical
  rw [unrecordable_eq, ← htot, mul_comm, ← nsmul_eq_mul, ← sum_const, sum_filter, ← sum_add_distrib]
  refine sum_congr rfl fun T hT => ?_
  obtain ⟨h1, h2⟩ := (mem_statesUpTo _ _ T).mp hT
  unfold final1
  by_cases hv : T.sum = 0
  · simp [hv]
  · by_cases hr : Recordable U S eta T
    · simp [hr]
    · rw [if_neg (by tauto), if_pos ⟨hv, hr⟩, uniformLoss_zero_of_not_recordable h0 hc h1 h2 hv hr, zero_add]

theorem final2_total {U : List (List ℂ)} {S : List ℕ} {eta : ℝ} (ph : ℝ)
    (hc : UsedOrtho (colOf U) S.length S)
    (htot : ∀ k ≤ S.sum, ∑ T ∈ statesFin S.length k, fixedLossProb U S k T = 1) :
    ∑ T ∈ statesUpTo S.length S.sum, final2 U S eta ph T =
      (if 0 < eta then (S.sum : ℝ) else 0) + ph * (unrecordable U S eta + 1) := by
  classical
  have hvac : (List.replicate S.length 0 : List ℕ) ∈ statesUpTo S.length S.sum := by
    rw [mem_statesUpTo]; simp
  have hvac' : ∀ T ∈ statesUpTo S.length S.sum, T.sum = 0 ↔ T = List.replicate S.length 0 := by
    intro T hT
    obtain ⟨h1, -⟩ := (mem_statesUpTo _ _ T).mp hT
    rw [← h1]
    constructor
    · intro h
      rw [List.eq_replicate_iff]
      exact ⟨rfl, fun x hx => by have := List.le_sum_of_mem hx; omega⟩
    · intro h; rw [h]; simp
  have hA : ∑ T ∈ statesUpTo S.length S.sum, (if T.sum ≠ 0 ∧ 0 < eta then fixedLossProb U S T.sum T else 0)
      = if 0 < eta then (S.sum : ℝ) else 0 := by
    by_cases he : 0 < eta
    · simp only [he, and_true, if_true]
      rw [sum_statesUpTo, sum_range_succ']
      have e0 : ∑ T ∈ statesFin S.length 0, (if T.sum ≠ 0 then fixedLossProb U S T.sum T else 0) = 0 := by
        refine sum_eq_zero fun T hT => ?_
        rw [if_neg (by simp [((mem_statesFin _ _ T).mp hT).2])]
      rw [e0, add_zero]
      have : ∀ k ∈ range S.sum, ∑ T ∈ statesFin S.length (k + 1), (if T.sum ≠ 0 then fixedLossProb U S T.sum T else 0) = 1 := by
        intro k hk
        have hk := mem_range.mp hk
        rw [← htot (k + 1) (by omega)]
        refine sum_congr rfl fun T hT => ?_
        have := ((mem_statesFin _ _ T).mp hT).2
        rw [this, if_pos (by omega)]
      rw [sum_congr rfl this]
      simp
    · simp [he]
  have hB : ∑ T ∈ statesUpTo S.length S.sum, (if T.sum = 0 then ph else 0) = ph := by
    rw [sum_congr rfl fun T hT => by rw [if_congr (hvac' T hT) rfl rfl], sum_ite_eq' , if_pos hvac]
  have hC : ∑ T ∈ statesUpTo S.length S.sum, (if T.sum ≠ 0 ∧ ¬ Recordable U S eta T then ph else 0)
      = ph * unrecordable U S eta := by
    rw [unrecordable_eq, ← sum_filter, sum_const, nsmul_eq_mul, mul_comm]
  rw [mul_add, mul_one, ← hA, ← hC]
  refine Eq.trans ?_ (congrArg (fun x => _ + (_ + x)) hB)
  rw [← sum_add_distrib, ← sum_add_distrib]
  refine sum_congr rfl fun T hT => ?_
  obtain ⟨h1, h2⟩ := (mem_statesUpTo _ _ T).mp hT
  unfold final2
  by_cases hv : T.sum = 0
  · simp [hv, not_recordable_vacuum hv]
  · by_cases hr : Recordable U S eta T
    · simp [hr, hv, hr.1]
    · by_cases he : 0 < eta
      · simp [hr, hv, fixedLoss_zero_of_not_recordable hc he h1 h2 hv hr]
      · simp [hr, hv, he]

section

variable {perm : CalcCfg ℂ → Py ℂ} {U : List (List ℂ)} {S : List ℕ} {eta ph : ℝ} {outputs : List (List ℕ)}

open Classical in
/-- The number of entries still to be filled. -/
noncomputable def toFill (U : List (List ℂ)) (S : List ℕ) (eta : ℝ) (outputs : List (List ℕ)) (o : GccuObj) : ℕ :=
  ((range outputs.length).filter fun i => Recordable U S eta (outputs.getD i []) ∧
    ¬ ExactAt U S eta outputs (o.dist, o.udist) i).card

theorem toFill_le (o : GccuObj) : toFill U S eta outputs o ≤ outputs.length := by
  classical
  unfold toFill
  exact (card_filter_le _ _).trans (by simp)

theorem toFill_mono {o o' : GccuObj} (h : ∀ i < outputs.length, ExactAt U S eta outputs (o.dist, o.udist) i →
    ExactAt U S eta outputs (o'.dist, o'.udist) i) : toFill U S eta outputs o' ≤ toFill U S eta outputs o := by
  unfold toFill
  refine card_le_card fun i hi => ?_
  simp only [mem_filter, mem_range] at hi ⊢
  exact ⟨hi.1, hi.2.1, fun hx => hi.2.2 (h i hi.1 hx)⟩

theorem toFill_lt {o o' : GccuObj} (h : ∀ i < outputs.length, ExactAt U S eta outputs (o.dist, o.udist) i →
    ExactAt U S eta outputs (o'.dist, o'.udist) i) (i : ℕ) (hi : i < outputs.length)
    (hr : Recordable U S eta (outputs.getD i [])) (h1 : ¬ ExactAt U S eta outputs (o.dist, o.udist) i)
    (h2 : ExactAt U S eta outputs (o'.dist, o'.udist) i) : toFill U S eta outputs o' < toFill U S eta outputs o := by
  unfold toFill
  refine card_lt_card ⟨fun i hi => ?_, fun hsub => ?_⟩
  · simp only [mem_filter, mem_range] at hi ⊢
    exact ⟨hi.1, hi.2.1, fun hx => hi.2.2 (h i hi.1 hx)⟩
  · have := hsub (x := i) (by simp only [mem_filter, mem_range]; exact ⟨hi, hr, h1⟩)
    simp only [mem_filter, mem_range] at this
    exact this.2.2 h2

theorem exists_lower (n : ℕ) (f : ℕ → ℝ) (hf : ∀ i, 0 < f i) : ∃ ε : ℝ, 0 < ε ∧ ε ≤ 1 ∧ ∀ i < n, ε ≤ f i := by
  induction n with
  | zero => exact ⟨1, one_pos, le_refl _, by omega⟩
  | succ n ih =>
    obtain ⟨ε, h1, h2, h3⟩ := ih
    refine ⟨min ε (f n), lt_min h1 (hf n), (min_le_left _ _).trans h2, fun i hi => ?_⟩
    rcases Nat.lt_succ_iff_lt_or_eq.mp hi with h | rfl
    · exact (min_le_left _ _).trans (h3 i h)
    · exact min_le_right _ _

/-- The loop ends with probability 1 if it stops once nothing is left to be filled. -/
theorem gccuRepeat_unfinished (hc : UsedOrtho (colOf U) S.length S) (hU : U.length = S.length)
    (h0 : 0 ≤ eta) (h1 : eta ≤ 1) (outputs : List (List ℕ)) (ph : ℝ) :
    ∃ ε : ℝ, 0 < ε ∧ ε ≤ 1 ∧ ∀ (perm : CalcCfg ℂ → Py ℂ), PermOn perm U S → ∀ (cond : GccuObj → Bool),
      (∀ o, XInv U S eta ph outputs o → toFill U S eta outputs o = 0 → cond o = false) → ∀ (fuel : ℕ) (o : GccuObj),
      XInv U S eta ph outputs o → (Prog.loop fuel cond (gccuFill perm U) o).prob (fun r => ∀ o', r ≠ .ok o') ≤
        ENNReal.ofReal (Prog.waitBound ε fuel outputs.length) := by
  classical
  have hw : ∀ i, ∃ e : ℝ, 0 < e ∧ (i < outputs.length → Recordable U S eta (outputs.getD i []) →
      ∀ perm : CalcCfg ℂ → Py ℂ, PermOn perm U S → ∀ o, XInv U S eta ph outputs o → ENNReal.ofReal e ≤
      (gccuFill perm U o).prob (fun x => ∃ o', x = .ok o' ∧ ExactAt U S eta outputs (o'.dist, o'.udist) i)) := by
    intro i
    by_cases hr : Recordable U S eta (outputs.getD i [])
    · obtain ⟨he, r, j, g1, g2, g3, g4, g5⟩ := hr
      exact ⟨eta ^ (r.sum + 1) * fixedLossProb U S r.sum r, by positivity, fun hi _ perm hp o ho =>
        gccuFill_records hp hc hU h0 h1 r j g1 g2 g3 o ho i hi g5⟩
    · exact ⟨1, one_pos, fun _ h => absurd h hr⟩
  choose e he hrec using hw
  obtain ⟨ε, e1, e2, e3⟩ := exists_lower outputs.length e he
  refine ⟨ε, e1, e2, fun perm hp cond hcond fuel o ho => ?_⟩
  refine (Prog.loop_unfinished_le e1 e2 (XInv U S eta ph outputs) (toFill U S eta outputs) ?_ ?_ ?_ fuel o ho).trans
    (ENNReal.ofReal_le_ofReal (Prog.waitBound_monotone e1 e2 fuel (toFill_le o)))
  · intro o ho _ r hr
    rcases gccuFill_fills hp hc hU o ho r hr with ⟨o', rfl, g1, g2⟩ | ⟨_, _, h⟩
    · exact ⟨o', rfl, g1, toFill_mono g2⟩
    · exact h.elim
  · intro o ho ht
    by_contra hz
    rw [hcond o ho (by omega)] at ht
    cases ht
  · intro o ho ht
    have hne : toFill U S eta outputs o ≠ 0 := fun hz => by rw [hcond o ho hz] at ht; cases ht
    obtain ⟨i, hi⟩ := card_pos.mp (Nat.pos_of_ne_zero hne)
    simp only [mem_filter, mem_range] at hi
    obtain ⟨hi, hr, hx⟩ := hi
    refine (ENNReal.ofReal_le_ofReal (e3 i hi)).trans ((hrec i hi hr perm hp o ho).trans ?_)
    unfold Prog.prob
    refine Prog.wp_mono _ _ _ fun x hx' => ?_
    rcases gccuFill_fills hp hc hU o ho x hx' with ⟨o', rfl, g1, g2⟩ | ⟨_, _, h⟩
    swap
    · exact h.elim
    by_cases hex : ExactAt U S eta outputs (o'.dist, o'.udist) i
    · rw [if_pos ⟨o', rfl, hex⟩, if_pos ⟨o', rfl, toFill_lt g2 i hi hr hx hex⟩]
    · rw [if_neg]
      · exact zero_le
      · rintro ⟨o'', h, h'⟩
        injection h with h
        subst h
        exact hex h'

/-- The loop never ends if the condition to go on always holds. -/
theorem gccuRepeat_never (hp : PermOn perm U S) (hc : UsedOrtho (colOf U) S.length S) (hU : U.length = S.length)
    (cond : GccuObj → Bool) (hcond : ∀ o, XInv U S eta ph outputs o → cond o = true) (fuel : ℕ) (o : GccuObj)
    (ho : XInv U S eta ph outputs o) :
    (Prog.loop fuel cond (gccuFill perm U) o).All (fun _ => False) (fun e => e = .outOfFuel) := by
  induction fuel generalizing o with
  | zero => exact Prog.all_done_error rfl
  | succ fuel ih =>
    rw [Prog.loop_succ, hcond o ho, if_pos rfl]
    exact Prog.all_bind (Prog.all_mono (gccuFill_fills hp hc hU o ho) (fun _ h => h.1) fun _ h => h.elim) fun o' h => ih o' h

/-- Every entry is at most its final value. -/
theorem XInv.le_final (hph : ph ≤ 0) (h0 : 0 ≤ eta) (h1 : eta ≤ 1) {o : GccuObj} (ho : XInv U S eta ph outputs o) (i : ℕ)
    (hi : i < outputs.length) :
    o.dist.getD i 0 ≤ final1 U S eta ph (outputs.getD i []) ∧ o.udist.getD i 0 ≤ final2 U S eta ph (outputs.getD i []) := by
  unfold final1 final2
  by_cases hr : Recordable U S eta (outputs.getD i [])
  · rw [if_pos (.inr hr), if_pos hr]
    have hn : 0 ≤ uniformLossProb U S eta (outputs.getD i []) :=
      mul_nonneg (binomialWeight_nonneg _ _ h0 h1) (fixedLossProb_nonneg _ _ _ _)
    have hn' := fixedLossProb_nonneg U S (outputs.getD i []).sum (outputs.getD i [])
    have h1 := ho.u.dist.val1 i hi
    have h2 := ho.u.dist.val2 i hi
    rw [← getD_of_lt outputs [] hi] at h1 h2
    constructor
    · rcases h1 with h | h
      · simp only at h; rw [h]; linarith
      · exact h.le
    · rcases h2 with h | h
      · simp only at h; rw [h]; linarith
      · exact h.le
  · obtain ⟨g1, g2⟩ := ho.un i hi hr
    rw [g1, g2, if_neg hr]
    by_cases hv : (outputs.getD i []).sum = 0
    · rw [if_pos hv, if_pos (.inl hv)]; exact ⟨le_refl _, le_refl _⟩
    · rw [if_neg hv, if_neg (by tauto)]; exact ⟨le_refl _, le_refl _⟩

/-- Once nothing is left to be filled, the entries have their final values. -/
theorem XInv.eq_final {o : GccuObj} (ho : XInv U S eta ph outputs o) (hz : toFill U S eta outputs o = 0) (i : ℕ)
    (hi : i < outputs.length) :
    o.dist.getD i 0 = final1 U S eta ph (outputs.getD i []) ∧ o.udist.getD i 0 = final2 U S eta ph (outputs.getD i []) := by
  unfold final1 final2
  by_cases hr : Recordable U S eta (outputs.getD i [])
  · rw [if_pos (.inr hr), if_pos hr]
    have : ExactAt U S eta outputs (o.dist, o.udist) i := by
      by_contra hx
      rw [toFill, card_eq_zero] at hz
      have hm : i ∈ (∅ : Finset ℕ) := by
        rw [← hz]; simp only [mem_filter, mem_range]; exact ⟨hi, hr, hx⟩
      simp at hm
    exact this
  · obtain ⟨g1, g2⟩ := ho.un i hi hr
    rw [g1, g2, if_neg hr]
    by_cases hv : (outputs.getD i []).sum = 0
    · rw [if_pos hv, if_pos (.inl hv)]; exact ⟨rfl, rfl⟩
    · rw [if_neg hv, if_neg (by tauto)]; exact ⟨rfl, rfl⟩

end

/-- `_initialize_simulation`: nothing but the vacuum is filled in. -/
theorem gccuInitialize_fills (U : List (List ℂ)) (S : List ℕ) (m : ℕ) (hm : S.length = m + 1) (fuel : ℕ)
    (hf : genFuel m S.sum ≤ fuel) (o : GccuObj) :
    ∃ o', gccuInitialize fuel o S = .ok o' ∧
      XInv U S o.eta (if o.missing then -1 else 0) (allStates m S.sum true) o' := by
  obtain ⟨o', e1, e2⟩ := gccuInitialize_ok U S m hm fuel hf o
  refine ⟨o', e1, e2, ?_, ?_⟩
  all_goals
    have e1' := e1
    unfold gccuInitialize at e1'
    simp only at e1'
    have hg := generatePossibleStates_ok fuel S.sum m true hf
    rw [← hm] at hg
    rw [hg, ok_bind] at e1'
    have hw : 0 < (gccuWeights S.sum o.eta).length := by simp [gccuWeights]
    have hwv : (gccuWeights S.sum o.eta)[0] = binomialWeight S.sum 0 o.eta := by
      rw [← getD_of_lt _ 0 hw, gccuWeights_eq, gccbWeights_getD _ _ _ (Nat.zero_le _)]
    have hz : List.replicate (m + 1) 0 ∈ allStates m S.sum true := by
      rw [mem_allStates]; simp
    have hpos : 0 < (allStates m S.sum true).length := List.length_pos_of_mem hz
    rw [pyGetN_ok hw, ok_bind, pySetN_ok (by simpa using hpos), ok_bind] at e1'
    have e1' := Except.ok.inj e1'
    have hvac : ∀ i, (hi : i < (allStates m S.sum true).length) → (((allStates m S.sum true)[i]).sum = 0 ↔ i = 0) := by
      obtain ⟨j, hj, hjv⟩ := List.getElem_of_mem hz
      have hall : ∀ i, (hi : i < (allStates m S.sum true).length) → ((allStates m S.sum true)[i]).sum = 0 → i = j := by
        intro i hi h
        refine ((allStates_nodup m S.sum true).getElem_inj_iff (hi := hi) (hj := hj)).mp ?_
        rw [hjv, List.eq_replicate_iff]
        have hl := ((mem_allStates m S.sum true _).mp (List.getElem_mem hi)).1
        exact ⟨hl, fun x hx => by have := List.le_sum_of_mem hx; omega⟩
      have hj0 : j = 0 := by
        rcases Nat.eq_zero_or_pos j with h | hj0
        · exact h
        · have := List.pairwise_iff_getElem.mp (allStates_sorted m S.sum true) 0 j hpos hj hj0
          have hsj : ((allStates m S.sum true)[j]).sum = 0 := by rw [hjv]; simp
          exact (hall 0 hpos (by omega)).symm
      intro i hi
      constructor
      · intro h; rw [hall i hi h, hj0]
      · rintro rfl
        subst hj0
        rw [hjv]; simp
  · intro r P hP
    rw [← e1'] at hP
    simp [assocGet] at hP
  · intro i hi _
    rw [getD_of_lt _ _ hi, ← e1']
    simp only
    rw [getD_set _ _ _ _ (by simpa using hpos)]
    constructor
    · by_cases hi0 : 0 = i
      · subst hi0
        have hs := (hvac 0 hi).mpr rfl
        rw [if_pos rfl, if_pos hs, hwv, uniformLossProb, hs, fixedLoss_vacuum U S _ hs, mul_one]
      · rw [if_neg hi0, if_neg (fun h => hi0 ((hvac i hi).mp h).symm), getD_of_lt _ _ (by simpa using hi)]
        simp
    · rw [getD_of_lt _ _ (by simpa using hi)]
      simp

end Verif
