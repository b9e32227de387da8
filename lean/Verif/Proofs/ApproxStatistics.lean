import Verif.Proofs.ProgLoop
import Verif.Proofs.Statistics
import Verif.Proofs.FixedLossRuns

/-! Helper lemmas: joint laws of repeated samples whose single law is known, and frequencies of samples from a law close to another. -/
namespace Verif

open Finset
open scoped ENNReal

theorem wp_sum_le {α ι : Type} (p : Prog α) (s : Finset ι) (f : ι → Py α → ℝ≥0∞) :
    ∑ x ∈ s, p.wp (f x) ≤ p.wp fun r => ∑ x ∈ s, f x r := by
  classical
  induction s using Finset.induction_on with
  | empty => simp
  | insert a s ha ih =>
    rw [sum_insert ha]
    refine le_trans (add_le_add_right ih _) (le_trans (Prog.wp_add_le p _ _) (Prog.wp_mono p _ _ fun r _ => ?_))
    rw [sum_insert ha]

open Classical in
/-- A program whose results lie in a finite set and whose probabilities add up to 1: expectations are sums. -/
theorem wp_discrete {α : Type} {p : Prog α} (s : Finset α) (h : p.All (· ∈ s) fun _ => False)
    (hs : ∑ x ∈ s, p.prob (fun r => r = .ok x) = 1) (f : Py α → ℝ≥0∞) (hf : ∀ x ∈ s, f (.ok x) ≠ ⊤) :
    p.wp f = ∑ x ∈ s, p.prob (fun r => r = .ok x) * f (.ok x) := by
  have lower : ∀ g : Py α → ℝ≥0∞, (∀ x ∈ s, g (.ok x) ≠ ⊤) →
      ∑ x ∈ s, p.prob (fun r => r = .ok x) * g (.ok x) ≤ p.wp g := by
    intro g hg
    calc ∑ x ∈ s, p.prob (fun r => r = .ok x) * g (.ok x)
        = ∑ x ∈ s, p.wp (fun r => g (.ok x) * if r = .ok x then 1 else 0) := sum_congr rfl fun x hx => by
          rw [Prog.wp_const_mul _ _ (hg x hx), mul_comm, Prog.prob]; congr!
      _ ≤ p.wp (fun r => ∑ x ∈ s, g (.ok x) * if r = .ok x then 1 else 0) := wp_sum_le _ _ _
      _ ≤ p.wp g := Prog.wp_mono _ _ _ fun r hr => by
          rcases h r hr with ⟨x, rfl, hx⟩ | ⟨e, -, he⟩
          · rw [sum_eq_single x (fun y _ hy => by rw [if_neg (by simpa using hy.symm), mul_zero]) fun h => (h hx).elim]
            simp
          · exact he.elim
  set c := ∑ x ∈ s, f (.ok x) with hc
  have hct : c ≠ ⊤ := ENNReal.sum_ne_top.mpr hf
  have hle : ∀ x ∈ s, f (.ok x) ≤ c := fun x hx => single_le_sum (f := fun x => f (.ok x)) (fun _ _ => zero_le) hx
  refine le_antisymm ?_ (lower f hf)
  have h1 := lower (fun r => c - f r) fun x hx => ENNReal.sub_ne_top hct
  have h2 : p.wp (fun r => c - f r) + p.wp f ≤ c := by
    refine le_trans (Prog.wp_add_le p _ _) (le_of_le_of_eq (Prog.wp_mono p _ (fun _ => c) fun r hr => ?_) (Prog.wp_const p c))
    rcases h r hr with ⟨x, rfl, hx⟩ | ⟨e, -, he⟩
    · exact le_of_eq (tsub_add_cancel_of_le (hle x hx))
    · exact he.elim
  have h3 : ∑ x ∈ s, p.prob (fun r => r = .ok x) * (c - f (.ok x)) + ∑ x ∈ s, p.prob (fun r => r = .ok x) * f (.ok x) = c := by
    rw [← sum_add_distrib, sum_congr rfl fun x hx => by rw [← mul_add, tsub_add_cancel_of_le (hle x hx)], ← sum_mul, hs, one_mul]
  have h4 : ∑ x ∈ s, p.prob (fun r => r = .ok x) * (c - f (.ok x)) ≠ ⊤ := by
    intro h
    rw [h, top_add] at h3
    exact hct h3.symm
  refine (ENNReal.add_le_add_iff_left h4).mp ?_
  rw [h3]
  exact le_trans (add_le_add_left h1 _) h2

/-- Repetitions of a program with results in a finite set are independent. -/
theorem repeatN_iid {p : Prog (List ℕ)} (s : Finset (List ℕ)) (h : p.All (· ∈ s) fun _ => False)
    (hs : ∑ x ∈ s, p.prob (fun r => r = .ok x) = 1) (n : ℕ) (f : Py (List (List ℕ)) → ℝ≥0∞)
    (hf : ∀ l : List (List ℕ), l.length = n → (∀ T ∈ l, T ∈ s) → f (.ok l) ≠ ⊤) :
    (p.repeatN n).wp f = expIid s (fun T => p.prob fun r => r = .ok T) n fun l => f (.ok l) := by
  induction n generalizing f with
  | zero => rfl
  | succ n ih =>
    have e : ∀ T ∈ s, Prog.post (fun x => do let l ← p.repeatN n; pure (x :: l)) f (.ok T)
        = expIid s (fun T => p.prob fun r => r = .ok T) n fun l => f (.ok (T :: l)) := by
      intro T hT
      rw [Prog.post, Prog.bind_eq, Prog.wp_bind, ih _ fun l h1 h2 => ?_]
      · rfl
      · exact hf (T :: l) (by simp [h1]) (by simpa [hT] using h2)
    have fin : ∀ n (g : List (List ℕ) → ℝ≥0∞), (∀ l : List (List ℕ), l.length = n → (∀ T ∈ l, T ∈ s) → g l ≠ ⊤) →
        expIid s (fun T => p.prob fun r => r = .ok T) n g ≠ ⊤ := by
      intro n
      induction n with
      | zero => exact fun g hg => hg [] rfl (by simp)
      | succ n ih =>
        intro g hg
        rw [expIid]
        refine ENNReal.sum_ne_top.mpr fun T hT => ENNReal.mul_ne_top ?_ (ih _ fun l h1 h2 => ?_)
        · exact ne_top_of_le_ne_top ENNReal.one_ne_top
            (hs ▸ single_le_sum (f := fun x => p.prob fun r => r = .ok x) (fun _ _ => zero_le) hT)
        · exact hg (T :: l) (by simp [h1]) (by simpa [hT] using h2)
    rw [Prog.repeatN, Prog.bind_eq, Prog.wp_bind, wp_discrete s h hs _ fun T hT => ?_, expIid]
    · exact sum_congr rfl fun T hT => by rw [e T hT]
    · rw [e T hT]
      exact fin n _ fun l h1 h2 => hf (T :: l) (by simp [h1]) (by simpa [hT] using h2)

/-- Expectations over the computed frequencies, for functions with finite values. -/
theorem approximateDistribution_finite (strategy : Strategy) (fuel : ℕ) (o : SampleCalc) (N N' : ℕ) (hN : 0 < N) (m : ℕ)
    (𝒯 : Finset (List ℕ)) (p : List ℕ → ℝ≥0∞)
    (hlaw : ∀ f, (∀ l : List (List ℕ), l.length = N' → (∀ T ∈ l, T ∈ 𝒯) → f (.ok l) ≠ ⊤) →
      (strategy o.initialState N).wp f = expIid 𝒯 p N' fun l => f (.ok l))
    (h𝒯 : ∀ T ∈ 𝒯, T.length = m) (outs : List (List ℕ)) (hp : possibleOutcomes fuel o = .ok outs)
    (ho : ∀ T ∈ outs, T.length = m) (hn : outs.Nodup) (f : Py (List ℚ) → ℝ≥0∞) (hf : ∀ l, f (.ok l) ≠ ⊤) :
    (approximateDistribution strategy fuel o N).wp f
      = expIid 𝒯 p N' fun l => f (.ok (outs.map fun T => (l.count T : ℚ) / N)) := by
  have key : ∀ l : List (List ℕ), (∀ T ∈ l, T ∈ 𝒯) → Prog.post (fun samples => do
      let counts ← (samples.foldlM (fun counts sample => countSample sample outs counts)
        (List.replicate outs.length 0) : Py _)
      (counts.mapM (fun (c : ℕ) => floatDiv (c : ℚ) (((N : ℕ) : ℤ) : ℚ)) : Py _)) f (.ok l)
      = f (.ok (outs.map fun T => (l.count T : ℚ) / N)) := by
    intro l hl
    have h3 : List.replicate outs.length 0 = outs.map fun _ => 0 := by simp
    have h4 := countSamples_ok m l (fun s hs => h𝒯 s (hl s hs)) outs ho hn fun _ => 0
    rw [Prog.post, h3, h4]
    simp only [Prog.lift_def, Prog.bind_eq]
    rw [Prog.done_ok_bind, mapM_ok _ (fun c : ℕ => (c : ℚ) / N)]
    · rw [List.map_map]
      simp [Prog.wp, Function.comp_def]
    · intro c _
      rw [floatDiv, if_neg (by exact_mod_cast hN.ne')]
      simp
  unfold approximateDistribution
  rw [hp]
  rw [show (liftM (Except.ok outs : Py (List (List ℕ))) : Prog _) = .done (.ok outs) from rfl, Prog.bind_eq, Prog.done_ok_bind,
    Prog.bind_eq, Prog.wp_bind, hlaw _ fun l _ hl => ?_]
  · exact expIid_congr _ _ _ fun l _ hl => key l hl
  · rw [key l hl]
    exact hf _

open Classical in
/-- Frequencies of samples from a law `p` at a distance of at most `D` from `q`. -/
theorem approximateDistribution_bias (strategy : Strategy) (fuel : ℕ) (o : SampleCalc) (N N' : ℕ) (hN : 0 < N) (hN' : N ≤ N') (m : ℕ)
    (𝒯 : Finset (List ℕ)) (p q : List ℕ → ℝ)
    (hlaw : ∀ f, (∀ l : List (List ℕ), l.length = N' → (∀ T ∈ l, T ∈ 𝒯) → f (.ok l) ≠ ⊤) →
      (strategy o.initialState N).wp f = expIid 𝒯 (fun T => ENNReal.ofReal (p T)) N' fun l => f (.ok l))
    (hp0 : ∀ T, 0 ≤ p T) (hp1 : ∑ T ∈ 𝒯, ENNReal.ofReal (p T) = 1)
    (h𝒯 : ∀ T ∈ 𝒯, T.length = m) (outs : List (List ℕ)) (hp : possibleOutcomes fuel o = .ok outs)
    (ho : ∀ T, T ∈ outs ↔ T ∈ 𝒯) (hn : outs.Nodup) (δ : ℝ) (hδ0 : 0 < δ) (hδ1 : δ ≤ 1) (D ε : ℝ)
    (hD : 1 / 2 * ∑ T ∈ 𝒯, |p T - q T| ≤ D) (hε : tvErrorBound outs.length N' δ + D + ((N' : ℝ) - N) / (2 * N) ≤ ε) :
    (approximateDistribution strategy fuel o N).prob (fun r => ¬ ∃ freq d, r = .ok freq ∧
        countTvd (freq.map fun x : ℚ => (x : ℝ)) (outs.map q) = .ok d ∧ d < ε)
      ≤ ENNReal.ofReal δ := by
  have hfin : outs.toFinset = 𝒯 := by ext T; rw [List.mem_toFinset, ho]
  have hcard : 𝒯.card = outs.length := by rw [← hfin, List.toFinset_card_of_nodup hn]
  obtain ⟨hb0, hb1⟩ := tvErrorBound_prob outs.length N' (by omega) δ hδ0 hδ1
  have hs : ∑ T ∈ 𝒯, p T = 1 := by
    have := hp1
    rw [← ENNReal.ofReal_sum_of_nonneg fun T _ => hp0 T] at this
    exact ENNReal.ofReal_eq_one.mp this
  have key := expIid_tvd 𝒯 p (fun T _ => hp0 T) hs N' (by omega) _ hb0
  rw [hcard, hb1] at key
  unfold Prog.prob
  rw [approximateDistribution_finite strategy fuel o N N' hN m 𝒯 _ hlaw h𝒯 outs hp (fun T hT => h𝒯 T ((ho T).mp hT)) hn _
    fun l => by split_ifs <;> simp]
  refine le_trans (expIid_mono _ _ _ fun l hl hmem => ?_) key
  have htvd : countTvd ((outs.map fun T => (l.count T : ℚ) / N).map fun x : ℚ => (x : ℝ)) (outs.map q)
      = .ok ((∑ T ∈ 𝒯, |(l.count T : ℝ) / N - q T|) / 2) := by
    rw [countTvd_ok _ _ (by simp), List.map_map, zipWith_map_same, ← hfin, List.sum_toFinset _ hn]
    congr 4
    funext T
    simp
  have hN0 : (0 : ℝ) < N := by exact_mod_cast hN
  have hN1 : (0 : ℝ) < N' := by exact_mod_cast (show 0 < N' by omega)
  have hN2 : (N : ℝ) ≤ N' := by exact_mod_cast hN'
  have htot : ∑ T ∈ 𝒯, (l.count T : ℝ) = N' := by
    rw [← Nat.cast_sum, sum_count_eq_countP, List.countP_eq_length.mpr fun T hT => by simpa using hmem T hT, hl]
  have hscale : ∑ T ∈ 𝒯, |(l.count T : ℝ) / N - (l.count T : ℝ) / N'| = ((N' : ℝ) - N) / N := by
    have : ∀ T ∈ 𝒯, |(l.count T : ℝ) / N - (l.count T : ℝ) / N'| = (l.count T : ℝ) * (1 / N - 1 / N') := by
      intro T _
      have h1 : 0 ≤ 1 / (N : ℝ) - 1 / N' := sub_nonneg.mpr (one_div_le_one_div_of_le hN0 hN2)
      rw [← abs_of_nonneg (mul_nonneg (Nat.cast_nonneg _) h1)]
      congr 1
      ring
    rw [sum_congr rfl this, ← sum_mul, htot]
    field_simp
  have htri : ∑ T ∈ 𝒯, |(l.count T : ℝ) / N - q T| ≤ ((N' : ℝ) - N) / N
      + ∑ T ∈ 𝒯, |(l.count T : ℝ) / N' - p T| + ∑ T ∈ 𝒯, |p T - q T| := by
    rw [← hscale, ← sum_add_distrib, ← sum_add_distrib]
    exact sum_le_sum fun T _ => (abs_sub_le _ (p T) _).trans (add_le_add_left (abs_sub_le _ _ _) _)
  by_cases h : tvErrorBound outs.length N' δ ≤ (∑ T ∈ 𝒯, |(l.count T : ℝ) / N' - p T|) / 2
  · rw [if_pos h]
    split_ifs <;> simp
  · rw [if_neg h, if_neg]
    rw [not_not]
    refine ⟨_, _, rfl, htvd, lt_of_lt_of_le ?_ hε⟩
    rw [not_le] at h
    have : ((N' : ℝ) - N) / (2 * N) = ((N' : ℝ) - N) / N / 2 := by field_simp
    linarith

end Verif
