import Verif.Proofs.BoxSum

/-! Helper lemmas: closed forms of the Ryser and Chin–Huh calculators. -/
namespace Verif

open Finset

variable {K : Type _} [Field K]

/-- Shapes accepted by the calculators: a square matrix, states of equal positive length fitting
it. -/
structure Fits (U : List (List K)) (S T : List Nat) : Prop where
  square : ∀ r ∈ U, r.length = U.length
  len : S.length = T.length
  le : S.length ≤ U.length
  pos : S ≠ []

variable {U : List (List K)} {S T : List Nat}

omit [Field K] in
theorem Fits.can (h : Fits U S T) : canCalculationBePerformed ⟨U, S, T⟩ = .ok true := by
  have hp := List.length_pos_of_ne_nil h.pos
  have hl := h.le
  have h0 : 0 < U.length := by omega
  have := h.square _ (List.getElem_mem h0)
  unfold canCalculationBePerformed
  simp only [pyGetN_ok h0, ok_bind]
  have hh := h.len
  rw [decide_eq_true ⟨this.symm, hh.symm, by omega⟩]
  rfl

theorem Fits.matGet (h : Fits U S T) {i j : ℕ} (hi : i < T.length) (hj : j < S.length) :
    matGet U i j = .ok (mget U i j) := by
  have := h.len
  have := h.le
  exact matGet_ok U h.square (by omega) (by omega)

/-- `w_j(r)` of Ryser's formula. -/
def ryserW (c : CalcCfg K) (r : List Int) (j : ℕ) : K :=
  boxSum c.input.length (fun ν => mget c.matrix j ν) r

/-- `w_j(r)` of the Chin–Huh formula. -/
def chinHuhW (c : CalcCfg K) (r : List Int) (j : ℕ) : K :=
  boxSum c.input.length (fun ν => mget c.matrix j ν) (c.input.map fun (x : Nat) => (x : Int))
    + boxSum c.input.length (fun ν => (-2) * mget c.matrix j ν) r

theorem ryser_sums (h : Fits U S T) : SumsOK ryserMethod ⟨U, S, T⟩ (ryserW ⟨U, S, T⟩) := by
  intro s r i u hi hr hrv hidx hlast hs
  simp only [ryserMethod, hs, hrv, hidx, hlast]
  simp only at hi hr
  rw [mapM_ok _ (fun p => (p.1, p.2 + (u : K) * mget U p.1 i))]
  · rw [ok_bind, List.map_map]
    simp only [Function.comp_def, ryserW]
    rw [show (fun x : ℕ => (x, boxSum S.length (fun ν => mget U x ν) r + (u : K) * mget U x i))
      = fun x => (x, boxSum S.length (fun ν => mget U x ν) (r.set i (r.getD i 0 + u))) from ?_]
    · rfl
    · funext x
      rw [boxSum_set _ _ _ _ _ hi hr]
  · intro p hp
    obtain ⟨j, hj, rfl⟩ := List.mem_map.mp hp
    have hj' := ((mem_npNonzero _ _).mp hj).1
    rw [pyGetN_ok (by simpa using (by omega : i < r.length)), ok_bind, h.matGet hj' hi, ok_bind]
    simp

theorem chinHuh_sums (h : Fits U S T) : SumsOK chinHuhMethod ⟨U, S, T⟩ (chinHuhW ⟨U, S, T⟩) := by
  intro s r i u hi hr hrv hidx hlast hs
  simp only [chinHuhMethod, hs, hrv, hidx, hlast]
  simp only at hi hr
  rw [mapM_ok _ (fun p => (p.1, p.2 - 2 * (u : K) * mget U p.1 i))]
  · rw [ok_bind, List.map_map]
    simp only [Function.comp_def, chinHuhW]
    rw [show (fun x : ℕ => (x, boxSum S.length (fun ν => mget U x ν) (S.map fun (x : Nat) => (x : Int))
          + boxSum S.length (fun ν => (-2) * mget U x ν) r - 2 * (u : K) * mget U x i))
      = fun x => (x, boxSum S.length (fun ν => mget U x ν) (S.map fun (x : Nat) => (x : Int))
          + boxSum S.length (fun ν => (-2) * mget U x ν) (r.set i (r.getD i 0 + u))) from ?_]
    · rfl
    · funext x
      rw [boxSum_set _ _ _ _ _ hi hr]
      congr 1
      ring
  · intro p hp
    obtain ⟨j, hj, rfl⟩ := List.mem_map.mp hp
    have hj' := ((mem_npNonzero _ _).mp hj).1
    rw [pyGetN_ok (by simpa using (by omega : i < r.length)), ok_bind, h.matGet hj' hi, ok_bind]
    simp

theorem boxProd_zero (m : ℕ) (f : ℕ → ℕ → K) (n : ℕ) (hf : ∀ ν, f ν 0 = 1) :
    boxProd m f (List.replicate n 0) = 1 := by
  unfold boxProd
  refine prod_eq_one fun ν _ => ?_
  have : (List.replicate n (0 : Int)).getD ν 0 = 0 := by
    rw [List.getD_eq_getElem?_getD, List.getElem?_replicate]
    split <;> rfl
  rw [this]
  exact hf ν

theorem boxSum_zero (m : ℕ) (x : ℕ → K) (n : ℕ) : boxSum m x (List.replicate n 0) = 0 := by
  unfold boxSum
  refine sum_eq_zero fun ν _ => ?_
  have : (List.replicate n (0 : Int)).getD ν 0 = 0 := by
    rw [List.getD_eq_getElem?_getD, List.getElem?_replicate]
    split <;> rfl
  rw [this]; simp

theorem foldlM_sum_range (m : ℕ) (f : ℕ → Py K) (g : ℕ → K) (h : ∀ j < m, f j = .ok (g j)) (a : K) :
    (List.range m).foldlM (fun (acc : K) j => do
      let x ← f j
      pure (acc + x)) a = .ok (a + ∑ j ∈ range m, g j) := by
  rw [foldlM_ok (fun (acc : K) (j : ℕ) => (do
      let x ← f j
      pure (acc + x) : Py K)) (fun acc j => acc + g j)]
  · congr 1
    induction m generalizing a with
    | zero => simp
    | succ m ih => rw [List.range_succ, List.foldl_append, ih (fun j hj => h j (by omega)),
        sum_range_succ]; simp [add_assoc]
  · intro acc j hj
    rw [h j (List.mem_range.mp hj)]
    rfl

/-- The base of the sums of the Chin–Huh calculators. -/
theorem chinHuh_initSums_aux
    (h : ∀ {i j : ℕ}, i < T.length → j < S.length → Verif.matGet U i j = .ok (mget U i j)) :
    (npNonzero T).foldlM (fun d i => do
      let w ← (List.range S.length).foldlM (fun (acc : K) j => do
        let x ← pyGetN S j
        let u ← matGet U i j
        pure (acc + (x : K) * u)) 0
      pure (dictSet d i w)) ([] : List (ℕ × K))
      = .ok ((npNonzero T).map fun j => (j, chinHuhW ⟨U, S, T⟩ (List.replicate S.length 0) j)) := by
  rw [foldlM_ok (fun (d : List (ℕ × K)) (i : ℕ) => (do
      let w ← (List.range S.length).foldlM (fun (acc : K) j => do
        let x ← pyGetN S j
        let u ← matGet U i j
        pure (acc + (x : K) * u)) 0
      pure (dictSet d i w) : Py _)) (fun d j => dictSet d j
        (chinHuhW ⟨U, S, T⟩ (List.replicate S.length 0) j))]
  · rw [foldl_dictSet _ _ _ (npNonzero_nodup T) (by simp)]
    simp
  · intro d i hi
    have hi' := ((mem_npNonzero _ _).mp hi).1
    have := foldlM_sum_range (K := K) S.length (fun j => (do
      let x ← pyGetN S j
      let u ← matGet U i j
      pure ((x : K) * u) : Py K)) (fun j => (S.getD j 0 : K) * mget U i j) (fun j hj => by
        rw [pyGetN_ok hj, ok_bind, h hi' hj, ok_bind, getD_of_lt _ _ hj]; rfl) 0
    simp only [bind_assoc, pure_bind] at this
    rw [this, ok_bind, zero_add]
    congr 2
    unfold chinHuhW
    rw [boxSum_zero, add_zero]
    unfold boxSum
    refine sum_congr rfl fun ν hν => ?_
    have hν' := mem_range.mp hν
    rw [getD_of_lt _ _ hν', getD_of_lt _ _ (by simpa using hν')]
    simp

theorem ryser_init (_ : Fits U S T) (s : GuanScratch K) :
    ∃ s', ryserMethod.init ⟨U, S, T⟩ s = .ok s' ∧
      GInv ⟨U, S, T⟩ (ryserW ⟨U, S, T⟩) ((-1) ^ S.sum) (List.replicate S.length 0)
        (List.replicate S.length 1) s' ∧
      s'.permanent = gterm ⟨U, S, T⟩ (ryserW ⟨U, S, T⟩) ((-1) ^ S.sum) (List.replicate S.length 0) := by
  have hW : (fun j => (j, (0 : K)))
      = fun j => (j, ryserW ⟨U, S, T⟩ (List.replicate S.length 0) j) := by
    funext j; simp [ryserW, boxSum_zero]
  simp only [ryserMethod, initBase]
  rw [foldl_dictSet _ (fun _ => (0 : K)) _ (npNonzero_nodup T) (by simp), List.nil_append, hW,
    updatePermanent_ok _ _ (ryserW ⟨U, S, T⟩ (List.replicate S.length 0)) rfl rfl]
  refine ⟨_, rfl, ⟨rfl, rfl, rfl, ?_, ?_, rfl, rfl⟩, ?_⟩
  · rw [boxProd_zero _ _ _ (by simp [signF]), mul_one]
  · rw [boxProd_zero _ _ _ (by simp [binF])]
  · simp only [gterm]
    rw [boxProd_zero _ _ _ (by simp [signF]), boxProd_zero _ _ _ (by simp [binF]), zero_add, mul_one,
      mul_one]

theorem chinHuh_init (h : Fits U S T) (s : GuanScratch K) :
    ∃ s', chinHuhMethod.init ⟨U, S, T⟩ s = .ok s' ∧
      GInv ⟨U, S, T⟩ (chinHuhW ⟨U, S, T⟩) (1 / 2 ^ S.sum) (List.replicate S.length 0)
        (List.replicate S.length 1) s' ∧
      s'.permanent = gterm ⟨U, S, T⟩ (chinHuhW ⟨U, S, T⟩) (1 / 2 ^ S.sum) (List.replicate S.length 0) := by
  simp only [chinHuhMethod, initBase]
  rw [chinHuh_initSums_aux h.matGet, ok_bind,
    updatePermanent_ok _ _ (chinHuhW ⟨U, S, T⟩ (List.replicate S.length 0)) rfl rfl]
  refine ⟨_, rfl, ⟨rfl, rfl, rfl, ?_, ?_, rfl, rfl⟩, ?_⟩
  · rw [boxProd_zero _ _ _ (by simp [signF]), mul_one]
  · rw [boxProd_zero _ _ _ (by simp [binF])]
  · simp only [gterm]
    rw [boxProd_zero _ _ _ (by simp [signF]), boxProd_zero _ _ _ (by simp [binF]), zero_add, mul_one,
      mul_one]

theorem zeros_box (S : List Nat) :
    List.Forall₂ (fun (x : Int) (s : Nat) => 0 ≤ x ∧ x ≤ s) (List.replicate S.length 0) S := by
  induction S with
  | nil => exact List.Forall₂.nil
  | cons s S ih => exact List.Forall₂.cons ⟨le_refl _, by omega⟩ ih

variable [CharZero K]

/-- Both calculators return the sum of the addends over any list of visited vectors. -/
theorem compute_ok (meth : GuanMethod K) (W : List Int → ℕ → K) (m0 : K) (h : Fits U S T)
    (hW : SumsOK meth ⟨U, S, T⟩ W) (s : GuanScratch K)
    (hinit : ∃ s', meth.init ⟨U, S, T⟩ s = .ok s' ∧
      GInv ⟨U, S, T⟩ W m0 (List.replicate S.length 0) (List.replicate S.length 1) s' ∧
      s'.permanent = gterm ⟨U, S, T⟩ W m0 (List.replicate S.length 0))
    (L : List (List Int)) (hL : Visits (S.map fun (x : Nat) => (x : Int)) (List.replicate S.length 0)
      (List.replicate S.length 1) L) (fuel : ℕ) (hf : L.length ≤ fuel) :
    ∃ s', computePermanent meth fuel ⟨U, S, T⟩ s
      = .ok ((L.map (gterm ⟨U, S, T⟩ W m0)).sum, s') := by
  obtain ⟨s1, h1, hI, hp⟩ := hinit
  obtain ⟨s2, h2, hp2⟩ := guanMain_ok meth ⟨U, S, T⟩ W m0 hW h.pos L _ _ hL s1 fuel hI (zeros_box S)
    (by simp) (by simp) hf
  refine ⟨s2, ?_⟩
  unfold computePermanent
  rw [h.can, ok_bind, if_pos rfl, h1, ok_bind, h2, ok_bind, hp2, hp]
  obtain ⟨L', rfl⟩ := hL.head
  rfl

omit [CharZero K] in
theorem ryser_sum (L : List (List Int)) (hL : L.Perm (ibox S)) (h : S.sum = T.sum) :
    (L.map (gterm ⟨U, S, T⟩ (ryserW ⟨U, S, T⟩) ((-1) ^ S.sum))).sum = scatteringPermanent U S T := by
  rw [(hL.map _).sum_eq, ← lperm_scattering U S T h,
    lperm_eq_pdiff (by rw [List.length_map, particles_length, particles_length, h]) (fun _ => (0 : K))]
  have := box_pdiff S 0 (colOf U) (rowProd (particles T)) (fun _ => (0 : K))
  rw [show pdiff ((particles S).map (colOf U)) (rowProd (particles T)) (fun _ => (0 : K))
      = (-1) ^ S.sum * ((-1) ^ S.sum *
        pdiff ((particles S).map (colOf U)) (rowProd (particles T)) (fun _ => (0 : K))) by
    rw [← mul_assoc, ← mul_pow]; simp, ← this, ← List.sum_map_mul_left]
  congr 1
  refine List.map_congr_left fun r _ => ?_
  simp only [gterm, npNonzero_prod, zero_add]
  rw [mul_assoc, mul_assoc, mul_assoc]
  rfl

theorem chinHuh_sum (L : List (List Int)) (hL : L.Perm (ibox S)) (h : S.sum = T.sum) :
    (L.map (gterm ⟨U, S, T⟩ (chinHuhW ⟨U, S, T⟩) (1 / 2 ^ S.sum))).sum = scatteringPermanent U S T := by
  rw [(hL.map _).sum_eq, ← lperm_scattering U S T h]
  obtain ⟨w, hw⟩ : ∃ w : ℕ → K, w = fun j => boxSum S.length (fun ν => mget U j ν)
    (S.map fun (x : Nat) => (x : Int)) := ⟨_, rfl⟩
  have hb := box_pdiff S 0 (fun ν => (-2 : K) • colOf U ν) (rowProd (particles T)) w
  have hp : (particles S).map (fun ν => (-2 : K) • colOf U ν)
      = ((particles S).map (colOf U)).map fun c => (-2 : K) • c := by simp
  have hlen : (((particles S).map (colOf U)).map fun c => (-2 : K) • c).length
      = (particles T).length := by
    rw [List.length_map, List.length_map, particles_length, particles_length, h]
  rw [hp, ← lperm_eq_pdiff hlen w, lperm_smul, particles_length, ← h] at hb
  have h2 : (2 : K) ^ S.sum ≠ 0 := pow_ne_zero _ two_ne_zero
  have : lperm (particles T) ((particles S).map (colOf U)) = 1 / 2 ^ S.sum *
      ((-1) ^ S.sum * ((-2) ^ S.sum * lperm (particles T) ((particles S).map (colOf U)))) := by
    rw [← mul_assoc ((-1) ^ S.sum), ← mul_pow]
    norm_num
  rw [this, ← hb, ← List.sum_map_mul_left]
  congr 1
  refine List.map_congr_left fun r _ => ?_
  simp only [gterm, npNonzero_prod, Nat.zero_add, chinHuhW, hw]
  rw [mul_assoc, mul_assoc, mul_assoc]
  rfl

end Verif
