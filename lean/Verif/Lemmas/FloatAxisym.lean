import Verif.Model.IeeeFilters
import Verif.Lemmas.QuadFloat4
import Verif.Lemmas.Axisym

/-! # The axisymmetric filters in double precision -/

namespace S2wav
open Classical

/-- what `k_lam64_two` says of the entries of `k_lam` -/
def FloatK (J L : ℤ) (X : ℤ → ℤ → ℝ) : Prop :=
  ∀ j l, 0 ≤ j → j < J + 2 → 0 ≤ l → l < L → 0 ≤ X j l ∧ |X j l - kval 2 300 j l| ≤ 1 / 2 ^ 33 ∧
    ((l : ℝ) ≤ 2 ^ (j - 1) → X j l = 1) ∧ ((2 : ℝ) ^ j ≤ l → X j l = 0)

theorem kval_two_le (j l : ℤ) : kval 2 300 j l ≤ 1.001 := by
  have := kval_bound (lam := 2) (by norm_num) (le_refl 300) j l
  norm_num at this ⊢
  linarith

theorem FloatK.le_two {J L : ℤ} {X : ℤ → ℤ → ℝ} (h : FloatK J L X) {j l : ℤ} (h0 : 0 ≤ j) (h1 : j < J + 2) (h2 : 0 ≤ l) (h3 : l < L) :
    X j l ≤ 2 := by
  have := (abs_le.1 (h j l h0 h1 h2 h3).2.1).2
  have := kval_two_le j l
  norm_num at *
  linarith

theorem rnd_nonpos {x : ℝ} (h : x ≤ 0) : rnd x ≤ 0 := rnd_le (by have := rep_int (n := 0) (by norm_num); push_cast at this; exact this) h

theorem rnd_abs_le {x : ℝ} (h : |x| ≤ 4) : |rnd x| ≤ 5 := by
  have := abs_le.1 (rnd_acc' x)
  have h' := abs_le.1 h
  have : |x| / 2 ^ 53 + 1 / 2 ^ 110 ≤ 1 := by norm_num; linarith
  rw [abs_le]; constructor <;> linarith

/-- square of a rounded square root -/
theorem sq_rnd_sqrt {y : ℝ} (h0 : 0 ≤ y) (h1 : y ≤ 4) : |rnd (Real.sqrt y) ^ 2 - y| ≤ y / 2 ^ 51 + 1 / 2 ^ 100 := by
  set s := Real.sqrt y with hs
  have hs0 : 0 ≤ s := Real.sqrt_nonneg _
  have hsq : s ^ 2 = y := Real.sq_sqrt h0
  have hs2 : s ≤ 2 := by nlinarith
  have h := abs_le.1 (rnd_acc' s)
  rw [abs_of_nonneg hs0] at h
  set r := rnd s
  have e : r ^ 2 - y = (r - s) * (2 * s + (r - s)) := by rw [← hsq]; ring
  set d := r - s
  have hd : |d| ≤ s / 2 ^ 53 + 1 / 2 ^ 110 := abs_le.2 h
  rw [e, abs_mul]
  have h2 : |2 * s + d| ≤ 2 * s + (s / 2 ^ 53 + 1 / 2 ^ 110) := by
    refine (abs_add_le _ _).trans ?_
    rw [abs_of_nonneg (by positivity : 0 ≤ 2 * s)]
    linarith
  calc |d| * |2 * s + d| ≤ (s / 2 ^ 53 + 1 / 2 ^ 110) * (2 * s + (s / 2 ^ 53 + 1 / 2 ^ 110)) := by gcongr
    _ ≤ (s / 2 ^ 53 + 1 / 2 ^ 110) * (2 * s + s + 1 / 2 ^ 110) := by refine mul_le_mul_of_nonneg_left ?_ (by positivity); linarith [div_le_self hs0 (show (1 : ℝ) ≤ 2 ^ 53 by norm_num)]
    _ ≤ s ^ 2 / 2 ^ 51 + 1 / 2 ^ 100 := by norm_num; nlinarith
    _ = y / 2 ^ 51 + 1 / 2 ^ 100 := by rw [hsq]

/-- a wavelet entry computed from two entries of `k_lam` -/
noncomputable def psi64 (x y : ℝ) : ℝ := rnd (Real.sqrt (max 0 (rnd (x - y))))

theorem psi64_nonneg (x y : ℝ) : 0 ≤ psi64 x y := rnd_nonneg (Real.sqrt_nonneg _)

theorem psi64_self (x : ℝ) : psi64 x x = 0 := by
  unfold psi64; rw [sub_self, rnd_zero, max_self, Real.sqrt_zero, rnd_zero]

theorem psi64_neg {x y : ℝ} (h : x ≤ y) : psi64 x y = 0 := by
  unfold psi64; rw [max_eq_left (rnd_nonpos (by linarith)), Real.sqrt_zero, rnd_zero]

theorem psi64_sq {x y : ℝ} (h : y ≤ x) (h1 : x - y ≤ 2) : |psi64 x y ^ 2 - (x - y)| ≤ (x - y) / 2 ^ 50 + 1 / 2 ^ 90 := by
  have h0 : 0 ≤ x - y := by linarith
  unfold psi64
  set d := x - y
  rw [max_eq_right (rnd_nonneg h0)]
  have h2 := abs_le.1 (rnd_acc' d)
  rw [abs_of_nonneg h0] at h2
  have h3 := abs_le.1 (sq_rnd_sqrt (rnd_nonneg h0) (by norm_num at h2; linarith))
  rw [abs_le]
  norm_num at *
  constructor <;> linarith

theorem sqrt64 {x : ℝ} (h0 : 0 ≤ x) (h1 : x ≤ 16) : (F64.fin x).sqrt = .fin (rnd (Real.sqrt x)) := by
  change (if x < 0 then F64.nan else F64.of _) = _
  rw [if_neg (not_lt.2 h0), F64.of_fin']
  rw [abs_of_nonneg (Real.sqrt_nonneg _)]
  have : Real.sqrt x ≤ 4 := Real.sqrt_le_iff.2 ⟨by norm_num, by linarith⟩
  norm_num; linarith

theorem psi64_ok {x y : ℝ} (hx : |x| ≤ 2) (hy : |y| ≤ 2) :
    (if ((F64.fin x).sub (.fin y)).isNeg then (0 : F64) else (F64.fin x).sub (.fin y)).sqrt = .fin (psi64 x y) := by
  have hx' := abs_le.1 hx
  have hy' := abs_le.1 hy
  have hd : |x - y| ≤ 4 := by rw [abs_le]; constructor <;> linarith
  rw [F64.sub_fin, F64.of_fin' (hd.trans (by norm_num))]
  have hr := abs_le.1 (rnd_abs_le hd)
  unfold psi64
  by_cases h : rnd (x - y) < 0
  · rw [if_pos (show F64.isNeg (.fin _) from h), max_eq_left h.le]
    exact sqrt64 le_rfl (by norm_num)
  · rw [if_neg (show ¬ F64.isNeg (.fin _) from h), max_eq_right (not_lt.1 h)]
    exact sqrt64 (not_lt.1 h) (by linarith)

variable {m : Libm} {jm : JMax} {L J J_min : ℤ}

/-- the vectorised axisymmetric filters in double precision -/
theorem filters_axisym_vectorised64_ok (hm : m.Ok) (hJ : jm L 2 = .ok J) (hL : 1 ≤ L) (hL' : L ≤ 2 ^ 53) (hJ1 : J ≤ 1000)
    (h0 : 0 ≤ J_min) (h1 : J_min < J) :
    ∃ X, FloatK J L X ∧ k_lam64 m jm L 2 300 = .ok (Arr2.of (J + 2) L fun j l => .fin (X j l)) ∧
      filters_axisym_vectorised64 m jm L J_min 2 = .ok (Arr2.of (J + 1) L fun j l => .fin (psi64 (X (j + 1) l) (X j l)),
        Arr1.of L fun l => .fin (rnd (Real.sqrt (X J_min l)))) := by
  obtain ⟨X, hX, hX'⟩ := k_lam64_two hm hJ hL hL' (by omega) hJ1
  have hF : FloatK J L X := hX'
  refine ⟨X, hF, hX, ?_⟩
  unfold filters_axisym_vectorised64
  simp only [hJ, Py.bind_ok]
  rw [if_neg (by omega), hX]
  simp only [Py.bind_ok, Arr2.rollUp, Arr2.zip, Arr2.of_r, Arr2.of_c, and_self, if_true]
  have hsl : mkSl (J + 2) none (some (-1)) = ⟨0, J + 1, 1⟩ := by
    simp only [mkSl, slBound, if_pos (show (-1 : ℤ) < 0 by norm_num)]
    congr 1
    omega
  rw [hsl, mkSl_all (by omega), Arr1.row_ok _ h0 (by simp; omega)]
  simp only [Py.bind_ok, Arr2.of_c]
  congr 2
  · refine Arr2.of_congr fun i j h0 h1 h2 h3 => ?_
    simp only [Arr2.map, Arr2.slice, Arr2.of_r, Arr2.of_c] at h1 h3
    simp only [Arr2.map, Arr2.slice, Arr2.of_r, Arr2.of_c, Sl.at_one, zero_add]
    rw [Arr2.of_v _ _ _ _ _ ⟨h0, h1, h2, h3⟩, Arr2.of_v _ _ _ _ _ ⟨h0, h1, h2, h3⟩, Arr2.of_v _ _ _ _ _ ⟨h0, by omega, h2, h3⟩,
      Arr2.of_v _ _ _ _ _ ⟨h0, by omega, h2, h3⟩, Arr2.of_v _ _ _ _ _ ⟨h0, by omega, h2, h3⟩]
    have hm : (i + 1) % (J + 2) = i + 1 := Int.emod_eq_of_lt (by omega) (by omega)
    rw [hm, Arr2.of_v _ _ _ _ _ ⟨by omega, by omega, h2, h3⟩]
    refine psi64_ok ?_ ?_
    · rw [abs_of_nonneg (hF _ _ (by omega) (by omega) h2 h3).1]; exact hF.le_two (by omega) (by omega) h2 h3
    · rw [abs_of_nonneg (hF _ _ (by omega) (by omega) h2 h3).1]; exact hF.le_two (by omega) (by omega) h2 h3
  · refine Arr1.of_congr fun l h2 h3 => ?_
    simp only [Arr1.of_n] at h3
    rw [Arr1.of_v _ _ _ ⟨h2, h3⟩, Arr2.of_v _ _ _ _ _ ⟨h0, by omega, h2, h3⟩]
    exact sqrt64 (hF _ _ h0 (by omega) h2 h3).1 ((hF.le_two h0 (by omega) h2 h3).trans (by norm_num))

/-! ### The energy at one degree -/

/-- the band a degree belongs to -/
theorem band_exists {l : ℤ} (hl : 1 ≤ l) : ∃ j0 : ℤ, 1 ≤ j0 ∧ (2 : ℝ) ^ (j0 - 1) ≤ l ∧ (l : ℝ) < 2 ^ j0 := by
  have h1 : (1 : ℝ) ≤ l := by exact_mod_cast hl
  refine ⟨Int.log 2 (l : ℝ) + 1, ?_, ?_, ?_⟩
  · have := Int.log_mono_right (b := 2) one_pos h1
    rw [Int.log_one_right] at this
    omega
  · rw [add_sub_cancel_right]
    have := Int.zpow_log_le_self (b := 2) (by norm_num) (show (0 : ℝ) < l by linarith)
    exact_mod_cast this
  · have := Int.lt_zpow_succ_log_self (b := 2) (by norm_num) (l : ℝ)
    exact_mod_cast this

/-- entries of `k_lam` at one degree: zero up to its band, one beyond -/
theorem FloatK.column {X : ℤ → ℤ → ℝ} (hX : FloatK J L X) {l j0 : ℤ} (hl0 : 0 ≤ l) (hl1 : l < L)
    (h1 : (2 : ℝ) ^ (j0 - 1) ≤ l) (h2 : (l : ℝ) < 2 ^ j0) :
    (∀ j, 0 ≤ j → j < J + 2 → j < j0 → X j l = 0) ∧ ∀ j, 0 ≤ j → j < J + 2 → j0 < j → X j l = 1 := by
  constructor
  · intro j a b c
    refine (hX j l a b hl0 hl1).2.2.2 ?_
    exact (zpow_le_zpow_right₀ (by norm_num) (by omega)).trans h1
  · intro j a b c
    refine (hX j l a b hl0 hl1).2.2.1 ?_
    exact h2.le.trans (zpow_le_zpow_right₀ (by norm_num) (by omega))

/-- sum of squares of the rounded filters at one degree -/
theorem energy64 {X : ℤ → ℤ → ℝ} (hX : FloatK J L X) (hLJ : (L : ℝ) < 2 ^ J + 1) (h0 : 0 ≤ J_min) (h1 : J_min < J) {l : ℤ} (hl0 : 0 ≤ l) (hl1 : l < L) :
    ∃ x : ℝ, (x = 1 ∨ ∃ j0, 0 ≤ j0 ∧ j0 < J + 2 ∧ x = X j0 l) ∧
      1 - 1 / 2 ^ 48 ≤ rnd (Real.sqrt (X J_min l)) ^ 2 + ∑ j ∈ Finset.Icc J_min J, psi64 (X (j + 1) l) (X j l) ^ 2 ∧
      rnd (Real.sqrt (X J_min l)) ^ 2 + ∑ j ∈ Finset.Icc J_min J, psi64 (X (j + 1) l) (X j l) ^ 2 ≤ max 1 x + 1 / 2 ^ 48 := by
  have hone : rnd (Real.sqrt 1) = 1 := by rw [Real.sqrt_one, rnd_id rep_one]
  rcases hl0.eq_or_lt with rfl | hl
  · have hc : ∀ j, 0 ≤ j → j < J + 2 → X j 0 = 1 := fun j a b => (hX j 0 a b le_rfl hl1).2.2.1 (by push_cast; positivity)
    refine ⟨1, Or.inl rfl, ?_⟩
    rw [hc _ h0 (by omega), hone, Finset.sum_eq_zero, max_self]
    · norm_num
    · intro j hj
      rw [Finset.mem_Icc] at hj
      rw [hc j (by omega) (by omega), hc (j + 1) (by omega) (by omega), psi64_self]; norm_num
  obtain ⟨j0, hj0, b1, b2⟩ := band_exists (show 1 ≤ l by omega)
  have hjJ : j0 ≤ J := by
    have h3 : (l : ℝ) + 1 ≤ L := by exact_mod_cast hl1
    have h4 : (2 : ℝ) ^ (j0 - 1) < 2 ^ J := by linarith
    have := (zpow_lt_zpow_iff_right₀ (by norm_num : (1 : ℝ) < 2)).1 h4
    omega
  obtain ⟨c0, c1⟩ := hX.column hl0 hl1 b1 b2
  have hx0 := (hX j0 l (by omega) (by omega) hl0 hl1).1
  have hx2 := hX.le_two (j := j0) (by omega) (by omega) hl0 hl1
  refine ⟨X j0 l, Or.inr ⟨j0, by omega, by omega, rfl⟩, ?_⟩
  set x := X j0 l with hx
  -- the upper part of the band
  have hB : 1 - x - 1 / 2 ^ 49 ≤ psi64 1 x ^ 2 ∧ psi64 1 x ^ 2 ≤ max 0 (1 - x) + 1 / 2 ^ 49 := by
    rcases le_total x 1 with h | h
    · have := abs_le.1 (psi64_sq h (by linarith))
      rw [max_eq_right (by linarith)]
      norm_num at this ⊢
      constructor <;> linarith
    · rw [psi64_neg h, max_eq_left (by linarith)]
      norm_num; linarith
  rcases lt_trichotomy J_min j0 with hc | hc | hc
  · -- both pieces are wavelets
    have hA := abs_le.1 (psi64_sq hx0 (by linarith))
    rw [sub_zero] at hA
    have hsum : ∑ j ∈ Finset.Icc J_min J, psi64 (X (j + 1) l) (X j l) ^ 2 = psi64 x 0 ^ 2 + psi64 1 x ^ 2 := by
      rw [Finset.sum_eq_add_of_mem (j0 - 1) j0 (by rw [Finset.mem_Icc]; omega) (by rw [Finset.mem_Icc]; omega) (by omega)]
      · rw [sub_add_cancel, c0 (j0 - 1) (by omega) (by omega) (by omega), c1 (j0 + 1) (by omega) (by omega) (by omega)]
      · rintro j hj ⟨n1, n2⟩
        rw [Finset.mem_Icc] at hj
        rcases lt_or_gt_of_ne n2 with h | h
        · rw [c0 j (by omega) (by omega) (by omega), c0 (j + 1) (by omega) (by omega) (by omega), psi64_self]; norm_num
        · rw [c1 j (by omega) (by omega) (by omega), c1 (j + 1) (by omega) (by omega) (by omega), psi64_self]; norm_num
    rw [hsum, c0 J_min h0 (by omega) hc, Real.sqrt_zero, rnd_zero]
    rcases le_total x 1 with h | h
    · rw [max_eq_left h]; rw [max_eq_right (by linarith)] at hB
      norm_num at hA hB ⊢
      constructor <;> linarith
    · rw [max_eq_right h, psi64_neg h]
      norm_num at hA ⊢
      constructor <;> linarith
  · have hA := abs_le.1 (sq_rnd_sqrt hx0 (by linarith))
    have hsum : ∑ j ∈ Finset.Icc J_min J, psi64 (X (j + 1) l) (X j l) ^ 2 = psi64 1 x ^ 2 := by
      rw [Finset.sum_eq_single_of_mem j0 (by rw [Finset.mem_Icc]; omega)]
      · rw [c1 (j0 + 1) (by omega) (by omega) (by omega)]
      · intro j hj n
        rw [Finset.mem_Icc] at hj
        rw [c1 j (by omega) (by omega) (by omega), c1 (j + 1) (by omega) (by omega) (by omega), psi64_self]; norm_num
    rw [hsum, hc, ← hx]
    rcases le_total x 1 with h | h
    · rw [max_eq_left h]; rw [max_eq_right (by linarith)] at hB
      norm_num at hA hB ⊢
      constructor <;> linarith
    · rw [max_eq_right h, psi64_neg h]
      norm_num at hA ⊢
      constructor <;> linarith
  · have hsum : ∑ j ∈ Finset.Icc J_min J, psi64 (X (j + 1) l) (X j l) ^ 2 = 0 := by
      refine Finset.sum_eq_zero fun j hj => ?_
      rw [Finset.mem_Icc] at hj
      rw [c1 j (by omega) (by omega) (by omega), c1 (j + 1) (by omega) (by omega) (by omega), psi64_self]; norm_num
    rw [hsum, c1 J_min h0 (by omega) hc, hone]
    exact ⟨by norm_num, by linarith [le_max_left 1 x, show (0 : ℝ) < 1 / 2 ^ 48 by positivity]⟩

end S2wav
