import Verif.Lemmas.Overshoot
import Verif.Props.RoundedDirectional

/-! # The filters in double precision with any `lam` for which `k_lam` is accurate

What follows from the accuracy of `k_lam` (C118, C120, C123) about the filters; the counterpart of the lemmas for `lam = 2` in
`Props/RoundedFilters` and `Props/RoundedDirectional`. Used in C119 (`lam = 3`), C121 (`lam = 4`) and C125 (`lam = 8`). -/

namespace S2wav
namespace Gen
open Classical

variable {m : Libm} {lg : F64 → F64} {jm : JMax} {lam : ℝ} [hlf : Fact (1 < lam)] {L N J J_min : ℤ} {X : ℤ → ℤ → ℝ}

/-! ### Helpers -/

/-- what C118, C120 and C123 say of the entries of `k_lam` -/
def FloatK (lam : ℝ) (J L : ℤ) (X : ℤ → ℤ → ℝ) : Prop :=
  ∀ j l, 0 ≤ j → j < J + 2 → 0 ≤ l → l < L → 0 ≤ X j l ∧ |X j l - kval lam 300 j l| ≤ 1 / 2 ^ 31 ∧
    ((l : ℝ) ≤ lam ^ (j - 1) → X j l = 1) ∧ (lam ^ j ≤ l → X j l = 0)

/-- `k_lam` in double precision returns numbers close to the exact ones -/
def KOk (m : Libm) (jm : JMax) (lam : ℝ) (L J : ℤ) : Prop :=
  ∃ X, FloatK lam J L X ∧ k_lam64 m jm L lam 300 = .ok (Arr2.of (J + 2) L fun j l => .fin (X j l))

include hlf in
theorem kval_le_any (j l : ℤ) : kval lam 300 j l ≤ 1.001 := by
  have := kval_bound hlf.out (le_refl 300) j l
  norm_num at this ⊢
  linarith

include hlf in
theorem FloatK.le_two (h : FloatK lam J L X) {j l : ℤ} (h0 : 0 ≤ j) (h1 : j < J + 2) (h2 : 0 ≤ l) (h3 : l < L) :
    X j l ≤ 2 := by
  have := (abs_le.1 (h j l h0 h1 h2 h3).2.1).2
  have := kval_le_any (lam := lam) j l
  norm_num at *
  linarith

/-- the vectorised axisymmetric filters in double precision -/
theorem filters_axisym_vectorised64_ok (hK : KOk m jm lam L J) (hJ : jm L lam = .ok J) (hL : 1 ≤ L) (hL' : L ≤ 2 ^ 53) (hJ1 : J ≤ 1000)
    (h0 : 0 ≤ J_min) (h1 : J_min < J) :
    ∃ X, FloatK lam J L X ∧ k_lam64 m jm L lam 300 = .ok (Arr2.of (J + 2) L fun j l => .fin (X j l)) ∧
      filters_axisym_vectorised64 m jm L J_min lam = .ok (Arr2.of (J + 1) L fun j l => .fin (psi64 (X (j + 1) l) (X j l)),
        Arr1.of L fun l => .fin (rnd (Real.sqrt (X J_min l)))) := by
  obtain ⟨X, hF, hX⟩ := hK
  refine ⟨X, hF, hX, ?_⟩
  unfold filters_axisym_vectorised64
  simp only [hJ, Py.bind_ok]
  rw [if_neg (by omega), hX]
  simp only [Py.bind_ok, Arr2.rollUp, Arr2.zip, Arr2.of_r, Arr2.of_c, and_self, if_true]
  have hsl : mkSl (J + 2) none (some (-1)) = ⟨0, J + 1, 1⟩ := by
    simp only [mkSl, slBound, if_pos (show (-1 : ℤ) < 0 by norm_num)]
    congr 1
    omega
  rw [hsl, mkSl_all (by omega), Arr1.row_ok _ h0 (by simp; omega)]
  simp only [Py.bind_ok, Arr2.of_c]
  congr 2
  · refine Arr2.of_congr fun i j h0 h1 h2 h3 => ?_
    simp only [Arr2.map, Arr2.slice, Arr2.of_r, Arr2.of_c] at h1 h3
    simp only [Arr2.map, Arr2.slice, Arr2.of_r, Arr2.of_c, Sl.at_one, zero_add]
    rw [Arr2.of_v _ _ _ _ _ ⟨h0, h1, h2, h3⟩, Arr2.of_v _ _ _ _ _ ⟨h0, h1, h2, h3⟩, Arr2.of_v _ _ _ _ _ ⟨h0, by omega, h2, h3⟩,
      Arr2.of_v _ _ _ _ _ ⟨h0, by omega, h2, h3⟩, Arr2.of_v _ _ _ _ _ ⟨h0, by omega, h2, h3⟩]
    have hm : (i + 1) % (J + 2) = i + 1 := Int.emod_eq_of_lt (by omega) (by omega)
    rw [hm, Arr2.of_v _ _ _ _ _ ⟨by omega, by omega, h2, h3⟩]
    refine psi64_ok ?_ ?_
    · rw [abs_of_nonneg (hF _ _ (by omega) (by omega) h2 h3).1]; exact hF.le_two (by omega) (by omega) h2 h3
    · rw [abs_of_nonneg (hF _ _ (by omega) (by omega) h2 h3).1]; exact hF.le_two (by omega) (by omega) h2 h3
  · refine Arr1.of_congr fun l h2 h3 => ?_
    simp only [Arr1.of_n] at h3
    rw [Arr1.of_v _ _ _ ⟨h2, h3⟩, Arr2.of_v _ _ _ _ _ ⟨h0, by omega, h2, h3⟩]
    exact sqrt64 (hF _ _ h0 (by omega) h2 h3).1 ((hF.le_two h0 (by omega) h2 h3).trans (by norm_num))

theorem band_exists {l : ℤ} (hl1 : 1 ≤ l) : ∃ j0 : ℤ, 1 ≤ j0 ∧ lam ^ (j0 - 1) ≤ l ∧ (l : ℝ) < lam ^ j0 := by
  have h1 : (1 : ℝ) ≤ l := by exact_mod_cast hl1
  obtain ⟨n, hn1, hn2⟩ := exists_mem_Ico_zpow (y := lam) (show (0 : ℝ) < l by linarith) hlf.out
  refine ⟨n + 1, ?_, by rwa [add_sub_cancel_right], hn2⟩
  have h2 : lam ^ (0 : ℤ) < lam ^ (n + 1) := by rw [zpow_zero]; linarith
  have := (zpow_lt_zpow_iff_right₀ hlf.out).1 h2
  omega

theorem FloatK.column (hX : FloatK lam J L X) {l j0 : ℤ} (hl0 : 0 ≤ l) (hl1 : l < L)
    (h1 : lam ^ (j0 - 1) ≤ l) (h2 : (l : ℝ) < lam ^ j0) :
    (∀ j, 0 ≤ j → j < J + 2 → j < j0 → X j l = 0) ∧ ∀ j, 0 ≤ j → j < J + 2 → j0 < j → X j l = 1 := by
  constructor
  · intro j a b c
    refine (hX j l a b hl0 hl1).2.2.2 ?_
    exact (zpow_le_zpow_right₀ hlf.out.le (by omega)).trans h1
  · intro j a b c
    refine (hX j l a b hl0 hl1).2.2.1 ?_
    exact h2.le.trans (zpow_le_zpow_right₀ hlf.out.le (by omega))

/-- sum of squares of the rounded filters at one degree -/
theorem energy64 (hX : FloatK lam J L X) (hLJ : (L : ℝ) < lam ^ J + 1) (h0 : 0 ≤ J_min) (h1 : J_min < J) {l : ℤ} (hl0 : 0 ≤ l) (hl1 : l < L) :
    ∃ x : ℝ, (x = 1 ∨ ∃ j0, 0 ≤ j0 ∧ j0 < J + 2 ∧ x = X j0 l) ∧
      1 - 1 / 2 ^ 48 ≤ rnd (Real.sqrt (X J_min l)) ^ 2 + ∑ j ∈ Finset.Icc J_min J, psi64 (X (j + 1) l) (X j l) ^ 2 ∧
      rnd (Real.sqrt (X J_min l)) ^ 2 + ∑ j ∈ Finset.Icc J_min J, psi64 (X (j + 1) l) (X j l) ^ 2 ≤ max 1 x + 1 / 2 ^ 48 := by
  have hone : rnd (Real.sqrt 1) = 1 := by rw [Real.sqrt_one, rnd_id rep_one]
  rcases hl0.eq_or_lt with rfl | hl
  · have hc : ∀ j, 0 ≤ j → j < J + 2 → X j 0 = 1 := fun j a b => (hX j 0 a b le_rfl hl1).2.2.1 (by push_cast; exact (zpow_pos (one_pos.trans hlf.out) _).le)
    refine ⟨1, Or.inl rfl, ?_⟩
    rw [hc _ h0 (by omega), hone, Finset.sum_eq_zero, max_self]
    · norm_num
    · intro j hj
      rw [Finset.mem_Icc] at hj
      rw [hc j (by omega) (by omega), hc (j + 1) (by omega) (by omega), psi64_self]; norm_num
  obtain ⟨j0, hj0, b1, b2⟩ := band_exists (lam := lam) (show 1 ≤ l by omega)
  have hjJ : j0 ≤ J := by
    have h3 : (l : ℝ) + 1 ≤ L := by exact_mod_cast hl1
    have h4 : lam ^ (j0 - 1) < lam ^ J := by linarith
    have := (zpow_lt_zpow_iff_right₀ hlf.out).1 h4
    omega
  obtain ⟨c0, c1⟩ := hX.column hl0 hl1 b1 b2
  have hx0 := (hX j0 l (by omega) (by omega) hl0 hl1).1
  have hx2 := hX.le_two (j := j0) (by omega) (by omega) hl0 hl1
  refine ⟨X j0 l, Or.inr ⟨j0, by omega, by omega, rfl⟩, ?_⟩
  set x := X j0 l with hx
  -- the upper part of the band
  have hB : 1 - x - 1 / 2 ^ 49 ≤ psi64 1 x ^ 2 ∧ psi64 1 x ^ 2 ≤ max 0 (1 - x) + 1 / 2 ^ 49 := by
    rcases le_total x 1 with h | h
    · have := abs_le.1 (psi64_sq h (by linarith))
      rw [max_eq_right (by linarith)]
      norm_num at this ⊢
      constructor <;> linarith
    · rw [psi64_neg h, max_eq_left (by linarith)]
      norm_num; linarith
  rcases lt_trichotomy J_min j0 with hc | hc | hc
  · -- both pieces are wavelets
    have hA := abs_le.1 (psi64_sq hx0 (by linarith))
    rw [sub_zero] at hA
    have hsum : ∑ j ∈ Finset.Icc J_min J, psi64 (X (j + 1) l) (X j l) ^ 2 = psi64 x 0 ^ 2 + psi64 1 x ^ 2 := by
      rw [Finset.sum_eq_add_of_mem (j0 - 1) j0 (by rw [Finset.mem_Icc]; omega) (by rw [Finset.mem_Icc]; omega) (by omega)]
      · rw [sub_add_cancel, c0 (j0 - 1) (by omega) (by omega) (by omega), c1 (j0 + 1) (by omega) (by omega) (by omega)]
      · rintro j hj ⟨n1, n2⟩
        rw [Finset.mem_Icc] at hj
        rcases lt_or_gt_of_ne n2 with h | h
        · rw [c0 j (by omega) (by omega) (by omega), c0 (j + 1) (by omega) (by omega) (by omega), psi64_self]; norm_num
        · rw [c1 j (by omega) (by omega) (by omega), c1 (j + 1) (by omega) (by omega) (by omega), psi64_self]; norm_num
    rw [hsum, c0 J_min h0 (by omega) hc, Real.sqrt_zero, rnd_zero]
    rcases le_total x 1 with h | h
    · rw [max_eq_left h]; rw [max_eq_right (by linarith)] at hB
      norm_num at hA hB ⊢
      constructor <;> linarith
    · rw [max_eq_right h, psi64_neg h]
      norm_num at hA ⊢
      constructor <;> linarith
  · have hA := abs_le.1 (sq_rnd_sqrt hx0 (by linarith))
    have hsum : ∑ j ∈ Finset.Icc J_min J, psi64 (X (j + 1) l) (X j l) ^ 2 = psi64 1 x ^ 2 := by
      rw [Finset.sum_eq_single_of_mem j0 (by rw [Finset.mem_Icc]; omega)]
      · rw [c1 (j0 + 1) (by omega) (by omega) (by omega)]
      · intro j hj n
        rw [Finset.mem_Icc] at hj
        rw [c1 j (by omega) (by omega) (by omega), c1 (j + 1) (by omega) (by omega) (by omega), psi64_self]; norm_num
    rw [hsum, hc, ← hx]
    rcases le_total x 1 with h | h
    · rw [max_eq_left h]; rw [max_eq_right (by linarith)] at hB
      norm_num at hA hB ⊢
      constructor <;> linarith
    · rw [max_eq_right h, psi64_neg h]
      norm_num at hA ⊢
      constructor <;> linarith
  · have hsum : ∑ j ∈ Finset.Icc J_min J, psi64 (X (j + 1) l) (X j l) ^ 2 = 0 := by
      refine Finset.sum_eq_zero fun j hj => ?_
      rw [Finset.mem_Icc] at hj
      rw [c1 j (by omega) (by omega) (by omega), c1 (j + 1) (by omega) (by omega) (by omega), psi64_self]; norm_num
    rw [hsum, c1 J_min h0 (by omega) hc, hone]
    exact ⟨by norm_num, by linarith [le_max_left 1 x, show (0 : ℝ) < 1 / 2 ^ 48 by positivity]⟩

/-- the total at one degree -/
theorem energy64_bounds (hX : FloatK lam J L X) (hLJ : (L : ℝ) < lam ^ J + 1) (h0 : 0 ≤ J_min) (h1 : J_min < J) {l : ℤ} (hl0 : 0 ≤ l)
    (hl1 : l < L) {S : ℝ} (hS : S = rnd (Real.sqrt (X J_min l)) ^ 2 + ∑ j ∈ Finset.Icc J_min J, psi64 (X (j + 1) l) (X j l) ^ 2) :
    1 - 1 / 2 ^ 48 ≤ S ∧ S ≤ 1.001 + 1 / 2 ^ 30 ∧ ((∀ j, kval lam 300 j l ≤ 1) → S ≤ 1 + 1 / 2 ^ 30) := by
  obtain ⟨x, hx, e1, e2⟩ := energy64 hX hLJ h0 h1 hl0 hl1
  rw [← hS] at e1 e2
  have h3 : (1 : ℝ) / 2 ^ 31 + 1 / 2 ^ 48 ≤ 1 / 2 ^ 30 := by norm_num
  refine ⟨e1, ?_, fun hL => ?_⟩
  · have : max 1 x ≤ 1.001 + 1 / 2 ^ 31 := max_le (by norm_num) (by
      rcases hx with rfl | ⟨j0, a, b, rfl⟩
      · norm_num
      · have h1 := (abs_le.1 (hX j0 l a b hl0 hl1).2.1).2
        have := kval_le_any (lam := lam) j0 l
        linarith)
    linarith
  · have : max 1 x ≤ 1 + 1 / 2 ^ 31 := max_le (by norm_num) (by
      rcases hx with rfl | ⟨j0, a, b, rfl⟩
      · norm_num
      · have h1 := (abs_le.1 (hX j0 l a b hl0 hl1).2.1).2
        have := hL j0
        linarith)
    linarith

theorem FloatK.psi_le (hX : FloatK lam J L X) {j l : ℤ} (hj0 : 0 ≤ j) (hj1 : j < J + 1) (hl0 : 0 ≤ l) (hl1 : l < L) :
    psi64 (X (j + 1) l) (X j l) ≤ 2 := by
  have a := hX.le_two (j := j + 1) (by omega) (by omega) hl0 hl1
  have b := (hX j l hj0 (by omega) hl0 hl1).1
  have c := (hX (j + 1) l (by omega) (by omega) hl0 hl1).1
  have d := (abs_le.1 (psi64_near c b a)).2
  have e : max 0 (X (j + 1) l - X j l) ≤ 2 := max_le (by norm_num) (by linarith)
  have f : psi64 (X (j + 1) l) (X j l) ^ 2 ≤ 2 ^ 2 := by
    generalize max 0 (X (j + 1) l - X j l) = q at *
    norm_num at *; linarith
  exact abs_le_of_sq_le_sq' f (by norm_num) |>.2

theorem FloatK.phi_le (hX : FloatK lam J L X) {j l : ℤ} (hj0 : 0 ≤ j) (hj1 : j < J + 1) (hl0 : 0 ≤ l) (hl1 : l < L) :
    rnd (Real.sqrt (X j l)) ≤ 2 := by
  refine rnd_le_two (Real.sqrt_nonneg _) (Real.sqrt_le_iff.2 ⟨by norm_num, ?_⟩)
  have := hX.le_two hj0 (by omega) hl0 hl1
  norm_num; linarith

theorem dirBody_ok (hs : Libm.Special m lg) (hX : FloatK lam J L X) (hL : 1 ≤ L) (hL2 : L ≤ 2 ^ 53) (hN : 1 ≤ N) (hN' : N ≤ 990) (h0 : 0 ≤ J_min) (h1 : J_min < J)
    {ax : Py (Arr2 F64 × Arr1 F64)} {s : Py (Arr2 C64)}
    (hf : ax = .ok (Arr2.of (J + 1) L fun j l => .fin (psi64 (X (j + 1) l) (X j l)), Arr1.of L fun l => .fin (rnd (Real.sqrt (X J_min l)))))
    (ht : s = .ok (Arr2.of L (2 * L - 1) fun el k => C64.ofC (nuC N * ((sig64 m lg N el (k - (L - 1)) : ℝ) : ℂ)))) (spin : ℤ) :
    dirBody ax s L spin =
      .ok (Arr3.of (J + 1) L (2 * L - 1) fun j l k => C64.ofC (psiD64 m lg X N |spin| j l (k - (L - 1))),
        Arr1.of L fun l => .fin (phiD64 X J_min |spin| l)) := by
  have hLm : max 0 (L - 0) = L := by omega
  have hel : 0 ≤ |spin| := abs_nonneg spin
  unfold dirBody
  simp only [hf, ht, Py.bind_ok]
  simp only [Arr1.zip, arange, Arr1.of_n, hLm, bdim_self, Py.bind_ok, Arr2.of_c, Arr2.of_r, ne_eq, not_true_eq_false, if_false,
    Arr1.fill, Arr3.fill, Arr3.of_d, Arr3.of_r, Arr3.of_c, zero_add]
  simp only [mkSl_to' (show 0 ≤ L by omega) hel, mkSl_all (show 0 ≤ J + 1 by omega),
    mkSl_all (show 0 ≤ 2 * L - 1 by omega), Sl.mem_one, zero_add]
  congr 2
  · refine Arr3.of_congr fun j l n h0 h1 h2 h3 h4 h5 => ?_
    rw [Arr3.of_v _ _ _ _ _ _ _ ⟨h0, h1, h2, h3, h4, h5⟩, bix_self h2 h3,
      Arr2.of_v _ _ _ _ _ ⟨h0, h1, h2, h3⟩, Arr2.of_v _ _ _ _ _ ⟨h0, h1, h2, h3⟩,
      Arr2.of_v _ _ _ _ _ ⟨h2, h3, h4, h5⟩, Arr1.of_v _ _ _ ⟨h2, h3⟩]
    unfold psiD64
    by_cases h : l < |spin|
    · rw [if_pos h, if_pos ⟨⟨h0, h1⟩, ⟨h2, lt_min h h3⟩, h4, h5⟩]
      change (⟨.fin 0, .fin 0⟩ : C64) = ⟨.fin _, .fin _⟩
      simp
    · obtain ⟨p1, p2, p3⟩ := prod_near (psi64_nonneg (X (j + 1) l) (X j l)) (hX.psi_le h0 h1 h2 h3) (wfac_rl h2 (by omega)).2.le (wfac_le h2 (by omega))
        (sig64_nonneg (m := m) (lg := lg) N l (n - (L - 1))) (sig64_sq hs hN hN').2
      rw [if_neg h, if_neg (by omega), wfac_ok h2 (by omega), F64.mul_fin, F64.of_fin' (by linarith)]
      exact C64.real_mul p2
  · refine Arr1.of_congr fun l h2 h3 => ?_
    rw [Arr1.of_v _ _ _ ⟨h2, h3⟩, bix_self h2 h3, Arr1.of_v _ _ _ ⟨h2, h3⟩, Arr1.of_v _ _ _ ⟨h2, h3⟩]
    unfold phiD64
    by_cases h : l < |spin|
    · rw [if_pos h, if_pos ⟨h2, lt_min h h3⟩]; rfl
    · rw [if_neg h, if_neg (by omega), vfac_ok h2 (by omega), F64.mul_fin]
      refine F64.of_fin' ?_
      have a0 := rnd_nonneg (Real.sqrt_nonneg (X J_min l))
      have v0 := (vfac_rl h2 (by omega)).2.le
      rw [abs_of_nonneg (mul_nonneg a0 v0)]
      calc _ ≤ (2 : ℝ) * 2 ^ 27 := mul_le_mul (hX.phi_le h0 (by omega) h2 h3) (vfac_le h2 (by omega)) v0 (by norm_num)
        _ ≤ _ := by norm_num

theorem filters_directional_vectorised64_ok (hK : KOk m jm lam L J) (hs : Libm.Special m lg) (hJ : jm L lam = .ok J) (hL : 1 ≤ L) (hL2 : L ≤ 2 ^ 53) (hJ2 : J ≤ 1000)
    (hN : 1 ≤ N) (hN' : N ≤ 990) (h0 : 0 ≤ J_min) (h1 : J_min < J) (spin : ℤ) :
    ∃ X, FloatK lam J L X ∧ filters_axisym_vectorised64 m jm L J_min lam =
        .ok (Arr2.of (J + 1) L fun j l => .fin (psi64 (X (j + 1) l) (X j l)), Arr1.of L fun l => .fin (rnd (Real.sqrt (X J_min l)))) ∧
      filters_directional_vectorised64 m lg jm L N J_min lam spin =
      .ok (Arr3.of (J + 1) L (2 * L - 1) fun j l k => C64.ofC (psiD64 m lg X N |spin| j l (k - (L - 1))),
        Arr1.of L fun l => .fin (phiD64 X J_min |spin| l)) := by
  obtain ⟨X, hX, -, hf⟩ := filters_axisym_vectorised64_ok hK hJ hL hL2 hJ2 h0 h1
  refine ⟨X, hX, hf, ?_⟩
  exact dirBody_ok hs hX hL (by omega) hN hN' h0 h1 hf (tiling_direction64_ok hs hL hN hN') spin

theorem psiD64_sq (hX : FloatK lam J L X) (hL2 : L ≤ 2 ^ 53) (hs : Libm.Special m lg) (hN : 1 ≤ N) (hN' : N ≤ 990) {elmin j l n : ℤ} (hj0 : 0 ≤ j) (hj1 : j ≤ J)
    (hl0 : 0 ≤ l) (hl1 : l < L) (hel : elmin ≤ l) :
    |8 * Real.pi ^ 2 / (2 * l + 1) * ‖psiD64 m lg X N elmin j l n‖ ^ 2 - psi64 (X (j + 1) l) (X j l) ^ 2 * ‖sdir N l n‖ ^ 2| ≤
      psi64 (X (j + 1) l) (X j l) ^ 2 * ‖sdir N l n‖ ^ 2 * (binE N + 1 / 2 ^ 45) + 1 / 2 ^ 68 := by
  obtain ⟨h1, h2⟩ := wfac_rl hl0 (show l < 2 ^ 53 by omega)
  rw [psiD64_eq]
  exact psiG_sq hs hN hN' hl0 (by omega) (psi64_nonneg _ _) (hX.psi_le hj0 (by omega) hl0 hl1) ⟨h1.mono (by norm_num), h2⟩
    (wfac_le hl0 (by omega)) hel

/-- the scaling function, normalised -/
theorem phiD64_sq (hX : FloatK lam J L X) (hL2 : L ≤ 2 ^ 53) {elmin l : ℤ} (hj0 : 0 ≤ J_min) (hj1 : J_min ≤ J)
    (hl0 : 0 ≤ l) (hl1 : l < L) (hel : elmin ≤ l) :
    |4 * Real.pi / (2 * l + 1) * phiD64 X J_min elmin l ^ 2 - rnd (Real.sqrt (X J_min l)) ^ 2| ≤
      rnd (Real.sqrt (X J_min l)) ^ 2 / 2 ^ 45 + 1 / 2 ^ 68 := by
  have hw := vfac_rl hl0 (by omega)
  have hw1 := vfac_le hl0 (by omega)
  have ho := odd_bounds hl0 (show l < 2 ^ 53 by omega)
  have ha0 := rnd_nonneg (Real.sqrt_nonneg (X J_min l))
  have ha1 := hX.phi_le hj0 (by omega) hl0 hl1
  have hn := hw.1.near (by norm_num)
  unfold phiD64
  rw [if_neg (by omega)]
  have ht : (2 * (l : ℝ) + 1) = ((2 * l + 1 : ℤ) : ℝ) := by push_cast; ring
  rw [ht]
  set t := ((2 * l + 1 : ℤ) : ℝ)
  set a := rnd (Real.sqrt (X J_min l))
  set w := vfac l
  have haw : 0 ≤ a * w := mul_nonneg ha0 hw.2.le
  have haw1 : a * w ≤ 2 ^ 28 := by
    calc a * w ≤ 2 * 2 ^ 27 := mul_le_mul ha1 hw1 hw.2.le (by norm_num)
      _ = _ := by norm_num
  have r := rnd_acc' (a * w)
  rw [abs_of_nonneg haw] at r
  have p1 := sq_near (x := rnd (a * w)) (r.trans (by norm_num; linarith)) haw haw1
  set Y := rnd (a * w) ^ 2
  have hpi3 := Real.pi_gt_three
  have hpi4 := Real.pi_lt_d2
  have hpi0 := Real.pi_pos
  have hg0 : 0 < 4 * Real.pi / t := by have : 0 < t := by linarith
                                       positivity
  have hg1 : 4 * Real.pi / t ≤ 80 := by
    rw [div_le_iff₀ (by linarith)]; norm_num at hpi4; nlinarith
  have hgw : |4 * Real.pi / t * w ^ 2 - 1| ≤ 1 / 2 ^ 47 := by
    have := near_mul hn hg0.le
    have e : t / (4 * Real.pi) * (4 * Real.pi / t) = 1 := by
      have : t ≠ 0 := by linarith
      field_simp
    rw [e, div_mul_eq_mul_div, e, mul_comm] at this
    exact this
  set g := 4 * Real.pi / t
  have hY := near_mul p1 hg0.le
  have hy : (a * w) ^ 2 = a ^ 2 * w ^ 2 := by ring
  rw [hy] at hY
  set G := g * w ^ 2
  have e1 : a ^ 2 * w ^ 2 * g = a ^ 2 * G := by ring
  rw [e1, add_mul, div_mul_eq_mul_div, e1] at hY
  set A := a ^ 2
  have hA0 : 0 ≤ A := by positivity
  have hAS := near_mul hgw hA0
  have hT : 1 / 2 ^ 77 * g ≤ 1 / 2 ^ 70 := by norm_num; linarith
  have x1 : G * A = A * G := by ring
  have x4 : Y * g = g * Y := by ring
  rw [x1, one_mul] at hAS
  rw [x4] at hY
  generalize A * G = q1 at *
  generalize g * Y = q5 at *
  have k1 := abs_le.1 (hY.trans (add_le_add le_rfl hT))
  have k2 := abs_le.1 hAS
  clear hY hAS p1 hgw hn r
  rw [abs_le]
  norm_num at *
  constructor <;> linarith

/-- the frame sum of the double-precision filters -/
theorem frameSumG {a : ℤ → ℤ → ℝ} {w : ℤ → ℝ} (hX : FloatK lam J L X) (hL2 : L ≤ 2 ^ 53) (hJ2 : J ≤ 1000) (hs : Libm.Special m lg) (hN : 1 ≤ N) (hN' : N ≤ 990)
    {elmin l : ℤ} (hj0 : 0 ≤ J_min) (hj1 : J_min < J) (hl0 : 0 ≤ l) (hl1 : l < L) (ha0 : ∀ j, J_min ≤ j → j ≤ J → 0 ≤ a j l)
    (ha1 : ∀ j, J_min ≤ j → j ≤ J → a j l ≤ 2) (hz : ∀ j, J_min ≤ j → j ≤ J → l = 0 → a j l = 0)
    (hw : Rl 16 (w l ^ 2) (((2 * l + 1 : ℤ) : ℝ) / 8 / Real.pi ^ 2) ∧ 0 < w l) (hw1 : w l ≤ 2 ^ 26) (hel : elmin ≤ l) {S : ℝ}
    (hS : S = rnd (Real.sqrt (X J_min l)) ^ 2 + ∑ j ∈ Finset.Icc J_min J, a j l ^ 2) :
    |frameSum J_min J L (Arr3.of (J + 1) L (2 * L - 1) fun j l k => psiG m lg a w N elmin j l (k - (L - 1))) (Arr1.of L fun l => phiD64 X J_min elmin l) l - S| ≤
      S * (binE N + 1 / 2 ^ 45) + 1 / 2 ^ 46 := by
  have hE := (binE_bounds N).1
  unfold frameSum
  rw [Arr1.of_v _ _ _ ⟨hl0, hl1⟩, Finset.mul_sum]
  have h1 := phiD64_sq hX hL2 hj0 hj1.le hl0 hl1 hel
  have h2 : |∑ j ∈ Finset.Icc J_min J, 8 * Real.pi ^ 2 / (2 * l + 1) * ∑ k ∈ Finset.Ico 0 (2 * L - 1),
      ‖(Arr3.of (J + 1) L (2 * L - 1) fun j l k => psiG m lg a w N elmin j l (k - (L - 1))).v j l k‖ ^ 2 -
      ∑ j ∈ Finset.Icc J_min J, a j l ^ 2| ≤
      (∑ j ∈ Finset.Icc J_min J, a j l ^ 2) * (binE N + 1 / 2 ^ 45) + 1 / 2 ^ 47 := by
    rw [← Finset.sum_sub_distrib]
    refine (Finset.abs_sum_le_sum_abs _ _).trans ?_
    calc _ ≤ ∑ j ∈ Finset.Icc J_min J, (a j l ^ 2 * (binE N + 1 / 2 ^ 45) + 1 / 2 ^ 57) := by
          refine Finset.sum_le_sum fun j hj => ?_
          rw [Finset.mem_Icc] at hj
          have e : ∑ k ∈ Finset.Ico 0 (2 * L - 1), ‖(Arr3.of (J + 1) L (2 * L - 1) fun j l k => psiG m lg a w N elmin j l (k - (L - 1))).v j l k‖ ^ 2 =
              ∑ k ∈ Finset.Ico 0 (2 * L - 1), ‖psiG m lg a w N elmin j l (k - (L - 1))‖ ^ 2 :=
            Finset.sum_congr rfl fun k hk => by
              rw [Finset.mem_Ico] at hk
              rw [Arr3.of_v _ _ _ _ _ _ _ ⟨by omega, by omega, hl0, hl1, hk.1, hk.2⟩]
          rw [e]
          exact psiG_sum hs hN hN' hL2 hl0 hl1 (ha0 j hj.1 hj.2) (ha1 j hj.1 hj.2) (hz j hj.1 hj.2) hw hw1 hel
      _ = (∑ j ∈ Finset.Icc J_min J, a j l ^ 2) * (binE N + 1 / 2 ^ 45) + ((Finset.Icc J_min J).card : ℝ) * (1 / 2 ^ 57) := by
          rw [Finset.sum_add_distrib, ← Finset.sum_mul, Finset.sum_const, nsmul_eq_mul]
      _ ≤ _ := by
          have hc : ((Finset.Icc J_min J).card : ℝ) ≤ 1024 := by
            rw [Int.card_Icc]
            exact_mod_cast (by omega : (J + 1 - J_min).toNat ≤ 1024)
          generalize ((Finset.Icc J_min J).card : ℝ) = q at *
          norm_num; linarith
  set f := rnd (Real.sqrt (X J_min l)) ^ 2
  have hf0 : 0 ≤ f * binE N := by positivity
  set P := ∑ j ∈ Finset.Icc J_min J, a j l ^ 2
  rw [hS]
  have e : (f + P) * (binE N + 1 / 2 ^ 45) = f * binE N + f / 2 ^ 45 + P * (binE N + 1 / 2 ^ 45) := by ring
  rw [e]
  have k1 := abs_le.1 h1
  have k2 := abs_le.1 h2
  generalize P * (binE N + 1 / 2 ^ 45) = q at *
  rw [abs_le]
  norm_num at *
  constructor <;> linarith

theorem frameSum64 (hX : FloatK lam J L X) (hL2 : L ≤ 2 ^ 53) (hJ2 : J ≤ 1000) (hs : Libm.Special m lg) (hN : 1 ≤ N) (hN' : N ≤ 990) {elmin l : ℤ} (hj0 : 0 ≤ J_min)
    (hj1 : J_min < J) (hl0 : 0 ≤ l) (hl1 : l < L) (hel : elmin ≤ l) {S : ℝ}
    (hS : S = rnd (Real.sqrt (X J_min l)) ^ 2 + ∑ j ∈ Finset.Icc J_min J, psi64 (X (j + 1) l) (X j l) ^ 2) :
    |frameSum J_min J L (Arr3.of (J + 1) L (2 * L - 1) fun j l k => psiD64 m lg X N elmin j l (k - (L - 1))) (Arr1.of L fun l => phiD64 X J_min elmin l) l - S| ≤
      S * (binE N + 1 / 2 ^ 45) + 1 / 2 ^ 46 := by
  obtain ⟨h1, h2⟩ := wfac_rl hl0 (show l < 2 ^ 53 by omega)
  rw [psiD64_eq]
  refine frameSumG hX hL2 hJ2 hs hN hN' hj0 hj1 hl0 hl1 (fun j _ _ => psi64_nonneg _ _) (fun j a b => hX.psi_le (by omega) (by omega) hl0 hl1)
    (fun j a b hz => ?_) ⟨h1.mono (by norm_num), h2⟩ (wfac_le hl0 (by omega)) hel hS
  subst hz
  rw [(hX (j + 1) 0 (by omega) (by omega) hl0 hl1).2.2.1 (by push_cast; exact (zpow_pos (one_pos.trans hlf.out) _).le), (hX j 0 (by omega) (by omega) hl0 hl1).2.2.1 (by push_cast; exact (zpow_pos (one_pos.trans hlf.out) _).le), psi64_self]

theorem psiD64_support (hX : FloatK lam J L X) (hN : 1 ≤ N) {elmin j l n : ℤ} (hj0 : 0 ≤ j) (hj1 : j ≤ J) (hl0 : 0 ≤ l) (hl1 : l < L)
    (h : psiD64 m lg X N elmin j l n ≠ 0) :
    elmin ≤ l ∧ lam ^ (j - 1) < l ∧ (l : ℝ) < lam ^ (j + 1) ∧ 1 ≤ l ∧ |n| ≤ l ∧ |n| < N ∧ (N + n) % 2 ≠ 0 := by
  unfold psiD64 at h
  by_cases hl : l < elmin
  · rw [if_pos hl] at h; exact absurd rfl h
  rw [if_neg hl] at h
  have hp : psi64 (X (j + 1) l) (X j l) ≠ 0 := by rintro h0; apply h; rw [h0, zero_mul, rnd_zero, zero_mul, rnd_zero]; simp
  have hs : sig64 m lg N l n ≠ 0 := by rintro h0; apply h; rw [h0, mul_zero, rnd_zero]; simp
  have hc : 1 ≤ l ∧ |n| ≤ gam N l ∧ (N + n) % 2 ≠ 0 := by
    by_contra hc; exact hs (sig64_eq_zero hc)
  have hg := gam_facts hN hc.1
  refine ⟨by omega, ?_, ?_, hc.1, hc.2.1.trans hg.2.2.2.1, by omega, hc.2.2⟩
  · by_contra hk
    have hk := not_lt.1 hk
    apply hp
    rw [(hX j l (by omega) (by omega) hl0 hl1).2.2.1 hk, (hX (j + 1) l (by omega) (by omega) hl0 hl1).2.2.1 (by
      rw [add_sub_cancel_right]; exact hk.trans (zpow_le_zpow_right₀ hlf.out.le (by omega))), psi64_self]
  · by_contra hk
    have hk := not_lt.1 hk
    apply hp
    rw [(hX (j + 1) l (by omega) (by omega) hl0 hl1).2.2.2 hk, (hX j l (by omega) (by omega) hl0 hl1).2.2.2 (by
      exact le_trans (zpow_le_zpow_right₀ hlf.out.le (by omega)) hk), psi64_self]

omit hlf in
theorem phiD64_support (hX : FloatK lam J L X) {elmin l : ℤ} (hj0 : 0 ≤ J_min) (hj1 : J_min ≤ J) (hl0 : 0 ≤ l) (hl1 : l < L)
    (h : phiD64 X J_min elmin l ≠ 0) : elmin ≤ l ∧ (l : ℝ) < lam ^ J_min := by
  unfold phiD64 at h
  by_cases hl : l < elmin
  · rw [if_pos hl] at h; exact absurd rfl h
  rw [if_neg hl] at h
  refine ⟨by omega, ?_⟩
  by_contra hk
  apply h
  rw [(hX J_min l hj0 (by omega) hl0 hl1).2.2.2 (not_lt.1 hk), Real.sqrt_zero, rnd_zero, zero_mul, rnd_zero]

theorem filters64_aux {c : Cfg} {q : ℤ → ℤ → ℤ → ℂ} (hL : 1 ≤ c.L) (hlam : c.lam = lam) (hN : 1 ≤ c.N)
    (h0 : 0 ≤ c.J_min) (h1 : c.J_min < J) (hX : FloatK lam J c.L X)
    (hsup : ∀ j l n : ℤ, 0 ≤ j → j ≤ J → 0 ≤ l → l < c.L → q j l n ≠ 0 →
      (lam ^ (j - 1) < l ∧ (l : ℝ) < lam ^ (j + 1)) ∧ |c.spin| ≤ l ∧ 1 ≤ l ∧ |n| ≤ l ∧ |n| < c.N ∧ (c.N + n) % 2 ≠ 0)
    (hconj : c.reality = true → ∀ j l n, q j l (-n) = (-1 : ℂ) ^ n * (starRingEnd ℂ) (q j l n)) (mr : Bool) :
    c.Filters J mr (Arr3.of (J + 1) c.L (2 * c.L - 1) fun j l k => q j l (k - (c.L - 1))) (Arr1.of c.L fun l => phiD64 X c.J_min |c.spin| l) := by
  have hl1 : (1 : ℝ) < c.lam := by rw [hlam]; exact hlf.out
  refine ⟨by rw [Arr3.of_d]; omega, rfl, rfl, rfl, fun j l n hne => ?_, fun l hne => ?_, fun hr j l n => ?_⟩
  · by_cases hr : 0 ≤ j ∧ j < J + 1 ∧ 0 ≤ l ∧ l < c.L ∧ 0 ≤ c.L - 1 + n ∧ c.L - 1 + n < 2 * c.L - 1
    · rw [Arr3.of_v _ _ _ _ _ _ _ hr, add_sub_cancel_left] at hne
      obtain ⟨⟨s1, s2⟩, a, hl1', d, e, f⟩ := hsup j l n hr.1 (by omega) hr.2.2.1 hr.2.2.2.1 hne
      rw [← hlam] at s1 s2
      have hb := LN_j_Nj_bounds hL hl1 hN j mr
      have hLj : l < (LN_j c.L j c.N c.lam mr).1 := by
        rw [LN_j_Lj]
        unfold wav_j_bandlimit
        cases mr
        · simpa using hr.2.2.2.1
        · simp only [if_true, lt_min_iff, Int.lt_ceil]
          refine ⟨s2.trans_le (zpow_mono' hl1 (by split_ifs <;> omega)), hr.2.2.2.1⟩
      have hL0 : (LN_j c.L j c.N c.lam mr).2.2 ≤ l := by
        simp only [LN_j, L0_j]
        cases mr
        · simpa using hr.2.2.1
        · simp only [if_true]
          by_cases hj : j = 0
          · subst hj; simp; exact hl1'
          · simp only [if_neg hj, if_pos (show j ≠ 0 from hj), Int.ceil_le]
            exact s1.le
      have b1 := hb.2.2.1
      have b2 := hb.2.2.2.2
      unfold Cfg.L0 Cfg.Lj Cfg.Nj
      exact ⟨hL0, hLj, by omega, by omega, d, a⟩
    · exact absurd (Arr3.junk _ j l _ hr) hne
  · by_cases hr : 0 ≤ l ∧ l < c.L
    · rw [Arr1.of_v _ _ _ hr] at hne
      obtain ⟨a, b⟩ := phiD64_support hX h0 h1.le hr.1 hr.2 hne
      refine ⟨?_, a⟩
      rw [← hlam] at b
      unfold Cfg.Ls scal_bandlimit
      cases mr
      · simpa using hr.2
      · simp only [if_true, lt_min_iff, Int.lt_ceil]
        exact ⟨b, hr.2⟩
    · exact absurd (Arr1.junk _ l hr) hne
  · by_cases hq : 0 ≤ j ∧ j < J + 1 ∧ 0 ≤ l ∧ l < c.L ∧ 0 ≤ c.L - 1 + n ∧ c.L - 1 + n < 2 * c.L - 1
    · have e1 : c.L - 1 - n - (c.L - 1) = -n := by ring
      rw [Arr3.of_v _ _ _ _ _ _ _ ⟨hq.1, hq.2.1, hq.2.2.1, hq.2.2.2.1, by omega, by omega⟩,
        Arr3.of_v _ _ _ _ _ _ _ hq, e1, add_sub_cancel_left]
      exact hconj hr j l n
    · rw [Arr3.junk _ j l (c.L - 1 + n) hq, Arr3.junk _ j l (c.L - 1 - n) (by rw [Arr3.of_d, Arr3.of_r, Arr3.of_c]; omega)]
      simp

/-- everything known of the result -/
structure Dir64 (lam : ℝ) (m : Libm) (lg : F64 → F64) (L N J J_min spin : ℤ) (psi : Arr3 ℂ) (phi : Arr1 ℝ) (X : ℤ → ℤ → ℝ) : Prop where
  k : FloatK lam J L X
  wav : psi = Arr3.of (J + 1) L (2 * L - 1) fun j l k => psiD64 m lg X N |spin| j l (k - (L - 1))
  scal : phi = Arr1.of L fun l => phiD64 X J_min |spin| l

theorem dir64_exists (hK : KOk m jm lam L J) (hs : Libm.Special m lg) (hT : TopScale jm L lam J) (hL : L ≤ 2 ^ 53) (hJ : J ≤ 1000)
    (hN : 1 ≤ N) (hN' : N ≤ 990) (h0 : 0 ≤ J_min) (h1 : J_min < J) (spin : ℤ) :
    ∃ (psi : Arr3 ℂ) (phi : Arr1 ℝ) (X : ℤ → ℤ → ℝ), filters_directional_vectorised64 m lg jm L N J_min lam spin = .ok (psi.map C64.ofC, phi.map F64.fin) ∧
      Dir64 lam m lg L N J J_min spin psi phi X := by
  obtain ⟨X, hX, ha, hf⟩ := filters_directional_vectorised64_ok hK hs hT.hJ hT.hL hL hJ hN hN' h0 h1 spin
  refine ⟨_, _, X, ?_, hX, rfl, rfl⟩
  rw [hf, map_of3, map_of1]

theorem dir64_elim (hK : KOk m jm lam L J) (hs : Libm.Special m lg) (hT : TopScale jm L lam J) (hL : L ≤ 2 ^ 53) (hJ : J ≤ 1000)
    (hN : 1 ≤ N) (hN' : N ≤ 990) (h0 : 0 ≤ J_min) (h1 : J_min < J) {spin : ℤ} {psi : Arr3 ℂ} {phi : Arr1 ℝ}
    (h : filters_directional_vectorised64 m lg jm L N J_min lam spin = .ok (psi.map C64.ofC, phi.map F64.fin)) :
    ∃ X, Dir64 lam m lg L N J J_min spin psi phi X := by
  obtain ⟨psi', phi', X, h', hd⟩ := dir64_exists hK hs hT hL hJ hN hN' h0 h1 spin
  rw [h] at h'
  simp only [Except.ok.injEq, Prod.mk.injEq] at h'
  rw [← map_ofC_inj h'.1, ← map_fin_inj h'.2] at hd
  exact ⟨X, hd⟩

theorem dir64_filters {c : Cfg} {spin : ℤ} {psi : Arr3 ℂ} {phi : Arr1 ℝ} (hs : Libm.Special m lg) (hL : 1 ≤ c.L) (hlam : c.lam = lam) (hN : 1 ≤ c.N)
    (h0 : 0 ≤ c.J_min) (h1 : c.J_min < J) (hre : c.reality = true → c.N ≤ 41) (hsp : c.spin = spin)
    (hd : Dir64 lam m lg c.L c.N J c.J_min spin psi phi X) (mr : Bool) : c.Filters J mr psi phi := by
  have hX := hd.k
  rw [hd.wav, hd.scal]
  subst hsp
  refine filters64_aux hL hlam hN h0 h1 hX (fun j l n a1 a2 a3 a4 hne => ?_) (fun hr j l n => psiD64_conj hs hN (hre hr)) mr
  obtain ⟨a, s1, s2, hl1', d, e, f⟩ := psiD64_support hX hN a1 a2 a3 a4 hne
  exact ⟨⟨s1, s2⟩, a, hl1', d, e, f⟩



/-! ### The properties -/

/-- the vectorised axisymmetric filters in double precision: no
exception, no infinity and no NaN; entries are non-negative and their squares are within `2^-29` of those of exact arithmetic; a
wavelet vanishes exactly outside the two bands of its scale. -/
theorem vectorised (hK : KOk m jm lam L J) (hT : TopScale jm L lam J) (hL : L ≤ 2 ^ 53) (hJ : J ≤ 1000) (h0 : 0 ≤ J_min) (h1 : J_min < J) :
    ∃ (psi : Arr2 ℝ) (phi : Arr1 ℝ) (psi' : Arr2 ℝ) (phi' : Arr1 ℝ),
      filters_axisym_vectorised64 m jm L J_min lam = .ok (psi.map F64.fin, phi.map F64.fin) ∧
      filters_axisym_vectorised jm L J_min lam = .ok (psi', phi') ∧ psi.r = J + 1 ∧ psi.c = L ∧ phi.n = L ∧
      (∀ j l, 0 ≤ psi.v j l) ∧ (∀ l, 0 ≤ phi.v l) ∧
      (∀ j l, |psi.v j l ^ 2 - psi'.v j l ^ 2| ≤ 1 / 2 ^ 29) ∧ (∀ l, |phi.v l ^ 2 - phi'.v l ^ 2| ≤ 1 / 2 ^ 29) ∧
      (∀ j l : ℤ, (l : ℝ) ≤ lam ^ (j - 1) ∨ lam ^ (j + 1) ≤ l → psi.v j l = 0) ∧
      (∀ l : ℤ, lam ^ J_min ≤ l → phi.v l = 0) := by
  obtain ⟨X, hX, -, hf⟩ := filters_axisym_vectorised64_ok hK hT.hJ hT.hL hL hJ h0 h1
  refine ⟨Arr2.of (J + 1) L fun j l => psi64 (X (j + 1) l) (X j l), Arr1.of L fun l => rnd (Real.sqrt (X J_min l)), _, _, ?_,
    filters_axisym_vectorised_ok hT h0 h1, rfl, rfl, rfl, fun j l => ?_, fun l => ?_, fun j l => ?_, fun l => ?_, fun j l h => ?_, fun l h => ?_⟩
  · rw [hf, map_of2, map_of1]
  · change 0 ≤ ite _ _ _
    split_ifs
    exacts [psi64_nonneg _ _, le_rfl]
  · change 0 ≤ ite _ _ _
    split_ifs
    exacts [rnd_nonneg (Real.sqrt_nonneg _), le_rfl]
  · by_cases hr : 0 ≤ j ∧ j < J + 1 ∧ 0 ≤ l ∧ l < L
    · rw [Arr2.of_v _ _ _ _ _ hr, Arr2.of_v _ _ _ _ _ hr, psiAx_sq]
      obtain ⟨a, b, c, d⟩ := hr
      obtain ⟨x0, x1, -⟩ := hX (j + 1) l (by omega) (by omega) c d
      obtain ⟨y0, y1, -⟩ := hX j l (by omega) (by omega) c d
      have := psi64_near x0 y0 (FloatK.le_two hX (by omega) (by omega) c d)
      have h2 : |max 0 (X (j + 1) l - X j l) - max 0 (kv lam (j + 1) l - kv lam j l)| ≤ 1 / 2 ^ 30 := by
        rw [max_comm 0, max_comm 0]
        refine (abs_max_sub_max_le_abs _ _ 0).trans ?_
        have e : X (j + 1) l - X j l - (kv lam (j + 1) l - kv lam j l) = (X (j + 1) l - kval lam 300 (j + 1) l) - (X j l - kval lam 300 j l) := by
          unfold kv; ring
        rw [e]
        refine (abs_sub _ _).trans ?_
        norm_num at x1 y1 ⊢; linarith
      have h3 : (1 : ℝ) / 2 ^ 48 + 1 / 2 ^ 30 ≤ 1 / 2 ^ 29 := by norm_num
      refine (abs_sub_le _ _ _).trans ((add_le_add this h2).trans h3)
    · rw [(Arr2.of (J + 1) L _).junk j l hr, (Arr2.of (J + 1) L (psiAx lam)).junk j l hr]; norm_num
  · by_cases hr : 0 ≤ l ∧ l < L
    · rw [Arr1.of_v _ _ _ hr, Arr1.of_v _ _ _ hr, phiAx_sq hlf.out]
      obtain ⟨x0, x1, -⟩ := hX J_min l h0 (by omega) hr.1 hr.2
      have h2 := FloatK.le_two hX h0 (by omega) hr.1 hr.2
      have h3 := sq_rnd_sqrt x0 (by linarith)
      change |_ - kval lam 300 J_min l| ≤ _
      rw [abs_le] at *
      norm_num at *
      constructor <;> linarith
    · rw [(Arr1.of L _).junk l hr, (Arr1.of L (phiAx lam J_min)).junk l hr]; norm_num
  · by_cases hr : 0 ≤ j ∧ j < J + 1 ∧ 0 ≤ l ∧ l < L
    · rw [Arr2.of_v _ _ _ _ _ hr]
      obtain ⟨a, b, c, d⟩ := hr
      rcases h with h | h
      · rw [(hX j l (by omega) (by omega) c d).2.2.1 h, (hX (j + 1) l (by omega) (by omega) c d).2.2.1 (by
          rw [add_sub_cancel_right]; exact h.trans (zpow_le_zpow_right₀ hlf.out.le (by omega))), psi64_self]
      · rw [(hX (j + 1) l (by omega) (by omega) c d).2.2.2 h, (hX j l (by omega) (by omega) c d).2.2.2 (by
          exact le_trans (zpow_le_zpow_right₀ hlf.out.le (by omega)) h), psi64_self]
    · exact (Arr2.of (J + 1) L _).junk j l hr
  · by_cases hr : 0 ≤ l ∧ l < L
    · rw [Arr1.of_v _ _ _ hr, (hX J_min l h0 (by omega) hr.1 hr.2).2.2.2 h, Real.sqrt_zero, rnd_zero]
    · exact (Arr1.of L _).junk l hr

/-- they are admissible up to rounding: at every degree the squares add up to at least `1 - 2^-48`, to at most `1.001`
(up to `2^-30`), and to at most `1 + 2^-30` where `k_lam` does not exceed 1. -/
theorem admissible (hK : KOk m jm lam L J) (hT : TopScale jm L lam J) (hL : L ≤ 2 ^ 53) (hJ : J ≤ 1000) (h0 : 0 ≤ J_min) (h1 : J_min < J) {psi : Arr2 ℝ}
    {phi : Arr1 ℝ} (h : filters_axisym_vectorised64 m jm L J_min lam = .ok (psi.map F64.fin, phi.map F64.fin)) {l : ℤ} (hl0 : 0 ≤ l) (hl1 : l < L) :
    1 - 1 / 2 ^ 48 ≤ phi.v l ^ 2 + ∑ j ∈ Finset.Icc J_min J, psi.v j l ^ 2 ∧
    phi.v l ^ 2 + ∑ j ∈ Finset.Icc J_min J, psi.v j l ^ 2 ≤ 1.001 + 1 / 2 ^ 30 ∧
    ((∀ j, kval lam 300 j l ≤ 1) → phi.v l ^ 2 + ∑ j ∈ Finset.Icc J_min J, psi.v j l ^ 2 ≤ 1 + 1 / 2 ^ 30) := by
  obtain ⟨X, hX, -, hf⟩ := filters_axisym_vectorised64_ok hK hT.hJ hT.hL hL hJ h0 h1
  rw [hf] at h
  simp only [Except.ok.injEq, Prod.mk.injEq] at h
  obtain ⟨e1, e2⟩ := fin_inj h.1 h.2
  have key := energy64_bounds hX hT.hLJ h0 h1 hl0 hl1 (S := phi.v l ^ 2 + ∑ j ∈ Finset.Icc J_min J, psi.v j l ^ 2) ?_
  · exact key
  rw [e2 l hl0 hl1]
  congr 1
  refine Finset.sum_congr rfl fun j hj => ?_
  rw [Finset.mem_Icc] at hj
  rw [e1 j l (by omega) (by omega) hl0 hl1]

theorem Dir64.support {spin : ℤ} {psi : Arr3 ℂ} {phi : Arr1 ℝ} (hd : Dir64 lam m lg L N J J_min spin psi phi X) (hN : 1 ≤ N) (h0 : 0 ≤ J_min) (h1 : J_min < J) :
    psi.d = J + 1 ∧ psi.r = L ∧ psi.c = 2 * L - 1 ∧ phi.n = L ∧
      (∀ j l n, psi.v j l (L - 1 + n) ≠ 0 →
        |spin| ≤ l ∧ lam ^ (j - 1) < l ∧ (l : ℝ) < lam ^ (j + 1) ∧ |n| ≤ l ∧ |n| < N ∧ (N + n) % 2 ≠ 0) ∧
      (∀ l, phi.v l ≠ 0 → |spin| ≤ l ∧ (l : ℝ) < lam ^ J_min) := by
  rw [hd.wav, hd.scal]
  refine ⟨rfl, rfl, rfl, rfl, fun j l n hne => ?_, fun l hne => ?_⟩
  · by_cases hr : 0 ≤ j ∧ j < J + 1 ∧ 0 ≤ l ∧ l < L ∧ 0 ≤ L - 1 + n ∧ L - 1 + n < 2 * L - 1
    · rw [Arr3.of_v _ _ _ _ _ _ _ hr, add_sub_cancel_left] at hne
      obtain ⟨a, b, c, -, d, e, f⟩ := psiD64_support hd.k hN hr.1 (by omega) hr.2.2.1 hr.2.2.2.1 hne
      exact ⟨a, b, c, d, e, f⟩
    · exact absurd (Arr3.junk _ j l _ hr) hne
  · by_cases hr : 0 ≤ l ∧ l < L
    · rw [Arr1.of_v _ _ _ hr] at hne
      exact phiD64_support hd.k h0 h1.le hr.1 hr.2 hne
    · exact absurd (Arr1.junk _ l hr) hne

theorem Dir64.admissible {spin : ℤ} {psi : Arr3 ℂ} {phi : Arr1 ℝ} (hd : Dir64 lam m lg L N J J_min spin psi phi X) (hs : Libm.Special m lg)
    (hT : TopScale jm L lam J) (hL : L ≤ 2 ^ 53) (hJ : J ≤ 1000) (hN : 1 ≤ N) (hN' : N ≤ 990) (h0 : 0 ≤ J_min) (h1 : J_min < J)
    {l : ℤ} (hl0 : 0 ≤ l) (hl1 : l < L) (hl : |spin| ≤ l) :
    |frameSum J_min J L psi phi l - 1| ≤ 1 / 900 ∧ ((∀ j, kval lam 300 j l ≤ 1) → |frameSum J_min J L psi phi l - 1| ≤ 1 / 2 ^ 29) ∧ (N ≤ 41 → 1 - 1 / 2 ^ 44 ≤ frameSum J_min J L psi phi l) := by
  obtain ⟨s1, s2, s3⟩ := energy64_bounds hd.k hT.hLJ h0 h1 hl0 hl1 rfl
  have hF := frameSum64 (m := m) (lg := lg) (elmin := |spin|) hd.k (by omega) (by omega) hs hN hN' h0 h1 hl0 hl1 hl rfl
  rw [← hd.wav, ← hd.scal] at hF
  obtain ⟨hE0, hE1, hE2⟩ := binE_bounds N
  set S := rnd (Real.sqrt (X J_min l)) ^ 2 + ∑ j ∈ Finset.Icc J_min J, psi64 (X (j + 1) l) (X j l) ^ 2
  set F := frameSum J_min J L psi phi l
  have hS0 : 0 ≤ S := le_trans (by norm_num) s1
  have k1 : S * (binE N + 1 / 2 ^ 45) ≤ 1.01 * (binE N + 1 / 2 ^ 45) :=
    mul_le_mul_of_nonneg_right (s2.trans (by norm_num)) (by positivity)
  have hF' := abs_le.1 hF
  generalize S * (binE N + 1 / 2 ^ 45) = q at *
  refine ⟨?_, fun hL1 => ?_, fun hN => ?_⟩
  · clear s3; rw [abs_le]; norm_num at *; constructor <;> linarith
  · have s3 := s3 hL1; rw [abs_le]; norm_num at *; constructor <;> linarith
  · clear s3; rw [hE2 hN] at k1
    norm_num at *; linarith

/-- the directional filters in double precision, up to 990 directions and any
spin: no exception, no infinity, no NaN; the shapes are right; a wavelet entry is exactly zero outside the two bands of its
scale, below the spin, for orders above the degree or not below `N`, and for orders of the wrong parity; the
scaling function is exactly zero below the spin and from `lam^J_min` on. -/
theorem directional (hK : KOk m jm lam L J) (hs : Libm.Special m lg) (hT : TopScale jm L lam J) (hL : L ≤ 2 ^ 53) (hJ : J ≤ 1000)
    (hN : 1 ≤ N) (hN' : N ≤ 990) (h0 : 0 ≤ J_min) (h1 : J_min < J) (spin : ℤ) :
    ∃ (psi : Arr3 ℂ) (phi : Arr1 ℝ), filters_directional_vectorised64 m lg jm L N J_min lam spin = .ok (psi.map C64.ofC, phi.map F64.fin) ∧
      psi.d = J + 1 ∧ psi.r = L ∧ psi.c = 2 * L - 1 ∧ phi.n = L ∧
      (∀ j l n, psi.v j l (L - 1 + n) ≠ 0 →
        |spin| ≤ l ∧ lam ^ (j - 1) < l ∧ (l : ℝ) < lam ^ (j + 1) ∧ |n| ≤ l ∧ |n| < N ∧ (N + n) % 2 ≠ 0) ∧
      (∀ l, phi.v l ≠ 0 → |spin| ≤ l ∧ (l : ℝ) < lam ^ J_min) := by
  obtain ⟨psi, phi, X, hf, hd⟩ := dir64_exists hK hs hT hL hJ hN hN' h0 h1 spin
  exact ⟨psi, phi, hf, hd.support hN h0 h1⟩

/-- they are admissible up to rounding, at every degree from the spin on. -/
theorem directional_admissible (hK : KOk m jm lam L J) (hs : Libm.Special m lg) (hT : TopScale jm L lam J) (hL : L ≤ 2 ^ 53) (hJ : J ≤ 1000)
    (hN : 1 ≤ N) (hN' : N ≤ 990) (h0 : 0 ≤ J_min) (h1 : J_min < J) {spin : ℤ} {psi : Arr3 ℂ} {phi : Arr1 ℝ}
    (h : filters_directional_vectorised64 m lg jm L N J_min lam spin = .ok (psi.map C64.ofC, phi.map F64.fin)) {l : ℤ} (hl0 : 0 ≤ l) (hl1 : l < L)
    (hl : |spin| ≤ l) :
    |frameSum J_min J L psi phi l - 1| ≤ 1 / 900 ∧ ((∀ j, kval lam 300 j l ≤ 1) → |frameSum J_min J L psi phi l - 1| ≤ 1 / 2 ^ 29) ∧ (N ≤ 41 → 1 - 1 / 2 ^ 44 ≤ frameSum J_min J L psi phi l) := by
  obtain ⟨X, hd⟩ := dir64_elim hK hs hT hL hJ hN hN' h0 h1 h
  exact hd.admissible hs hT hL hJ hN hN' h0 h1 hl0 hl1 hl

section
variable {c : Cfg} {b : Backend} {psi : Arr3 ℂ} {phi : Arr1 ℝ} {f : Px} {flm : Arr2 ℂ}

/-- with these filters, analysis followed by synthesis returns every harmonic coefficient of a band-limited signal up
to a factor within 1/900 of 1, and within `2^-29` of 1 where `k_lam` does not exceed 1. -/
theorem gain (hK : KOk m jm lam c.L J) (hs : Libm.Special m lg) (hw : b.Works jm c J) (hb : b.isBase = false) (hlam : c.lam = lam) (hL : c.L ≤ 2 ^ 53) (hJ : J ≤ 1000)
    (hN : c.N ≤ 990) (hre : c.reality = true → c.N ≤ 41)
    (h : filters_directional_vectorised64 m lg jm c.L c.N c.J_min c.lam c.spin = .ok (psi.map C64.ofC, phi.map F64.fin))
    (hf : (b.engine c).sphF f c.L = .ok flm) (hbl : BL2 c.L c.spin flm) :
    ∃ w s glm, b.analysisWith jm c (psi, phi) f = .ok (w, s) ∧
      b.synthesisWith jm c (psi, phi) w s = (b.engine c).sphI glm c.L ∧ glm.r = c.L ∧ glm.c = 2 * c.L - 1 ∧
      (∀ l m, ‖co2 glm l m - co2 flm l m‖ ≤ 1 / 900 * ‖co2 flm l m‖) ∧
      ((∀ j l, l < c.L → kval lam 300 j l ≤ 1) → ∀ l m, ‖co2 glm l m - co2 flm l m‖ ≤ 1 / 2 ^ 29 * ‖co2 flm l m‖) := by
  have hv := hw.valid
  have hT := hv.top
  rw [hlam] at h hT
  obtain ⟨X, hd⟩ := dir64_elim hK hs hT hL hJ hv.hN hN hv.h0 hv.h1 h
  have hG := dir64_filters hs hT.hL hlam hv.hN hv.h0 hv.h1 hre rfl hd true
  obtain ⟨w, s, glm, h1, h2, h3, h4, h5⟩ := C67_round_trip hw hb hG hf
  have key : ∀ e : ℝ, 0 ≤ e → (∀ l, 0 ≤ l → l < c.L → |c.spin| ≤ l → |frameSum c.J_min J c.L psi phi l - 1| ≤ e) →
      ∀ l m, ‖co2 glm l m - co2 flm l m‖ ≤ e * ‖co2 flm l m‖ := by
    intro e he hb l m
    by_cases hz : co2 flm l m = 0
    · rw [h5, hz]; simp
    · have hr : 0 ≤ l ∧ l < c.L ∧ |c.spin| ≤ l := by
        refine ⟨?_, ?_, ?_⟩ <;> by_contra hc
        · exact hz (hbl.zero l m (Or.inl (by have := abs_nonneg m; omega)))
        · exact hz (flm.junk _ _ (by have := hbl.r; omega))
        · exact hz (hbl.zero l m (Or.inr (by omega)))
      have e1 : co2 glm l m - co2 flm l m = ((frameSum c.J_min J c.L psi phi l - 1 : ℝ) : ℂ) * co2 flm l m := by
        rw [h5]; push_cast; ring
      rw [e1, norm_mul, Complex.norm_real, Real.norm_eq_abs]
      exact mul_le_mul_of_nonneg_right (hb l hr.1 hr.2.1 hr.2.2) (norm_nonneg _)
  have hA := fun l a b d => directional_admissible hK hs hT hL hJ hv.hN hN hv.h0 hv.h1 h (l := l) a b d
  exact ⟨w, s, glm, h1, h2, h3, h4, key _ (by norm_num) fun l a b d => (hA l a b d).1,
    fun hL1 => key _ (by norm_num) fun l a b d => (hA l a b d).2.1 fun j => hL1 j l b⟩

end

end Gen
end S2wav
