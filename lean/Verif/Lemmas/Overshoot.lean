import Verif.Lemmas.QuadTwo
import Verif.Lemmas.Built

/-! # How far `k_lam` may exceed 1, and where -/

namespace S2wav
open MeasureTheory intervalIntegral

section
variable {lam : ℝ}

/-- the exact (unnormalised) generating function in the coordinate `t` -/
noncomputable def tailI (lam t : ℝ) : ℝ := ∫ s in t..1, bumpT (shiftC lam) s

theorem tailI_anti (hlam : 1 < lam) {s t : ℝ} (h : s ≤ t) : tailI lam t ≤ tailI lam s := by
  have hc := one_lt_shiftC hlam
  have := integral_add_adjacent_intervals (bumpT_int hc s t) (bumpT_int hc t 1)
  have h2 := integral_nonneg' hc h
  unfold tailI
  linarith

theorem tailI_nonneg (hlam : 1 < lam) {t : ℝ} (h : t ≤ 1) : 0 ≤ tailI lam t := integral_nonneg' (one_lt_shiftC hlam) h

theorem tailI_total (hlam : 1 < lam) : 0.115 ≤ tailI lam (-1) := integral_total (one_lt_shiftC hlam)

theorem tailI_eighth (hlam : 1 < lam) {t : ℝ} (h : -3 / 4 ≤ t) : tailI lam t + 0.00019 ≤ tailI lam (-1) := by
  have hc := one_lt_shiftC hlam
  have h1 := integral_add_adjacent_intervals (bumpT_int hc (-1) (-3 / 4)) (bumpT_int hc (-3 / 4) 1)
  have h2 := tailI_anti hlam h
  have h3 := integral_eighth hc
  unfold tailI at *
  linarith

/-- the quadrature against the integral -/
theorem quad_tail (hlam : 1 < lam) {a : ℝ} {n : ℕ} (h1 : 1 / lam ≤ a) (h2 : a < 1) (hn : 300 ≤ n) :
    quad lam n a * shiftC lam ≤ tailI lam (sArg lam a) + 5 / n ^ 2 ∧
    tailI lam (sArg lam a) - 5 / n ^ 2 ≤ quad lam n a * shiftC lam := by
  have h := abs_le.1 (quad_second' hlam h1 h2 hn)
  unfold tailI
  constructor <;> linarith [h.1, h.2]

theorem quad_norm (hlam : 1 < lam) {n : ℕ} (hn : 300 ≤ n) :
    tailI lam (-1) - 5 / n ^ 2 ≤ quad lam n (1 / lam) * shiftC lam ∧
    quad lam n (1 / lam) * shiftC lam ≤ tailI lam (-1) + 5 / n ^ 2 ∧
    5 / n ^ 2 + 5 / n ^ 2 ≤ 90 / n ^ 2 * (quad lam n (1 / lam) * shiftC lam) ∧ (5 : ℝ) / n ^ 2 ≤ 0.00006 := by
  have hn0 : (300 : ℝ) ≤ n := by exact_mod_cast hn
  have h := quad_tail hlam (le_refl (1 / lam)) (inv_le_one' hlam) hn
  rw [sArg_edge hlam] at h
  have hI := tailI_total hlam
  have hs : 5 / (n : ℝ) ^ 2 ≤ 5 / 300 ^ 2 := by gcongr
  refine ⟨h.2, h.1, ?_, hs.trans (by norm_num)⟩
  have : 1 / 9 ≤ quad lam n (1 / lam) * shiftC lam := by
    have := h.2
    norm_num at hs hI
    linarith
  calc 5 / (n : ℝ) ^ 2 + 5 / n ^ 2 = 90 / n ^ 2 * (1 / 9) := by ring
    _ ≤ _ := mul_le_mul_of_nonneg_left this (by positivity)

theorem quad_ratio_le (hlam : 1 < lam) {a : ℝ} {n : ℕ} (h1 : 1 / lam ≤ a) (h2 : a < 1) (hn : 300 ≤ n) :
    quad lam n a / quad lam n (1 / lam) ≤ 1 + 90 / n ^ 2 := by
  have hc := one_lt_shiftC hlam
  have hq := quad_pos hlam le_rfl (inv_le_one' hlam) (show (3 : ℤ) ≤ n by omega)
  rw [div_le_iff₀ hq]
  have h := quad_tail hlam h1 h2 hn
  have hN := quad_norm hlam hn
  have hτ : -1 ≤ sArg lam a := by rw [← sArg_edge hlam, sArg_mono hlam]; exact h1
  have hI := tailI_anti hlam hτ
  have key : quad lam n a * shiftC lam ≤ (1 + 90 / n ^ 2) * quad lam n (1 / lam) * shiftC lam := by
    calc _ ≤ quad lam n (1 / lam) * shiftC lam + 90 / n ^ 2 * (quad lam n (1 / lam) * shiftC lam) := by linarith [h.1, hN.1, hN.2.2.1]
      _ = _ := by ring
  exact le_of_mul_le_mul_right key (by linarith)

theorem quad_ratio_eighth (hlam : 1 < lam) {a : ℝ} {n : ℕ} (h1 : 1 / lam ≤ a) (h2 : a < 1) (hn : 300 ≤ n)
    (hτ : -3 / 4 ≤ sArg lam a) : quad lam n a / quad lam n (1 / lam) < 1 := by
  have hc := one_lt_shiftC hlam
  have hq := quad_pos hlam le_rfl (inv_le_one' hlam) (show (3 : ℤ) ≤ n by omega)
  rw [div_lt_one hq]
  have h := quad_tail hlam h1 h2 hn
  have hN := quad_norm hlam hn
  have hI := tailI_eighth hlam hτ
  have hs := hN.2.2.2
  norm_num at hs hI
  have key : quad lam n a * shiftC lam < quad lam n (1 / lam) * shiftC lam := by linarith [h.1, hN.1]
  exact lt_of_mul_lt_mul_right key (by linarith)

theorem quad_ratio_approx (hlam : 1 < lam) {a : ℝ} {n : ℕ} (h1 : 1 / lam ≤ a) (h2 : a < 1) (hn : 300 ≤ n) :
    |quad lam n a / quad lam n (1 / lam) - tailI lam (sArg lam a) / tailI lam (-1)| ≤ 90 / n ^ 2 := by
  have hc := one_lt_shiftC hlam
  have hq := quad_pos hlam le_rfl (inv_le_one' hlam) (show (3 : ℤ) ≤ n by omega)
  have h := quad_tail hlam h1 h2 hn
  have hN := quad_norm hlam hn
  have hτ : -1 ≤ sArg lam a := by rw [← sArg_edge hlam, sArg_mono hlam]; exact h1
  have hτ1 : sArg lam a ≤ 1 := by rw [← sArg_one hlam, sArg_mono hlam]; exact h2.le
  have hI := tailI_anti hlam hτ
  have hI0 := tailI_nonneg hlam hτ1
  have hIt := tailI_total hlam
  have hpos : 0 < quad lam n (1 / lam) * shiftC lam := mul_pos hq (by linarith)
  have e4 : quad lam n a / quad lam n (1 / lam) = quad lam n a * shiftC lam / (quad lam n (1 / lam) * shiftC lam) := by
    rw [mul_div_mul_right _ _ (by linarith)]
  have he : (0 : ℝ) ≤ 5 / n ^ 2 := by positivity
  rw [e4]
  set X := quad lam n a * shiftC lam
  set Q := quad lam n (1 / lam) * shiftC lam
  set A := tailI lam (sArg lam a)
  set B := tailI lam (-1)
  have hB : 0 < B := by norm_num at hIt; linarith
  set r := A / B with hr
  have hr0 : 0 ≤ r := div_nonneg hI0 hB.le
  have hr1 : r ≤ 1 := (div_le_one hB).2 hI
  have hA : A = r * B := by rw [hr]; field_simp
  generalize (5 : ℝ) / n ^ 2 = e at *
  generalize (90 : ℝ) / n ^ 2 = d at *
  have hu : X - r * Q ≤ d * Q := by nlinarith [h.1, hN.1, hN.2.2.1]
  have hl : -(d * Q) ≤ X - r * Q := by nlinarith [h.2, hN.2.1, hN.2.2.1]
  have e5 : X / Q - r = (X - r * Q) / Q := by field_simp
  rw [e5, abs_le]
  constructor
  · rw [le_div_iff₀ hpos]; linarith
  · rw [div_le_iff₀ hpos]; linarith

/-- an earlier point falls short by little once some later point overshoots -/
theorem quad_ratio_prev (hlam : 1 < lam) {a b : ℝ} {n : ℕ} (h1 : 1 / lam ≤ a) (hab : a ≤ b) (h2 : b < 1) (hn : 300 ≤ n)
    (hb : 1 < quad lam n b / quad lam n (1 / lam)) : 1 - quad lam n a / quad lam n (1 / lam) ≤ 90 / n ^ 2 := by
  have hc := one_lt_shiftC hlam
  have hq := quad_pos hlam le_rfl (inv_le_one' hlam) (show (3 : ℤ) ≤ n by omega)
  rw [lt_div_iff₀ hq, one_mul] at hb
  have h := quad_tail hlam h1 (hab.trans_lt h2) hn
  have h' := quad_tail hlam (h1.trans hab) h2 hn
  have hN := quad_norm hlam hn
  have hI := tailI_anti hlam ((sArg_mono hlam).2 hab)
  have hpos : 0 < quad lam n (1 / lam) * shiftC lam := mul_pos hq (by linarith)
  have hb' : quad lam n (1 / lam) * shiftC lam < quad lam n b * shiftC lam := mul_lt_mul_of_pos_right hb (by linarith)
  have e4 : quad lam n a / quad lam n (1 / lam) = quad lam n a * shiftC lam / (quad lam n (1 / lam) * shiftC lam) := by
    rw [mul_div_mul_right _ _ (by linarith)]
  rw [e4, sub_le_iff_le_add, ← sub_le_iff_le_add', le_div_iff₀ hpos]
  have := hN.2.2.1
  rw [sub_mul, one_mul]
  linarith [h.2, h'.1]

/-! ## Entries of `k_lam` -/

/-- the point of the band at which an entry is evaluated -/
theorem band_point (hlam : 1 < lam) {j l : ℤ} (h1 : lam ^ (j - 1) < (l : ℝ)) (h2 : (l : ℝ) < lam ^ j) :
    1 / lam < (l : ℝ) / lam ^ j ∧ (l : ℝ) / lam ^ j < 1 := by
  have hp := zpow_pos' hlam j
  have hne : lam ≠ 0 := by linarith
  refine ⟨?_, by rwa [div_lt_one hp]⟩
  rw [lt_div_iff₀ hp]
  rw [zpow_sub_one₀ hne] at h1
  rwa [one_div, mul_comm]

theorem kval_band {q j l : ℤ} (h1 : lam ^ (j - 1) < (l : ℝ)) (h2 : (l : ℝ) < lam ^ j) :
    kval lam q j l = quad lam q (l / lam ^ j) / quad lam q (1 / lam) := by
  rw [kval, if_neg (not_lt.2 h1.le), if_neg (not_lt.2 h2.le)]

theorem kval_bound (hlam : 1 < lam) {q : ℤ} (hq : 300 ≤ q) (j l : ℤ) : kval lam q j l ≤ 1 + 90 / q ^ 2 := by
  have hq0 : (0 : ℝ) < q := by exact_mod_cast (by omega : 0 < q)
  have h0 : (0 : ℝ) < 90 / q ^ 2 := by positivity
  rcases le_or_gt (l : ℝ) (lam ^ (j - 1)) with h1 | h1
  · rw [kval_le_edge hlam (by omega) h1]; linarith
  rcases lt_or_ge (l : ℝ) (lam ^ j) with h2 | h2
  · rw [kval_band h1 h2]
    obtain ⟨b1, b2⟩ := band_point hlam h1 h2
    have := quad_ratio_le hlam b1.le b2 (show 300 ≤ q.toNat by omega)
    have e : ((q.toNat : ℕ) : ℤ) = q := by omega
    rw [e] at this
    have e' : ((q.toNat : ℕ) : ℝ) = (q : ℝ) := by exact_mod_cast e
    rwa [e'] at this
  · rw [kval_above hlam h2]; linarith

theorem kval_place (hlam : 1 < lam) {q : ℤ} (hq : 300 ≤ q) {j l : ℤ} (h : 1 ≤ kval lam q j l) :
    (l : ℝ) < lam ^ (j - 1) + (lam ^ j - lam ^ (j - 1)) / 8 := by
  by_contra hc
  push Not at hc
  have hlt : lam ^ (j - 1) < lam ^ j := by
    have hp := zpow_pos' hlam (j - 1)
    have : lam ^ j = lam ^ (j - 1) * lam := by
      rw [← zpow_add_one₀ (by linarith)]; congr 1; ring
    rw [this]; nlinarith
  have h1 : lam ^ (j - 1) < (l : ℝ) := by linarith
  rcases lt_or_ge (l : ℝ) (lam ^ j) with h2 | h2
  · rw [kval_band h1 h2] at h
    obtain ⟨b1, b2⟩ := band_point hlam h1 h2
    have e : ((q.toNat : ℕ) : ℤ) = q := by omega
    have hτ : -3 / 4 ≤ sArg lam (l / lam ^ j) := by
      have hp := zpow_pos' hlam j
      have hne : lam ≠ 0 := by linarith
      have hl : 0 < lam - 1 := by linarith
      have h3 : 1 / lam + (1 - 1 / lam) / 8 ≤ l / lam ^ j := by
        rw [le_div_iff₀ hp]
        rw [zpow_sub_one₀ hne] at hc
        calc (1 / lam + (1 - 1 / lam) / 8) * lam ^ j = lam ^ j * lam⁻¹ + (lam ^ j - lam ^ j * lam⁻¹) / 8 := by ring
          _ ≤ _ := hc
      have h4 : sArg lam (1 / lam + (1 - 1 / lam) / 8) = -3 / 4 := by
        unfold sArg; field_simp; ring
      rw [← h4, sArg_mono hlam]; exact h3
    have := quad_ratio_eighth hlam b1.le b2 (show 300 ≤ q.toNat by omega) hτ
    rw [e] at this
    linarith
  · rw [kval_above hlam h2] at h; linarith

theorem kv_le (hlam : 1 < lam) (j l : ℤ) : kv lam j l ≤ 1001 / 1000 := by
  have := kval_bound hlam (le_refl 300) j l
  norm_num at this ⊢
  linarith

theorem gain_le (hlam : 1 < lam) {J_min J l : ℤ} (hJ : J_min ≤ J) (hl : 0 ≤ l) : gain lam J_min J l ≤ 1001 / 1000 := by
  obtain ⟨j, _, _, h⟩ := (gain_isGreatest hlam hJ hl).1
  rw [← h]; exact kv_le hlam j l

/-! ## Energy of the looped filters -/

theorem diff_neg (hlam : 1 < lam) {j l : ℤ} (h : kv lam (j + 1) l - kv lam j l < 0) :
    lam ^ (j - 1) < (l : ℝ) ∧ (l : ℝ) < lam ^ j ∧ 1 < kv lam j l := by
  have h1 : lam ^ (j - 1) < (l : ℝ) := by
    by_contra hc
    rw [(psiAx_eq_zero hlam (Or.inl (not_lt.1 hc))).1] at h
    exact lt_irrefl _ h
  have h2 : (l : ℝ) < lam ^ j := by
    by_contra hc
    rw [kv, kv, kval_above (j := j) hlam (not_lt.1 hc)] at h
    have := kv_nonneg hlam (j + 1) l
    rw [kv] at this
    linarith
  refine ⟨h1, h2, ?_⟩
  have : kv lam (j + 1) l = 1 := kval_le_edge hlam (by norm_num) (by rw [add_sub_cancel_right]; exact h2.le)
  linarith

theorem AxPart.small {L J_min J : ℤ} {p : ℤ → ℤ → ℝ} (hlam : 1 < lam) (hp : AxPart lam L J_min J p) {j l : ℤ} (hj0 : J_min ≤ j)
    (hj1 : j ≤ J) (hl1 : l < L) (h : kv lam (j + 1) l - kv lam j l < 0) (l0 : ℕ) (hl0 : (l0 : ℤ) ≤ l) :
    p j l0 ^ 2 ≤ 1 / 1000 := by
  obtain ⟨a1, a2, a3⟩ := diff_neg hlam h
  induction l0 with
  | zero =>
    rw [hp.eq j _ hj0 hj1 (by simp) (by omega)]
    · rw [(psiAx_eq_zero hlam (Or.inl (by simpa using (zpow_pos' hlam (j - 1)).le))).2]; norm_num
    · rw [(psiAx_eq_zero hlam (Or.inl (by simpa using (zpow_pos' hlam (j - 1)).le))).1]
  | succ l0 ih =>
    rcases le_or_gt 0 (kv lam (j + 1) ((l0 + 1 : ℕ) : ℤ) - kv lam j ((l0 + 1 : ℕ) : ℤ)) with hd | hd
    · rw [hp.eq j _ hj0 hj1 (by omega) (by omega) hd, psiAx_sq, max_eq_right hd]
      have hle : (((l0 + 1 : ℕ) : ℤ) : ℝ) ≤ l := by exact_mod_cast hl0
      have : kv lam (j + 1) ((l0 + 1 : ℕ) : ℤ) = 1 := kval_le_edge hlam (by norm_num) (by
        rw [add_sub_cancel_right]; linarith)
      rw [this]
      rcases le_or_gt (((l0 + 1 : ℕ) : ℤ) : ℝ) (lam ^ (j - 1)) with hb | hb
      · rw [kv, kval_le_edge hlam (by norm_num) hb]; norm_num
      · have b0 := band_point hlam hb (hle.trans_lt a2)
        have b1 := band_point hlam a1 a2
        rw [kv, kval_band hb (hle.trans_lt a2)]
        rw [kv, kval_band a1 a2] at a3
        have hr : (((l0 + 1 : ℕ) : ℤ) : ℝ) / lam ^ j ≤ l / lam ^ j := div_le_div_of_nonneg_right hle (zpow_pos' hlam j).le
        have := quad_ratio_prev (n := 300) hlam b0.1.le hr b1.2 le_rfl (by exact_mod_cast a3)
        norm_num at this ⊢
        linarith
    · rcases hp.carry j _ hj0 hj1 (by omega) (by omega) hd with h3 | h3
      · rw [h3]; norm_num
      · rw [h3]
        have : ((l0 + 1 : ℕ) : ℤ) - 1 = l0 := by push_cast; ring
        rw [this]
        exact ih (by omega)

/-- the energy of any builder's filters at one degree lies between the vectorised one and that plus `1/1000` -/
theorem AxPart.energy {L J_min J : ℤ} {p : ℤ → ℤ → ℝ} (hlam : 1 < lam) (hp : AxPart lam L J_min J p)
    {l : ℤ} (hl0 : 0 ≤ l) (hl1 : l < L) :
    gain lam J_min J l ≤ phiAx lam J_min l ^ 2 + ∑ j ∈ Finset.Icc J_min J, p j l ^ 2 ∧
    phiAx lam J_min l ^ 2 + ∑ j ∈ Finset.Icc J_min J, p j l ^ 2 ≤ gain lam J_min J l + 1 / 1000 := by
  classical
  have hI : Finset.Icc J_min J = Finset.Ico J_min (J + 1) := by
    ext x; simp only [Finset.mem_Icc, Finset.mem_Ico]; omega
  rw [gain, ← hI]
  have hneg : ∀ j, kv lam (j + 1) l - kv lam j l < 0 → psiAx lam j l ^ 2 = 0 := fun j h => by
    rw [psiAx_sq, max_eq_left h.le]
  constructor
  · refine add_le_add le_rfl (Finset.sum_le_sum fun j hj => ?_)
    rw [Finset.mem_Icc] at hj
    rcases le_or_gt 0 (kv lam (j + 1) l - kv lam j l) with hd | hd
    · rw [hp.eq j l hj.1 hj.2 hl0 hl1 hd]
    · rw [hneg j hd]; positivity
  · rw [add_assoc]
    refine add_le_add le_rfl ?_
    by_cases hex : ∃ j0, kv lam (j0 + 1) l - kv lam j0 l < 0
    · obtain ⟨j0, h0⟩ := hex
      have huniq : ∀ j, kv lam (j + 1) l - kv lam j l < 0 → j = j0 := by
        intro j hj
        obtain ⟨a1, a2, _⟩ := diff_neg hlam h0
        obtain ⟨b1, b2, _⟩ := diff_neg hlam hj
        by_contra hne
        rcases lt_or_gt_of_ne hne with h | h
        · have := zpow_mono' hlam (show j ≤ j0 - 1 by omega)
          linarith
        · have := zpow_mono' hlam (show j0 ≤ j - 1 by omega)
          linarith
      have hs : ∑ j ∈ Finset.Icc J_min J, p j l ^ 2 ≤
          ∑ j ∈ Finset.Icc J_min J, (psiAx lam j l ^ 2 + if j = j0 then 1 / 1000 else 0) := by
        refine Finset.sum_le_sum fun j hj => ?_
        rw [Finset.mem_Icc] at hj
        rcases le_or_gt 0 (kv lam (j + 1) l - kv lam j l) with hd | hd
        · rw [hp.eq j l hj.1 hj.2 hl0 hl1 hd]
          split_ifs <;> norm_num
        · rw [if_pos (huniq j hd), hneg j hd, zero_add]
          have := hp.small hlam hj.1 hj.2 hl1 hd l.toNat (by omega)
          have e : ((l.toNat : ℕ) : ℤ) = l := by omega
          rwa [e] at this
      refine hs.trans ?_
      rw [Finset.sum_add_distrib, Finset.sum_ite_eq']
      split_ifs <;> linarith
    · push Not at hex
      have hs : ∑ j ∈ Finset.Icc J_min J, p j l ^ 2 = ∑ j ∈ Finset.Icc J_min J, psiAx lam j l ^ 2 := by
        refine Finset.sum_congr rfl fun j hj => ?_
        rw [Finset.mem_Icc] at hj
        rw [hp.eq j l hj.1 hj.2 hl0 hl1 (hex j)]
      rw [hs]; linarith

/-! ## The exact generating function in the original variable -/

theorem tailI_bump (hlam : 1 < lam) {a : ℝ} (h1 : 1 / lam ≤ a) (h2 : a ≤ 1) :
    tailI lam (sArg lam a) = shiftC lam * ∫ x in a..1, gInt lam x := by
  have hc := one_lt_shiftC hlam
  have hl : 0 < lam - 1 := by linarith
  have hm : 2 * lam / (lam - 1) ≠ 0 := by positivity
  have e : ∀ x, sArg lam x = 2 * lam / (lam - 1) * x + -((lam + 1) / (lam - 1)) := fun x => by
    unfold sArg; field_simp; ring
  have hI : ∫ x in a..1, gInt lam x = ∫ x in a..1, (2 * lam / (lam - 1) / shiftC lam) * bumpT (shiftC lam) (sArg lam x) := by
    refine integral_congr_Ioo_of_le h2 fun x hx => ?_
    have := gInt_bumpT hlam (h1.trans_lt hx.1) hx.2 0 1
    have e0 : 1 - sArg lam 0 = 2 * lam / (lam - 1) := by unfold sArg; field_simp; ring
    rw [e0] at this
    simp only [sub_zero, div_one, mul_one] at this
    rw [this]
    ring
  have hs : shiftC lam ≠ 0 := by linarith
  rw [hI, intervalIntegral.integral_const_mul]
  simp only [e]
  rw [integral_comp_mul_add (fun t => bumpT (shiftC lam) t) hm, smul_eq_mul, ← e, ← e, sArg_one hlam]
  unfold tailI
  field_simp

end
end S2wav
