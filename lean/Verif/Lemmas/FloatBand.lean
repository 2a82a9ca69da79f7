import Verif.Lemmas.FloatAxisym

/-! # Entries beyond the first eighth of a band -/

namespace S2wav
open Classical

variable {lam : ℝ}

theorem tailI_le (hlam : 1 < lam) : tailI lam (-1) ≤ 1.2 := by
  have hc := one_lt_shiftC hlam
  unfold tailI
  have h : ∫ t in (-1 : ℝ)..1, bumpT (shiftC lam) t ≤ ∫ t in (-1 : ℝ)..1, (0.6 : ℝ) := by
    refine intervalIntegral.integral_mono_on (by norm_num) (bumpT_int hc _ _) intervalIntegrable_const fun t _ => ?_
    have := bumpT_near hc (t := t) (h := 1 / 2) (by norm_num) (by nlinarith [sq_nonneg t])
    norm_num at this ⊢
    linarith
  rw [intervalIntegral.integral_const] at h
  norm_num at h ⊢
  exact h

theorem quad_ratio_eighth' (hlam : 1 < lam) {a : ℝ} {n : ℕ} (h1 : 1 / lam ≤ a) (h2 : a < 1) (hn : 300 ≤ n)
    (hτ : -3 / 4 ≤ sArg lam a) : quad lam n a / quad lam n (1 / lam) ≤ 1 - 0.00005 := by
  have hc := one_lt_shiftC hlam
  have hq := quad_pos hlam le_rfl (inv_le_one' hlam) (show (3 : ℤ) ≤ n by omega)
  have h := quad_tail hlam h1 h2 hn
  have hN := quad_norm hlam hn
  have hI := tailI_eighth hlam hτ
  have hs := hN.2.2.2
  have ht := tailI_le hlam
  rw [div_le_iff₀ hq]
  norm_num at hs hI ht ⊢
  have key : quad lam n a * shiftC lam ≤ 19999 / 20000 * quad lam n (1 / lam) * shiftC lam := by
    linarith [h.1, hN.1, hN.2.1]
  rw [one_div] at key
  exact le_of_mul_le_mul_right key (by linarith)

/-- beyond the first eighth of its band an entry of `k_lam` is well below 1 -/
theorem kval_eighth (hlam : 1 < lam) {q : ℤ} (hq : 300 ≤ q) {j l : ℤ}
    (hc : lam ^ (j - 1) + (lam ^ j - lam ^ (j - 1)) / 8 ≤ (l : ℝ)) : kval lam q j l ≤ 1 - 0.00005 := by
  have hlt : lam ^ (j - 1) < lam ^ j := zpow_lt_zpow_right₀ hlam (by omega)
  have h1 : lam ^ (j - 1) < (l : ℝ) := by linarith
  rcases lt_or_ge (l : ℝ) (lam ^ j) with h2 | h2
  · rw [kval_band h1 h2]
    obtain ⟨b1, b2⟩ := band_point hlam h1 h2
    have e : ((q.toNat : ℕ) : ℤ) = q := by omega
    have hτ : -3 / 4 ≤ sArg lam (l / lam ^ j) := by
      have hp := zpow_pos' hlam j
      have hne : lam ≠ 0 := by linarith
      have hl : 0 < lam - 1 := by linarith
      have h3 : 1 / lam + (1 - 1 / lam) / 8 ≤ l / lam ^ j := by
        rw [le_div_iff₀ hp]
        rw [zpow_sub_one₀ hne] at hc
        calc (1 / lam + (1 - 1 / lam) / 8) * lam ^ j = lam ^ j * lam⁻¹ + (lam ^ j - lam ^ j * lam⁻¹) / 8 := by ring
          _ ≤ _ := hc
      have h4 : sArg lam (1 / lam + (1 - 1 / lam) / 8) = -3 / 4 := by
        unfold sArg; field_simp; ring
      rw [← h4, sArg_mono hlam]; exact h3
    have := quad_ratio_eighth' hlam b1.le b2 (show 300 ≤ q.toNat by omega) hτ
    rwa [e] at this
  · rw [kval_above hlam h2]; norm_num

/-- an earlier point falls short by little once some later point comes close to 1 -/
theorem quad_ratio_prev' (hlam : 1 < lam) {a b e : ℝ} {n : ℕ} (h1 : 1 / lam ≤ a) (hab : a ≤ b) (h2 : b < 1) (hn : 300 ≤ n)
    (hb : 1 - e < quad lam n b / quad lam n (1 / lam)) : 1 - quad lam n a / quad lam n (1 / lam) ≤ 90 / n ^ 2 + e := by
  have hc := one_lt_shiftC hlam
  have hq := quad_pos hlam le_rfl (inv_le_one' hlam) (show (3 : ℤ) ≤ n by omega)
  rw [lt_div_iff₀ hq] at hb
  have h := quad_tail hlam h1 (hab.trans_lt h2) hn
  have h' := quad_tail hlam (h1.trans hab) h2 hn
  have hN := quad_norm hlam hn
  have hI := tailI_anti hlam ((sArg_mono hlam).2 hab)
  have hpos : 0 < quad lam n (1 / lam) * shiftC lam := mul_pos hq (by linarith)
  have hb' : (1 - e) * quad lam n (1 / lam) * shiftC lam < quad lam n b * shiftC lam := mul_lt_mul_of_pos_right hb (by linarith)
  have e4 : quad lam n a / quad lam n (1 / lam) = quad lam n a * shiftC lam / (quad lam n (1 / lam) * shiftC lam) := by
    rw [mul_div_mul_right _ _ (by linarith)]
  rw [e4, sub_le_iff_le_add, ← sub_le_iff_le_add', le_div_iff₀ hpos]
  have := hN.2.2.1
  nlinarith [h.2, h'.1]

end S2wav
