import Verif.Lemmas.FloatBad
import Mathlib.Analysis.Complex.ExponentialBounds

/-! # A C library meeting the assumptions: the one rounding correctly -/

namespace S2wav
open Classical

/-- the C library in which every function is correctly rounded -/
noncomputable def Libm.exact : Libm where
  exp x := F64.of (Real.exp x)
  pow x n := F64.of (x ^ n)

theorem exp_710 : (2 : ℝ) ^ (1024 : ℤ) ≤ Real.exp 710 := by
  have h1 : (13591 / 5000 : ℝ) ≤ Real.exp 1 := by have := Real.exp_one_gt_d9; norm_num at this ⊢; linarith
  have h2 : Real.exp 710 = Real.exp 1 ^ 710 := by rw [← Real.exp_nat_mul]; norm_num
  have h3 : (2 : ℝ) ^ (1024 : ℤ) = 2 ^ (1024 : ℕ) := by rw [← zpow_natCast]; norm_num
  rw [h2, h3]
  calc (2 : ℝ) ^ 1024 = ((2 ^ 1024 : ℕ) : ℝ) := by rw [Nat.cast_pow]; norm_num
    _ ≤ (13591 / 5000) ^ 710 := by
      rw [div_pow, le_div_iff₀ (by positivity)]
      have : 2 ^ 1024 * 5000 ^ 710 ≤ (13591 ^ 710 : ℕ) := by decide +kernel
      calc ((2 ^ 1024 : ℕ) : ℝ) * 5000 ^ 710 = ((2 ^ 1024 * 5000 ^ 710 : ℕ) : ℝ) := by rw [Nat.cast_mul, Nat.cast_pow 5000, Nat.cast_ofNat]
        _ ≤ ((13591 ^ 710 : ℕ) : ℝ) := by exact_mod_cast this
        _ = 13591 ^ 710 := by rw [Nat.cast_pow, Nat.cast_ofNat]
    _ ≤ Real.exp 1 ^ 710 := by gcongr

theorem Libm.exact_ok : Libm.exact.Ok where
  exp_range x := F64.of_nn (Real.exp_pos x).le
  exp_big x hx := by
    have h1 : (2 : ℝ) ^ (1024 : ℤ) ≤ Real.exp x := exp_710.trans (Real.exp_le_exp.2 hx)
    have h2 := le_rnd (rep_pow (by norm_num : (-1074 : ℤ) ≤ 1024)) h1
    change F64.of _ = _
    unfold F64.of
    rw [if_pos h2]
  exp_acc x hx := by
    have h0 := (Real.exp_pos x).le
    have h1 : Real.exp x ≤ 1 := Real.exp_le_one_iff.2 hx
    have h2 : |Real.exp x| ≤ 4 * 2 ^ 53 := by rw [abs_of_nonneg h0]; norm_num; linarith
    refine ⟨rnd (Real.exp x), F64.of_fin' h2, rnd_nonneg h0, rnd_le rep_one h1, ?_⟩
    have h3 := rnd_acc (Real.exp x)
    rw [abs_of_nonneg h0] at h3
    have h4 : (2 : ℝ) ^ (-53 : ℤ) ≤ 2 ^ (-50 : ℤ) := zpow_le_zpow_right₀ (by norm_num) (by norm_num)
    have h5 : (2 : ℝ) ^ (-1075 : ℤ) ≤ 2 ^ (-1022 : ℤ) := zpow_le_zpow_right₀ (by norm_num) (by norm_num)
    exact h3.trans (add_le_add (mul_le_mul_of_nonneg_right h4 h0) h5)
  pow_exact x n _ hr hb := by
    have h1 := abs_lt.1 hb
    change F64.of _ = _
    unfold F64.of
    rw [rnd_id hr, if_neg (not_le.2 h1.2), if_neg (not_le.2 h1.1)]
  pow_two x hx := by
    have h0 := sq_nonneg x
    have h1 : x ^ 2 ≤ 4 := by rw [← sq_abs]; nlinarith [abs_nonneg x]
    have e : x ^ (2 : ℤ) = x ^ 2 := by norm_cast
    have h2 : |x ^ (2 : ℤ)| ≤ 4 * 2 ^ 53 := by rw [e, abs_of_nonneg h0]; norm_num; linarith
    refine ⟨rnd (x ^ 2), by change F64.of _ = _; rw [F64.of_fin' h2, e], ?_⟩
    have h3 := rnd_acc (x ^ 2)
    rw [abs_of_nonneg h0] at h3
    have h4 : (2 : ℝ) ^ (-53 : ℤ) ≤ 2 ^ (-52 : ℤ) := zpow_le_zpow_right₀ (by norm_num) (by norm_num)
    have h5 : (2 : ℝ) ^ (-1075 : ℤ) ≤ 2 ^ (-1022 : ℤ) := zpow_le_zpow_right₀ (by norm_num) (by norm_num)
    exact h3.trans (add_le_add (mul_le_mul_of_nonneg_right h4 h0) h5)

end S2wav
