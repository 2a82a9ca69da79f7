import Verif.Lemmas.LibmExact
import Verif.Lemmas.FloatBinom
import Mathlib.Analysis.SpecialFunctions.Gamma.Basic

/-! # A special-function library meeting the assumptions: the one rounding correctly -/

namespace S2wav
open Classical

/-- `loggamma`, correctly rounded -/
noncomputable def lgExact : F64 → F64
  | .fin x => F64.of (Real.log (Real.Gamma x))
  | x => x

theorem exp_692 : Real.exp 692 ≤ 2 ^ (1000 : ℤ) := by
  have h1 : Real.exp (1000 * Real.log 2) = 2 ^ (1000 : ℤ) := by
    rw [← Real.rpow_intCast, Real.rpow_def_of_pos (by norm_num)]
    congr 1; push_cast; ring
  rw [← h1, Real.exp_le_exp]
  have := Real.log_two_gt_d9
  norm_num at this ⊢; linarith

theorem lgExact_special : Libm.Special Libm.exact lgExact where
  exp_acc x hx := by
    rw [abs_le] at hx
    have h0 := Real.exp_pos x
    have h1 : Real.exp x ≤ 2 ^ (1000 : ℤ) := (Real.exp_le_exp.2 hx.2).trans exp_692
    have h2 : (2 : ℝ) ^ (-1000 : ℤ) ≤ Real.exp x := by
      have : Real.exp (-692) ≤ Real.exp x := Real.exp_le_exp.2 hx.1
      rw [zpow_neg]
      refine le_trans ?_ this
      rw [Real.exp_neg]
      exact inv_anti₀ (Real.exp_pos _) exp_692
    refine ⟨rnd (Real.exp x), F64.of_fin (by rw [abs_of_pos h0]; exact h1), ?_⟩
    have h3 := rnd_acc (Real.exp x)
    rw [abs_of_pos h0] at h3
    refine h3.trans ?_
    have h4 : (2 : ℝ) ^ (-1075 : ℤ) = 2 ^ (-75 : ℤ) * 2 ^ (-1000 : ℤ) := by rw [← zpow_add₀ (by norm_num)]; norm_num
    rw [h4]
    have h5 := mul_le_mul_of_nonneg_left h2 (show (0 : ℝ) ≤ 2 ^ (-75 : ℤ) by positivity)
    have h6 : (2 : ℝ) ^ (-53 : ℤ) + 2 ^ (-75 : ℤ) ≤ 2 ^ (-50 : ℤ) := by norm_num
    have h7 := mul_le_mul_of_nonneg_right h6 h0.le
    rw [add_mul] at h7
    linarith
  lg_acc n hn := by
    have e : Real.Gamma ((n + 1 : ℕ) : ℝ) = n.factorial := by push_cast; exact Real.Gamma_nat_eq_factorial n
    have h0 := log_fact_nonneg n
    have h1 : Real.log (n.factorial : ℝ) ≤ 7000 := by
      have hnR : (n : ℝ) ≤ 990 := by exact_mod_cast hn
      have := log_fact_le (n := n) (a := 7) (b := 1000) (by linarith) (by norm_num) (by norm_num) exp_seven
      linarith
    refine ⟨rnd (Real.log n.factorial), ?_, ?_⟩
    · change F64.of _ = _
      rw [e]
      refine F64.of_fin' ?_
      rw [abs_of_nonneg h0]; norm_num; linarith
    · have := rnd_acc' (Real.log n.factorial)
      rw [abs_of_nonneg h0] at this
      refine this.trans ?_
      norm_num; linarith

end S2wav
