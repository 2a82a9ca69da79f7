import Verif.Lemmas.FloatLog
import Verif.Lemmas.FloatCert

/-! # `j_max` one too large: `L = 125`, `lam = 5` -/

namespace S2wav

theorem log_two_bounds : 3196577161300663914 / 2 ^ 62 ≤ Real.log 2 ∧ Real.log 2 ≤ 3196577161300663916 / 2 ^ 62 := by
  have h := abs_le.1 (Real.abs_log_sub_add_sum_range_le (x := 1 / 2) (by norm_num [abs_of_pos]) 64)
  have e : Real.log (1 - 1 / 2) = -Real.log 2 := by rw [← Real.log_inv]; norm_num
  rw [e, abs_of_pos (by norm_num)] at h
  norm_num [Finset.sum_range_succ] at h ⊢
  constructor <;> linarith

theorem log_five_bounds : 7422222318299303338 / 2 ^ 62 ≤ Real.log 5 ∧ Real.log 5 ≤ 7422222318299303343 / 2 ^ 62 := by
  have h := abs_le.1 (Real.abs_log_sub_add_sum_range_le (x := 1 / 5) (by norm_num [abs_of_pos]) 28)
  have e : Real.log (1 - 1 / 5) = 2 * Real.log 2 - Real.log 5 := by
    rw [show (1 - 1 / 5 : ℝ) = 2 ^ 2 / 5 by norm_num, Real.log_div (by norm_num) (by norm_num), Real.log_pow]; norm_num
  rw [e, abs_of_pos (by norm_num)] at h
  have h2 := log_two_bounds
  norm_num [Finset.sum_range_succ] at h h2 ⊢
  constructor <;> linarith

theorem log_five_rnd : rnd (Real.log 5) = 7248263982714163 / 2 ^ 52 := by
  have h := log_five_bounds
  rw [rnd_eval (x := Real.log 5) 7248263982714163 (-52) (by norm_num) (by norm_num at h ⊢; linarith) (by norm_num at h ⊢; linarith)
    (by norm_num at h ⊢; linarith) (by norm_num at h ⊢; linarith)]
  norm_num

theorem log_125_rnd : rnd (Real.log 125) = 5436197987035623 / 2 ^ 50 := by
  have h := log_five_bounds
  have e : Real.log 125 = 3 * Real.log 5 := by rw [show (125 : ℝ) = 5 ^ 3 by norm_num, Real.log_pow]; norm_num
  rw [e]
  rw [rnd_eval (x := 3 * Real.log 5) 5436197987035623 (-50) (by norm_num) (by norm_num at h ⊢; linarith) (by norm_num at h ⊢; linarith)
    (by norm_num at h ⊢; linarith) (by norm_num at h ⊢; linarith)]
  norm_num

theorem j_max64_125 : j_max64 logExact 125 5 = .ok 4 := by
  have h1 : logExact 125 = .fin (5436197987035623 / 2 ^ 50) := by
    rw [logExact, F64.of_fin', log_125_rnd]
    have h := log_five_bounds
    have e : Real.log 125 = 3 * Real.log 5 := by rw [show (125 : ℝ) = 5 ^ 3 by norm_num, Real.log_pow]; norm_num
    rw [e, abs_of_pos (by norm_num at h ⊢; linarith)]
    norm_num at h ⊢; linarith
  have h2 : logExact 5 = .fin (7248263982714163 / 2 ^ 52) := by
    rw [logExact, F64.of_fin', log_five_rnd]
    have h := log_five_bounds
    rw [abs_of_pos (by norm_num at h ⊢; linarith)]
    norm_num at h ⊢; linarith
  have hq : rnd (5436197987035623 / 2 ^ 50 / (7248263982714163 / 2 ^ 52)) = 3 + 1 / 2 ^ 51 := by
    rw [rnd_eval 6755399441055745 (-51) (by norm_num) (by norm_num) (by norm_num) (by norm_num) (by norm_num)]
    norm_num
  unfold j_max64
  rw [F64.ofInt_eq (by norm_num)]
  simp only [npLog, Int.cast_ofNat]
  rw [if_pos (by norm_num), if_pos (by norm_num), h1, h2]
  simp only [F64.div]
  rw [if_neg (by norm_num), F64.of_fin' (by rw [abs_of_pos (by norm_num)]; norm_num), hq]
  simp only [F64.ceil]
  congr 1
  rw [Int.ceil_eq_iff]
  norm_num

end S2wav
