import Verif.Props.RoundedSamples

/-! # C103: `j_max` one too small -/

namespace S2wav
open Classical

/-- the double just below 4, which is what Python computes for `64 ** (1 / 3)` -/
noncomputable def cbrt64 : ℝ := 4 - 1 / 2 ^ 51

theorem cbrt64_rep : Rep cbrt64 := ⟨2 ^ 53 - 1, -51, by norm_num, by norm_num, by unfold cbrt64; norm_num⟩

theorem log_cbrt64 : Real.log cbrt64 < 2 * Real.log 2 ∧ 2 * Real.log 2 - (1 / 2 ^ 53 + 1 / 2 ^ 100) ≤ Real.log cbrt64 ∧
    Real.log cbrt64 ≤ 2 * Real.log 2 - 1 / 2 ^ 53 := by
  have e : Real.log cbrt64 = 2 * Real.log 2 + Real.log (1 - 1 / 2 ^ 53) := by
    rw [show cbrt64 = 2 ^ 2 * (1 - 1 / 2 ^ 53) by unfold cbrt64; norm_num, Real.log_mul (by norm_num) (by norm_num), Real.log_pow]
    norm_num
  have h1 := Real.log_le_sub_one_of_pos (by norm_num : (0 : ℝ) < 1 - 1 / 2 ^ 53)
  have h2 := Real.one_sub_inv_le_log_of_pos (by norm_num : (0 : ℝ) < 1 - 1 / 2 ^ 53)
  rw [e]
  generalize Real.log (1 - 1 / 2 ^ 53) = d at *
  norm_num at h1 h2 ⊢
  refine ⟨?_, ?_, ?_⟩ <;> linarith

/-- **C103** the result can also be too small: `64 ** (1 / 3)` is the double just below 4, whose cube is below 64, and with a correctly
rounded logarithm `j_max(64, 64 ** (1 / 3))` is 3, where the exact formula gives 4. -/
theorem C103_one_too_few : j_max64 logExact 64 cbrt64 = .ok 3 ∧ j_max 64 cbrt64 = .ok 4 ∧ cbrt64 ^ (3 : ℤ) < 64 := by
  have hl := log_two_bounds
  obtain ⟨c1, c2, c3⟩ := log_cbrt64
  have e64 : Real.log 64 = 6 * Real.log 2 := by rw [show (64 : ℝ) = 2 ^ 6 by norm_num, Real.log_pow]; norm_num
  have hb : (1 : ℝ) < cbrt64 := by unfold cbrt64; norm_num
  refine ⟨?_, ?_, by rw [show ((3 : ℤ)) = ((3 : ℕ) : ℤ) from rfl, zpow_natCast]; unfold cbrt64; norm_num⟩
  · have r1 : rnd (Real.log 64) = 4682486076124019 / 2 ^ 50 := by
      rw [e64, rnd_eval (x := 6 * Real.log 2) 4682486076124019 (-50) (by norm_num) (by norm_num at hl ⊢; linarith)
        (by norm_num at hl ⊢; linarith) (by norm_num at hl ⊢; linarith) (by norm_num at hl ⊢; linarith)]
      norm_num
    have r2 : rnd (Real.log cbrt64) = 6243314768165359 / 2 ^ 52 := by
      rw [rnd_eval (x := Real.log cbrt64) 6243314768165359 (-52) (by norm_num) (by norm_num at hl c2 ⊢; linarith)
        (by norm_num at hl c3 ⊢; linarith) (by norm_num at hl c2 ⊢; linarith) (by norm_num at hl c3 ⊢; linarith)]
      norm_num
    have h1 : logExact 64 = .fin (4682486076124019 / 2 ^ 50) := by
      rw [logExact, F64.of_fin', r1]
      rw [e64, abs_of_pos (by norm_num at hl ⊢; linarith)]
      norm_num at hl ⊢; linarith
    have h2 : logExact cbrt64 = .fin (6243314768165359 / 2 ^ 52) := by
      rw [logExact, F64.of_fin', r2]
      rw [abs_of_pos (Real.log_pos hb)]
      norm_num at hl c1 ⊢; linarith
    have hq : rnd (4682486076124019 / 2 ^ 50 / (6243314768165359 / 2 ^ 52)) = 3 := by
      rw [rnd_eval (3 * 2 ^ 51) (-51) (by norm_num) (by norm_num) (by norm_num) (by norm_num) (by norm_num)]
      norm_num
    unfold j_max64
    rw [F64.ofInt_eq (by norm_num)]
    simp only [npLog, Int.cast_ofNat]
    rw [if_pos (by norm_num), if_pos (by linarith), h1, h2]
    simp only [F64.div]
    rw [if_neg (by norm_num), F64.of_fin' (by rw [abs_of_pos (by norm_num)]; norm_num), hq]
    simp only [F64.ceil]
    congr 1
    exact_mod_cast Int.ceil_intCast (R := ℝ) 3
  · rw [j_max_eq (by norm_num) hb]
    congr 1
    have hp := Real.log_pos hb
    rw [show (((64 : ℤ)) : ℝ) = 64 by norm_num, e64, Int.ceil_eq_iff]
    norm_num at hl c1 c2 ⊢
    constructor
    · rw [lt_div_iff₀ hp]; linarith
    · rw [div_le_iff₀ hp]; linarith

/-- **C103** that is harmless: 3 is a top scale for which the transforms are exact (`TopScale`) -/
theorem C103_one_too_few_top : TopScale (j_max64 logExact) 64 cbrt64 3 := by
  obtain ⟨J, hJ, -, -, -, hT⟩ := C103_top_scale (L := 64) (lam := cbrt64) logExact_ok (by norm_num) (by norm_num)
    (by unfold cbrt64; norm_num) cbrt64_rep (by
      have := zpow_le_zpow_right₀ (a := (2 : ℝ)) (by norm_num) (by norm_num : (2 : ℤ) ≤ 1024)
      refine lt_of_lt_of_le ?_ this
      unfold cbrt64; norm_num)
  rw [C103_one_too_few.1] at hJ
  injection hJ with hJ
  rw [hJ]; exact hT

/-- **C103** for every double `lam ≥ 2` the computed top scale is off by at most one -/
theorem C103_off_by_one {lf : ℝ → F64} {L : ℤ} {lam : ℝ} (hf : LogOk lf) (hL : 1 ≤ L) (hL' : L ≤ 2 ^ 40) (hlam : 2 ≤ lam) (hr : Rep lam)
    (hb : lam < (2 : ℝ) ^ (1024 : ℤ)) : ∃ J J0 : ℤ, j_max64 lf L lam = .ok J ∧ j_max L lam = .ok J0 ∧ |J - J0| ≤ 1 := by
  have h1 : 1 < lam := by linarith
  obtain ⟨J, hJ, h2, h3, h4, -⟩ := C103_top_scale hf hL hL' h1 hr hb
  have hJ0 := j_max_eq hL h1
  obtain ⟨h5, h6, h7⟩ := j_max_spec hL h1 hJ0
  generalize ⌈Real.log L / Real.log lam⌉ = J0 at *
  refine ⟨J, J0, hJ, hJ0, ?_⟩
  have hLr : (1 : ℝ) ≤ L := by exact_mod_cast hL
  rw [abs_le]
  constructor
  · by_contra hc
    have a : (L : ℝ) ≤ lam ^ (J + 1) := by
      rw [zpow_add_one₀ (by linarith)]
      have : (0 : ℝ) < lam ^ J := zpow_pos (by linarith) J
      nlinarith
    have := h7 (J + 1) a
    omega
  · by_contra hc
    have a : lam ^ (J0 + 1) ≤ lam ^ (J - 1) := zpow_le_zpow_right₀ h1.le (by omega)
    rw [zpow_add_one₀ (by linarith)] at a
    nlinarith

/-- both directions of `C103_off_by_one` occur for `lam ≥ 2`: `C103_one_too_many` and `C103_one_too_few` -/
example : ∃ J J0 : ℤ, j_max64 logExact 64 cbrt64 = .ok J ∧ j_max 64 cbrt64 = .ok J0 ∧ J = J0 - 1 :=
  ⟨3, 4, C103_one_too_few.1, C103_one_too_few.2.1, by norm_num⟩

end S2wav
