import Verif.Model.IeeeSamples
import Verif.Lemmas.FloatRel
import Mathlib.Analysis.SpecialFunctions.Log.Deriv
import Mathlib.Analysis.Complex.ExponentialBounds

/-! # `j_max` in double precision -/

namespace S2wav

/-- doubles other than 1 keep a distance from 1 -/
theorem Rep.far_one {x : ℝ} (h : Rep x) (h1 : x ≠ 1) : 1 / 2 ^ 53 ≤ |x - 1| := by
  obtain ⟨m, e, hm, he, rfl⟩ := h
  have hm' : |(m : ℝ)| ≤ 2 ^ 53 := by exact_mod_cast hm
  rcases le_or_gt 0 e with h0 | h0
  · obtain ⟨n, rfl⟩ := Int.eq_ofNat_of_zero_le h0
    have hne : m * 2 ^ n - 1 ≠ (0 : ℤ) := by
      intro h; apply h1
      have : ((m * 2 ^ n - 1 : ℤ) : ℝ) = 0 := by rw [h]; simp
      push_cast at this
      rw [zpow_natCast]; linarith
    have := Int.one_le_abs hne
    have : (1 : ℝ) ≤ |((m * 2 ^ n - 1 : ℤ) : ℝ)| := by exact_mod_cast this
    push_cast at this
    rw [zpow_natCast]
    exact le_trans (by norm_num) this
  · obtain ⟨n, hn⟩ := Int.eq_ofNat_of_zero_le (by omega : 0 ≤ -e)
    have he' : e = -(n : ℤ) := by omega
    subst he'
    rw [zpow_neg, zpow_natCast] at *
    have hp : (0 : ℝ) < 2 ^ n := by positivity
    rcases le_or_gt n 53 with h2 | h2
    · have hne : m - 2 ^ n ≠ (0 : ℤ) := by
        intro h; apply h1
        have : ((m - 2 ^ n : ℤ) : ℝ) = 0 := by rw [h]; simp
        push_cast at this
        rw [← div_eq_mul_inv, div_eq_one_iff_eq hp.ne']; linarith
      have := Int.one_le_abs hne
      have : (1 : ℝ) ≤ |((m - 2 ^ n : ℤ) : ℝ)| := by exact_mod_cast this
      push_cast at this
      have e1 : (m : ℝ) * (2 ^ n)⁻¹ - 1 = (m - 2 ^ n) / 2 ^ n := by field_simp
      rw [e1, abs_div, abs_of_pos hp]
      have h3 : (2 : ℝ) ^ n ≤ 2 ^ 53 := pow_le_pow_right₀ (by norm_num) h2
      exact div_le_div₀ (by positivity) this hp h3
    · have h3 : (2 : ℝ) ^ 54 ≤ 2 ^ n := pow_le_pow_right₀ (by norm_num) h2
      have h4 : (m : ℝ) * (2 ^ n)⁻¹ ≤ 1 / 2 := by
        rw [← div_eq_mul_inv, div_le_iff₀ hp]
        have := (abs_le.1 hm').2
        norm_num at h3 this ⊢; linarith
      rw [abs_of_nonpos (by linarith)]
      have : (1 : ℝ) / 2 ^ 53 ≤ 1 / 2 := by norm_num
      linarith

theorem Rep.log_ge {x : ℝ} (h : Rep x) (h1 : 1 < x) : 1 / 2 ^ 54 ≤ Real.log x := by
  have h2 := h.far_one h1.ne'
  rw [abs_of_pos (by linarith)] at h2
  have h3 := Real.one_sub_inv_le_log_of_pos (by linarith : (0 : ℝ) < x)
  refine le_trans ?_ h3
  rw [← one_div, le_sub_iff_add_le, ← le_sub_iff_add_le', div_le_iff₀ (by linarith)]
  rcases le_or_gt x 2 with h4 | h4
  · norm_num at h2 ⊢; nlinarith
  · norm_num; nlinarith

theorem Rl.of_acc {x y : ℝ} (hy : 0 < y) (h : |x - y| ≤ y / 2 ^ 50) : Rl 5 x y := by
  have := abs_le.1 h
  refine ⟨hy, ?_, ?_⟩
  · refine le_trans (mul_le_mul_of_nonneg_left (b := (1 - 1 / 2 ^ 52) ^ 5) (c := 1 - 1 / 2 ^ 50) (by norm_num) hy.le) ?_
    norm_num at this ⊢; linarith
  · refine le_trans ?_ (mul_le_mul_of_nonneg_left (b := 1 + 1 / 2 ^ 50) (c := (1 + 1 / 2 ^ 52) ^ 5) (by norm_num) hy.le)
    norm_num at this ⊢; linarith

variable {lf : ℝ → F64}

/-- the quotient of the logarithms -/
theorem log_quot (hf : LogOk lf) {L : ℤ} {lam : ℝ} (hL : 1 ≤ L) (hL' : L ≤ 2 ^ 40) (hlam : 1 < lam) (hr : Rep lam)
    (hb : lam < (2 : ℝ) ^ (1024 : ℤ)) :
    ∃ q, (npLog lf (.ofInt L)).div (npLog lf (.fin lam)) = .fin q ∧
      |q - Real.log L / Real.log lam| ≤ Real.log L / Real.log lam / 2 ^ 47 := by
  have hl := Real.log_pos hlam
  have hlg := hr.log_ge hlam
  have hLr : (1 : ℝ) ≤ L := by exact_mod_cast hL
  have hLr' : (L : ℝ) ≤ 2 ^ 40 := by exact_mod_cast hL'
  obtain ⟨y, hy, hya⟩ := hf lam (by linarith) hr hb
  have hL1 : (L : ℝ) < (2 : ℝ) ^ (1024 : ℤ) :=
    lt_of_le_of_lt hLr' (by rw [← zpow_natCast]; exact zpow_lt_zpow_right₀ (by norm_num) (by norm_num))
  obtain ⟨x, hx, hxa⟩ := hf L (by linarith) (rep_int (by rw [abs_of_nonneg (by omega)]; exact hL'.trans (by norm_num))) hL1
  rw [F64.ofInt_eq (by rw [abs_of_nonneg (by omega)]; exact hL'.trans (by norm_num))]
  simp only [npLog]
  rw [if_pos (by linarith), if_pos (by linarith), hx, hy]
  rw [abs_of_pos hl] at hya
  have ry := Rl.of_acc hl hya
  simp only [F64.div]
  rw [if_neg ry.pos.ne']
  rcases hL.eq_or_lt with h1 | h1
  · subst h1
    simp only [Int.cast_one, Real.log_one, abs_zero, zero_div, sub_zero, abs_nonpos_iff] at hxa ⊢
    subst hxa
    refine ⟨0, ?_, by simp⟩
    rw [zero_div, F64.of_fin' (by rw [abs_zero]; positivity), rnd_zero]
  · have h2 : (2 : ℝ) ≤ L := by exact_mod_cast h1
    have hlL : 1 / 2 ≤ Real.log L := by
      have a := Real.log_le_log (by norm_num) h2
      have b := Real.log_two_gt_d9
      linarith
    have hlL' : Real.log L ≤ 2 ^ 6 := by
      have a := Real.log_le_log (by linarith) hLr'
      rw [Real.log_pow] at a
      have b := Real.log_two_lt_d9
      norm_num at a ⊢; linarith
    have hlp : 0 < Real.log L := by linarith
    rw [abs_of_pos hlp] at hxa
    have rx := Rl.of_acc hlp hxa
    have rq := rx.div ry
    have hlu : Real.log lam ≤ 2 ^ 10 := by
      have a := Real.log_le_log (by linarith) hb.le
      rw [Real.log_zpow] at a
      have b := Real.log_two_lt_d9
      refine a.trans ?_
      push_cast
      norm_num; linarith
    have bq := rq.bounds (by norm_num)
    have hq0 : (1 : ℝ) / 2 ^ 11 ≤ Real.log L / Real.log lam := by
      rw [div_le_div_iff₀ (by positivity) hl]
      norm_num at hlu ⊢; linarith
    have hq1 : Real.log L / Real.log lam ≤ 2 ^ 60 := by
      rw [div_le_iff₀ hl]
      norm_num at hlL' hlg ⊢; linarith
    have hq2 : (1 : ℝ) / 2 ^ 40 ≤ x / y := by
      refine le_trans ?_ bq.1
      norm_num at hq0 ⊢; linarith
    refine ⟨rnd (x / y), ?_, ((Rl.rnd hq2).trans rq).near (by norm_num)⟩
    rw [F64.of_fin]
    rw [abs_of_pos rq.pos]
    refine bq.2.trans ?_
    have h3 : (2 : ℝ) * (Real.log L / Real.log lam) ≤ 2 ^ 61 := by norm_num at hq1 ⊢; linarith
    refine h3.trans ?_
    first | exact pow_le_pow_right₀ (by norm_num) (by norm_num) | (rw [← zpow_natCast]; exact zpow_le_zpow_right₀ (by norm_num) (by norm_num))

/-- the top scale found in double precision -/
theorem j_max64_spec (hf : LogOk lf) {L : ℤ} {lam : ℝ} (hL : 1 ≤ L) (hL' : L ≤ 2 ^ 40) (hlam : 1 < lam) (hr : Rep lam)
    (hb : lam < (2 : ℝ) ^ (1024 : ℤ)) :
    ∃ J, j_max64 lf L lam = .ok J ∧ 0 ≤ J ∧ (L : ℝ) - 1 / 2 ≤ lam ^ J ∧ lam ^ (J - 1) < (L : ℝ) + 3 / 4 := by
  obtain ⟨q, h, hq⟩ := log_quot hf hL hL' hlam hr hb
  have hl := Real.log_pos hlam
  have hLr : (1 : ℝ) ≤ L := by exact_mod_cast hL
  have hLr' : (L : ℝ) ≤ 2 ^ 40 := by exact_mod_cast hL'
  have hl0 : 0 ≤ Real.log L := Real.log_nonneg hLr
  have hlL' : Real.log L ≤ 2 ^ 5 := by
    have a := Real.log_le_log (by linarith) hLr'
    rw [Real.log_pow] at a
    have b := Real.log_two_lt_d9
    norm_num at a ⊢; linarith
  obtain ⟨ha, hc⟩ := abs_le.1 hq
  have hqq : Real.log L / Real.log lam * Real.log lam = Real.log L := div_mul_cancel₀ _ hl.ne'
  have hq0 : 0 ≤ Real.log L / Real.log lam := div_nonneg hl0 hl.le
  generalize Real.log L / Real.log lam = Q at *
  have hl0' : (0 : ℝ) < lam := by linarith
  refine ⟨⌈q⌉, by rw [j_max64, h]; rfl, ?_, ?_, ?_⟩
  · apply Int.ceil_nonneg
    norm_num at ha; linarith
  · -- `L * exp (-2^-42) ≤ lam ^ J`
    have h1 : Real.log L - 1 / 2 ^ 42 ≤ (⌈q⌉ : ℝ) * Real.log lam := by
      have h2 : (Q - Q / 2 ^ 47) * Real.log lam ≤ (⌈q⌉ : ℝ) * Real.log lam :=
        mul_le_mul_of_nonneg_right (by have := Int.le_ceil q; linarith) hl.le
      have h3 : (Q - Q / 2 ^ 47) * Real.log lam = Real.log L - Real.log L / 2 ^ 47 := by rw [← hqq]; ring
      rw [h3] at h2
      norm_num at h2 hlL' ⊢; linarith
    have h4 := Real.exp_le_exp.2 h1
    rw [Real.exp_sub, Real.exp_log (by linarith), ← Real.log_zpow, Real.exp_log (zpow_pos hl0' _)] at h4
    refine le_trans ?_ h4
    have h5 := Real.one_sub_le_exp_neg (1 / 2 ^ 42 : ℝ)
    rw [div_eq_mul_inv (L : ℝ) (Real.exp _), ← Real.exp_neg]
    have h6 : (L : ℝ) * (1 - 1 / 2 ^ 42) ≤ L * Real.exp (-(1 / 2 ^ 42)) := mul_le_mul_of_nonneg_left h5 (by linarith)
    refine le_trans ?_ h6
    norm_num at hLr' ⊢; linarith
  · have h1 : ((⌈q⌉ - 1 : ℤ) : ℝ) * Real.log lam < Real.log L + 1 / 2 ^ 42 := by
      have h2 : ((⌈q⌉ - 1 : ℤ) : ℝ) * Real.log lam < (Q + Q / 2 ^ 47) * Real.log lam :=
        mul_lt_mul_of_pos_right (by have := Int.ceil_lt_add_one q; push_cast; linarith) hl
      have h3 : (Q + Q / 2 ^ 47) * Real.log lam = Real.log L + Real.log L / 2 ^ 47 := by rw [← hqq]; ring
      rw [h3] at h2
      norm_num at h2 hlL' ⊢; linarith
    have h4 := Real.exp_lt_exp.2 h1
    rw [Real.exp_add, Real.exp_log (by linarith), ← Real.log_zpow, Real.exp_log (zpow_pos hl0' _)] at h4
    refine lt_of_lt_of_le h4 ?_
    have h5 : Real.exp (1 / 2 ^ 42 : ℝ) ≤ 1 + 1 / 2 ^ 41 := by
      have h6 := Real.one_sub_le_exp_neg (1 / 2 ^ 42 : ℝ)
      rw [Real.exp_neg] at h6
      have h7 := Real.exp_pos (1 / 2 ^ 42 : ℝ)
      have h8 := mul_le_mul_of_nonneg_right h6 h7.le
      rw [inv_mul_cancel₀ h7.ne'] at h8
      generalize Real.exp (1 / 2 ^ 42 : ℝ) = E at *
      norm_num at h8 ⊢; linarith
    have h6 : (L : ℝ) * Real.exp (1 / 2 ^ 42) ≤ L * (1 + 1 / 2 ^ 41) := mul_le_mul_of_nonneg_left h5 (by linarith)
    refine h6.trans ?_
    norm_num at hLr' ⊢; linarith

/-- correctly rounded logarithm -/
noncomputable def logExact (x : ℝ) : F64 := .of (Real.log x)

theorem logExact_ok : LogOk logExact := by
  intro x h0 hr hb
  have hub : Real.log x ≤ 2 ^ 11 := by
    have a := Real.log_le_log h0 hb.le
    rw [Real.log_zpow] at a
    have b := Real.log_two_lt_d9
    refine a.trans ?_
    push_cast
    norm_num; linarith
  have hlb : -2 ^ 11 ≤ Real.log x := by
    have h1 : (2 : ℝ) ^ (-1074 : ℤ) ≤ x := by
      obtain ⟨k, rfl⟩ := rep_small hr
      have h2 : (0 : ℝ) < 2 ^ (-1074 : ℤ) := by positivity
      have h3 : (0 : ℝ) < k := by
        by_contra h
        have := mul_nonpos_of_nonpos_of_nonneg (not_lt.1 h) h2.le
        linarith
      have h4 : (1 : ℝ) ≤ k := by exact_mod_cast (by exact_mod_cast h3 : (0 : ℤ) < k)
      exact le_mul_of_one_le_left h2.le h4
    have a := Real.log_le_log (by positivity) h1
    rw [Real.log_zpow] at a
    have b := Real.log_two_lt_d9
    refine le_trans ?_ a
    push_cast
    norm_num; linarith
  refine ⟨rnd (Real.log x), ?_, ?_⟩
  · rw [logExact, F64.of_fin']
    rw [abs_le]
    norm_num at hub hlb ⊢
    constructor <;> linarith
  · rcases eq_or_ne x 1 with h1 | h1
    · subst h1; simp [rnd_zero]
    · have hge : 1 / 2 ^ 54 ≤ |Real.log x| := by
        rcases lt_or_gt_of_ne h1 with h2 | h2
        · have h3 := hr.far_one h1
          rw [abs_of_neg (by linarith)] at h3
          have h4 := Real.log_le_sub_one_of_pos h0
          rw [abs_of_neg (by linarith)]
          norm_num at h3 ⊢; linarith
        · rw [abs_of_pos (Real.log_pos h2)]; exact hr.log_ge h2
      have h5 := rnd_acc' (Real.log x)
      generalize |Real.log x| = z at *
      refine h5.trans ?_
      norm_num at hge ⊢; linarith

end S2wav
