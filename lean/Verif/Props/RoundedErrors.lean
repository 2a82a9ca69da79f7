import Verif.Props.RoundedSamples
import Verif.Props.Domain

/-! # C103: the exceptions of `j_max` in double precision -/

namespace S2wav
open Classical

variable {lf : ℝ → F64} {L : ℤ} {lam : ℝ}

/-- **C103** outside `1 ≤ L`, `0 < lam ≠ 1` the double precision `j_max` does what the exact one does: a `ValueError` for a negative
band-limit or `lam`, for `L = lam = 0` and for `L = lam = 1`; an `OverflowError` for `L = 0 < lam` and for `2 ≤ L`, `lam = 1`; the
value 0 for `1 ≤ L`, `lam = 0`. -/
theorem C103_errors (hf : LogOk lf) (hL : |L| ≤ 2 ^ 53) (hr : Rep lam) (hb : lam < (2 : ℝ) ^ (1024 : ℤ))
    (h : L ≤ 0 ∨ lam ≤ 0 ∨ lam = 1) : j_max64 lf L lam = j_max L lam := by
  have hL1 : (L : ℝ) < (2 : ℝ) ^ (1024 : ℤ) := by
    have h1 : (L : ℝ) ≤ 2 ^ 53 := by exact_mod_cast (le_abs_self L).trans hL
    exact lt_of_le_of_lt h1 (by rw [← zpow_natCast]; exact zpow_lt_zpow_right₀ (by norm_num) (by norm_num))
  unfold j_max64
  rw [F64.ofInt_eq hL]
  simp only [npLog]
  rcases lt_trichotomy L 0 with l0 | l0 | l0
  · have l1 : (L : ℝ) < 0 := by exact_mod_cast l0
    rw [if_neg (by linarith), if_neg l1.ne, j_max, if_pos (Or.inl l0)]
    simp [F64.div, F64.ceil]
  · subst l0
    rw [if_neg (by simp), if_pos (by simp)]
    rcases lt_trichotomy lam 0 with a | a | a
    · rw [if_neg (by linarith), if_neg a.ne, j_max, if_pos (Or.inr a)]
      simp [F64.div, F64.ceil]
    · subst a
      rw [if_neg (by simp), if_pos rfl, j_max, if_neg (by simp), if_pos rfl, if_pos rfl]
      simp [F64.div, F64.ceil]
    · obtain ⟨y, hy, -⟩ := hf lam a hr hb
      rw [if_pos a, hy, j_max, if_neg (by simp; exact a.le), if_neg a.ne', if_pos rfl]
      simp only [F64.div]
      split_ifs <;> rfl
  · have l1 : (0 : ℝ) < L := by exact_mod_cast l0
    obtain ⟨x, hx, hxa⟩ := hf L l1 (rep_int hL) hL1
    rw [if_pos l1, hx]
    rcases lt_trichotomy lam 0 with a | a | a
    · rw [if_neg (by linarith), if_neg a.ne, j_max, if_pos (Or.inr a)]
      simp [F64.div, F64.ceil]
    · subst a
      rw [if_neg (by simp), if_pos rfl, j_max, if_neg (by simp; omega), if_pos rfl, if_neg l0.ne']
      simp [F64.div, F64.ceil]
    · have e : lam = 1 := by
        rcases h with h | h | h
        · omega
        · linarith
        · exact h
      subst e
      obtain ⟨y, hy, hya⟩ := hf 1 a hr hb
      simp only [Real.log_one, abs_zero, zero_div, sub_zero, abs_nonpos_iff] at hya
      subst hya
      rw [if_pos a, hy, j_max, if_neg (by simp; omega), if_neg a.ne', if_neg l0.ne', if_pos rfl]
      simp only [F64.div, if_true, F64.infOf]
      rcases eq_or_ne L 1 with e1 | e1
      · subst e1
        simp only [Int.cast_one, Real.log_one, abs_zero, zero_div, sub_zero, abs_nonpos_iff] at hxa
        subst hxa
        simp [F64.ceil]
      · have h2 : (1 : ℝ) < L := by exact_mod_cast (by omega : 1 < L)
        have hp := Real.log_pos h2
        rw [abs_of_pos hp] at hxa
        rw [if_neg e1, if_pos (Rl.of_acc hp hxa).pos]
        rfl

/-- **C103** for `0 < lam < 1` the double precision `j_max` returns an integer that is not positive, as the exact one does (C01). -/
theorem C103_contracting (hf : LogOk lf) (hL : 1 ≤ L) (hL' : L ≤ 2 ^ 53) (hr : Rep lam) (h0 : 0 < lam) (h1 : lam < 1) :
    ∃ J ≤ 0, j_max64 lf L lam = .ok J := by
  have hLr : (1 : ℝ) ≤ L := by exact_mod_cast hL
  have hLr' : (L : ℝ) ≤ 2 ^ 53 := by exact_mod_cast hL'
  have hLa : |L| ≤ 2 ^ 53 := by rw [abs_of_nonneg (by omega)]; exact hL'
  have hL1 : (L : ℝ) < (2 : ℝ) ^ (1024 : ℤ) :=
    lt_of_le_of_lt hLr' (by rw [← zpow_natCast]; exact zpow_lt_zpow_right₀ (by norm_num) (by norm_num))
  have hb : lam < (2 : ℝ) ^ (1024 : ℤ) := lt_of_lt_of_le h1 (one_le_zpow₀ (by norm_num) (by norm_num))
  obtain ⟨y, hy, hya⟩ := hf lam h0 hr hb
  obtain ⟨x, hx, hxa⟩ := hf L (by linarith) (rep_int hLa) hL1
  have hfar := hr.far_one h1.ne
  rw [abs_of_neg (by linarith)] at hfar
  have hlog := Real.log_le_sub_one_of_pos h0
  have hlL : 0 ≤ Real.log L := Real.log_nonneg hLr
  have hlL' : Real.log L ≤ 2 ^ 6 := by
    have a := Real.log_le_log (by linarith) hLr'
    rw [Real.log_pow] at a
    have b := Real.log_two_lt_d9
    norm_num at a ⊢; linarith
  rw [abs_of_nonneg hlL] at hxa
  rw [abs_of_nonpos (by linarith : Real.log lam ≤ 0)] at hya
  generalize Real.log lam = u at *
  generalize Real.log (L : ℝ) = v at *
  have hx' := abs_le.1 hxa
  have hy' := abs_le.1 hya
  have x0 : 0 ≤ x := by norm_num at hx'; linarith
  have x1 : x ≤ 2 ^ 7 := by norm_num at hx' hlL' ⊢; linarith
  have y1 : y ≤ -(1 / 2 ^ 54) := by norm_num at hy' hfar ⊢; linarith
  have y0 : y < 0 := lt_of_le_of_lt y1 (by norm_num)
  unfold j_max64
  rw [F64.ofInt_eq hLa]
  simp only [npLog]
  rw [if_pos (by linarith), if_pos h0, hx, hy]
  simp only [F64.div]
  have hq : x / y ≤ 0 := div_nonpos_of_nonneg_of_nonpos x0 y0.le
  have hq' : |x / y| ≤ (2 : ℝ) ^ (1000 : ℤ) := by
    have e : (2 : ℝ) ^ (61 : ℤ) ≤ (2 : ℝ) ^ (1000 : ℤ) := zpow_le_zpow_right₀ (by norm_num) (by norm_num)
    refine le_trans ?_ e
    rw [abs_div, abs_of_nonneg x0, abs_of_neg y0, div_le_iff₀ (by linarith)]
    norm_num at x1 y1 ⊢; linarith
  rw [if_neg y0.ne, F64.of_fin hq']
  exact ⟨⌈rnd (x / y)⌉, Int.ceil_le.2 (by push_cast; exact rnd_nonpos hq), rfl⟩

/-- **C103** the double precision `j_max` raises exactly the exceptions of the exact one, for every band-limit (of either sign) and every
double `lam`. -/
theorem C103_exceptions (hf : LogOk lf) (hL : |L| ≤ 2 ^ 40) (hr : Rep lam) (hb : lam < (2 : ℝ) ^ (1024 : ℤ)) (e : PyErr) :
    j_max64 lf L lam = .error e ↔ j_max L lam = .error e := by
  have hL' := abs_le.1 hL
  by_cases h : L ≤ 0 ∨ lam ≤ 0 ∨ lam = 1
  · rw [C103_errors hf (hL.trans (by norm_num)) hr hb h]
  · simp only [not_or, not_le] at h
    obtain ⟨a, b, c⟩ := h
    have e2 : j_max L lam ≠ .error e := by
      obtain ⟨J, hJ⟩ := (C01_errors L lam).2.2.1.2 ⟨by omega, b.le, c⟩
      rw [hJ]; simp
    have e1 : j_max64 lf L lam ≠ .error e := by
      rcases lt_or_gt_of_ne c with c | c
      · obtain ⟨J, -, hJ⟩ := C103_contracting hf (by omega) (hL'.2.trans (by norm_num)) hr b c
        rw [hJ]; simp
      · obtain ⟨J, hJ, -⟩ := C103_top_scale hf (by omega) hL'.2 c hr hb
        rw [hJ]; simp
    exact ⟨fun h => absurd h e1, fun h => absurd h e2⟩

/-- **C103** so there are no filters for `lam ≤ 1` in double precision either: every choice of `J_min` raises an exception -/
theorem C103_no_filters (m : Libm) (hf : LogOk lf) (hL : |L| ≤ 2 ^ 40) (hr : Rep lam) (h : lam ≤ 1) (J_min : ℤ) :
    ∃ e, filters_axisym_vectorised64 m (j_max64 lf) L J_min lam = .error e := by
  have hb : lam < (2 : ℝ) ^ (1024 : ℤ) := by
    have : (1 : ℝ) < (2 : ℝ) ^ (1024 : ℤ) := one_lt_zpow₀ (by norm_num) (by norm_num)
    exact lt_of_le_of_lt h this
  have key : (∃ e, j_max64 lf L lam = .error e) ∨ ∃ J ≤ 0, j_max64 lf L lam = .ok J := by
    by_cases h' : L ≤ 0 ∨ lam ≤ 0 ∨ lam = 1
    · rw [C103_errors hf (hL.trans (by norm_num)) hr hb h']
      cases hj : j_max L lam with
      | error e => exact .inl ⟨e, rfl⟩
      | ok J =>
        have h1 := (C01_errors L lam).2.2.1.1 ⟨J, hj⟩
        exact .inr ⟨J, (C01_errors L lam).2.2.2 J hj (lt_of_le_of_ne h h1.2.2), rfl⟩
    · simp only [not_or, not_le] at h'
      exact .inr (C103_contracting hf (by omega) ((abs_le.1 hL).2.trans (by norm_num)) hr h'.2.1 (lt_of_le_of_ne h h'.2.2))
  unfold filters_axisym_vectorised64
  rcases key with ⟨e, he⟩ | ⟨J, hJ, he⟩
  · rw [he]; exact ⟨e, rfl⟩
  · rw [he]
    refine ⟨.valueError, ?_⟩
    show (if J_min ≥ J ∨ J_min < 0 then _ else _) = _
    rw [if_pos (by omega)]

/-- the hypotheses are met: an empty band-limit raises `OverflowError`, a negative one `ValueError`, dyadic scaling -/
example : j_max64 logExact 0 2 = .error .overflow ∧ j_max64 logExact (-3) 2 = .error .valueError ∧
    j_max64 logExact 64 1 = .error .overflow ∧ j_max64 logExact 1 1 = .error .valueError := by
  have r2 : Rep 2 := ⟨2, 0, by norm_num, by norm_num, by norm_num⟩
  have r1 : Rep 1 := ⟨1, 0, by norm_num, by norm_num, by norm_num⟩
  have b2 : (2 : ℝ) < (2 : ℝ) ^ (1024 : ℤ) := by
    have := zpow_lt_zpow_right₀ (a := (2 : ℝ)) (by norm_num) (by norm_num : (1 : ℤ) < 1024)
    rwa [zpow_one] at this
  have b1 : (1 : ℝ) < (2 : ℝ) ^ (1024 : ℤ) := lt_trans (by norm_num) b2
  rw [C103_errors logExact_ok (by norm_num) r2 b2 (by norm_num), C103_errors logExact_ok (by norm_num) r2 b2 (by norm_num),
    C103_errors logExact_ok (by norm_num) r1 b1 (by norm_num), C103_errors logExact_ok (by norm_num) r1 b1 (by norm_num)]
  norm_num [j_max]

/-- `lam = 1/2`: `j_max` is not positive and nothing can be built -/
example (m : Libm) (J_min : ℤ) : (∃ J ≤ 0, j_max64 logExact 64 (1 / 2) = .ok J) ∧
    ∃ e, filters_axisym_vectorised64 m (j_max64 logExact) 64 J_min (1 / 2) = .error e := by
  have r : Rep (1 / 2) := ⟨1, -1, by norm_num, by norm_num, by norm_num⟩
  exact ⟨C103_contracting logExact_ok (by norm_num) (by norm_num) r (by norm_num) (by norm_num),
    C103_no_filters m logExact_ok (by norm_num) r (by norm_num) J_min⟩

end S2wav
