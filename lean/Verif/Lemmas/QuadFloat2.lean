import Verif.Lemmas.QuadFloat

/-! # Values computed in double precision for `lam = 2` -/

namespace S2wav
open Classical

theorem F64.of_rep {x : ℝ} (hr : Rep x) (h : |x| ≤ 4 * 2 ^ 53) : F64.of x = .fin x := by
  rw [F64.of_fin' h, rnd_id hr]

theorem rep_one : Rep (1 : ℝ) := by have := rep_int (n := 1) (by norm_num); push_cast at this; exact this
theorem rep_two : Rep (2 : ℝ) := by have := rep_int (n := 2) (by norm_num); push_cast at this; exact this
theorem rep_four : Rep (4 : ℝ) := by have := rep_int (n := 4) (by norm_num); push_cast at this; exact this
theorem rep_half : Rep (1 / 2 : ℝ) := by have := rep_div (k := 1) 1 (by norm_num) (by norm_num); norm_num at this ⊢; exact this

theorem F64.sub_fin (x y : ℝ) : (F64.fin x).sub (.fin y) = F64.of (x - y) := by
  rw [sub_eq_add_neg]; rfl

theorem F64.mul_fin (x y : ℝ) : (F64.fin x).mul (.fin y) = F64.of (x * y) := rfl
theorem F64.add_fin (x y : ℝ) : (F64.fin x).add (.fin y) = F64.of (x + y) := rfl
theorem F64.div_fin {x y : ℝ} (h : y ≠ 0) : (F64.fin x).div (.fin y) = F64.of (x / y) := by
  change (if y = 0 then _ else _) = _
  rw [if_neg h]
theorem F64.pdiv_fin {x y : ℝ} (h : y ≠ 0) : (F64.fin x).pdiv (.fin y) = .ok (F64.of (x / y)) := by
  unfold F64.pdiv
  rw [if_neg (by intro h'; exact h (F64.fin.inj h')), F64.div_fin h]
theorem F64.eq_fin (x y : ℝ) : (F64.fin x).eq (.fin y) ↔ x = y := Iff.rfl

theorem inv_two64 : F64.pdiv (.fin 1) (.fin 2) = .ok (.fin (1 / 2)) := by
  rw [F64.pdiv_fin (by norm_num), F64.of_rep rep_half (by rw [abs_of_pos] <;> norm_num)]

theorem slope_two64 : F64.pdiv ((F64.fin 2).mul (.fin 2)) ((F64.fin 2).sub (.fin 1)) = .ok (.fin 4) := by
  rw [F64.mul_fin, F64.sub_fin, show (2 : ℝ) * 2 = 4 by norm_num, show (2 : ℝ) - 1 = 1 by norm_num,
    F64.of_rep rep_four (by rw [abs_of_pos] <;> norm_num), F64.of_rep rep_one (by rw [abs_of_pos] <;> norm_num),
    F64.pdiv_fin (by norm_num), div_one, F64.of_rep rep_four (by rw [abs_of_pos] <;> norm_num)]

theorem Libm.pyPow_fin {m : Libm} {x y : ℝ} {n : ℤ} (h : m.pow x n = .fin y) : m.pyPow (.fin x) n = .ok (.fin y) := by
  simp only [Libm.pyPow, h]

variable {m : Libm} (hm : m.Ok)
include hm

/-- the integrand at a double strictly inside `(1/2, 1)` -/
theorem tiling_two64 {x : ℝ} (hr : Rep x) (h1 : 1 / 2 < x) (h2 : x < 1) :
    ∃ f, tiling_integrand64 m (.fin x) (.fin 2) = .ok (.fin f) ∧ 0 ≤ f ∧ f ≤ 2 ∧ |f - bump2 x| ≤ 1 / 2 ^ 45 := by
  obtain ⟨k, hk, hk1⟩ := half_rep hr h1.le
  have hk2 : k < 2 ^ 53 := by
    have : (k : ℝ) < 2 ^ 53 := by rw [hk, div_lt_one (by positivity)] at h2; exact h2
    exact_mod_cast this
  have hk3 : 2 ^ 52 < k := by
    have : (2 ^ 52 : ℝ) < k := by
      rw [hk, lt_div_iff₀ (by positivity)] at h1
      norm_num at h1 ⊢; linarith
    exact_mod_cast this
  have hb : ∀ y : ℝ, -4 ≤ y → y ≤ 4 → |y| ≤ 4 * 2 ^ 53 := fun y ha hb => by
    rw [abs_le]; constructor <;> norm_num <;> linarith
  -- the argument of the bump is computed exactly
  have s1 : F64.of (x - 1 / 2) = .fin (x - 1 / 2) := by
    refine F64.of_rep ?_ (hb _ (by linarith) (by linarith))
    have : x - 1 / 2 = ((k - 2 ^ 52 : ℤ) : ℝ) / 2 ^ 53 := by rw [hk]; push_cast; field_simp; norm_num
    rw [this]; exact rep_div 53 (by norm_num) (by rw [abs_le]; constructor <;> omega)
  have s2 : F64.of ((x - 1 / 2) * 4) = .fin ((x - 1 / 2) * 4) := by
    refine F64.of_rep ?_ (hb _ (by linarith) (by linarith))
    have : (x - 1 / 2) * 4 = ((k - 2 ^ 52 : ℤ) : ℝ) / 2 ^ 51 := by rw [hk]; push_cast; field_simp; norm_num; ring
    rw [this]; exact rep_div 51 (by norm_num) (by rw [abs_le]; constructor <;> omega)
  have s3 : F64.of ((x - 1 / 2) * 4 - 1) = .fin (4 * x - 3) := by
    rw [show (x - 1 / 2) * 4 - 1 = 4 * x - 3 by ring]
    refine F64.of_rep ?_ (hb _ (by linarith) (by linarith))
    have : 4 * x - 3 = ((k - 3 * 2 ^ 51 : ℤ) : ℝ) / 2 ^ 51 := by rw [hk]; push_cast; field_simp; norm_num; ring
    rw [this]; exact rep_div 51 (by norm_num) (by rw [abs_le]; constructor <;> omega)
  set s := 4 * x - 3 with hs
  have hsb : |s| ≤ 1 - 1 / 2 ^ 51 := by
    have e : s = ((k - 3 * 2 ^ 51 : ℤ) : ℝ) / 2 ^ 51 := by rw [hs, hk]; push_cast; field_simp; norm_num; ring
    have e1 : ((k - 3 * 2 ^ 51 : ℤ) : ℝ) ≤ 2 ^ 51 - 1 := by exact_mod_cast (by omega : k - 3 * 2 ^ 51 ≤ 2 ^ 51 - 1)
    have e2 : -(2 ^ 51 - 1) ≤ ((k - 3 * 2 ^ 51 : ℤ) : ℝ) := by exact_mod_cast (by omega : -(2 ^ 51 - 1) ≤ k - 3 * 2 ^ 51)
    rw [e, abs_le]
    constructor
    · rw [le_div_iff₀ (by positivity)]; norm_num at e2 ⊢; linarith
    · rw [div_le_iff₀ (by positivity)]; norm_num at e1 ⊢; linarith
  obtain ⟨y, hy, hya⟩ := hm.pow_two s (by linarith [show (0 : ℝ) < 1 / 2 ^ 51 by positivity])
  have hpow : m.pyPow (.fin s) 2 = .ok (.fin y) := Libm.pyPow_fin hy
  have hs2 : s ^ 2 ≤ 1 - 1 / 2 ^ 50 + 1 / 2 ^ 102 := by
    rw [← sq_abs]
    have h0 := abs_nonneg s
    calc |s| ^ 2 ≤ (1 - 1 / 2 ^ 51) ^ 2 := by gcongr
      _ = _ := by norm_num
  have hs0 := sq_nonneg s
  have hya' : |y - s ^ 2| ≤ s ^ 2 / 2 ^ 52 + 1 / 2 ^ 110 := by
    refine hya.trans (add_le_add ?_ tiny_le)
    rw [show (-52 : ℤ) = -((52 : ℕ) : ℤ) by norm_num, zpow_neg, zpow_natCast]
    exact le_of_eq (by ring)
  have hya2 := abs_le.1 hya'
  -- the denominator stays away from zero
  have hd1 : 1 / 2 ^ 51 ≤ 1 - y := by norm_num at hya2 hs2 ⊢; linarith
  have hd2 : 1 - y ≤ 1 + 1 / 2 ^ 100 := by norm_num at hya2 hs2 ⊢; linarith
  set d := rnd (1 - y) with hd
  have hof : F64.of (1 - y) = .fin d := F64.of_fin' (hb _ (by norm_num at hd1 ⊢; linarith) (by norm_num at hd2 ⊢; linarith))
  have hd3 : 1 / 2 ^ 51 ≤ d := by
    have hr51 : Rep ((1 : ℝ) / 2 ^ 51) := by
      have := rep_div (k := 1) 51 (by norm_num) (by norm_num); push_cast at this; exact this
    exact le_rnd hr51 hd1
  have hd4 : d ≤ 2 := rnd_le rep_two (by norm_num at hd2 ⊢; linarith)
  have hd0 : 0 < d := lt_of_lt_of_le (by positivity) hd3
  have hdd := abs_le.1 (rnd_acc' (1 - y))
  rw [abs_of_nonneg (le_trans (by positivity) hd1)] at hdd
  have hdD : |d - (1 - s ^ 2)| ≤ 1 / 2 ^ 51 := by
    rw [abs_le]; norm_num at hdd hya2 hs2 hd2 ⊢; constructor <;> linarith
  -- the exponent
  have hz1 : 1 ≤ 2 / d := by rw [le_div_iff₀ hd0]; linarith
  have hz2 : 2 / d ≤ 2 ^ 52 := by
    rw [div_le_iff₀ hd0]; norm_num at hd3 ⊢; linarith
  set e := rnd (-2 / d) with he
  have hofe : F64.of (-2 / d) = .fin e := F64.of_fin' (by
    rw [abs_div, abs_of_pos hd0]
    norm_num at hz2 ⊢; linarith)
  have hre : Rep (-1 : ℝ) := rep_one.neg
  have he0 : e ≤ -1 := rnd_le hre (by rw [neg_div]; linarith)
  have hee := abs_le.1 (rnd_acc' (-2 / d))
  have hz0 : |(-2 : ℝ) / d| = 2 / d := by rw [abs_div, abs_of_pos hd0]; norm_num
  rw [hz0, ← he] at hee
  obtain ⟨w, hw, hw0, hw1, hwa⟩ := hm.exp_acc e (by linarith)
  -- error of the exponential
  have hE1 : |Real.exp e - Real.exp (-2 / d)| ≤ 1 / 2 ^ 51 := by
    set z := 2 / d with hz
    have hz' : -2 / d = -z := by rw [hz]; ring
    rw [hz'] at hee ⊢
    have hze : |e - -z| ≤ z / 2 ^ 52 := by
      rw [abs_le]; norm_num at hee hz1 ⊢; constructor <;> linarith
    have hz3 : z / 2 ≤ -e := by have := abs_le.1 hze; norm_num at this ⊢; linarith
    have key : ∀ u v : ℝ, u ≤ v → z / 2 ≤ u → v - u ≤ z / 2 ^ 52 → Real.exp (-u) - Real.exp (-v) ≤ 1 / 2 ^ 51 := by
      intro u v huv hu hd
      refine (exp_sub_le huv).trans ?_
      have h3 : Real.exp (-u) ≤ Real.exp (-(z / 2)) := Real.exp_le_exp.2 (by linarith)
      have h4 : z / 2 * Real.exp (-(z / 2)) ≤ 1 := by
        rw [Real.exp_neg, ← div_eq_mul_inv, div_le_one (Real.exp_pos _)]
        linarith [Real.add_one_le_exp (z / 2)]
      calc (v - u) * Real.exp (-u) ≤ z / 2 ^ 52 * Real.exp (-(z / 2)) := by
            gcongr
        _ = 1 / 2 ^ 51 * (z / 2 * Real.exp (-(z / 2))) := by norm_num; ring
        _ ≤ 1 / 2 ^ 51 * 1 := by gcongr
        _ = _ := by ring
    rcases le_total z (-e) with hc | hc
    · have := key z (-e) hc (by linarith) (by have := abs_le.1 hze; linarith)
      rw [neg_neg] at this
      rw [abs_sub_comm, abs_of_nonneg]
      · exact this
      · have := Real.exp_le_exp.2 (show e ≤ -z by linarith); linarith
    · have := key (-e) z hc hz3 (by have := abs_le.1 hze; linarith)
      rw [neg_neg] at this
      rw [abs_of_nonneg]
      · exact this
      · have := Real.exp_le_exp.2 (show -z ≤ e by linarith); linarith
  have hE2 : |Real.exp (-2 / d) - phiD (1 - s ^ 2)| ≤ 1 / 2 ^ 49 := by
    have e1 : Real.exp (-2 / d) = phiD d := by unfold phiD; rw [if_neg (not_le.2 hd0)]
    rw [e1]
    refine (phiD_lip hd0.le (by linarith [show (0 : ℝ) < 1 / 2 ^ 50 - 1 / 2 ^ 102 by norm_num])).trans ?_
    norm_num at hdD ⊢; linarith
  have hE0 : |w - Real.exp e| ≤ 1 / 2 ^ 50 + 1 / 2 ^ 110 := by
    refine hwa.trans (add_le_add ?_ tiny_le)
    have : Real.exp e ≤ 1 := Real.exp_le_one_iff.2 (by linarith)
    rw [show (-50 : ℤ) = -((50 : ℕ) : ℤ) by norm_num, zpow_neg, zpow_natCast, ← one_div]
    exact mul_le_of_le_one_right (by positivity) this
  have hE : |w - phiD (1 - s ^ 2)| ≤ 1 / 2 ^ 48 := by
    have a0 := abs_le.1 hE0
    have a1 := abs_le.1 hE1
    have a2 := abs_le.1 hE2
    rw [abs_le]; norm_num at a0 a1 a2 ⊢; constructor <;> linarith
  -- the quotient by t
  have hx0 : 0 < x := by linarith
  have hwx : w / x ≤ 2 := by rw [div_le_iff₀ hx0]; linarith
  have hwx0 : 0 ≤ w / x := by positivity
  refine ⟨rnd (w / x), ?_, rnd_nonneg hwx0, rnd_le rep_two hwx, ?_⟩
  · unfold tiling_integrand64
    rw [inv_two64, slope_two64]
    simp only [Py.bind_ok]
    rw [F64.sub_fin, s1, F64.mul_fin, s2, F64.sub_fin, s3, hpow]
    simp only [Py.bind_ok]
    rw [F64.sub_fin, hof, F64.pdiv_fin hd0.ne', hofe]
    simp only [Py.bind_ok]
    change Except.ok (F64.div (m.exp e) (.fin x)) = _
    rw [hw, F64.div_fin hx0.ne', F64.of_fin' (hb _ (by linarith) (by linarith))]
  · have a0 := abs_le.1 (rnd_acc' (w / x))
    rw [abs_of_nonneg hwx0] at a0
    have a1 : |w / x - bump2 x| ≤ 1 / 2 ^ 47 := by
      unfold bump2
      rw [← sub_div, abs_div, abs_of_pos hx0, div_le_iff₀ hx0]
      refine hE.trans ?_
      norm_num at h1 ⊢; linarith
    have a2 := abs_le.1 a1
    rw [abs_le]; norm_num at a0 a2 ⊢; constructor <;> linarith

end S2wav
