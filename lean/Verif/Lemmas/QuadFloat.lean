import Verif.Lemmas.Ieee
import Verif.Lemmas.Overshoot

/-! # The quadrature in double precision for `lam = 2` -/

namespace S2wav
open Classical

/-! ### Rounded abscissae -/

theorem rnd_le_one {x : ℝ} (h : x ≤ 1 + 1 / 2 ^ 53) : rnd x ≤ 1 := by
  have h1 : Rep (1 : ℝ) := by have := rep_int (n := 1) (by norm_num); push_cast at this; exact this
  rcases le_or_gt x 1 with hx | hx
  · exact rnd_le h1 hx
  have he : (2 : ℝ) ^ (-52 : ℤ) = 1 / 2 ^ 52 := by
    rw [show (-52 : ℤ) = -((52 : ℕ) : ℤ) by norm_num, zpow_neg, zpow_natCast, one_div]
  rcases lt_or_eq_of_le h with h | h
  · rw [rnd_eval (x := x) (2 ^ 52) (-52) (by norm_num)] <;> rw [he] <;> push_cast <;> norm_num at h ⊢ <;> linarith
  · -- the tie goes to the even significand
    have hlo : Int.log 2 |x| = 0 := by
      have hx0 : 0 < x := by linarith
      have a1 : 0 ≤ Int.log 2 |x| := by
        refine (Int.zpow_le_iff_le_log (by norm_num) (abs_pos.2 hx0.ne')).1 ?_
        rw [abs_of_pos hx0]; norm_num; linarith
      have a2 : Int.log 2 |x| < 1 := by
        refine (Int.lt_zpow_iff_log_lt (by norm_num) (abs_pos.2 hx0.ne')).1 ?_
        rw [abs_of_pos hx0, h]; norm_num
      omega
    have hu : ulp x = 1 / 2 ^ 52 := by
      unfold ulp
      rw [hlo, ← he]; norm_num
    have hq : x / ulp x = ((2 ^ 52 : ℤ) : ℝ) + 1 / 2 := by rw [hu, h]; norm_num
    have hf : ⌊x / ulp x⌋ = 2 ^ 52 := by
      rw [hq, Int.floor_eq_iff]; constructor <;> linarith
    have : rne (x / ulp x) = 2 ^ 52 := by
      unfold rne
      rw [hf, if_neg (by rw [hq]; push_cast; linarith), if_neg (by rw [hq]; push_cast; linarith), if_pos (by norm_num)]
    unfold rnd
    rw [this, hu]
    norm_num

/-- a double in `[1/2, 1)` is a multiple of `2^-53` -/
theorem half_rep {a : ℝ} (ha : Rep a) (h1 : 1 / 2 ≤ a) : ∃ k : ℤ, a = k / 2 ^ 53 ∧ 2 ^ 52 ≤ k := by
  obtain ⟨k, hk⟩ := rep_mult (E := -1) ha (by rw [abs_of_nonneg (by linarith)]; norm_num; linarith)
  have : (2 : ℝ) ^ (-1 - 52 : ℤ) = 1 / 2 ^ 53 := by norm_num
  rw [this] at hk
  refine ⟨k, by rw [hk]; ring, ?_⟩
  have : (2 ^ 52 : ℝ) ≤ k := by rw [hk] at h1; norm_num at h1 ⊢; linarith
  exact_mod_cast this

theorem rep_div {k : ℤ} (n : ℕ) (hn : n ≤ 1074) (hk : |k| ≤ 2 ^ 53) : Rep ((k : ℝ) / 2 ^ n) :=
  ⟨k, -n, hk, by omega, by rw [zpow_neg, zpow_natCast]; ring⟩

theorem tiny_le : (2 : ℝ) ^ (-1022 : ℤ) ≤ 1 / 2 ^ 110 := by
  rw [show (1 : ℝ) / 2 ^ 110 = 2 ^ (-110 : ℤ) by norm_num]
  exact zpow_le_zpow_right₀ (by norm_num) (by norm_num)

theorem tiny_le' : (2 : ℝ) ^ (-1075 : ℤ) ≤ 1 / 2 ^ 110 := by
  rw [show (1 : ℝ) / 2 ^ 110 = 2 ^ (-110 : ℤ) by norm_num]
  exact zpow_le_zpow_right₀ (by norm_num) (by norm_num)

theorem rnd_acc' (x : ℝ) : |rnd x - x| ≤ |x| / 2 ^ 53 + 1 / 2 ^ 110 := by
  have h := rnd_acc x
  have h2 := tiny_le'
  have : (2 : ℝ) ^ (-53 : ℤ) * |x| = |x| / 2 ^ 53 := by
    rw [show (-53 : ℤ) = -((53 : ℕ) : ℤ) by norm_num, zpow_neg, zpow_natCast]; ring
  rw [this] at h
  exact h.trans (add_le_add_right h2 _)

/-- the rounded step and abscissae of the trapezium rule on `[a, 1]` -/
noncomputable def stepF (a : ℝ) (n : ℤ) : ℝ := rnd ((1 - a) / n)
noncomputable def nodeF (a : ℝ) (n i : ℤ) : ℝ := rnd (a + rnd (i * stepF a n))

section
variable {a : ℝ} {n : ℤ} (ha : Rep a) (h1 : 1 / 2 ≤ a) (h2 : a < 1) (hn1 : 1 ≤ n) (hn2 : n ≤ 2 ^ 53)
include ha h1 h2

theorem one_sub_rep : Rep (1 - a) ∧ 1 / 2 ^ 53 ≤ 1 - a := by
  obtain ⟨k, hk, hk2⟩ := half_rep ha h1
  have hk3 : k < 2 ^ 53 := by
    have : (k : ℝ) < 2 ^ 53 := by rw [hk, div_lt_one (by positivity)] at h2; exact h2
    exact_mod_cast this
  have e : 1 - a = ((2 ^ 53 - k : ℤ) : ℝ) / 2 ^ 53 := by rw [hk]; push_cast; field_simp; norm_num
  constructor
  · rw [e]; exact rep_div 53 (by norm_num) (by rw [abs_le]; constructor <;> omega)
  · rw [e]
    gcongr
    exact_mod_cast (by omega : (1 : ℤ) ≤ 2 ^ 53 - k)

include hn1 hn2

theorem step_acc : (2 ^ 53 + 1) * |stepF a n - (1 - a) / n| ≤ (1 - a) / n ∧ 1 / 2 ^ 106 ≤ (1 - a) / n := by
  have hd := (one_sub_rep ha h1 h2).2
  have hn' : (0 : ℝ) < n := by exact_mod_cast (by omega : 0 < n)
  have hn'' : (n : ℝ) ≤ 2 ^ 53 := by exact_mod_cast hn2
  have h3 : 1 / 2 ^ 106 ≤ (1 - a) / n := by
    rw [le_div_iff₀ hn']
    calc (1 : ℝ) / 2 ^ 106 * n ≤ 1 / 2 ^ 106 * 2 ^ 53 := by gcongr
      _ = 1 / 2 ^ 53 := by norm_num
      _ ≤ 1 - a := hd
  have h0 : 0 ≤ (1 - a) / n := le_trans (by positivity) h3
  refine ⟨?_, h3⟩
  have := rnd_rel (x := (1 - a) / n) (by
    rw [abs_of_nonneg h0]; exact tiny_le.trans (le_trans (by norm_num) h3))
  rwa [abs_of_nonneg h0] at this

theorem node_acc {i : ℤ} (hi0 : 0 ≤ i) (hi1 : i ≤ n) :
    Rep (nodeF a n i) ∧ a ≤ nodeF a n i ∧ nodeF a n i ≤ 1 ∧ |nodeF a n i - (a + i * ((1 - a) / n))| ≤ 1 / 2 ^ 51 := by
  obtain ⟨hs1, hs2⟩ := step_acc ha h1 h2 hn1 hn2
  have hn' : (0 : ℝ) < n := by exact_mod_cast (by omega : 0 < n)
  set H := (1 - a) / n with hH
  set h := stepF a n with hh
  have hi0' : (0 : ℝ) ≤ i := by exact_mod_cast hi0
  have hi1' : (i : ℝ) ≤ n := by exact_mod_cast hi1
  have hH0 : 0 < H := lt_of_lt_of_le (by positivity) hs2
  have hnH : n * H = 1 - a := by rw [hH]; field_simp
  have hiH : i * H ≤ 1 - a := by rw [← hnH]; gcongr
  have hiH0 : 0 ≤ i * H := by positivity
  obtain ⟨hs3, hs4⟩ := abs_le.1 (show |h - H| ≤ H / (2 ^ 53 + 1) by rw [le_div_iff₀ (by positivity)]; linarith)
  have hh2 : H / 2 ≤ h := by
    have : H / (2 ^ 53 + 1) ≤ H / 2 := by gcongr; norm_num
    linarith
  -- the product
  have hp : (2 ^ 53 + 1) * |rnd (i * h) - i * h| ≤ i * h := by
    rcases eq_or_lt_of_le hi0 with hi | hi
    · rw [← hi]; simp [rnd_zero]
    · have hi' : (1 : ℝ) ≤ i := by exact_mod_cast hi
      have hih : H / 2 ≤ i * h := by nlinarith
      have h0 : 0 ≤ i * h := by linarith
      have := rnd_rel (x := i * h) (by
        rw [abs_of_nonneg h0]
        exact tiny_le.trans (le_trans (by norm_num at hs2 ⊢; linarith) hih))
      rwa [abs_of_nonneg h0] at this
  have hih0 : 0 ≤ i * h := by
    have : 0 ≤ h := by linarith
    positivity
  set p := rnd (i * h) with hpdef
  have hp0 : 0 ≤ p := rnd_nonneg hih0
  obtain ⟨hp1, hp2⟩ := abs_le.1 (show |p - i * h| ≤ i * h / (2 ^ 53 + 1) by rw [le_div_iff₀ (by positivity)]; linarith)
  have hih1 : i * h ≤ i * H * (1 + 1 / (2 ^ 53 + 1)) := by
    have : i * (h - H) ≤ i * (H / (2 ^ 53 + 1)) := mul_le_mul_of_nonneg_left hs4 hi0'
    calc i * h = i * H + i * (h - H) := by ring
      _ ≤ i * H + i * (H / (2 ^ 53 + 1)) := by linarith
      _ = _ := by ring
  have hih2 : i * H * (1 - 1 / (2 ^ 53 + 1)) ≤ i * h := by
    have : i * -(H / (2 ^ 53 + 1)) ≤ i * (h - H) := mul_le_mul_of_nonneg_left hs3 hi0'
    calc i * H * (1 - 1 / (2 ^ 53 + 1)) = i * H + i * -(H / (2 ^ 53 + 1)) := by ring
      _ ≤ i * H + i * (h - H) := by linarith
      _ = i * h := by ring
  have hup : p ≤ i * H * (1 + 1 / 2 ^ 52) := by
    calc p ≤ i * h * (1 + 1 / (2 ^ 53 + 1)) := by linarith
      _ ≤ i * H * (1 + 1 / (2 ^ 53 + 1)) * (1 + 1 / (2 ^ 53 + 1)) := by gcongr
      _ = i * H * ((1 + 1 / (2 ^ 53 + 1)) * (1 + 1 / (2 ^ 53 + 1))) := by ring
      _ ≤ i * H * (1 + 1 / 2 ^ 52) := by gcongr; norm_num
  have hlo : i * H * (1 - 1 / 2 ^ 52) ≤ p := by
    calc i * H * (1 - 1 / 2 ^ 52) ≤ i * H * ((1 - 1 / (2 ^ 53 + 1)) * (1 - 1 / (2 ^ 53 + 1))) := by gcongr; norm_num
      _ = i * H * (1 - 1 / (2 ^ 53 + 1)) * (1 - 1 / (2 ^ 53 + 1)) := by ring
      _ ≤ i * h * (1 - 1 / (2 ^ 53 + 1)) := by gcongr
      _ ≤ p := by linarith
  have hap : a + p ≤ 1 + 1 / 2 ^ 53 := by
    have : i * H * (1 / 2 ^ 52) ≤ 1 / 2 * (1 / 2 ^ 52) := by gcongr; linarith
    norm_num at this hup ⊢
    linarith
  have hx := abs_le.1 (rnd_acc' (a + p))
  rw [abs_of_nonneg (by linarith : 0 ≤ a + p)] at hx
  refine ⟨rep_rnd _, le_rnd ha (by linarith), rnd_le_one hap, ?_⟩
  unfold nodeF
  rw [← hh, ← hpdef, abs_le]
  norm_num at hx hup hlo hap ⊢
  constructor <;> nlinarith

end

/-! ### The bump as a function of `1 - s²` -/

/-- `exp(-2/D)`, continued by zero -/
noncomputable def phiD (D : ℝ) : ℝ := if D ≤ 0 then 0 else Real.exp (-2 / D)

theorem phiD_nonneg (D : ℝ) : 0 ≤ phiD D := by unfold phiD; split_ifs; exact le_rfl; exact (Real.exp_pos _).le

theorem phiD_le_one (D : ℝ) : phiD D ≤ 1 := by
  unfold phiD
  split_ifs with h
  · norm_num
  · rw [Real.exp_le_one_iff]
    exact div_nonpos_of_nonpos_of_nonneg (by norm_num) (not_le.1 h).le

theorem phiD_le_half {D : ℝ} (h : 0 ≤ D) : phiD D ≤ D / 2 := by
  unfold phiD
  split_ifs with h'
  · linarith
  · have hD := not_le.1 h'
    have := Real.add_one_le_exp (2 / D)
    rw [show -2 / D = -(2 / D) by ring, Real.exp_neg, inv_le_comm₀ (Real.exp_pos _) (by positivity)]
    calc (D / 2)⁻¹ = 2 / D := by rw [inv_div]
      _ ≤ _ := by linarith

theorem exp_sub_le {x y : ℝ} (h : x ≤ y) : Real.exp (-x) - Real.exp (-y) ≤ (y - x) * Real.exp (-x) := by
  have h1 := Real.add_one_le_exp (-(y - x))
  have h2 : Real.exp (-y) = Real.exp (-x) * Real.exp (-(y - x)) := by rw [← Real.exp_add]; congr 1; ring
  rw [h2]
  nlinarith [Real.exp_pos (-x)]

theorem phiD_mono_lip {x y : ℝ} (hx : 0 ≤ x) (h : x ≤ y) : phiD x ≤ phiD y ∧ phiD y - phiD x ≤ 4 * (y - x) := by
  have hy := phiD_le_half (hx.trans h)
  rcases eq_or_lt_of_le hx with hx0 | hx0
  · have : phiD x = 0 := by unfold phiD; rw [if_pos (le_of_eq hx0.symm)]
    rw [this]
    exact ⟨phiD_nonneg _, by linarith⟩
  have hy0 : 0 < y := by linarith
  have e1 : phiD x = Real.exp (-(2 / x)) := by
    unfold phiD; rw [if_neg (not_le.2 hx0), show -2 / x = -(2 / x) by ring]
  have e2 : phiD y = Real.exp (-(2 / y)) := by
    unfold phiD; rw [if_neg (not_le.2 hy0), show -2 / y = -(2 / y) by ring]
  constructor
  · rw [e1, e2]
    apply Real.exp_le_exp.2
    apply neg_le_neg
    gcongr
  · rcases le_or_gt (y / 2) x with h3 | h3
    · have h4 : 2 / y ≤ 2 / x := by gcongr
      have h5 := exp_sub_le h4
      rw [e1, e2]
      refine h5.trans ?_
      have h6 : 2 / x - 2 / y = 2 * (y - x) / (x * y) := by field_simp
      -- `exp(-2/y) ≤ y²/4`, being the square of `exp(-1/y) ≤ y/... `
      have h7 : Real.exp (-(2 / y)) ≤ y ^ 2 := by
        have : Real.exp (-(2 / y)) = Real.exp (-(1 / y)) ^ 2 := by rw [← Real.exp_nat_mul]; congr 1; push_cast; ring
        rw [this]
        have h8 : Real.exp (-(1 / y)) ≤ y := by
          rw [Real.exp_neg, inv_le_comm₀ (Real.exp_pos _) hy0]
          have := Real.add_one_le_exp (1 / y)
          rw [← one_div]; linarith
        have := Real.exp_pos (-(1 / y))
        gcongr
      rw [h6]
      have h8 : 0 ≤ 2 * (y - x) / (x * y) := div_nonneg (by linarith) (by positivity)
      calc 2 * (y - x) / (x * y) * Real.exp (-(2 / y)) ≤ 2 * (y - x) / (x * y) * y ^ 2 := by gcongr
        _ = 2 * (y - x) * (y / x) := by field_simp
        _ ≤ 2 * (y - x) * 2 := by
          have : y / x ≤ 2 := by rw [div_le_iff₀ hx0]; linarith
          have : 0 ≤ y - x := by linarith
          gcongr
        _ = _ := by ring
    · have := phiD_nonneg x
      linarith

theorem phiD_lip {x y : ℝ} (hx : 0 ≤ x) (hy : 0 ≤ y) : |phiD x - phiD y| ≤ 4 * |x - y| := by
  rcases le_total x y with h | h
  · obtain ⟨h1, h2⟩ := phiD_mono_lip hx h
    rw [abs_sub_comm, abs_of_nonneg (by linarith), abs_sub_comm x y, abs_of_nonneg (by linarith)]; exact h2
  · obtain ⟨h1, h2⟩ := phiD_mono_lip hy h
    rw [abs_of_nonneg (by linarith), abs_of_nonneg (by linarith)]; exact h2

/-- the integrand for `lam = 2`, continued by zero to the end points -/
noncomputable def bump2 (t : ℝ) : ℝ := phiD (1 - (4 * t - 3) ^ 2) / t

theorem sArg_two (t : ℝ) : sArg 2 t = 4 * t - 3 := by unfold sArg; ring

theorem gInt_two {t : ℝ} (h1 : 1 / 2 < t) (h2 : t < 1) : gInt 2 t = bump2 t := by
  unfold gInt bump2 phiD
  rw [sArg_two, if_neg]
  push Not
  nlinarith

section
variable {t : ℝ} (h1 : 1 / 2 ≤ t) (h2 : t ≤ 1)
include h1 h2

theorem sq_bound : 0 ≤ 1 - (4 * t - 3) ^ 2 := by nlinarith

theorem bump2_bounds : 0 ≤ bump2 t ∧ bump2 t ≤ 2 := by
  have ht : 0 < t := by linarith
  have := phiD_nonneg (1 - (4 * t - 3) ^ 2)
  have := phiD_le_one (1 - (4 * t - 3) ^ 2)
  unfold bump2
  refine ⟨by positivity, ?_⟩
  rw [div_le_iff₀ ht]; linarith

theorem bump2_edge (h3 : t - 1 / 2 ≤ 1 / 500 ∨ 1 - t ≤ 1 / 500) : bump2 t ≤ 1 / 2 ^ 100 := by
  have ht : 0 < t := by linarith
  have hD : 1 - (4 * t - 3) ^ 2 ≤ 2 / 125 := by rcases h3 with h | h <;> nlinarith
  have hphi : phiD (1 - (4 * t - 3) ^ 2) ≤ 1 / 2 ^ 101 := by
    unfold phiD
    split_ifs with h
    · positivity
    · have hD0 := not_le.1 h
      have h5 : -2 / (1 - (4 * t - 3) ^ 2) ≤ -125 := by
        rw [div_le_iff₀ hD0]; linarith
      refine (Real.exp_le_exp.2 h5).trans ?_
      rw [show (-125 : ℝ) = -((125 : ℕ) * 1) by norm_num, Real.exp_neg, Real.exp_nat_mul]
      have h6 : (2 : ℝ) ≤ Real.exp 1 := by have := Real.add_one_le_exp (1 : ℝ); linarith
      have h7 : (2 : ℝ) ^ 125 ≤ Real.exp 1 ^ 125 := by gcongr
      calc (Real.exp 1 ^ 125)⁻¹ ≤ (2 ^ 125)⁻¹ := inv_anti₀ (by positivity) h7
        _ ≤ 1 / 2 ^ 101 := by norm_num
  unfold bump2
  rw [div_le_iff₀ ht]
  calc _ ≤ 1 / 2 ^ 101 := hphi
    _ = 1 / 2 ^ 100 * (1 / 2) := by norm_num
    _ ≤ _ := by gcongr

theorem bump2_lip {x : ℝ} (h3 : 1 / 2 ≤ x) (h4 : x ≤ 1) : |bump2 x - bump2 t| ≤ 68 * |x - t| := by
  have ht : 0 < t := by linarith
  have hx : 0 < x := by linarith
  have hl := phiD_lip (sq_bound h3 h4) (sq_bound h1 h2)
  have hD : |(1 - (4 * x - 3) ^ 2) - (1 - (4 * t - 3) ^ 2)| ≤ 8 * |x - t| := by
    rw [show (1 - (4 * x - 3) ^ 2) - (1 - (4 * t - 3) ^ 2) = (6 - 4 * x - 4 * t) * 4 * (x - t) by ring, abs_mul]
    gcongr
    rw [abs_le]; constructor <;> linarith
  have e : bump2 x - bump2 t = (phiD (1 - (4 * x - 3) ^ 2) - phiD (1 - (4 * t - 3) ^ 2)) / x
      - phiD (1 - (4 * t - 3) ^ 2) * (x - t) / (x * t) := by
    unfold bump2; field_simp; ring
  rw [e]
  have hp0 := phiD_nonneg (1 - (4 * t - 3) ^ 2)
  have hp1 := phiD_le_one (1 - (4 * t - 3) ^ 2)
  have q1 : |(phiD (1 - (4 * x - 3) ^ 2) - phiD (1 - (4 * t - 3) ^ 2)) / x| ≤ 64 * |x - t| := by
    rw [abs_div, abs_of_pos hx, div_le_iff₀ hx]
    nlinarith [abs_nonneg (x - t)]
  have q2 : |phiD (1 - (4 * t - 3) ^ 2) * (x - t) / (x * t)| ≤ 4 * |x - t| := by
    rw [abs_div, abs_mul, abs_of_nonneg hp0, abs_of_pos (by positivity : 0 < x * t), div_le_iff₀ (by positivity)]
    have : 1 / 4 ≤ x * t := by nlinarith
    nlinarith [abs_nonneg (x - t)]
  calc _ ≤ _ := abs_sub _ _
    _ ≤ 68 * |x - t| := by linarith

end
end S2wav
