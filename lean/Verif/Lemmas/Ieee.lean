import Verif.Model.Ieee
import Mathlib.Tactic.NormNum
import Mathlib.Tactic.Positivity
import Mathlib.Tactic.FieldSimp

/-! # Rounding to double precision -/

namespace S2wav
open Classical

theorem rne_cases (x : ℝ) : (rne x = ⌊x⌋ ∧ x - ⌊x⌋ ≤ 1 / 2) ∨ (rne x = ⌊x⌋ + 1 ∧ 1 / 2 ≤ x - ⌊x⌋) := by
  unfold rne
  split_ifs with h1 h2 h3
  · exact .inl ⟨rfl, h1.le⟩
  · exact .inr ⟨rfl, h2.le⟩
  · exact .inl ⟨rfl, not_lt.1 h2⟩
  · exact .inr ⟨rfl, not_lt.1 h1⟩

theorem rne_near (x : ℝ) : |(rne x : ℝ) - x| ≤ 1 / 2 := by
  have h0 := Int.floor_le x
  have h1 := Int.lt_floor_add_one x
  rcases rne_cases x with ⟨h, h'⟩ | ⟨h, h'⟩ <;> rw [h, abs_le] <;> push_cast <;> constructor <;> linarith

theorem rne_le {x : ℝ} {k : ℤ} (h : x ≤ k) : rne x ≤ k := by
  have h0 := Int.floor_le x
  have h1 := Int.lt_floor_add_one x
  have h2 : ⌊x⌋ ≤ k := by exact_mod_cast h0.trans h
  rcases rne_cases x with ⟨h3, h'⟩ | ⟨h3, h'⟩ <;> rw [h3]
  · exact h2
  · have : (⌊x⌋ : ℝ) < k := by linarith
    have : ⌊x⌋ < k := by exact_mod_cast this
    omega

theorem le_rne {x : ℝ} {k : ℤ} (h : (k : ℝ) ≤ x) : k ≤ rne x := by
  have h2 : k ≤ ⌊x⌋ := Int.le_floor.2 h
  rcases rne_cases x with ⟨h3, h'⟩ | ⟨h3, h'⟩ <;> rw [h3] <;> omega

/-- the rounded integer is a nearest one -/
theorem rne_nearest (x : ℝ) (k : ℤ) : |(rne x : ℝ) - x| ≤ |(k : ℝ) - x| := by
  have h0 := Int.floor_le x
  have h1 := Int.lt_floor_add_one x
  rcases le_or_gt k ⌊x⌋ with hk | hk
  · have hk' : (k : ℝ) ≤ ⌊x⌋ := by exact_mod_cast hk
    rw [abs_of_nonpos (by linarith : (k : ℝ) - x ≤ 0)]
    rcases rne_cases x with ⟨h3, h'⟩ | ⟨h3, h'⟩ <;> rw [h3, abs_le] <;> push_cast <;> constructor <;> linarith
  · have hk' : (⌊x⌋ : ℝ) + 1 ≤ k := by exact_mod_cast hk
    rw [abs_of_nonneg (by linarith : 0 ≤ (k : ℝ) - x)]
    rcases rne_cases x with ⟨h3, h'⟩ | ⟨h3, h'⟩ <;> rw [h3, abs_le] <;> push_cast <;> constructor <;> linarith

theorem rne_eval {x : ℝ} {k : ℤ} (h1 : (k : ℝ) - 1 / 2 < x) (h2 : x < k + 1 / 2) : rne x = k := by
  have h := abs_le.1 (rne_near x)
  have a1 : (rne x : ℝ) < k + 1 := by linarith
  have a2 : (k : ℝ) - 1 < rne x := by linarith
  have b1 : rne x < k + 1 := by exact_mod_cast a1
  have b2 : k - 1 < rne x := by exact_mod_cast a2
  omega

theorem two_zpow_pos (e : ℤ) : (0 : ℝ) < (2 : ℝ) ^ e := zpow_pos (by norm_num) e

theorem ulp_pos (x : ℝ) : 0 < ulp x := two_zpow_pos _

theorem rnd_zero : rnd 0 = 0 := by
  unfold rnd
  rw [zero_div, rne_eval (k := 0)] <;> norm_num

/-- the binade of a non-zero number -/
theorem log_bounds {x : ℝ} (hx : x ≠ 0) : (2 : ℝ) ^ Int.log 2 |x| ≤ |x| ∧ |x| < (2 : ℝ) ^ (Int.log 2 |x| + 1) := by
  have h0 : 0 < |x| := abs_pos.2 hx
  have h1 := Int.zpow_log_le_self (b := 2) (by norm_num) h0
  have h2 := Int.lt_zpow_succ_log_self (b := 2) (by norm_num) |x|
  push_cast at h1 h2
  exact ⟨h1, h2⟩

theorem zpow_split (e k : ℤ) : (2 : ℝ) ^ (e + k) = 2 ^ e * 2 ^ k := zpow_add₀ (by norm_num) e k

theorem abs_lt_ulp (x : ℝ) : |x| < 2 ^ 53 * ulp x := by
  rcases eq_or_ne x 0 with rfl | hx
  · rw [abs_zero]; have := ulp_pos 0; positivity
  · have h := (log_bounds hx).2
    have : (2 : ℝ) ^ 53 * ulp x = 2 ^ (max (Int.log 2 |x|) (-1022) + 1) := by
      unfold ulp
      rw [show max (Int.log 2 |x|) (-1022) + 1 = (max (Int.log 2 |x|) (-1022) - 52) + 53 by ring, zpow_split]
      norm_num
      ring
    rw [this]
    refine h.trans_le (zpow_le_zpow_right₀ (by norm_num) ?_)
    have := le_max_left (Int.log 2 |x|) (-1022)
    omega

/-- in the normal range the spacing is 2^-52 times a power of two below `|x|` -/
theorem ulp_normal {x : ℝ} (h : (2 : ℝ) ^ (-1022 : ℤ) ≤ |x|) :
    ulp x = 2 ^ (Int.log 2 |x| - 52) ∧ 2 ^ 52 * ulp x ≤ |x| ∧ 2 ^ 52 * ulp x = (2 : ℝ) ^ Int.log 2 |x| := by
  have hx : x ≠ 0 := by
    intro h0; rw [h0, abs_zero] at h; exact absurd (two_zpow_pos (-1022)) (not_lt.2 h)
  have hl : -1022 ≤ Int.log 2 |x| := by
    refine (Int.zpow_le_iff_le_log (by norm_num) (abs_pos.2 hx)).1 ?_
    push_cast; exact h
  have h1 : ulp x = 2 ^ (Int.log 2 |x| - 52) := by unfold ulp; rw [max_eq_left hl]
  have h2 : 2 ^ 52 * ulp x = (2 : ℝ) ^ Int.log 2 |x| := by
    rw [h1, zpow_sub₀ (by norm_num)]
    norm_num
    field_simp
  exact ⟨h1, by rw [h2]; exact (log_bounds hx).1, h2⟩

theorem ulp_subnormal {x : ℝ} (h : |x| < (2 : ℝ) ^ (-1022 : ℤ)) : ulp x = 2 ^ (-1074 : ℤ) ∨ x = 0 := by
  rcases eq_or_ne x 0 with hx | hx
  · exact .inr hx
  left
  have hl : Int.log 2 |x| < -1022 := by
    refine (Int.lt_zpow_iff_log_lt (by norm_num) (abs_pos.2 hx)).1 ?_
    push_cast; exact h
  unfold ulp
  rw [max_eq_right hl.le]
  norm_num

theorem rnd_err (x : ℝ) : |rnd x - x| ≤ ulp x / 2 := by
  have hu := ulp_pos x
  have h := rne_near (x / ulp x)
  have : rnd x - x = ((rne (x / ulp x) : ℝ) - x / ulp x) * ulp x := by
    unfold rnd; field_simp
  rw [this, abs_mul, abs_of_pos hu]
  nlinarith

/-- a multiple of the spacing at `x` is not passed by rounding -/
theorem rnd_le_mul {x : ℝ} {k : ℤ} (h : x ≤ k * ulp x) : rnd x ≤ k * ulp x := by
  have hu := ulp_pos x
  have := rne_le (x := x / ulp x) (k := k) (by rw [div_le_iff₀ hu]; exact h)
  have : ((rne (x / ulp x) : ℤ) : ℝ) ≤ k := by exact_mod_cast this
  exact mul_le_mul_of_nonneg_right this hu.le

theorem mul_le_rnd {x : ℝ} {k : ℤ} (h : k * ulp x ≤ x) : k * ulp x ≤ rnd x := by
  have hu := ulp_pos x
  have := le_rne (x := x / ulp x) (k := k) (by rw [le_div_iff₀ hu]; exact h)
  have : (k : ℝ) ≤ ((rne (x / ulp x) : ℤ) : ℝ) := by exact_mod_cast this
  exact mul_le_mul_of_nonneg_right this hu.le

/-- representable numbers of size at least `2^E` are multiples of `2^(E-52)` -/
theorem rep_mult {z : ℝ} {E : ℤ} (hz : Rep z) (h : (2 : ℝ) ^ E ≤ |z|) : ∃ k : ℤ, z = k * (2 : ℝ) ^ (E - 52) := by
  obtain ⟨m, e, hm, he, rfl⟩ := hz
  have h1 : |(m : ℝ)| ≤ 2 ^ 53 := by exact_mod_cast hm
  rcases le_or_gt (E - 52) e with h2 | h2
  · obtain ⟨n, hn⟩ := Int.eq_ofNat_of_zero_le (sub_nonneg.2 h2)
    refine ⟨m * 2 ^ n, ?_⟩
    push_cast
    rw [show e = (n : ℤ) + (E - 52) by omega, zpow_split, zpow_natCast]
    ring
  · -- then `e = E - 53` and the significand is `2^53`
    rw [abs_mul, abs_of_pos (two_zpow_pos e)] at h
    have h3 : (2 : ℝ) ^ E = 2 ^ e * 2 ^ (E - e) := by rw [← zpow_split]; congr 1; ring
    have h4 : (2 : ℝ) ^ (E - e) ≤ |(m : ℝ)| := by
      rw [h3] at h
      have := two_zpow_pos e
      nlinarith
    have h5 : E - e ≤ 53 := by
      by_contra hc
      have : (2 : ℝ) ^ (54 : ℤ) ≤ 2 ^ (E - e) := zpow_le_zpow_right₀ (by norm_num) (by omega)
      have h6 := this.trans (h4.trans h1)
      norm_num at h6
    have h6 : e = E - 53 := by omega
    have h7 : (2 : ℝ) ^ 53 ≤ |(m : ℝ)| := by
      rw [h6] at h4
      have : E - (E - 53) = ((53 : ℕ) : ℤ) := by norm_num
      rw [this, zpow_natCast] at h4
      exact h4
    have h8 : |m| = 2 ^ 53 := le_antisymm hm (by exact_mod_cast h7)
    have h9 : (2 : ℝ) ^ (E - 52) = 2 ^ e * 2 := by
      rw [h6, show E - 52 = (E - 53) + 1 by ring, zpow_split]; norm_num
    rcases abs_eq (by norm_num : (0 : ℤ) ≤ 2 ^ 53) |>.1 h8 with hm' | hm'
    · exact ⟨2 ^ 52, by rw [hm', h9]; push_cast; ring⟩
    · exact ⟨-2 ^ 52, by rw [hm', h9]; push_cast; ring⟩

theorem rep_small {z : ℝ} (hz : Rep z) : ∃ k : ℤ, z = k * (2 : ℝ) ^ (-1074 : ℤ) := by
  obtain ⟨m, e, _, he, rfl⟩ := hz
  obtain ⟨n, hn⟩ := Int.eq_ofNat_of_zero_le (sub_nonneg.2 he)
  refine ⟨m * 2 ^ n, ?_⟩
  push_cast
  rw [show e = (n : ℤ) + (-1074) by omega, zpow_split, zpow_natCast]
  ring

/-- a representable number is a multiple of the spacing at `x`, or smaller than the power of two below `|x|` -/
theorem rep_at {z : ℝ} (x : ℝ) (hz : Rep z) :
    x = 0 ∨ (∃ k : ℤ, z = k * ulp x) ∨ (|z| < 2 ^ 52 * ulp x ∧ 2 ^ 52 * ulp x ≤ |x|) := by
  rcases le_or_gt ((2 : ℝ) ^ (-1022 : ℤ)) |x| with h | h
  · obtain ⟨h1, h2, h3⟩ := ulp_normal h
    rcases le_or_gt ((2 : ℝ) ^ Int.log 2 |x|) |z| with h4 | h4
    · obtain ⟨k, hk⟩ := rep_mult hz h4
      exact .inr (.inl ⟨k, by rw [h1]; exact hk⟩)
    · exact .inr (.inr ⟨by rw [h3]; exact h4, h2⟩)
  · rcases ulp_subnormal h with h1 | h1
    · obtain ⟨k, hk⟩ := rep_small hz
      exact .inr (.inl ⟨k, by rw [h1]; exact hk⟩)
    · exact .inl h1

/-- rounding does not pass a representable number -/
theorem rnd_le {x z : ℝ} (hz : Rep z) (h : x ≤ z) : rnd x ≤ z := by
  rcases rep_at x hz with h1 | ⟨k, hk⟩ | ⟨h1, h2⟩
  · rw [h1, rnd_zero, ← h1]; exact h
  · rw [hk] at h ⊢; exact rnd_le_mul h
  · have h3 := abs_lt.1 h1
    have hx : x < 0 := by
      by_contra hc
      rw [abs_of_nonneg (not_lt.1 hc)] at h2
      linarith
    rw [abs_of_neg hx] at h2
    have := rnd_le_mul (x := x) (k := -2 ^ 52) (by push_cast; linarith)
    push_cast at this
    linarith [h3.1]

theorem le_rnd {x z : ℝ} (hz : Rep z) (h : z ≤ x) : z ≤ rnd x := by
  rcases rep_at x hz with h1 | ⟨k, hk⟩ | ⟨h1, h2⟩
  · rw [h1, rnd_zero, ← h1]; exact h
  · rw [hk] at h ⊢; exact mul_le_rnd h
  · have h3 := abs_lt.1 h1
    have hx : 0 < x := by
      by_contra hc
      rw [abs_of_nonpos (not_lt.1 hc)] at h2
      linarith
    rw [abs_of_pos hx] at h2
    have := mul_le_rnd (x := x) (k := 2 ^ 52) (by push_cast; linarith)
    push_cast at this
    linarith [h3.2]

theorem rnd_id {x : ℝ} (h : Rep x) : rnd x = x := le_antisymm (rnd_le h le_rfl) (le_rnd h le_rfl)

theorem ulp_exp (x : ℝ) : ∃ e : ℤ, -1074 ≤ e ∧ ulp x = (2 : ℝ) ^ e :=
  ⟨_, by have := le_max_right (Int.log 2 |x|) (-1022); omega, rfl⟩

theorem rep_rnd (x : ℝ) : Rep (rnd x) := by
  obtain ⟨e, he, hu⟩ := ulp_exp x
  refine ⟨rne (x / ulp x), e, ?_, he, by rw [← hu]; rfl⟩
  have h := abs_lt.1 (abs_lt_ulp x)
  have hp := ulp_pos x
  rw [abs_le]
  constructor
  · exact le_rne (by push_cast; rw [le_div_iff₀ hp]; linarith [h.1])
  · exact rne_le (by push_cast; rw [div_le_iff₀ hp]; linarith [h.2])

theorem Rep.neg {x : ℝ} (h : Rep x) : Rep (-x) := by
  obtain ⟨m, e, hm, he, rfl⟩ := h
  exact ⟨-m, e, by rw [abs_neg]; exact hm, he, by push_cast; ring⟩

theorem rep_int {n : ℤ} (h : |n| ≤ 2 ^ 53) : Rep n := ⟨n, 0, h, by norm_num, by simp⟩

theorem rep_pow {e : ℤ} (h : -1074 ≤ e) : Rep ((2 : ℝ) ^ e) := ⟨1, e, by norm_num, h, by simp⟩

theorem abs_rnd_le {x z : ℝ} (hz : Rep z) (h : |x| ≤ z) : |rnd x| ≤ z := by
  rw [abs_le] at h ⊢
  exact ⟨le_rnd hz.neg h.1, rnd_le hz h.2⟩

theorem rnd_nonneg {x : ℝ} (h : 0 ≤ x) : 0 ≤ rnd x := by
  have := le_rnd (x := x) (z := ((0 : ℤ) : ℝ)) (rep_int (by norm_num)) (by push_cast; exact h)
  push_cast at this; exact this

/-- error of rounding, anywhere -/
theorem rnd_acc (x : ℝ) : |rnd x - x| ≤ (2 : ℝ) ^ (-53 : ℤ) * |x| + (2 : ℝ) ^ (-1075 : ℤ) := by
  have h0 := rnd_err x
  have hp := two_zpow_pos (-1075)
  have hx := abs_nonneg x
  rcases le_or_gt ((2 : ℝ) ^ (-1022 : ℤ)) |x| with h | h
  · obtain ⟨-, h2, -⟩ := ulp_normal h
    have : (2 : ℝ) ^ (-53 : ℤ) * |x| ≥ 2 ^ (-53 : ℤ) * (2 ^ 52 * ulp x) := mul_le_mul_of_nonneg_left h2 (by positivity)
    have h3 : (2 : ℝ) ^ (-53 : ℤ) * (2 ^ 52 * ulp x) = ulp x / 2 := by
      rw [show (-53 : ℤ) = -((53 : ℕ) : ℤ) by norm_num, zpow_neg, zpow_natCast]; norm_num; ring
    rw [h3] at this
    exact h0.trans (this.trans (le_add_of_nonneg_right hp.le))
  · rcases ulp_subnormal h with h1 | h1
    · have : ulp x / 2 = 2 ^ (-1075 : ℤ) := by
        rw [h1, show (-1074 : ℤ) = -1075 + 1 by norm_num, zpow_split]; norm_num
      have h2 : 0 ≤ (2 : ℝ) ^ (-53 : ℤ) * |x| := by positivity
      rw [this] at h0
      exact h0.trans (le_add_of_nonneg_left h2)
    · rw [h1, rnd_zero]; simp only [sub_zero, abs_zero]; positivity

/-- sharp relative error of rounding in the normal range -/
theorem rnd_rel {x : ℝ} (h : (2 : ℝ) ^ (-1022 : ℤ) ≤ |x|) : (2 ^ 53 + 1) * |rnd x - x| ≤ |x| := by
  obtain ⟨-, h2, -⟩ := ulp_normal h
  have hu := ulp_pos x
  rcases le_or_gt ((2 ^ 53 + 1) / 2 * ulp x) |x| with h3 | h3
  · have := rnd_err x
    calc (2 ^ 53 + 1) * |rnd x - x| ≤ (2 ^ 53 + 1) * (ulp x / 2) := by gcongr
      _ = (2 ^ 53 + 1) / 2 * ulp x := by ring
      _ ≤ |x| := h3
  · -- the nearest double is the power of two
    have hn : ∀ k : ℤ, |rnd x - x| ≤ |k * ulp x - x| := fun k => by
      have := rne_nearest (x / ulp x) k
      have h4 : rnd x - x = ((rne (x / ulp x) : ℝ) - x / ulp x) * ulp x := by unfold rnd; field_simp
      have h5 : k * ulp x - x = ((k : ℝ) - x / ulp x) * ulp x := by field_simp
      rw [h4, h5, abs_mul, abs_mul, abs_of_pos hu]
      exact mul_le_mul_of_nonneg_right this hu.le
    have key : |rnd x - x| ≤ |x| - 2 ^ 52 * ulp x := by
      rcases le_or_gt 0 x with hx | hx
      · rw [abs_of_nonneg hx] at h2 ⊢
        have := hn (2 ^ 52)
        rwa [show (((2 : ℤ) ^ 52 : ℤ) : ℝ) = 2 ^ 52 by norm_num,
          abs_of_nonpos (by linarith : (2 : ℝ) ^ 52 * ulp x - x ≤ 0), neg_sub] at this
      · rw [abs_of_neg hx] at h2 ⊢
        have := hn (-2 ^ 52)
        rw [show ((-(2 : ℤ) ^ 52 : ℤ) : ℝ) = -2 ^ 52 by norm_num,
          abs_of_nonneg (by linarith : 0 ≤ -(2 : ℝ) ^ 52 * ulp x - x)] at this
        linarith
    nlinarith

/-- evaluation of a rounding: a positive number strictly within half a unit of `m 2^e` -/
theorem rnd_eval {x : ℝ} (m e : ℤ) (he : -1074 ≤ e) (h1 : 2 ^ 52 * (2 : ℝ) ^ e ≤ x) (h2 : x < 2 ^ 53 * (2 : ℝ) ^ e)
    (h3 : (m - 1 / 2) * (2 : ℝ) ^ e < x) (h4 : x < (m + 1 / 2) * (2 : ℝ) ^ e) : rnd x = m * (2 : ℝ) ^ e := by
  have hp := two_zpow_pos e
  have hx : 0 < x := lt_of_lt_of_le (by positivity) h1
  have hlo : e + 52 ≤ Int.log 2 |x| := by
    refine (Int.zpow_le_iff_le_log (by norm_num) (abs_pos.2 hx.ne')).1 ?_
    push_cast
    rw [abs_of_pos hx, zpow_split]
    norm_num
    linarith
  have hhi : Int.log 2 |x| < e + 53 := by
    refine (Int.lt_zpow_iff_log_lt (by norm_num) (abs_pos.2 hx.ne')).1 ?_
    push_cast
    rw [abs_of_pos hx, zpow_split]
    norm_num
    linarith
  have hu : ulp x = 2 ^ e := by
    unfold ulp
    rw [max_eq_left (by omega), show Int.log 2 |x| - 52 = e by omega]
  unfold rnd
  rw [hu, rne_eval (k := m)]
  · rw [lt_div_iff₀ hp]; exact h3
  · rw [div_lt_iff₀ hp]; exact h4

theorem F64.of_fin {x : ℝ} (h : |x| ≤ (2 : ℝ) ^ (1000 : ℤ)) : F64.of x = .fin (rnd x) := by
  have h1 := abs_le.1 (abs_rnd_le (rep_pow (by norm_num : (-1074 : ℤ) ≤ 1000)) h)
  have h2 : (2 : ℝ) ^ (1000 : ℤ) < 2 ^ (1024 : ℤ) := zpow_lt_zpow_right₀ (by norm_num) (by norm_num)
  unfold F64.of
  rw [if_neg (not_le.2 (h1.2.trans_lt h2)), if_neg (not_le.2 ((neg_lt_neg h2).trans_le h1.1))]

theorem big_le : (4 * 2 ^ 53 : ℝ) ≤ (2 : ℝ) ^ (1000 : ℤ) := by
  have : (2 : ℝ) ^ (55 : ℤ) ≤ 2 ^ (1000 : ℤ) := zpow_le_zpow_right₀ (by norm_num) (by norm_num)
  refine le_trans ?_ this
  norm_num

theorem F64.of_fin' {x : ℝ} (h : |x| ≤ 4 * 2 ^ 53) : F64.of x = .fin (rnd x) := F64.of_fin (h.trans big_le)

theorem F64.ofInt_eq {n : ℤ} (h : |n| ≤ 2 ^ 53) : F64.ofInt n = .fin n := by
  unfold F64.ofInt
  have h' : |(n : ℝ)| ≤ 2 ^ 53 := by exact_mod_cast h
  rw [F64.of_fin' (by linarith), rnd_id (rep_int h)]

end S2wav
