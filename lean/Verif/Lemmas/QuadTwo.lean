import Verif.Lemmas.Quad
import Mathlib.MeasureTheory.Integral.IntervalIntegral.TrapezoidalRule

/-! # Second-order error of the quadrature -/

namespace S2wav
open MeasureTheory intervalIntegral

/-- one panel of the trapezium rule for a twice differentiable function -/
theorem trap_c2 {f f1 f2 : ℝ → ℝ} {a b M : ℝ} (hab : a < b) (h1 : ∀ x ∈ Set.Icc a b, HasDerivAt f (f1 x) x)
    (h2 : ∀ x ∈ Set.Icc a b, HasDerivAt f1 (f2 x) x) (hM : ∀ x ∈ Set.Icc a b, |f2 x| ≤ M) :
    |(f a + f b) / 2 * (b - a) - ∫ x in a..b, f x| ≤ M * (b - a) ^ 3 / 12 := by
  have hu : UniqueDiffOn ℝ (Set.Icc a b) := uniqueDiffOn_Icc hab
  have e1 : ∀ x ∈ Set.Icc a b, derivWithin f (Set.Icc a b) x = f1 x := fun x hx =>
    (h1 x hx).hasDerivWithinAt.derivWithin (hu x hx)
  have hd : ∀ x ∈ Set.Icc a b, HasDerivWithinAt (derivWithin f (Set.Icc a b)) (f2 x) (Set.Icc a b) x := fun x hx =>
    (h2 x hx).hasDerivWithinAt.congr e1 (e1 x hx)
  have hM0 : 0 ≤ M := (abs_nonneg _).trans (hM a (Set.left_mem_Icc.2 hab.le))
  have key := trapezoidal_error_le (f := f) (a := a) (b := b) (ζ := M) (N := 1)
    (by rw [Set.uIcc_of_le hab.le]; exact fun x hx => (h1 x hx).differentiableAt.differentiableWithinAt)
    (by rw [Set.uIcc_of_le hab.le]; exact fun x hx => (hd x hx).differentiableWithinAt)
    (by
      intro x
      rw [Set.uIcc_of_le hab.le, iteratedDerivWithin_succ, iteratedDerivWithin_one]
      by_cases hx : x ∈ Set.Icc a b
      · rw [(hd x hx).derivWithin (hu x hx)]
        exact hM x hx
      · rw [derivWithin_zero_of_notMem_closure (by rwa [closure_Icc]), abs_zero]
        exact hM0) one_pos
  unfold trapezoidal_error at key
  rw [trapezoidal_integral_one, abs_of_pos (sub_pos.2 hab)] at key
  have e : (b - a) / 2 * (f a + f b) = (f a + f b) / 2 * (b - a) := by ring
  rw [e] at key
  refine key.trans (le_of_eq ?_)
  push_cast
  ring

/-! ## Exponential against polynomials -/

theorem exp_three_ge : (20 : ℝ) ≤ Real.exp 3 := by
  have h := Real.exp_one_gt_d9
  have e : Real.exp 3 = Real.exp 1 ^ 3 := by rw [← Real.exp_nat_mul]; norm_num
  rw [e]
  calc (20 : ℝ) ≤ 2.7182818283 ^ 3 := by norm_num
    _ ≤ _ := pow_le_pow_left₀ (by norm_num) h.le 3

/-- the largest value of `(x - 1/2) x² (x - 1) (x - 3) e^(-x)` is below 15/2 -/
theorem poly_le_exp {x : ℝ} (hx : 1 ≤ x) : (x - 1 / 2) * x ^ 2 * (x - 1) * (x - 3) ≤ 15 / 2 * Real.exp x := by
  rcases le_or_gt x 3 with h3 | h3
  · have : 0 ≤ (x - 1 / 2) * x ^ 2 * (x - 1) * (3 - x) := by
      have a1 : 0 ≤ x - 1 / 2 := by linarith
      have a2 : 0 ≤ x - 1 := by linarith
      have a3 : 0 ≤ 3 - x := by linarith
      positivity
    have := Real.exp_pos x
    nlinarith
  · obtain ⟨v, rfl⟩ : ∃ v, x = 3 + v := ⟨x - 3, by ring⟩
    have hv : 0 ≤ v := by linarith
    have hs := Real.sum_le_exp_of_nonneg hv 9
    simp only [Finset.sum_range_succ, Finset.sum_range_zero, Nat.factorial] at hs
    have he : 20 * Real.exp v ≤ Real.exp (3 + v) := by
      rw [Real.exp_add]
      exact mul_le_mul_of_nonneg_right exp_three_ge (Real.exp_pos v).le
    norm_num at hs
    have hp : ∀ k : ℕ, 0 ≤ v ^ k * (v - 13 / 4) ^ 2 := fun k => by positivity
    have p0 := hp 0
    have p1 := hp 1
    have p2 := hp 2
    have p3 := hp 3
    have p4 := hp 4
    have p5 := hp 5
    have p6 := hp 6
    ring_nf at p0 p1 p2 p3 p4 p5 p6 hs he ⊢
    nlinarith [sq_nonneg (v - 13 / 4 - 2 / 11)]

/-- `x⁵ e^(-x)` is at most `(5/e)⁵` -/
theorem pow_le_exp {x : ℝ} (hx : 0 ≤ x) : x ^ 5 ≤ 21.1 * Real.exp x := by
  have h := Real.exp_one_gt_d9
  have h1 : x / 5 ≤ Real.exp (x / 5 - 1) := by have := Real.add_one_le_exp (x / 5 - 1); linarith
  have h2 : (x / 5) ^ 5 ≤ Real.exp (x / 5 - 1) ^ 5 := pow_le_pow_left₀ (by positivity) h1 5
  have e : Real.exp (x / 5 - 1) ^ 5 * Real.exp 1 ^ 5 = Real.exp x := by
    rw [← Real.exp_nat_mul, ← Real.exp_nat_mul, ← Real.exp_add]
    congr 1; push_cast; ring
  have h3 : (2.7182818283 : ℝ) ^ 5 ≤ Real.exp 1 ^ 5 := pow_le_pow_left₀ (by norm_num) h.le 5
  have h4 : (148.4 : ℝ) ≤ Real.exp 1 ^ 5 := le_trans (by norm_num) h3
  have h5 : (x / 5) ^ 5 * 148.4 ≤ Real.exp x := by
    rw [← e]
    exact mul_le_mul h2 h4 (by norm_num) (by positivity)
  have : (x / 5) ^ 5 = x ^ 5 / 3125 := by ring
  rw [this] at h5
  norm_num at h5 ⊢
  linarith [Real.exp_pos x, pow_nonneg hx 5]

theorem pow_four_le_exp {x : ℝ} (hx : 0 ≤ x) : x ^ 4 ≤ 4.7 * Real.exp x := by
  have h := Real.exp_one_gt_d9
  have h1 : x / 4 ≤ Real.exp (x / 4 - 1) := by have := Real.add_one_le_exp (x / 4 - 1); linarith
  have h2 : (x / 4) ^ 4 ≤ Real.exp (x / 4 - 1) ^ 4 := pow_le_pow_left₀ (by positivity) h1 4
  have e : Real.exp (x / 4 - 1) ^ 4 * Real.exp 1 ^ 4 = Real.exp x := by
    rw [← Real.exp_nat_mul, ← Real.exp_nat_mul, ← Real.exp_add]
    congr 1; push_cast; ring
  have h3 : (2.7182818283 : ℝ) ^ 4 ≤ Real.exp 1 ^ 4 := pow_le_pow_left₀ (by norm_num) h.le 4
  have h4 : (54.5 : ℝ) ≤ Real.exp 1 ^ 4 := le_trans (by norm_num) h3
  have h5 : (x / 4) ^ 4 * 54.5 ≤ Real.exp x := by
    rw [← e]
    exact mul_le_mul h2 h4 (by norm_num) (by positivity)
  have : (x / 4) ^ 4 = x ^ 4 / 256 := by ring
  rw [this] at h5
  norm_num at h5 ⊢
  linarith [Real.exp_pos x, pow_nonneg hx 4]

section
variable {c : ℝ}

/-! ## Second derivative of the bump -/

/-- the bump inside its support -/
noncomputable def b0 (c t : ℝ) : ℝ := c * Real.exp (-2 / (1 - t ^ 2)) / (t + c)

noncomputable def b1 (c t : ℝ) : ℝ := -(c * Real.exp (-2 / (1 - t ^ 2)) * qpoly c t / ((1 - t ^ 2) ^ 2 * (t + c) ^ 2))

noncomputable def b2 (c t : ℝ) : ℝ := c / (t + c) * (Real.exp (-2 / (1 - t ^ 2)) / (1 - t ^ 2) ^ 4) *
  (16 - 32 * (1 - t ^ 2) + 12 * (1 - t ^ 2) ^ 2 + 8 * t * (1 - t ^ 2) ^ 2 / (t + c) + 2 * (1 - t ^ 2) ^ 4 / (t + c) ^ 2)

theorem b0_deriv {t : ℝ} (h1 : -1 < t) (h2 : t < 1) (hc : 1 < c) : HasDerivAt (b0 c) (b1 c t) t :=
  bumpT_hasDerivAt h1 h2 hc

theorem b1_deriv {t : ℝ} (h1 : -1 < t) (h2 : t < 1) (hc : 1 < c) : HasDerivAt (b1 c) (b2 c t) t := by
  have hd : 1 - t ^ 2 ≠ 0 := by nlinarith
  have hs : t + c ≠ 0 := by linarith
  have e1 : HasDerivAt (fun t : ℝ => 1 - t ^ 2) (-(2 * t)) t := by
    have := (hasDerivAt_pow 2 t).const_sub 1
    simpa using this
  have e2 := ((hasDerivAt_const t (-2 : ℝ)).div e1 hd).exp
  have e3 : HasDerivAt (qpoly c) (4 * t ^ 3 + 4 * t + 4 * c) t := by
    have := ((((hasDerivAt_pow 4 t).add ((hasDerivAt_pow 2 t).const_mul 2)).add ((hasDerivAt_id t).const_mul (4 * c))).add_const 1)
    refine this.congr_deriv ?_
    push_cast
    ring
  have e4 := (((e2.const_mul c).mul e3).div ((e1.pow 2).mul (((hasDerivAt_id t).add_const c).pow 2)) (by simp [hd, hs])).neg
  refine e4.congr_deriv ?_
  simp only [Pi.div_apply, Pi.mul_apply, Pi.pow_apply, id]
  unfold b2 qpoly
  field_simp
  ring

/-- the bracket of the second derivative, left half -/
theorem bracket_left {t w : ℝ} (h1 : -1 < t) (h2 : t < 0) (hw : 1 + t < w) :
    (16 - 32 * (1 - t ^ 2) + 12 * (1 - t ^ 2) ^ 2 + 8 * t * (1 - t ^ 2) ^ 2 / w + 2 * (1 - t ^ 2) ^ 4 / w ^ 2 ≤
        16 - 32 * (1 - t ^ 2) + 12 * (1 - t ^ 2) ^ 2 ∨
      16 - 32 * (1 - t ^ 2) + 12 * (1 - t ^ 2) ^ 2 + 8 * t * (1 - t ^ 2) ^ 2 / w + 2 * (1 - t ^ 2) ^ 4 / w ^ 2 ≤ 4) ∧
    -4 ≤ 16 - 32 * (1 - t ^ 2) + 12 * (1 - t ^ 2) ^ 2 + 8 * t * (1 - t ^ 2) ^ 2 / w + 2 * (1 - t ^ 2) ^ 4 / w ^ 2 := by
  obtain ⟨y, rfl⟩ : ∃ y, t = y - 1 := ⟨t + 1, by ring⟩
  have hy0 : 0 < y := by linarith
  have hy1 : y < 1 := by linarith
  have hu : 1 - (y - 1) ^ 2 = y * (2 - y) := by ring
  rw [hu]
  have hw0 : 0 < w := by linarith
  -- `s = (1-t²)²/w` lies below `y (2-y)²`
  obtain ⟨s, hs⟩ : ∃ s, s = (y * (2 - y)) ^ 2 / w := ⟨_, rfl⟩
  have hs0 : 0 ≤ s := by rw [hs]; positivity
  have hs1 : s ≤ y * (2 - y) ^ 2 := by
    rw [hs, div_le_iff₀ hw0]
    have : 0 ≤ y * (2 - y) ^ 2 * (w - y) := by
      have : 0 ≤ w - y := by linarith
      positivity
    nlinarith
  have e1 : 8 * (y - 1) * (y * (2 - y)) ^ 2 / w = 8 * (y - 1) * s := by rw [hs]; ring
  have e2 : 2 * (y * (2 - y)) ^ 4 / w ^ 2 = 2 * s ^ 2 := by rw [hs, div_pow]; ring
  rw [e1, e2]
  constructor
  · rcases le_or_gt (4 * (y - 1) + s) 0 with h | h
    · left
      nlinarith
    · right
      have hy : 0.69 < y := by
        by_contra hc
        push Not at hc
        have : y * (2 - y) ^ 2 ≤ 4 * (1 - y) := by nlinarith [mul_nonneg hy0.le (sub_nonneg.2 hc)]
        linarith
      have hu1 : 0.9 ≤ y * (2 - y) := by nlinarith
      have hu2 : y * (2 - y) ≤ 1 := by nlinarith [sq_nonneg (y - 1)]
      have hs2 : s ≤ 1.4 := by
        refine hs1.trans ?_
        have : y * (2 - y) ^ 2 = y * (2 - y) * (2 - y) := by ring
        rw [this]
        nlinarith
      have hs3 : 4 * (y - 1) + s ≤ 1.4 := by linarith
      have hs4 : s * (4 * (y - 1) + s) ≤ 1.4 * 1.4 := mul_le_mul hs2 hs3 h.le (by norm_num)
      nlinarith
  · nlinarith [sq_nonneg (s + 2 * (y - 1)), sq_nonneg (y * (2 - y) - 1)]

theorem ratio_left (hc : 1 < c) {t : ℝ} (h1 : -1 < t) (h2 : t < 0) : c / (t + c) ≤ 2 / (1 - t ^ 2) - 1 / 2 := by
  have hy : 0 < 1 + t := by linarith
  have hu0 : 0 < 1 - t ^ 2 := by nlinarith
  have a1 : c / (t + c) ≤ 1 / (1 + t) := by
    rw [div_le_div_iff₀ (by linarith) hy]
    nlinarith
  have a2 : 2 / (1 - t ^ 2) - 1 / 2 - 1 / (1 + t) = (1 + t) ^ 2 / (2 * (1 - t ^ 2)) := by
    have : 1 - t ^ 2 = (1 - t) * (1 + t) := by ring
    have h3 : 1 - t ≠ 0 := by linarith
    rw [this]
    field_simp
    ring
  have a3 : 0 ≤ (1 + t) ^ 2 / (2 * (1 - t ^ 2)) := by positivity
  linarith

theorem bracket_right (hc : 1 < c) {t : ℝ} (ht : 0 ≤ t) (h2 : t < 1) :
    16 - 32 * (1 - t ^ 2) + 12 * (1 - t ^ 2) ^ 2 + 8 * t * (1 - t ^ 2) ^ 2 / (t + c) + 2 * (1 - t ^ 2) ^ 4 / (t + c) ^ 2 ≤ 16 ∧
    -16 ≤ 16 - 32 * (1 - t ^ 2) + 12 * (1 - t ^ 2) ^ 2 + 8 * t * (1 - t ^ 2) ^ 2 / (t + c) + 2 * (1 - t ^ 2) ^ 4 / (t + c) ^ 2 := by
  have hu0 : 0 < 1 - t ^ 2 := by nlinarith
  have hu1 : 1 - t ^ 2 ≤ 1 := by nlinarith [sq_nonneg t]
  have hw : 0 < t + c := by linarith
  have a1 : 0 ≤ 8 * t * (1 - t ^ 2) ^ 2 / (t + c) := by positivity
  have a2 : 8 * t * (1 - t ^ 2) ^ 2 / (t + c) ≤ 8 * (1 - t ^ 2) ^ 2 := by
    rw [div_le_iff₀ hw]
    have : 0 ≤ (1 - t ^ 2) ^ 2 * c := by positivity
    linarith
  have a3 : 0 ≤ 2 * (1 - t ^ 2) ^ 4 / (t + c) ^ 2 := by positivity
  have a4 : 2 * (1 - t ^ 2) ^ 4 / (t + c) ^ 2 ≤ 2 * (1 - t ^ 2) ^ 2 := by
    rw [div_le_iff₀ (by positivity)]
    have b1 : (1 - t ^ 2) ^ 2 ≤ 1 := pow_le_one₀ hu0.le hu1
    have b2 : 1 ≤ (t + c) ^ 2 := one_le_pow₀ (by linarith)
    have : (1 - t ^ 2) ^ 4 ≤ (1 - t ^ 2) ^ 2 * (t + c) ^ 2 := by
      calc (1 - t ^ 2) ^ 4 = (1 - t ^ 2) ^ 2 * (1 - t ^ 2) ^ 2 := by ring
        _ ≤ _ := mul_le_mul_of_nonneg_left (b1.trans b2) (by positivity)
    linarith
  generalize 8 * t * (1 - t ^ 2) ^ 2 / (t + c) = A at *
  generalize 2 * (1 - t ^ 2) ^ 4 / (t + c) ^ 2 = B at *
  generalize 1 - t ^ 2 = u at *
  constructor <;> nlinarith

theorem b2_bound (hc : 1 < c) {t : ℝ} (h1 : -1 < t) (h2 : t < 1) : |b2 c t| ≤ 15 / 2 := by
  have hu0 : 0 < 1 - t ^ 2 := by nlinarith
  have hu1 : 1 - t ^ 2 ≤ 1 := by nlinarith [sq_nonneg t]
  have hw : 0 < t + c := by linarith
  obtain ⟨x, hx⟩ : ∃ x, x = 2 / (1 - t ^ 2) := ⟨_, rfl⟩
  have hux : 1 - t ^ 2 = 2 / x := by rw [hx]; field_simp
  have hx2 : 2 ≤ x := by rw [hx, le_div_iff₀ hu0]; linarith
  have hx0 : 0 < x := by linarith
  have hE := Real.exp_pos (-x)
  have hEE : Real.exp (-x) * Real.exp x = 1 := by rw [← Real.exp_add]; simp
  have eE : Real.exp (-2 / (1 - t ^ 2)) / (1 - t ^ 2) ^ 4 = Real.exp (-x) * x ^ 4 / 16 := by
    have : -2 / (1 - t ^ 2) = -x := by rw [hx]; ring
    rw [this, hux]
    field_simp
    ring
  have hG0 : 0 ≤ Real.exp (-x) * x ^ 4 / 16 := by positivity
  have hC0 : 0 ≤ c / (t + c) := by positivity
  have hF0 : 0 ≤ c / (t + c) * (Real.exp (-x) * x ^ 4 / 16) := mul_nonneg hC0 hG0
  unfold b2
  rw [eE]
  rcases le_or_gt 0 t with ht | ht
  · have p4 : Real.exp (-x) * x ^ 4 ≤ 4.7 := by
      calc _ ≤ Real.exp (-x) * (4.7 * Real.exp x) := mul_le_mul_of_nonneg_left (pow_four_le_exp hx0.le) hE.le
        _ = 4.7 := by rw [mul_left_comm, hEE, mul_one]
    have hC1 : c / (t + c) ≤ 1 := by rw [div_le_one hw]; linarith
    have hF : c / (t + c) * (Real.exp (-x) * x ^ 4 / 16) ≤ 4.7 / 16 := by
      calc _ ≤ 1 * (Real.exp (-x) * x ^ 4 / 16) := mul_le_mul_of_nonneg_right hC1 hG0
        _ ≤ _ := by rw [one_mul]; linarith
    obtain ⟨hB1, hB2⟩ := bracket_right hc ht h2
    rw [abs_mul, abs_of_nonneg hF0]
    calc _ ≤ 4.7 / 16 * 16 := mul_le_mul hF (abs_le.2 ⟨hB2, hB1⟩) (abs_nonneg _) (by norm_num)
      _ ≤ _ := by norm_num
  · have hC1 := ratio_left hc h1 ht
    rw [← hx] at hC1
    have hF : c / (t + c) * (Real.exp (-x) * x ^ 4 / 16) ≤ (x - 1 / 2) * (Real.exp (-x) * x ^ 4 / 16) :=
      mul_le_mul_of_nonneg_right hC1 hG0
    have hF5 : c / (t + c) * (Real.exp (-x) * x ^ 4 / 16) ≤ 21.1 / 16 := by
      have p5 : Real.exp (-x) * x ^ 5 ≤ 21.1 := by
        calc _ ≤ Real.exp (-x) * (21.1 * Real.exp x) := mul_le_mul_of_nonneg_left (pow_le_exp hx0.le) hE.le
          _ = 21.1 := by rw [mul_left_comm, hEE, mul_one]
      refine hF.trans ?_
      have e : (x - 1 / 2) * (Real.exp (-x) * x ^ 4 / 16) =
        (Real.exp (-x) * x ^ 5) / 16 - Real.exp (-x) * x ^ 4 / 16 / 2 := by ring
      rw [e]
      linarith
    obtain ⟨hb1, hb2⟩ := bracket_left (w := t + c) h1 ht (by linarith)
    rcases hb1 with hb | h4
    swap
    · rw [abs_mul, abs_of_nonneg hF0]
      calc _ ≤ 21.1 / 16 * 4 := mul_le_mul hF5 (abs_le.2 ⟨hb2, h4⟩) (abs_nonneg _) (by norm_num)
        _ ≤ _ := by norm_num
    rcases le_or_gt (16 - 32 * (1 - t ^ 2) + 12 * (1 - t ^ 2) ^ 2 + 8 * t * (1 - t ^ 2) ^ 2 / (t + c) +
      2 * (1 - t ^ 2) ^ 4 / (t + c) ^ 2) 4 with h4 | h4
    · rw [abs_mul, abs_of_nonneg hF0]
      calc _ ≤ 21.1 / 16 * 4 := mul_le_mul hF5 (abs_le.2 ⟨hb2, h4⟩) (abs_nonneg _) (by norm_num)
        _ ≤ _ := by norm_num
    · have hh0 : 16 - 32 * (1 - t ^ 2) + 12 * (1 - t ^ 2) ^ 2 = 16 * ((x - 1) * (x - 3)) / x ^ 2 := by
        rw [hux]; field_simp; ring
      have pp : Real.exp (-x) * ((x - 1 / 2) * x ^ 2 * (x - 1) * (x - 3)) ≤ 15 / 2 := by
        calc _ ≤ Real.exp (-x) * (15 / 2 * Real.exp x) := mul_le_mul_of_nonneg_left (poly_le_exp (by linarith)) hE.le
          _ = 15 / 2 := by rw [mul_left_comm, hEE, mul_one]
      have hx1 : 0 ≤ x - 1 / 2 := by linarith
      rw [abs_of_nonneg (mul_nonneg hF0 (by linarith))]
      calc _ ≤ (x - 1 / 2) * (Real.exp (-x) * x ^ 4 / 16) * (16 * ((x - 1) * (x - 3)) / x ^ 2) :=
            mul_le_mul hF (by rw [← hh0]; exact hb) (by linarith) (by positivity)
        _ = Real.exp (-x) * ((x - 1 / 2) * x ^ 2 * (x - 1) * (x - 3)) := by field_simp
        _ ≤ 15 / 2 := pp

theorem bumpT_b0 {t : ℝ} (h1 : -1 < t) (h2 : t < 1) : bumpT c t = b0 c t := by rw [bumpT, if_pos ⟨h1, h2⟩, b0]

/-- one panel inside the support -/
theorem bumpT_panel (hc : 1 < c) {x y : ℝ} (h1 : -1 < x) (hxy : x < y) (h2 : y < 1) :
    |(bumpT c x + bumpT c y) / 2 * (y - x) - ∫ t in x..y, bumpT c t| ≤ 5 / 8 * (y - x) ^ 3 := by
  have e : ∫ t in x..y, bumpT c t = ∫ t in x..y, b0 c t :=
    intervalIntegral.integral_congr fun t ht => by
      rw [Set.uIcc_of_le hxy.le] at ht
      exact bumpT_b0 (by linarith [ht.1]) (by linarith [ht.2])
  rw [bumpT_b0 h1 (by linarith), bumpT_b0 (by linarith) h2, e]
  refine (trap_c2 hxy (fun t ht => b0_deriv (by linarith [ht.1]) (by linarith [ht.2]) hc)
    (fun t ht => b1_deriv (by linarith [ht.1]) (by linarith [ht.2]) hc)
    (fun t ht => b2_bound hc (by linarith [ht.1]) (by linarith [ht.2]))).trans (le_of_eq ?_)
  ring

/-- the bump is negligible within `h` of the ends of its support -/
theorem bumpT_near (hc : 1 < c) {t h : ℝ} (hh : 0 < h) (ht : 1 - t ^ 2 ≤ 2 * h) : bumpT c t ≤ 4.7 * h ^ 3 := by
  unfold bumpT
  split_ifs with hs
  · obtain ⟨h1, h2⟩ := hs
    have hu0 : 0 < 1 - t ^ 2 := by nlinarith
    obtain ⟨x, hx⟩ : ∃ x, x = 2 / (1 - t ^ 2) := ⟨_, rfl⟩
    have hxe : -2 / (1 - t ^ 2) = -x := by rw [hx]; ring
    have hx2 : 2 ≤ x := by rw [hx, le_div_iff₀ hu0]; nlinarith [sq_nonneg t]
    have hxh : 1 ≤ x * h := by rw [hx, div_mul_eq_mul_div, le_div_iff₀ hu0]; linarith
    have hC : c / (t + c) ≤ x := by
      rcases le_or_gt 0 t with h | h
      · have : c / (t + c) ≤ 1 := by rw [div_le_one (by linarith)]; linarith
        linarith
      · have := ratio_left hc h1 h
        rw [hx]
        linarith
    have hE := Real.exp_pos (-x)
    have hEE : Real.exp (-x) * Real.exp x = 1 := by rw [← Real.exp_add]; simp
    have p4 : Real.exp (-x) * x ^ 4 ≤ 4.7 := by
      calc _ ≤ Real.exp (-x) * (4.7 * Real.exp x) := mul_le_mul_of_nonneg_left (pow_four_le_exp (by linarith)) hE.le
        _ = 4.7 := by rw [mul_left_comm, hEE, mul_one]
    rw [hxe]
    have hxE : 0 ≤ x * Real.exp (-x) := by positivity
    calc c * Real.exp (-x) / (t + c) = c / (t + c) * Real.exp (-x) := by ring
      _ ≤ x * Real.exp (-x) := mul_le_mul_of_nonneg_right hC hE.le
      _ = x * Real.exp (-x) * 1 := (mul_one _).symm
      _ ≤ x * Real.exp (-x) * (x * h) ^ 3 := mul_le_mul_of_nonneg_left (one_le_pow₀ hxh) hxE
      _ = Real.exp (-x) * x ^ 4 * h ^ 3 := by ring
      _ ≤ 4.7 * h ^ 3 := mul_le_mul_of_nonneg_right p4 (by positivity)
  · positivity

theorem integral_near (hc : 1 < c) {x h : ℝ} (hh : 0 < h) (hh1 : h ≤ 1 / 150)
    (ht : ∀ t, x ≤ t → t ≤ x + h → 1 - t ^ 2 ≤ 2 * h) : |0 - ∫ t in x..(x + h), bumpT c t| ≤ 5 / 8 * h ^ 3 := by
  have h0 := integral_nonneg' hc (show x ≤ x + h by linarith)
  rw [zero_sub, abs_neg, abs_of_nonneg h0]
  calc ∫ t in x..(x + h), bumpT c t ≤ ∫ t in x..(x + h), 4.7 * h ^ 3 :=
        integral_mono_on (by linarith) (bumpT_int hc _ _) (by simp) fun t h' => bumpT_near hc hh (ht t h'.1 h'.2)
    _ = 4.7 * h * h ^ 3 := by rw [intervalIntegral.integral_const, smul_eq_mul]; ring
    _ ≤ _ := mul_le_mul_of_nonneg_right (by norm_num at *; linarith) (by positivity)

/-! ## Size of the integrals -/

theorem pair_ge (hc : 1 < c) {x y b : ℝ} (h0 : 0 ≤ x) (hxy : x ≤ y) (hy : y < 1) (hb : b ≤ Real.exp (-2 / (1 - y ^ 2))) :
    (y - x) * (2 * b) ≤ (∫ t in x..y, bumpT c t) + ∫ t in (-y)..(-x), bumpT c t := by
  have hi : IntervalIntegrable (fun t => bumpT c (-t)) volume x y := by
    have := (bumpT_int hc (-x) (-y)).comp_sub_left 0
    simpa using this
  rw [← intervalIntegral.integral_comp_neg (fun t => bumpT c t), ← intervalIntegral.integral_add (bumpT_int hc _ _) hi]
  have := integral_mono_on (μ := volume) hxy (f := fun _ => 2 * b) (g := fun t => bumpT c t + bumpT c (-t)) (by simp)
    ((bumpT_int hc x y).add hi) (fun t ht => by
      have h1 : 0 ≤ t := h0.trans ht.1
      have h2 : t < 1 := ht.2.trans_lt hy
      have hE := exp_bump_ge (h0.trans hxy) hy (by linarith) ht.2 hb
      have hE0 := Real.exp_pos (-2 / (1 - t ^ 2))
      have e : bumpT c t + bumpT c (-t) = Real.exp (-2 / (1 - t ^ 2)) * (2 * c ^ 2 / (c ^ 2 - t ^ 2)) := by
        have h3 : t + c ≠ 0 := by linarith
        have h4 : -t + c ≠ 0 := by linarith
        have h5 : c ^ 2 - t ^ 2 ≠ 0 := by
          have : c ^ 2 - t ^ 2 = (t + c) * (-t + c) := by ring
          rw [this]; exact mul_ne_zero h3 h4
        rw [bumpT, bumpT, if_pos ⟨by linarith, h2⟩, if_pos ⟨by linarith, by linarith⟩, neg_sq]
        field_simp
        ring
      have h6 : 2 ≤ 2 * c ^ 2 / (c ^ 2 - t ^ 2) := by
        rw [le_div_iff₀ (by nlinarith)]
        nlinarith
      show 2 * b ≤ bumpT c t + bumpT c (-t)
      rw [e]
      nlinarith)
  rw [intervalIntegral.integral_const, smul_eq_mul] at this
  exact this

/-- the whole integral -/
theorem integral_total (hc : 1 < c) : 0.115 ≤ ∫ t in (-1)..1, bumpT c t := by
  have s : ∀ a b d, (∫ t in a..b, bumpT c t) + ∫ t in b..d, bumpT c t = ∫ t in a..d, bumpT c t :=
    fun a b d => integral_add_adjacent_intervals (bumpT_int hc _ _) (bumpT_int hc _ _)
  have z1 := integral_nonneg' hc (by norm_num : (-1 : ℝ) ≤ -(3 / 4))
  have z2 := integral_nonneg' hc (by norm_num : (3 / 4 : ℝ) ≤ 1)
  have a1 := pair_ge hc (x := 0) (y := 1 / 8) (b := 0.131) (by norm_num) (by norm_num) (by norm_num) (by
    have := le_exp_neg_div (m := 128) (k := 63) (b := 0.131) (by norm_num) (by norm_num) (by norm_num)
    norm_num at this ⊢; exact this)
  have a2 := pair_ge hc (x := 1 / 8) (y := 1 / 4) (b := 0.118) (by norm_num) (by norm_num) (by norm_num) (by
    have := le_exp_neg_div (m := 32) (k := 15) (b := 0.118) (by norm_num) (by norm_num) (by norm_num)
    norm_num at this ⊢; exact this)
  have a3 := pair_ge hc (x := 1 / 4) (y := 3 / 8) (b := 0.097) (by norm_num) (by norm_num) (by norm_num) (by
    have := le_exp_neg_div (m := 128) (k := 55) (b := 0.097) (by norm_num) (by norm_num) (by norm_num)
    norm_num at this ⊢; exact this)
  have a4 := pair_ge hc (x := 3 / 8) (y := 1 / 2) (b := 0.069) (by norm_num) (by norm_num) (by norm_num) (by
    have := le_exp_neg_div (m := 8) (k := 3) (b := 0.069) (by norm_num) (by norm_num) (by norm_num)
    norm_num at this ⊢; exact this)
  have a5 := pair_ge hc (x := 1 / 2) (y := 5 / 8) (b := 0.037) (by norm_num) (by norm_num) (by norm_num) (by
    have := le_exp_neg_div (m := 128) (k := 39) (b := 0.037) (by norm_num) (by norm_num) (by norm_num)
    norm_num at this ⊢; exact this)
  have a6 := pair_ge hc (x := 5 / 8) (y := 3 / 4) (b := 0.010) (by norm_num) (by norm_num) (by norm_num) (by
    have := le_exp_neg_div (m := 32) (k := 7) (b := 0.010) (by norm_num) (by norm_num) (by norm_num)
    norm_num at this ⊢; exact this)
  rw [neg_zero] at a1
  have t1 := s 0 (1 / 8) (1 / 4)
  have t2 := s 0 (1 / 4) (3 / 8)
  have t3 := s 0 (3 / 8) (1 / 2)
  have t4 := s 0 (1 / 2) (5 / 8)
  have t5 := s 0 (5 / 8) (3 / 4)
  have t6 := s 0 (3 / 4) 1
  have u1 := s (-(1 / 4)) (-(1 / 8)) 0
  have u2 := s (-(3 / 8)) (-(1 / 4)) 0
  have u3 := s (-(1 / 2)) (-(3 / 8)) 0
  have u4 := s (-(5 / 8)) (-(1 / 2)) 0
  have u5 := s (-(3 / 4)) (-(5 / 8)) 0
  have u6 := s (-1) (-(3 / 4)) 0
  have v := s (-1) 0 1
  have e1 : (1 / 8 - 0 : ℝ) = 1 / 8 := by norm_num
  have e2 : (1 / 4 - 1 / 8 : ℝ) = 1 / 8 := by norm_num
  have e3 : (3 / 8 - 1 / 4 : ℝ) = 1 / 8 := by norm_num
  have e4 : (1 / 2 - 3 / 8 : ℝ) = 1 / 8 := by norm_num
  have e5 : (5 / 8 - 1 / 2 : ℝ) = 1 / 8 := by norm_num
  have e6 : (3 / 4 - 5 / 8 : ℝ) = 1 / 8 := by norm_num
  rw [e1] at a1
  rw [e2] at a2
  rw [e3] at a3
  rw [e4] at a4
  rw [e5] at a5
  rw [e6] at a6
  linarith

/-- the integral over the first eighth of the band -/
theorem integral_eighth (hc : 1 < c) : 0.00019 ≤ ∫ t in (-1)..(-3 / 4), bumpT c t := by
  have s := integral_add_adjacent_intervals (bumpT_int hc (-1) (-4 / 5)) (bumpT_int hc (-4 / 5) (-3 / 4))
  have z1 := integral_nonneg' hc (by norm_num : (-1 : ℝ) ≤ -4 / 5)
  have a1 := integral_ge hc (by norm_num : (-4 / 5 : ℝ) ≤ -3 / 4) (m := 0.0038) (fun t h1 h2 =>
    bumpT_ge_neg hc (u := 4 / 5) (by norm_num) (by linarith) (by linarith) (by norm_num) (by
    have := le_exp_neg_div (m := 50) (k := 9) (b := 0.0038) (by norm_num) (by norm_num) (by norm_num)
    norm_num at this ⊢; exact this))
  norm_num at a1 z1 s ⊢
  linarith

/-! ## The quadrature of the code -/

/-- the quadrature is second-order accurate -/
theorem quad_second {lam : ℝ} (hlam : 1 < lam) {a : ℝ} {n : ℕ} (h1 : 1 / lam ≤ a) (h2 : a < 1) (hn : 300 ≤ n) :
    |quad lam n a * shiftC lam - ∫ t in (sArg lam a)..1, bumpT (shiftC lam) t| ≤ 5 / 8 * (1 - sArg lam a) ^ 3 / n ^ 2 := by
  classical
  have hc := one_lt_shiftC hlam
  have hn0 : (300 : ℝ) ≤ n := by exact_mod_cast hn
  have hn1 : (0 : ℝ) < n := by linarith
  have hτ : sArg lam a < 1 := by rw [← sArg_one hlam, sArg_lt hlam]; exact h2
  have hτ' : -1 ≤ sArg lam a := by rw [← sArg_edge hlam, sArg_mono hlam]; exact h1
  obtain ⟨s, hs⟩ : ∃ s, s = sArg lam a := ⟨_, rfl⟩
  obtain ⟨h, hh⟩ : ∃ h, h = (1 - s) / n := ⟨_, rfl⟩
  have hh0 : 0 < h := by rw [hh, hs]; exact div_pos (by linarith) hn1
  have hh1 : h ≤ 1 / 150 := by
    rw [hh, div_le_div_iff₀ hn1 (by norm_num), hs]
    linarith
  have hend : s + n * h = 1 := by rw [hh]; field_simp; ring
  have e : quad lam n a * shiftC lam = ∑ i ∈ Finset.range n, if touches lam n a i then 0 else
      (bumpT (shiftC lam) (s + i * h) + bumpT (shiftC lam) (s + (i + 1) * h)) / 2 * h := by
    unfold quad
    rw [sum_Ico_int, Finset.sum_mul]
    refine Finset.sum_congr rfl fun i hi => ?_
    split_ifs with ht
    · simp
    · rw [quad_panel hlam h1 h2 (Finset.mem_range.1 hi) ht, div_mul_cancel₀ _ (by linarith), hh, hs]
  have eI : ∫ t in s..1, bumpT (shiftC lam) t =
      ∑ i ∈ Finset.range n, ∫ t in (s + i * h)..(s + i * h + h), bumpT (shiftC lam) t := by
    have := sum_integral_adjacent_intervals (f := bumpT (shiftC lam)) (μ := volume) (a := fun i : ℕ => s + i * h) (n := n)
      (fun k _ => bumpT_int hc _ _)
    simp only [Nat.cast_zero, zero_mul, add_zero] at this
    rw [hend] at this
    rw [← this]
    refine Finset.sum_congr rfl fun i _ => ?_
    congr 1
    push_cast
    ring
  rw [← hs, e, eI, ← Finset.sum_sub_distrib]
  have hterm : ∀ i ∈ Finset.range n, |(if touches lam n a i then 0 else
      (bumpT (shiftC lam) (s + i * h) + bumpT (shiftC lam) (s + (i + 1) * h)) / 2 * h) -
      ∫ t in (s + i * h)..(s + i * h + h), bumpT (shiftC lam) t| ≤ 5 / 8 * h ^ 3 := by
    intro i hi
    rw [Finset.mem_range] at hi
    have hih : 0 ≤ (i : ℝ) * h := by positivity
    by_cases ht : touches lam n a i
    · rw [if_pos ht]
      rw [touches_iff h1 h2 (by omega) (by omega) (by omega)] at ht
      refine integral_near hc hh0 hh1 fun t ha hb => ?_
      rcases ht with ht | ⟨ht, hae⟩
      · have : (i : ℝ) + 1 = n := by exact_mod_cast (by omega : i + 1 = n)
        have hi1 : s + i * h + h = 1 := by rw [← hend, ← this]; ring
        nlinarith
      · have hi0 : i = 0 := by omega
        have hs1 : s = -1 := by rw [hs, hae, sArg_edge hlam]
        rw [hi0, hs1] at ha hb
        simp only [Nat.cast_zero, zero_mul, add_zero] at ha hb
        nlinarith
    · rw [if_neg ht]
      rw [touches_iff h1 h2 (by omega) (by omega) (by omega)] at ht
      push Not at ht
      have hin : i + 1 < n := by omega
      have hlo : -1 < s + i * h := by
        rcases Nat.eq_zero_or_pos i with h0 | h0
        · have hae : a ≠ 1 / lam := ht.2 (by omega)
          have : sArg lam (1 / lam) < sArg lam a := (sArg_lt hlam).2 (lt_of_le_of_ne h1 (Ne.symm hae))
          rw [sArg_edge hlam, ← hs] at this
          linarith
        · have : (1 : ℝ) ≤ i := by exact_mod_cast h0
          rw [← hs] at hτ'
          nlinarith
      have hhi : s + i * h + h < 1 := by
        have : (i : ℝ) + 1 < n := by exact_mod_cast hin
        rw [← hend]
        nlinarith
      have := bumpT_panel hc hlo (show s + i * h < s + i * h + h by linarith) hhi
      have e2 : s + i * h + h - (s + i * h) = h := by ring
      have e3 : s + (i + 1) * h = s + i * h + h := by ring
      rw [e2] at this
      rw [e3]
      exact this
  refine (Finset.abs_sum_le_sum_abs _ _).trans ((Finset.sum_le_sum hterm).trans (le_of_eq ?_))
  rw [Finset.sum_const, Finset.card_range, nsmul_eq_mul, hh]
  field_simp

/-- the same, uniformly in the lower limit -/
theorem quad_second' {lam : ℝ} (hlam : 1 < lam) {a : ℝ} {n : ℕ} (h1 : 1 / lam ≤ a) (h2 : a < 1) (hn : 300 ≤ n) :
    |quad lam n a * shiftC lam - ∫ t in (sArg lam a)..1, bumpT (shiftC lam) t| ≤ 5 / n ^ 2 := by
  have hn1 : (0 : ℝ) < n := by exact_mod_cast (by omega : 0 < n)
  have hτ : sArg lam a < 1 := by rw [← sArg_one hlam, sArg_lt hlam]; exact h2
  have hτ' : -1 ≤ sArg lam a := by rw [← sArg_edge hlam, sArg_mono hlam]; exact h1
  refine (quad_second hlam h1 h2 hn).trans ?_
  have : (1 - sArg lam a) ^ 3 ≤ 2 ^ 3 := pow_le_pow_left₀ (by linarith) (by linarith) 3
  gcongr
  linarith

end
end S2wav
