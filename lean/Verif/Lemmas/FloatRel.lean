import Verif.Lemmas.FloatAxisym
import Verif.Lemmas.Directional
import Mathlib.Algebra.Order.Ring.Pow

/-! # Relative errors, and the normalisation factors of the directional filters in double precision -/

namespace S2wav
open Classical

/-- `x` is `y` up to `k` roundings -/
def Rl (k : ℕ) (x y : ℝ) : Prop := 0 < y ∧ y * (1 - 1 / 2 ^ 52) ^ k ≤ x ∧ x ≤ y * (1 + 1 / 2 ^ 52) ^ k

namespace Rl
variable {k k' : ℕ} {x y z x' y' : ℝ}

theorem lo_pos (k : ℕ) : (0 : ℝ) < (1 - 1 / 2 ^ 52) ^ k := pow_pos (by norm_num) k
theorem hi_pos (k : ℕ) : (0 : ℝ) < (1 + 1 / 2 ^ 52) ^ k := pow_pos (by norm_num) k

theorem refl (h : 0 < x) : Rl 0 x x := ⟨h, by simp, by simp⟩

theorem pos (h : Rl k x y) : 0 < x := lt_of_lt_of_le (mul_pos h.1 (lo_pos k)) h.2.1

theorem mono (h : Rl k x y) (hk : k ≤ k') : Rl k' x y := by
  refine ⟨h.1, le_trans (mul_le_mul_of_nonneg_left ?_ h.1.le) h.2.1, le_trans h.2.2 (mul_le_mul_of_nonneg_left ?_ h.1.le)⟩
  · exact pow_le_pow_of_le_one (by norm_num) (by norm_num) hk
  · exact pow_le_pow_right₀ (by norm_num) hk

theorem trans (h : Rl k x y) (h' : Rl k' y z) : Rl (k + k') x z := by
  refine ⟨h'.1, ?_, ?_⟩
  · rw [pow_add]
    calc _ = z * (1 - 1 / 2 ^ 52) ^ k' * (1 - 1 / 2 ^ 52) ^ k := by ring
      _ ≤ y * (1 - 1 / 2 ^ 52) ^ k := mul_le_mul_of_nonneg_right h'.2.1 (lo_pos k).le
      _ ≤ x := h.2.1
  · rw [pow_add]
    calc x ≤ y * (1 + 1 / 2 ^ 52) ^ k := h.2.2
      _ ≤ z * (1 + 1 / 2 ^ 52) ^ k' * (1 + 1 / 2 ^ 52) ^ k := mul_le_mul_of_nonneg_right h'.2.2 (hi_pos k).le
      _ = _ := by ring

theorem mul (h : Rl k x y) (h' : Rl k' x' y') : Rl (k + k') (x * x') (y * y') := by
  refine ⟨mul_pos h.1 h'.1, ?_, ?_⟩
  · rw [pow_add]
    calc _ = (y * (1 - 1 / 2 ^ 52) ^ k) * (y' * (1 - 1 / 2 ^ 52) ^ k') := by ring
      _ ≤ x * x' := mul_le_mul h.2.1 h'.2.1 (mul_pos h'.1 (lo_pos _)).le h.pos.le
  · rw [pow_add]
    calc x * x' ≤ (y * (1 + 1 / 2 ^ 52) ^ k) * (y' * (1 + 1 / 2 ^ 52) ^ k') := mul_le_mul h.2.2 h'.2.2 h'.pos.le (mul_pos h.1 (hi_pos _)).le
      _ = _ := by ring

theorem sq (h : Rl k x y) : Rl (k + k) (x ^ 2) (y ^ 2) := by
  rw [_root_.sq, _root_.sq]; exact h.mul h

theorem inv (h : Rl k x y) : Rl (2 * k) x⁻¹ y⁻¹ := by
  have hx := h.pos
  have hy := h.1
  have a : (1 : ℝ) ≤ (1 - 1 / 2 ^ 52) ^ k * (1 + 1 / 2 ^ 52) ^ (2 * k) := by
    rw [pow_mul, ← mul_pow]; exact one_le_pow₀ (by norm_num)
  have b : (1 + 1 / 2 ^ 52 : ℝ) ^ k * (1 - 1 / 2 ^ 52) ^ (2 * k) ≤ 1 := by
    rw [pow_mul, ← mul_pow]; exact pow_le_one₀ (by norm_num) (by norm_num)
  refine ⟨inv_pos.2 hy, ?_, ?_⟩
  · rw [← one_div x, le_div_iff₀ hx]
    calc y⁻¹ * (1 - 1 / 2 ^ 52) ^ (2 * k) * x ≤ y⁻¹ * (1 - 1 / 2 ^ 52) ^ (2 * k) * (y * (1 + 1 / 2 ^ 52) ^ k) :=
          mul_le_mul_of_nonneg_left h.2.2 (mul_pos (inv_pos.2 hy) (lo_pos _)).le
      _ = (1 + 1 / 2 ^ 52 : ℝ) ^ k * (1 - 1 / 2 ^ 52) ^ (2 * k) := by field_simp
      _ ≤ 1 := b
  · rw [← one_div x, div_le_iff₀ hx]
    calc 1 ≤ (1 - 1 / 2 ^ 52 : ℝ) ^ k * (1 + 1 / 2 ^ 52) ^ (2 * k) := a
      _ = y⁻¹ * (1 + 1 / 2 ^ 52) ^ (2 * k) * (y * (1 - 1 / 2 ^ 52) ^ k) := by field_simp
      _ ≤ _ := mul_le_mul_of_nonneg_left h.2.1 (mul_pos (inv_pos.2 hy) (hi_pos _)).le

theorem div (h : Rl k x y) (h' : Rl k' x' y') : Rl (k + 2 * k') (x / x') (y / y') := by
  rw [div_eq_mul_inv, div_eq_mul_inv]; exact h.mul h'.inv

theorem rnd (h : 1 / 2 ^ 40 ≤ x) : Rl 1 (S2wav.rnd x) x := by
  have hx : 0 < x := lt_of_lt_of_le (by norm_num) h
  have := abs_le.1 (rnd_acc' x)
  rw [abs_of_pos hx] at this
  refine ⟨hx, ?_, ?_⟩
  · rw [pow_one]; norm_num at *; linarith
  · rw [pow_one]; norm_num at *; linarith

theorem sqrt (h : 1 / 2 ^ 40 ≤ x) (h1 : x ≤ 2 ^ 60) : Rl 2 (S2wav.rnd (Real.sqrt x) ^ 2) x := by
  have hx : 0 < x := lt_of_lt_of_le (by norm_num) h
  have hs : 1 / 2 ^ 40 ≤ Real.sqrt x := by
    rw [Real.le_sqrt (by positivity) hx.le]
    refine le_trans (by norm_num) h
  have := (Rl.rnd hs).sq
  rwa [Real.sq_sqrt hx.le] at this

theorem near (h : Rl k x y) (hk : k ≤ 16) : |x - y| ≤ y / 2 ^ 47 := by
  have h' := h.mono hk
  have a := h'.2.1
  have b := h'.2.2
  have e1 : (1 - 1 / 2 ^ 47 : ℝ) ≤ (1 - 1 / 2 ^ 52) ^ 16 := by norm_num
  have e2 : (1 + 1 / 2 ^ 52 : ℝ) ^ 16 ≤ 1 + 1 / 2 ^ 47 := by norm_num
  have c := mul_le_mul_of_nonneg_left e1 h.1.le
  have d := mul_le_mul_of_nonneg_left e2 h.1.le
  rw [abs_le]
  constructor <;> linarith

theorem bounds (h : Rl k x y) (hk : k ≤ 16) : y / 2 ≤ x ∧ x ≤ 2 * y := by
  have := abs_le.1 (h.near hk)
  have := h.1
  norm_num at *
  constructor <;> linarith

end Rl

/-- the rounded π -/
noncomputable def piR : ℝ := rnd Real.pi

theorem piR_rl : Rl 1 piR Real.pi := Rl.rnd (by have := Real.pi_gt_three; norm_num; linarith)

/-- normalisation of the wavelets -/
noncomputable def wfac (l : ℤ) : ℝ := rnd (rnd (Real.sqrt (rnd (rnd ((2 * l + 1 : ℤ) : ℝ) / 8))) / piR)

/-- normalisation of the scaling function -/
noncomputable def vfac (l : ℤ) : ℝ := rnd (Real.sqrt (rnd (rnd ((2 * l + 1 : ℤ) : ℝ) / rnd (4 * piR))))

section
variable {l : ℤ} (hl0 : 0 ≤ l) (hl1 : l < 2 ^ 53)
include hl0 hl1

theorem odd_bounds : (1 : ℝ) ≤ ((2 * l + 1 : ℤ) : ℝ) ∧ ((2 * l + 1 : ℤ) : ℝ) ≤ 2 ^ 54 := by
  constructor
  · exact_mod_cast (by omega : (1 : ℤ) ≤ 2 * l + 1)
  · have : 2 * l + 1 ≤ 2 ^ 54 := by norm_num at hl1 ⊢; omega
    exact_mod_cast this

theorem odd_rl : Rl 1 (rnd ((2 * l + 1 : ℤ) : ℝ)) ((2 * l + 1 : ℤ) : ℝ) :=
  Rl.rnd ((by norm_num : (1 : ℝ) / 2 ^ 40 ≤ 1).trans (odd_bounds hl0 hl1).1)

theorem wfac_steps :
    Rl 2 (rnd (rnd ((2 * l + 1 : ℤ) : ℝ) / 8)) (((2 * l + 1 : ℤ) : ℝ) / 8) ∧
    Rl 4 (rnd (Real.sqrt (rnd (rnd ((2 * l + 1 : ℤ) : ℝ) / 8))) ^ 2) (((2 * l + 1 : ℤ) : ℝ) / 8) ∧
    0 < rnd (Real.sqrt (rnd (rnd ((2 * l + 1 : ℤ) : ℝ) / 8))) ∧
    1 / 100 ≤ rnd (Real.sqrt (rnd (rnd ((2 * l + 1 : ℤ) : ℝ) / 8))) / piR := by
  obtain ⟨t0, t1⟩ := odd_bounds hl0 hl1
  have r1 := odd_rl hl0 hl1
  have b1 := r1.bounds (by norm_num)
  set t := ((2 * l + 1 : ℤ) : ℝ)
  have r2 : Rl 1 (rnd t / 8) (t / 8) := by
    have := r1.div (Rl.refl (show (0 : ℝ) < 8 by norm_num)); simpa using this
  have r3 : Rl 2 (rnd (rnd t / 8)) (t / 8) := (Rl.rnd (by norm_num; linarith)).trans r2
  have b3 := r3.bounds (by norm_num)
  have r4 := (Rl.sqrt (x := rnd (rnd t / 8)) (by norm_num; linarith) (by norm_num at *; linarith)).trans r3
  have hs : (1 : ℝ) / 100 ≤ Real.sqrt (rnd (rnd t / 8)) := by
    rw [Real.le_sqrt (by norm_num) r3.pos.le]; norm_num; linarith
  have r5 := Rl.rnd (x := Real.sqrt (rnd (rnd t / 8))) ((by norm_num : (1 : ℝ) / 2 ^ 40 ≤ 1 / 100).trans hs)
  refine ⟨r3, r4, r5.pos, ?_⟩
  have b4 := r4.bounds (by norm_num)
  have bp := piR_rl.bounds (by norm_num)
  have hpi := Real.pi_lt_d2
  have h0 := Real.pi_pos
  rw [le_div_iff₀ piR_rl.pos]
  set s := rnd (Real.sqrt (rnd (rnd t / 8)))
  have : (1 / 5 : ℝ) ≤ s := by
    have h5 := r5.pos
    by_contra hc
    push Not at hc
    have : s ^ 2 < (1 / 5) ^ 2 := pow_lt_pow_left₀ hc h5.le (by norm_num)
    norm_num at this; linarith
  norm_num at hpi ⊢; linarith

theorem wfac_rl : Rl 10 (wfac l ^ 2) (((2 * l + 1 : ℤ) : ℝ) / 8 / Real.pi ^ 2) ∧ 0 < wfac l := by
  obtain ⟨r3, r4, r5, r6⟩ := wfac_steps hl0 hl1
  have q := Rl.rnd (x := rnd (Real.sqrt (rnd (rnd ((2 * l + 1 : ℤ) : ℝ) / 8))) / piR) ((by norm_num : (1 : ℝ) / 2 ^ 40 ≤ 1 / 100).trans r6)
  refine ⟨?_, q.pos⟩
  have q2 := q.sq
  rw [div_pow] at q2
  have := q2.trans (r4.div piR_rl.sq)
  exact this

theorem vfac_steps :
    Rl 2 (rnd (4 * piR)) (4 * Real.pi) ∧
    Rl 6 (rnd (rnd ((2 * l + 1 : ℤ) : ℝ) / rnd (4 * piR))) (((2 * l + 1 : ℤ) : ℝ) / (4 * Real.pi)) := by
  have h3 := Real.pi_gt_three
  have h4 := Real.pi_lt_d2
  obtain ⟨t0, t1⟩ := odd_bounds hl0 hl1
  have r1 := odd_rl hl0 hl1
  have b1 := r1.bounds (by norm_num)
  have bp := piR_rl.bounds (by norm_num)
  have p1 : Rl 1 (4 * piR) (4 * Real.pi) := by
    have := (Rl.refl (show (0 : ℝ) < 4 by norm_num)).mul piR_rl; simpa using this
  have p2 : Rl 2 (rnd (4 * piR)) (4 * Real.pi) := (Rl.rnd (by norm_num; linarith)).trans p1
  have bq := p2.bounds (by norm_num)
  refine ⟨p2, ?_⟩
  have d := r1.div p2
  have hd : (1 : ℝ) / 100 ≤ rnd ((2 * l + 1 : ℤ) : ℝ) / rnd (4 * piR) := by
    rw [le_div_iff₀ p2.pos]
    clear d
    generalize ((2 * l + 1 : ℤ) : ℝ) = t at *
    norm_num at *; linarith
  exact (Rl.rnd ((by norm_num : (1 : ℝ) / 2 ^ 40 ≤ 1 / 100).trans hd)).trans d

theorem vfac_rl : Rl 8 (vfac l ^ 2) (((2 * l + 1 : ℤ) : ℝ) / (4 * Real.pi)) ∧ 0 < vfac l := by
  have h3 := Real.pi_gt_three
  have h4 := Real.pi_lt_d2
  obtain ⟨t0, t1⟩ := odd_bounds hl0 hl1
  obtain ⟨-, r⟩ := vfac_steps hl0 hl1
  have b := r.bounds (by norm_num)
  have y1 : (1 : ℝ) / 20 ≤ ((2 * l + 1 : ℤ) : ℝ) / (4 * Real.pi) := by
    rw [le_div_iff₀ (by positivity)]
    clear b r
    generalize ((2 * l + 1 : ℤ) : ℝ) = t at *
    norm_num at *; linarith
  have y2 : ((2 * l + 1 : ℤ) : ℝ) / (4 * Real.pi) ≤ 2 ^ 54 := by
    rw [div_le_iff₀ (by positivity)]; norm_num at *; linarith
  have hx : (1 : ℝ) / 2 ^ 40 ≤ rnd (rnd ((2 * l + 1 : ℤ) : ℝ) / rnd (4 * piR)) := by norm_num at *; linarith
  refine ⟨(Rl.sqrt hx (by norm_num at *; linarith)).trans r, ?_⟩
  have hs : (1 : ℝ) / 2 ^ 40 ≤ Real.sqrt (rnd (rnd ((2 * l + 1 : ℤ) : ℝ) / rnd (4 * piR))) := by
    rw [Real.le_sqrt (by positivity) r.pos.le]; norm_num at *; linarith
  exact (Rl.rnd hs).pos

theorem wfac_le : wfac l ≤ 2 ^ 26 := by
  obtain ⟨r, h⟩ := wfac_rl hl0 hl1
  have b := (r.bounds (by norm_num)).2
  have t1 := (odd_bounds hl0 hl1).2
  have h3 := Real.pi_gt_three
  have : ((2 * l + 1 : ℤ) : ℝ) / 8 / Real.pi ^ 2 ≤ 2 ^ 54 / 8 := by
    refine (div_le_self (by have := (odd_bounds hl0 hl1).1; positivity) ?_).trans (div_le_div_of_nonneg_right t1 (by norm_num))
    nlinarith
  have h2 : wfac l ^ 2 ≤ (2 ^ 26) ^ 2 := by norm_num at *; linarith
  exact abs_le_of_sq_le_sq' h2 (by norm_num) |>.2

theorem vfac_le : vfac l ≤ 2 ^ 27 := by
  obtain ⟨r, h⟩ := vfac_rl hl0 hl1
  have b := (r.bounds (by norm_num)).2
  have t1 := (odd_bounds hl0 hl1).2
  have h3 := Real.pi_gt_three
  have : ((2 * l + 1 : ℤ) : ℝ) / (4 * Real.pi) ≤ 2 ^ 54 / 2 := by
    rw [div_le_iff₀ (by positivity)]; norm_num at *; linarith
  have h2 : vfac l ^ 2 ≤ (2 ^ 27) ^ 2 := by norm_num at *; linarith
  exact abs_le_of_sq_le_sq' h2 (by norm_num) |>.2

end

/-- squares of nearly equal numbers -/
theorem sq_near {x y : ℝ} (h : |x - y| ≤ y / 2 ^ 51 + 1 / 2 ^ 107) (hy0 : 0 ≤ y) (hy1 : y ≤ 2 ^ 28) : |x ^ 2 - y ^ 2| ≤ y ^ 2 / 2 ^ 49 + 1 / 2 ^ 77 := by
  have e : x ^ 2 - y ^ 2 = (x - y) * (2 * y + (x - y)) := by ring
  set d := x - y
  have h2 : |2 * y + d| ≤ 3 * y + 1 / 2 ^ 107 := by
    refine (abs_add_le _ _).trans ?_
    rw [abs_of_nonneg (by positivity : 0 ≤ 2 * y)]
    have := div_le_self hy0 (show (1 : ℝ) ≤ 2 ^ 51 by norm_num)
    linarith
  rw [e, abs_mul]
  calc |d| * |2 * y + d| ≤ (y / 2 ^ 51 + 1 / 2 ^ 107) * (3 * y + 1 / 2 ^ 107) := by gcongr
    _ ≤ y ^ 2 / 2 ^ 49 + 1 / 2 ^ 77 := by norm_num at hy1 ⊢; nlinarith

/-- two successive products -/
theorem prod_near {a w s : ℝ} (ha0 : 0 ≤ a) (ha : a ≤ 2) (hw0 : 0 ≤ w) (hw : w ≤ 2 ^ 26) (hs0 : 0 ≤ s) (hs : s ≤ 2) :
    |rnd (rnd (a * w) * s) ^ 2 - (a * w * s) ^ 2| ≤ (a * w * s) ^ 2 / 2 ^ 49 + 1 / 2 ^ 77 ∧ |rnd (a * w) * s| ≤ 2 ^ 53 ∧ |a * w| ≤ 2 ^ 53 := by
  have haw : 0 ≤ a * w := mul_nonneg ha0 hw0
  have haw2 : a * w ≤ 2 ^ 27 := by
    calc a * w ≤ 2 * 2 ^ 26 := mul_le_mul ha hw hw0 (by norm_num)
      _ = _ := by norm_num
  have r1 := rnd_acc' (a * w)
  rw [abs_of_nonneg haw] at r1
  have hb0 := rnd_nonneg haw
  set b := rnd (a * w)
  set y := a * w
  have hys : 0 ≤ y * s := mul_nonneg haw hs0
  have hys2 : y * s ≤ 2 ^ 28 := by
    calc y * s ≤ 2 ^ 27 * 2 := mul_le_mul haw2 hs hs0 (by norm_num)
      _ = _ := by norm_num
  have d1 : |b * s - y * s| ≤ y * s / 2 ^ 53 + 2 / 2 ^ 110 := by
    rw [← sub_mul, abs_mul, abs_of_nonneg hs0]
    calc |b - y| * s ≤ (y / 2 ^ 53 + 1 / 2 ^ 110) * s := mul_le_mul_of_nonneg_right r1 hs0
      _ = y * s / 2 ^ 53 + s / 2 ^ 110 := by ring
      _ ≤ _ := by gcongr
  have r2 := rnd_acc' (b * s)
  rw [abs_of_nonneg (mul_nonneg hb0 hs0)] at r2
  refine ⟨sq_near ?_ hys hys2, ?_, ?_⟩
  · rw [abs_le] at *
    norm_num at *
    constructor <;> linarith
  · rw [abs_of_nonneg (mul_nonneg hb0 hs0)]; rw [abs_le] at d1; norm_num at *; linarith
  · rw [abs_of_nonneg haw]; norm_num at *; linarith

end S2wav
