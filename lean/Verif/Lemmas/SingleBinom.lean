import Verif.Lemmas.SingleAxisym
import Verif.Lemmas.FloatBinom

/-! # `binomial_coefficient_jax` in single precision -/

namespace S2wav.Single
open Classical

variable {m : Libm} {lg : F64 → F64}

theorem log_fact_30 {n : ℕ} (hn : n ≤ 30) : Real.log (n.factorial : ℝ) ≤ 75 := by
  have h1 : (n.factorial : ℝ) ≤ (265252859812191058636308480000000 : ℕ) := by
    have h2 : Nat.factorial 30 = 265252859812191058636308480000000 := by decide +kernel
    rw [← h2]; exact_mod_cast Nat.factorial_le hn
  rw [Real.log_le_iff_le_exp (by exact_mod_cast n.factorial_pos)]
  have h := Real.exp_one_gt_d9
  have e : Real.exp 75 = Real.exp 1 ^ 75 := by rw [← Real.exp_nat_mul]; norm_num
  rw [e]
  calc (n.factorial : ℝ) ≤ (265252859812191058636308480000000 : ℕ) := h1
    _ ≤ 2.718 ^ 75 := by norm_num
    _ ≤ _ := by gcongr; norm_num at h ⊢; linarith

theorem log_fact_14 {n : ℕ} (hn : n ≤ 14) : Real.log (n.factorial : ℝ) ≤ 26 := by
  have h1 : (n.factorial : ℝ) ≤ (87178291200 : ℕ) := by
    have h2 : Nat.factorial 14 = 87178291200 := by decide +kernel
    rw [← h2]; exact_mod_cast Nat.factorial_le hn
  rw [Real.log_le_iff_le_exp (by exact_mod_cast n.factorial_pos)]
  have h := Real.exp_one_gt_d9
  have e : Real.exp 26 = Real.exp 1 ^ 26 := by rw [← Real.exp_nat_mul]; norm_num
  rw [e]
  calc (n.factorial : ℝ) ≤ (87178291200 : ℕ) := h1
    _ ≤ 2.7 ^ 26 := by norm_num
    _ ≤ _ := by gcongr; norm_num at h ⊢; linarith

theorem choose_14 {n k : ℕ} (hn : n ≤ 14) : n.choose k ≤ 3432 := by
  have h1 := Nat.choose_le_middle k n
  have h2 : n.choose (n / 2) ≤ 3432 := by interval_cases n <;> decide +kernel
  exact h1.trans h2

/-- accuracy of the exponent -/
theorem expo_acc {A P Q a p q : ℝ} (hP : 0 ≤ P) (hQ : 0 ≤ Q) (hA : A ≤ 75) (hPQ : P + Q ≤ A)
    (ha : |a - A| ≤ (1 + A) / 2 ^ 19) (hp : |p - P| ≤ (1 + P) / 2 ^ 19) (hq : |q - Q| ≤ (1 + Q) / 2 ^ 19) :
    |rnd (rnd (a - p) - q) - (A - P - Q)| ≤ (4 + 9 / 4 * A) / 2 ^ 19 ∧ |a - p| ≤ 80 ∧ |rnd (a - p) - q| ≤ 80 := by
  rw [abs_le] at ha hp hq
  have h1 : |a - p| ≤ A + 1 := by rw [abs_le]; norm_num at ha hp ⊢; constructor <;> linarith
  have r1 := abs_le.1 (rnd_acc' (a - p))
  set d := rnd (a - p)
  have h2 : |d - q| ≤ A + 2 := by
    rw [abs_le] at h1 ⊢; norm_num at ha hp hq r1 ⊢
    have := abs_le.2 h1
    constructor <;> linarith
  have r2 := abs_le.1 (rnd_acc' (d - q))
  refine ⟨?_, by linarith, by linarith⟩
  rw [abs_le]
  norm_num at *
  constructor <;> linarith

/-- rounding to the nearest integer by `floor(0.5 + x)` in single precision -/
theorem floor_near {C E e : ℝ} (hC : 1 ≤ C) (hCi : ∃ c : ℤ, C = c) (he : |E - C| ≤ C * e) (he0 : 0 ≤ e) (he1 : e ≤ 1 / 2 ^ 10) :
    |(⌊rnd (1 / 2 + E)⌋ : ℝ) - C| ≤ C * (2 * (e + 1 / 2 ^ 22)) ∧ (C * (e + 1 / 2 ^ 22) < 1 / 2 → (⌊rnd (1 / 2 + E)⌋ : ℝ) = C) := by
  obtain ⟨c, rfl⟩ := hCi
  rw [abs_le] at he
  have h0 : (c : ℝ) * e ≤ c * (1 / 2 ^ 10) := mul_le_mul_of_nonneg_left he1 (by linarith)
  have hE : 0 ≤ E := by norm_num at h0; linarith
  have r := abs_le.1 (rnd_acc' (1 / 2 + E))
  rw [abs_of_nonneg (by linarith)] at r
  set R := rnd (1 / 2 + E)
  have hR : |R - (c + 1 / 2)| ≤ c * (e + 1 / 2 ^ 22) := by
    rw [abs_le, mul_add]
    norm_num at r h0 ⊢
    constructor <;> linarith
  rw [abs_le] at hR
  set D := (c : ℝ) * (e + 1 / 2 ^ 22)
  have key : D < 1 / 2 → (⌊R⌋ : ℝ) = c := by
    intro h
    have : ⌊R⌋ = c := by rw [Int.floor_eq_iff]; constructor <;> linarith
    rw [this]
  refine ⟨?_, key⟩
  have e2 : (c : ℝ) * (2 * (e + 1 / 2 ^ 22)) = 2 * D := by ring
  rw [e2]
  rcases lt_or_ge D (1 / 2) with h | h
  · rw [key h, sub_self, abs_zero]; positivity
  · have f1 := Int.floor_le R
    have f2 := Int.lt_floor_add_one R
    rw [abs_le]; constructor <;> linarith

theorem nat_of {c : ℕ} (hc : c ≤ 100) : of (c : ℝ) = .fin c := by
  have := ofInt_eq (n := (c : ℤ)) (by rw [abs_of_nonneg (by omega)]; norm_num; omega)
  push_cast at this; exact this

/-- the binomial coefficient in single precision: within `2^-10` up to 30, exact up to 14 -/
theorem binomial_coefficient_jax32_ok (hs : Special m lg) {n k : ℕ} (hk : k ≤ n) (hn : n ≤ 30) :
    ∃ b : ℤ, binomial_coefficient_jax32 m lg n (.fin k) = .fin b ∧ 0 ≤ b ∧ |(b : ℝ) - n.choose k| ≤ (n.choose k : ℝ) / 2 ^ 10 ∧
      (n ≤ 14 → (b : ℝ) = n.choose k) := by
  obtain ⟨a, ha, ha'⟩ := hs.lg_acc n hn
  obtain ⟨p, hp, hp'⟩ := hs.lg_acc k (hk.trans hn)
  obtain ⟨q, hq, hq'⟩ := hs.lg_acc (n - k) ((Nat.sub_le n k).trans hn)
  set A := Real.log (n.factorial : ℝ) with hA
  set P := Real.log (k.factorial : ℝ) with hP
  set Q := Real.log ((n - k).factorial : ℝ) with hQ
  rw [one_div_mul_eq_div] at ha' hp' hq'
  have hC1 : (1 : ℝ) ≤ n.choose k := by exact_mod_cast Nat.choose_pos hk
  have hCl : Real.log (n.choose k : ℝ) = A - P - Q := by
    have h1 : ((n.choose k * k.factorial * (n - k).factorial : ℕ) : ℝ) = n.factorial := by rw [Nat.choose_mul_factorial_mul_factorial hk]
    push_cast at h1
    have f1 : (k.factorial : ℝ) ≠ 0 := by exact_mod_cast k.factorial_ne_zero
    have f2 : ((n - k).factorial : ℝ) ≠ 0 := by exact_mod_cast (n - k).factorial_ne_zero
    rw [hA, ← h1, Real.log_mul (mul_ne_zero (by linarith) f1) f2, Real.log_mul (by linarith) f1]
    ring
  have hCn : 0 ≤ Real.log (n.choose k : ℝ) := Real.log_nonneg hC1
  have hC2 : (n.choose k : ℝ) ≤ 2 ^ n := by exact_mod_cast Nat.choose_le_two_pow n k
  have hnR : (n : ℝ) ≤ 30 := by exact_mod_cast hn
  have hCl2 : Real.log (n.choose k : ℝ) ≤ 21 := by
    refine (Real.log_le_log (by linarith) hC2).trans ?_
    rw [Real.log_pow]
    have := Real.log_two_lt_d9
    have h0 := Real.log_pos (show (1 : ℝ) < 2 by norm_num)
    nlinarith
  have hA1 : A ≤ 75 := log_fact_30 hn
  have hP0 := log_fact_nonneg k
  have hQ0 := log_fact_nonneg (n - k)
  rw [← hP] at hP0
  rw [← hQ] at hQ0
  obtain ⟨ex, b1, b2⟩ := expo_acc hP0 hQ0 hA1 (by linarith) ha' hp' hq'
  rw [← hCl] at ex
  set x := rnd (rnd (a - p) - q) with hx
  have hx7 : |x| ≤ 22 := by
    rw [abs_le] at ex ⊢; norm_num at ex ⊢; constructor <;> linarith
  obtain ⟨E, hE, hE'⟩ := hs.exp_acc x hx7
  -- relative error of the exponential
  set δ := (4 + 9 / 4 * A) / 2 ^ 19 with hδ
  have hA0 := log_fact_nonneg n
  rw [← hA] at hA0
  have hδ0 : 0 ≤ δ := by positivity
  have hδ1 : δ ≤ 173 / 2 ^ 19 := by rw [hδ]; norm_num; linarith
  have hex : Real.exp x = n.choose k * Real.exp (x - Real.log (n.choose k : ℝ)) := by
    rw [Real.exp_sub, Real.exp_log (by linarith)]; field_simp
  have hy := exp_near ex (by linarith [show (173 : ℝ) / 2 ^ 19 ≤ 1 by norm_num])
  set y := Real.exp (x - Real.log (n.choose k : ℝ))
  have hδ2 : δ ^ 2 ≤ 1 / 2 ^ 23 := by
    calc δ ^ 2 ≤ (173 / 2 ^ 19) ^ 2 := by gcongr
      _ ≤ _ := by norm_num
  have hEC : |E - n.choose k| ≤ n.choose k * (δ + 1 / 2 ^ 18) := by
    have e1 : E - n.choose k = (E - Real.exp x) + n.choose k * (y - 1) := by rw [hex]; ring
    rw [e1]
    refine (abs_add_le _ _).trans ?_
    rw [abs_mul, abs_of_nonneg (by linarith : (0 : ℝ) ≤ n.choose k)]
    have h1 : |E - Real.exp x| ≤ n.choose k * (1 / 2 ^ 19 * y) := by rw [hex] at hE' ⊢; linarith
    have hy2 : y ≤ 1 + 1 / 2 ^ 10 := by rw [abs_le] at hy; norm_num at hy hδ1 hδ2 ⊢; linarith
    calc _ ≤ n.choose k * (1 / 2 ^ 19 * y) + n.choose k * (δ + δ ^ 2) := add_le_add h1 (mul_le_mul_of_nonneg_left hy (by linarith))
      _ = n.choose k * (1 / 2 ^ 19 * y + (δ + δ ^ 2)) := by ring
      _ ≤ _ := mul_le_mul_of_nonneg_left (by norm_num at hy2 hδ2 ⊢; linarith) (by linarith)
  obtain ⟨f1, f2⟩ := floor_near hC1 ⟨(n.choose k : ℤ), by push_cast; rfl⟩ hEC (by positivity) (by norm_num at hδ1 ⊢; linarith)
  have hEh : (n.choose k : ℝ) * (δ + 1 / 2 ^ 18) ≤ n.choose k * (1 / 2) := mul_le_mul_of_nonneg_left (by norm_num at hδ1 ⊢; linarith) (by linarith)
  refine ⟨⌊rnd (1 / 2 + E)⌋, ?_, ?_, ?_, ?_⟩
  · unfold binomial_coefficient_jax32 ofInt
    have i1 : of (((n : ℤ) + 1 : ℤ) : ℝ) = .fin ((n + 1 : ℕ) : ℝ) := by rw [← nat_of (c := n + 1) (by omega)]; push_cast; rfl
    have i0 : of ((n : ℤ) : ℝ) = .fin (n : ℝ) := by rw [← nat_of (c := n) (by omega)]; push_cast; rfl
    have nat_add : ∀ c : ℕ, c ≤ 30 → add (.fin (c : ℝ)) (.fin 1) = .fin ((c + 1 : ℕ) : ℝ) := by
      intro c hc
      rw [add_fin, ← nat_of (c := c + 1) (by omega)]; push_cast; rfl
    have i2 : sub (.fin (n : ℝ)) (.fin k) = .fin ((n - k : ℕ) : ℝ) := by
      rw [sub_fin, ← nat_of (c := n - k) (by omega), Nat.cast_sub hk]
    rw [i1, i0, ha, nat_add k (by omega), hp, i2, nat_add (n - k) (by omega), hq, sub_fin, of_fin' (b1.trans (by norm_num)), sub_fin,
      of_fin' (b2.trans (by norm_num)), ← hx]
    change floor (add (.fin (1 / 2)) (m.exp x)) = _
    rw [hE, add_fin, of_fin]
    · rfl
    · rw [abs_le] at hEC
      have h5 : (2 : ℝ) ^ n ≤ 2 ^ 30 := pow_le_pow_right₀ (by norm_num) hn
      rw [abs_of_nonneg (by linarith)]
      have h6 : (4 : ℝ) * 2 ^ 30 ≤ (2 : ℝ) ^ (120 : ℤ) := by norm_num
      refine le_trans ?_ h6
      linarith
  · rw [Int.floor_nonneg]
    refine rnd_nonneg ?_
    rw [abs_le] at hEC
    linarith
  · refine f1.trans ?_
    rw [div_eq_mul_inv]
    refine mul_le_mul_of_nonneg_left ?_ (by linarith)
    norm_num at hδ1 ⊢; linarith
  · intro h14
    refine f2 ?_
    have hA2 : A ≤ 26 := log_fact_14 h14
    have h5 : (n.choose k : ℝ) ≤ 3432 := by exact_mod_cast choose_14 h14
    calc (n.choose k : ℝ) * (δ + 1 / 2 ^ 18 + 1 / 2 ^ 22) ≤ 3432 * (63 / 2 ^ 19 + 1 / 2 ^ 18 + 1 / 2 ^ 22) := by
          refine mul_le_mul h5 ?_ (by positivity) (by positivity)
          rw [hδ]; norm_num; linarith
      _ < 1 / 2 := by norm_num

end S2wav.Single
