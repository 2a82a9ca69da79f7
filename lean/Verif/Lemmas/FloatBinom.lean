import Verif.Lemmas.FloatAxisym
import Mathlib.Data.Nat.Choose.Bounds
import Mathlib.Data.Nat.Choose.Sum
import Mathlib.Analysis.SpecialFunctions.Exp
import Mathlib.Analysis.Complex.ExponentialBounds

/-! # `binomial_coefficient` in double precision -/

namespace S2wav
open Classical

variable {m : Libm} {lg : F64 → F64}

theorem log_fact_le {n : ℕ} {a b : ℝ} (hn : (n : ℝ) ≤ b) (hb0 : 0 < b) (ha0 : 0 ≤ a) (hb : b ≤ Real.exp a) : Real.log (n.factorial : ℝ) ≤ b * a := by
  have h1 : (n.factorial : ℝ) ≤ (n : ℝ) ^ n := by exact_mod_cast Nat.factorial_le_pow n
  have hf : (0 : ℝ) < n.factorial := by exact_mod_cast n.factorial_pos
  refine (Real.log_le_log hf h1).trans ?_
  rw [Real.log_pow]
  rcases Nat.eq_zero_or_pos n with rfl | h
  · simp only [Nat.cast_zero, zero_mul]; positivity
  · have h2 : Real.log n ≤ a := by
      rw [Real.log_le_iff_le_exp (by exact_mod_cast h)]; linarith
    exact mul_le_mul hn h2 (Real.log_nonneg (by exact_mod_cast h)) hb0.le

theorem exp_seven : (1000 : ℝ) ≤ Real.exp 7 := by
  have h := Real.exp_one_gt_d9
  have e : Real.exp 7 = Real.exp 1 ^ 7 := by rw [← Real.exp_nat_mul]; norm_num
  rw [e]
  calc (1000 : ℝ) ≤ 2.7182818283 ^ 7 := by norm_num
    _ ≤ _ := by gcongr

theorem exp_four : (40 : ℝ) ≤ Real.exp 4 := by
  have h := Real.exp_one_gt_d9
  have e : Real.exp 4 = Real.exp 1 ^ 4 := by rw [← Real.exp_nat_mul]; norm_num
  rw [e]
  calc (40 : ℝ) ≤ 2.7182818283 ^ 4 := by norm_num
    _ ≤ _ := by gcongr

theorem log_fact_nonneg (n : ℕ) : 0 ≤ Real.log (n.factorial : ℝ) := Real.log_nonneg (by exact_mod_cast n.factorial_pos)

/-- accuracy of the exponent -/
theorem expo_acc {A P Q a p q : ℝ} (hP : 0 ≤ P) (hQ : 0 ≤ Q) (hA : A ≤ 7000) (hPQ : P + Q ≤ A)
    (ha : |a - A| ≤ (1 + A) / 2 ^ 50) (hp : |p - P| ≤ (1 + P) / 2 ^ 50) (hq : |q - Q| ≤ (1 + Q) / 2 ^ 50) :
    |rnd (rnd (a - p) - q) - (A - P - Q)| ≤ (4 + 9 / 4 * A) / 2 ^ 50 ∧ |a - p| ≤ 8000 ∧ |rnd (a - p) - q| ≤ 8000 := by
  rw [abs_le] at ha hp hq
  have h1 : |a - p| ≤ A + 1 := by rw [abs_le]; norm_num at ha hp ⊢; constructor <;> linarith
  have r1 := abs_le.1 (rnd_acc' (a - p))
  set d := rnd (a - p)
  have h2 : |d - q| ≤ A + 2 := by
    rw [abs_le] at h1 ⊢; norm_num at ha hp hq r1 ⊢
    have := abs_le.2 h1
    constructor <;> linarith
  have r2 := abs_le.1 (rnd_acc' (d - q))
  refine ⟨?_, by linarith, by linarith⟩
  rw [abs_le]
  norm_num at *
  constructor <;> linarith

theorem exp_near {x e : ℝ} (hx : |x| ≤ e) (he : e ≤ 1) : |Real.exp x - 1| ≤ e + e ^ 2 := by
  have h := Real.abs_exp_sub_one_sub_id_le (hx.trans he)
  have e1 : Real.exp x - 1 = (Real.exp x - 1 - x) + x := by ring
  rw [e1]
  refine (abs_add_le _ _).trans ?_
  have : x ^ 2 ≤ e ^ 2 := by rw [← sq_abs x]; exact pow_le_pow_left₀ (abs_nonneg _) hx 2
  linarith

/-- rounding to the nearest integer by `floor(0.5 + x)` in double precision -/
theorem floor_near {C E e : ℝ} (hC : 1 ≤ C) (hCi : ∃ c : ℤ, C = c) (he : |E - C| ≤ C * e) (he0 : 0 ≤ e) (he1 : e ≤ 1 / 2 ^ 30) :
    |(⌊rnd (1 / 2 + E)⌋ : ℝ) - C| ≤ C * (2 * (e + 1 / 2 ^ 51)) ∧ (C * (e + 1 / 2 ^ 51) < 1 / 2 → (⌊rnd (1 / 2 + E)⌋ : ℝ) = C) := by
  obtain ⟨c, rfl⟩ := hCi
  rw [abs_le] at he
  have h0 : (c : ℝ) * e ≤ c * (1 / 2 ^ 30) := mul_le_mul_of_nonneg_left he1 (by linarith)
  have hE : 0 ≤ E := by norm_num at h0; linarith
  have r := abs_le.1 (rnd_acc' (1 / 2 + E))
  rw [abs_of_nonneg (by linarith)] at r
  set R := rnd (1 / 2 + E)
  have hR : |R - (c + 1 / 2)| ≤ c * (e + 1 / 2 ^ 51) := by
    rw [abs_le, mul_add]
    norm_num at r h0 ⊢
    constructor <;> linarith
  rw [abs_le] at hR
  set D := (c : ℝ) * (e + 1 / 2 ^ 51)
  have key : D < 1 / 2 → (⌊R⌋ : ℝ) = c := by
    intro h
    have : ⌊R⌋ = c := by rw [Int.floor_eq_iff]; constructor <;> linarith
    rw [this]
  refine ⟨?_, key⟩
  have e2 : (c : ℝ) * (2 * (e + 1 / 2 ^ 51)) = 2 * D := by ring
  rw [e2]
  rcases lt_or_ge D (1 / 2) with h | h
  · rw [key h, sub_self, abs_zero]; positivity
  · have f1 := Int.floor_le R
    have f2 := Int.lt_floor_add_one R
    rw [abs_le]; constructor <;> linarith

/-- the binomial coefficient in double precision -/
theorem binomial_coefficient64_ok (hs : Libm.Special m lg) {n k : ℕ} (hk : k ≤ n) (hn : n ≤ 990) :
    ∃ b : ℤ, binomial_coefficient64 m lg n (.fin k) = .fin b ∧ 0 ≤ b ∧ |(b : ℝ) - n.choose k| ≤ (n.choose k : ℝ) / 2 ^ 34 ∧
      (n ≤ 40 → (b : ℝ) = n.choose k) := by
  obtain ⟨a, ha, ha'⟩ := hs.lg_acc n hn
  obtain ⟨p, hp, hp'⟩ := hs.lg_acc k (hk.trans hn)
  obtain ⟨q, hq, hq'⟩ := hs.lg_acc (n - k) ((Nat.sub_le n k).trans hn)
  set A := Real.log (n.factorial : ℝ) with hA
  set P := Real.log (k.factorial : ℝ) with hP
  set Q := Real.log ((n - k).factorial : ℝ) with hQ
  have u : (2 : ℝ) ^ (-50 : ℤ) = 1 / 2 ^ 50 := by norm_num
  rw [u, one_div_mul_eq_div] at ha' hp' hq'
  have hC1 : (1 : ℝ) ≤ n.choose k := by exact_mod_cast Nat.choose_pos hk
  have hCl : Real.log (n.choose k : ℝ) = A - P - Q := by
    have h1 : ((n.choose k * k.factorial * (n - k).factorial : ℕ) : ℝ) = n.factorial := by rw [Nat.choose_mul_factorial_mul_factorial hk]
    push_cast at h1
    have f1 : (k.factorial : ℝ) ≠ 0 := by exact_mod_cast k.factorial_ne_zero
    have f2 : ((n - k).factorial : ℝ) ≠ 0 := by exact_mod_cast (n - k).factorial_ne_zero
    rw [hA, ← h1, Real.log_mul (mul_ne_zero (by linarith) f1) f2, Real.log_mul (by linarith) f1]
    ring
  have hCn : 0 ≤ Real.log (n.choose k : ℝ) := Real.log_nonneg hC1
  have hC2 : (n.choose k : ℝ) ≤ 2 ^ n := by exact_mod_cast Nat.choose_le_two_pow n k
  have hnR : (n : ℝ) ≤ 990 := by exact_mod_cast hn
  have hCl2 : Real.log (n.choose k : ℝ) ≤ 688 := by
    refine (Real.log_le_log (by linarith) hC2).trans ?_
    rw [Real.log_pow]
    have := Real.log_two_lt_d9
    have h0 := Real.log_pos (show (1 : ℝ) < 2 by norm_num)
    nlinarith
  have hA1 : A ≤ 7000 := by
    have := log_fact_le (n := n) (a := 7) (b := 1000) (by linarith) (by norm_num) (by norm_num) exp_seven
    linarith
  have hP0 := log_fact_nonneg k
  have hQ0 := log_fact_nonneg (n - k)
  rw [← hP] at hP0
  rw [← hQ] at hQ0
  obtain ⟨ex, b1, b2⟩ := expo_acc hP0 hQ0 hA1 (by linarith) ha' hp' hq'
  rw [← hCl] at ex
  set x := rnd (rnd (a - p) - q) with hx
  have hx7 : |x| ≤ 692 := by
    rw [abs_le] at ex ⊢; norm_num at ex ⊢; constructor <;> linarith
  obtain ⟨E, hE, hE'⟩ := hs.exp_acc x hx7
  rw [u] at hE'
  -- relative error of the exponential
  set δ := (4 + 9 / 4 * A) / 2 ^ 50 with hδ
  have hA0 := log_fact_nonneg n
  rw [← hA] at hA0
  have hδ0 : 0 ≤ δ := by positivity
  have hδ1 : δ ≤ 1 / 2 ^ 36 := by rw [hδ]; norm_num; linarith
  have hex : Real.exp x = n.choose k * Real.exp (x - Real.log (n.choose k : ℝ)) := by
    rw [Real.exp_sub, Real.exp_log (by linarith)]; field_simp
  have hy := exp_near ex (by linarith [show (1 : ℝ) / 2 ^ 36 ≤ 1 by norm_num])
  set y := Real.exp (x - Real.log (n.choose k : ℝ))
  have hδ2 : δ ^ 2 ≤ 1 / 2 ^ 72 := by
    calc δ ^ 2 ≤ (1 / 2 ^ 36) ^ 2 := by gcongr
      _ = _ := by norm_num
  have hEC : |E - n.choose k| ≤ n.choose k * (δ + 1 / 2 ^ 49) := by
    have e1 : E - n.choose k = (E - Real.exp x) + n.choose k * (y - 1) := by rw [hex]; ring
    rw [e1]
    refine (abs_add_le _ _).trans ?_
    rw [abs_mul, abs_of_nonneg (by linarith : (0 : ℝ) ≤ n.choose k)]
    have h1 : |E - Real.exp x| ≤ n.choose k * (1 / 2 ^ 50 * y) := by rw [hex] at hE' ⊢; linarith
    have hy2 : y ≤ 1 + 1 / 2 ^ 30 := by rw [abs_le] at hy; norm_num at hy hδ1 hδ2 ⊢; linarith
    calc _ ≤ n.choose k * (1 / 2 ^ 50 * y) + n.choose k * (δ + δ ^ 2) := add_le_add h1 (mul_le_mul_of_nonneg_left hy (by linarith))
      _ = n.choose k * (1 / 2 ^ 50 * y + (δ + δ ^ 2)) := by ring
      _ ≤ _ := mul_le_mul_of_nonneg_left (by norm_num at hy2 hδ2 ⊢; linarith) (by linarith)
  obtain ⟨f1, f2⟩ := floor_near hC1 ⟨(n.choose k : ℤ), by push_cast; rfl⟩ hEC (by positivity) (by norm_num at hδ1 ⊢; linarith)
  refine ⟨⌊rnd (1 / 2 + E)⌋, ?_, ?_, ?_, ?_⟩
  · unfold binomial_coefficient64
    have i1 : F64.ofInt ((n : ℤ) + 1) = .fin ((n + 1 : ℕ) : ℝ) := by
      rw [F64.ofInt_eq (by rw [abs_of_nonneg (by omega)]; have : (990 : ℤ) + 1 ≤ 2 ^ 53 := by norm_num
                           omega)]; push_cast; rfl
    have i0 : F64.ofInt (n : ℤ) = .fin (n : ℝ) := by
      rw [F64.ofInt_eq (by rw [abs_of_nonneg (by omega)]; have : (990 : ℤ) + 1 ≤ 2 ^ 53 := by norm_num
                           omega)]; push_cast; rfl
    have nat_add : ∀ c : ℕ, c ≤ 990 → (F64.fin (c : ℝ)).add (.fin 1) = .fin ((c + 1 : ℕ) : ℝ) := by
      intro c hc
      have hc' : (c : ℝ) ≤ 990 := by exact_mod_cast hc
      have hr : Rep ((c : ℝ) + 1) := by
        have := rep_int (n := (c : ℤ) + 1) (by rw [abs_of_nonneg (by omega)]; have : (990 : ℤ) + 1 ≤ 2 ^ 53 := by norm_num
                                               omega)
        push_cast at this; exact this
      rw [F64.add_fin, F64.of_rep hr (by rw [abs_of_nonneg (by positivity)]; norm_num; linarith)]
      push_cast; rfl
    have i2 : (F64.fin (n : ℝ)).sub (.fin k) = .fin ((n - k : ℕ) : ℝ) := by
      have hk' : (k : ℝ) ≤ n := by exact_mod_cast hk
      have hr : Rep ((n : ℝ) - k) := by
        have := rep_int (n := (n : ℤ) - k) (by rw [abs_of_nonneg (by omega)]; have : (990 : ℤ) + 1 ≤ 2 ^ 53 := by norm_num
                                               omega)
        push_cast at this; exact this
      rw [F64.sub_fin, F64.of_rep hr (by rw [abs_of_nonneg (by linarith)]; norm_num; linarith [(Nat.cast_nonneg k : (0 : ℝ) ≤ k)]), Nat.cast_sub hk]
    rw [i1, i0, ha, nat_add k (by omega), hp, i2, nat_add (n - k) (by omega), hq, F64.sub_fin, F64.of_fin' (b1.trans (by norm_num)), F64.sub_fin,
      F64.of_fin' (b2.trans (by norm_num)), ← hx]
    change ((F64.fin (1 / 2)).add (m.exp x)).floor = _
    rw [hE, F64.add_fin, F64.of_fin]
    · rfl
    · rw [abs_le] at hEC
      have h3 : E ≤ 2 * (n.choose k : ℝ) := by
        have : (n.choose k : ℝ) * (δ + 1 / 2 ^ 49) ≤ n.choose k * (1 / 2) := mul_le_mul_of_nonneg_left (by norm_num at hδ1 ⊢; linarith) (by linarith)
        linarith
      have h4 : 0 ≤ E := by
        have : (n.choose k : ℝ) * (δ + 1 / 2 ^ 49) ≤ n.choose k * (1 / 2) := mul_le_mul_of_nonneg_left (by norm_num at hδ1 ⊢; linarith) (by linarith)
        linarith
      rw [abs_of_nonneg (by linarith)]
      have h5 : (2 : ℝ) ^ n ≤ 2 ^ 990 := pow_le_pow_right₀ (by norm_num) hn
      have h6 : (4 : ℝ) * 2 ^ 990 ≤ (2 : ℝ) ^ (1000 : ℤ) := by
        have : (4 : ℝ) * 2 ^ 990 = 2 ^ (992 : ℤ) := by rw [show (992 : ℤ) = 2 + ((990 : ℕ) : ℤ) by norm_num, zpow_add₀ (by norm_num), zpow_natCast]; norm_num
        rw [this]; exact zpow_le_zpow_right₀ (by norm_num) (by norm_num)
      have h7 : (n.choose k : ℝ) ≤ 2 ^ 990 := hC2.trans h5
      refine le_trans ?_ h6
      generalize (2 : ℝ) ^ 990 = Z at h7
      linarith
  · rw [Int.floor_nonneg]
    refine rnd_nonneg ?_
    rw [abs_le] at hEC
    have : (n.choose k : ℝ) * (δ + 1 / 2 ^ 49) ≤ n.choose k * (1 / 2) := mul_le_mul_of_nonneg_left (by norm_num at hδ1 ⊢; linarith) (by linarith)
    linarith
  · refine f1.trans ?_
    rw [div_eq_mul_inv]
    refine mul_le_mul_of_nonneg_left ?_ (by linarith)
    norm_num at hδ1 ⊢; linarith
  · intro h40
    refine f2 ?_
    have hA2 : A ≤ 160 := by
      have := log_fact_le (n := n) (a := 4) (b := 40) (by exact_mod_cast h40) (by norm_num) (by norm_num) exp_four
      linarith
    have h5 : (n.choose k : ℝ) ≤ 2 ^ 40 := hC2.trans (pow_le_pow_right₀ (by norm_num) h40)
    calc (n.choose k : ℝ) * (δ + 1 / 2 ^ 49 + 1 / 2 ^ 51) ≤ 2 ^ 40 * (364 / 2 ^ 50 + 1 / 2 ^ 49 + 1 / 2 ^ 51) := by
          refine mul_le_mul h5 ?_ (by positivity) (by positivity)
          rw [hδ]; norm_num; linarith
      _ < 1 / 2 := by norm_num

end S2wav
