import Verif.Sphere.Harmonics
import Mathlib.Algebra.Polynomial.Derivative
import Mathlib.Topology.Algebra.Polynomial
import Mathlib.Analysis.Calculus.Deriv.Polynomial
import Mathlib.MeasureTheory.Integral.IntervalIntegral.IntegrationByParts
import Mathlib.Analysis.SpecialFunctions.Integrals.Basic
import Mathlib.Data.Nat.Choose.Vandermonde

/-! # Orthogonality of the Wigner d-functions

`∫ d^l_mn d^l'_mn sin β dβ = 2 / (2l+1)` for `l = l'` and `0` otherwise, from a Rodrigues formula. -/

namespace S2wav.Sphere
open Polynomial

/-- the integral of a polynomial over `[0, 1]` -/
noncomputable def pint (P : ℝ[X]) : ℝ := ∫ x in (0 : ℝ)..1, P.eval x

theorem pint_add (P Q : ℝ[X]) : pint (P + Q) = pint P + pint Q := by
  unfold pint
  simp only [eval_add]
  exact intervalIntegral.integral_add (P.continuous.intervalIntegrable _ _) (Q.continuous.intervalIntegrable _ _)

theorem pint_C_mul (c : ℝ) (P : ℝ[X]) : pint (C c * P) = c * pint P := by
  unfold pint
  simp only [eval_mul, eval_C]
  exact intervalIntegral.integral_const_mul _ _

theorem pint_derivative (P : ℝ[X]) : pint (derivative P) = P.eval 1 - P.eval 0 := by
  unfold pint
  exact intervalIntegral.integral_eq_sub_of_hasDerivAt (fun x _ => P.hasDerivAt x) (P.derivative.continuous.intervalIntegrable _ _)

theorem pint_parts {P Q : ℝ[X]} (h0 : P.eval 0 = 0) (h1 : P.eval 1 = 0) : pint (derivative P * Q) = -pint (P * derivative Q) := by
  have h := pint_derivative (P * Q)
  rw [derivative_mul, pint_add, eval_mul, eval_mul, h0, h1] at h
  linarith

/-- integrating by parts `K` times -/
theorem pint_parts_iter {P : ℝ[X]} (K : ℕ) (hP : (X ^ K : ℝ[X]) ∣ P) (hP' : ((1 - X) ^ K : ℝ[X]) ∣ P) (Q : ℝ[X]) :
    pint (derivative^[K] P * Q) = (-1) ^ K * pint (P * derivative^[K] Q) := by
  have key : ∀ k ≤ K, pint (derivative^[K] P * Q) = (-1) ^ k * pint (derivative^[K - k] P * derivative^[k] Q) := by
    intro k
    induction k with
    | zero => intro _; simp
    | succ k ih =>
      intro hk
      rw [ih (by omega)]
      obtain ⟨i, hi⟩ : ∃ i, K - k = i + 1 := ⟨K - (k + 1), by omega⟩
      have hi' : K - (k + 1) = i := by omega
      have d1 : (X : ℝ[X]) ∣ derivative^[i] P :=
        (dvd_pow_self X (by omega : K - i ≠ 0)).trans (pow_sub_dvd_iterate_derivative_of_pow_dvd i hP)
      have d2 : (1 - X : ℝ[X]) ∣ derivative^[i] P :=
        (dvd_pow_self (1 - X) (by omega : K - i ≠ 0)).trans (pow_sub_dvd_iterate_derivative_of_pow_dvd i hP')
      have e1 : (derivative^[i] P).eval 0 = 0 := by obtain ⟨R, hR⟩ := d1; rw [hR]; simp
      have e2 : (derivative^[i] P).eval 1 = 0 := by obtain ⟨R, hR⟩ := d2; rw [hR]; simp
      rw [hi, hi', Function.iterate_succ_apply', pint_parts e1 e2, ← Function.iterate_succ_apply' (f := derivative), pow_succ]
      ring
  have := key K le_rfl
  rwa [Nat.sub_self, Function.iterate_zero, id] at this

/-- the Beta integral -/
theorem pint_beta (p q : ℕ) : pint (X ^ p * (1 - X) ^ q) = (p.factorial : ℝ) * q.factorial / (p + q + 1).factorial := by
  induction q generalizing p with
  | zero =>
    have h := pint_derivative (X ^ (p + 1))
    rw [derivative_X_pow, pint_C_mul] at h
    simp only [eval_pow, eval_X, one_pow, add_tsub_cancel_right] at h
    rw [zero_pow (by omega), sub_zero] at h
    rw [pow_zero, mul_one, Nat.factorial_zero, add_zero, Nat.factorial_succ]
    have := Nat.factorial_pos p
    push_cast at h ⊢
    field_simp
    linarith
  | succ q ih =>
    have h := pint_derivative (X ^ (p + 1) * (1 - X) ^ (q + 1))
    have e : derivative (X ^ (p + 1) * (1 - X) ^ (q + 1) : ℝ[X]) =
        C ((p : ℝ) + 1) * (X ^ p * (1 - X) ^ (q + 1)) + C (-((q : ℝ) + 1)) * (X ^ (p + 1) * (1 - X) ^ q) := by
      rw [derivative_mul, derivative_X_pow, derivative_pow]
      simp only [add_tsub_cancel_right, derivative_sub, derivative_one, derivative_X, zero_sub, map_neg, C_add, map_one, map_natCast]
      push_cast
      ring
    rw [e, pint_add, pint_C_mul, pint_C_mul, ih (p + 1)] at h
    simp only [eval_mul, eval_pow, eval_X, eval_sub, eval_one, sub_self] at h
    rw [zero_pow (by omega), zero_pow (by omega)] at h
    rw [show p + 1 + q + 1 = p + (q + 1) + 1 by ring, Nat.factorial_succ p] at h
    rw [Nat.factorial_succ q]
    have hp : ((p : ℝ) + 1) ≠ 0 := by positivity
    refine mul_left_cancel₀ hp ?_
    push_cast at h ⊢
    linear_combination h

/-! ## Jacobi polynomials -/

/-- weights of `jac` -/
noncomputable def jwt (a b K s : ℕ) : ℝ :=
  ((s.factorial : ℝ) * (K - s).factorial * (a + s).factorial * (b + (K - s)).factorial)⁻¹

/-- the polynomial in Wigner's formula up to a factor, with `a = |m - n|`, `b = |m + n|`, `K = l - max |m| |n|` -/
noncomputable def jac (a b K : ℕ) : ℝ[X] :=
  ∑ s ∈ Finset.range (K + 1), C ((-1) ^ s * jwt a b K s) * (X ^ s * (1 - X) ^ (K - s))

theorem iterate_derivative_one_sub_pow (n k : ℕ) :
    derivative^[k] ((1 - X) ^ n : ℝ[X]) = C ((-1) ^ k * (n.descFactorial k : ℝ)) * (1 - X) ^ (n - k) := by
  have h := iterate_derivative_comp_one_sub_X (X ^ n : ℝ[X]) k
  rw [X_pow_comp, iterate_derivative_X_pow_eq_C_mul, mul_comp, C_comp, X_pow_comp] at h
  rw [h, C_mul, C_pow, C_neg, C_1, mul_assoc]

/-- Rodrigues' formula -/
theorem rodrigues (a b K : ℕ) : derivative^[K] (X ^ (a + K) * (1 - X) ^ (b + K) : ℝ[X]) =
    C ((K.factorial : ℝ) * (a + K).factorial * (b + K).factorial) * (X ^ a * (1 - X) ^ b * jac a b K) := by
  rw [iterate_derivative_mul, jac, Finset.mul_sum, Finset.mul_sum]
  refine Finset.sum_congr rfl fun s hs => ?_
  rw [Finset.mem_range] at hs
  have hs' : s ≤ K := by omega
  rw [iterate_derivative_X_pow_eq_C_mul, iterate_derivative_one_sub_pow, show a + K - (K - s) = a + s by omega,
    show b + K - s = b + (K - s) by omega, pow_add, pow_add]
  have e : ((K.choose s : ℝ)) * ((a + K).descFactorial (K - s) * (b + K).descFactorial s) =
      (K.factorial : ℝ) * (a + K).factorial * (b + K).factorial * jwt a b K s := by
    have h1 := Nat.choose_mul_factorial_mul_factorial hs'
    have h2 := Nat.factorial_mul_descFactorial (show K - s ≤ a + K by omega)
    have h3 := Nat.factorial_mul_descFactorial (show s ≤ b + K by omega)
    rw [show a + K - (K - s) = a + s by omega] at h2
    rw [show b + K - s = b + (K - s) by omega] at h3
    rw [← h1, ← h2, ← h3]
    unfold jwt
    have f1 := Nat.factorial_pos s
    have f2 := Nat.factorial_pos (K - s)
    have f3 := Nat.factorial_pos (a + s)
    have f4 := Nat.factorial_pos (b + (K - s))
    push_cast
    field_simp
  have e2 := congrArg C e
  simp only [C_mul, C_pow, C_neg, C_1, map_natCast, nsmul_eq_mul] at e2 ⊢
  linear_combination ((-1) ^ s * X ^ a * X ^ s * ((1 - X) ^ b * (1 - X) ^ (K - s))) * e2

theorem jac_degree (a b K : ℕ) : (jac a b K).natDegree ≤ K := by
  refine natDegree_sum_le_of_forall_le _ _ fun s hs => ?_
  rw [Finset.mem_range] at hs
  refine (natDegree_C_mul_le _ _).trans ((coeff_X_mul _ _).1.trans ?_)
  omega

theorem jac_coeff (a b K : ℕ) : (jac a b K).coeff K =
    (-1) ^ K * ((a + b + 2 * K).factorial : ℝ) / (K.factorial * (a + b + K).factorial * (a + K).factorial * (b + K).factorial) := by
  have h1 : (jac a b K).coeff K = (-1) ^ K * ∑ s ∈ Finset.range (K + 1), jwt a b K s := by
    rw [jac, finsetSum_coeff, Finset.mul_sum]
    refine Finset.sum_congr rfl fun s hs => ?_
    rw [Finset.mem_range] at hs
    have h := (coeff_X_mul s (K - s)).2
    rw [show s + (K - s) = K by omega] at h
    rw [coeff_C_mul, h, show (-1 : ℝ) ^ K = (-1) ^ s * (-1) ^ (K - s) by rw [← pow_add]; congr 1; omega]
    ring
  have h2 : ∀ s ∈ Finset.range (K + 1), jwt a b K s = (((b + K).choose s * (a + K).choose (K - s) : ℕ) : ℝ) / ((a + K).factorial * (b + K).factorial) := by
    intro s hs
    rw [Finset.mem_range] at hs
    have h1 := Nat.choose_mul_factorial_mul_factorial (show s ≤ b + K by omega)
    have h2 := Nat.choose_mul_factorial_mul_factorial (show K - s ≤ a + K by omega)
    rw [show a + K - (K - s) = a + s by omega] at h2
    rw [show b + K - s = b + (K - s) by omega] at h1
    rw [← h1, ← h2]
    unfold jwt
    have c1 := Nat.choose_pos (show s ≤ b + K by omega)
    have c2 := Nat.choose_pos (show K - s ≤ a + K by omega)
    have f1 := Nat.factorial_pos s
    have f2 := Nat.factorial_pos (K - s)
    have f3 := Nat.factorial_pos (a + s)
    have f4 := Nat.factorial_pos (b + (K - s))
    push_cast
    field_simp
  have h3 := Nat.add_choose_eq (b + K) (a + K) K
  rw [Finset.Nat.sum_antidiagonal_eq_sum_range_succ_mk] at h3
  have h4 := Nat.choose_mul_factorial_mul_factorial (show K ≤ b + K + (a + K) by omega)
  rw [show b + K + (a + K) - K = a + b + K by omega, show b + K + (a + K) = a + b + 2 * K by omega] at h4
  rw [show b + K + (a + K) = a + b + 2 * K by omega] at h3
  rw [h1, Finset.sum_congr rfl h2, ← Finset.sum_div, ← Nat.cast_sum, ← h3, ← h4]
  have f1 := Nat.factorial_pos K
  have f2 := Nat.factorial_pos (a + b + K)
  push_cast
  field_simp

theorem iterate_derivative_top {P : ℝ[X]} {K : ℕ} (h : P.natDegree ≤ K) : derivative^[K] P = C ((K.factorial : ℝ) * P.coeff K) := by
  have hd : (derivative^[K] P).natDegree = 0 := by
    have := natDegree_iterate_derivative P K
    omega
  rw [eq_C_of_natDegree_eq_zero hd, coeff_iterate_derivative, zero_add, Nat.descFactorial_self, nsmul_eq_mul]

theorem jac_ortho_lt (a b : ℕ) {K K' : ℕ} (h : K' < K) : pint (X ^ a * (1 - X) ^ b * jac a b K * jac a b K') = 0 := by
  have hr := rodrigues a b K
  have hp := pint_parts_iter (P := X ^ (a + K) * (1 - X) ^ (b + K)) K (Dvd.dvd.mul_right (pow_dvd_pow _ (by omega)) _)
    (Dvd.dvd.mul_left (pow_dvd_pow _ (by omega)) _) (jac a b K')
  rw [hr, iterate_derivative_eq_zero ((jac_degree a b K').trans_lt h), mul_zero, mul_assoc (C _), pint_C_mul] at hp
  have hz : pint 0 = 0 := by simp [pint]
  rw [hz, mul_zero] at hp
  refine (mul_eq_zero.1 hp).resolve_left ?_
  have f1 := Nat.factorial_pos K
  have f2 := Nat.factorial_pos (a + K)
  have f3 := Nat.factorial_pos (b + K)
  positivity

theorem jac_ortho (a b K K' : ℕ) : pint (X ^ a * (1 - X) ^ b * jac a b K * jac a b K') = if K = K' then
    (((a + b + 2 * K + 1 : ℕ) : ℝ) * K.factorial * (a + K).factorial * (b + K).factorial * (a + b + K).factorial)⁻¹ else 0 := by
  rcases lt_trichotomy K K' with h | h | h
  · rw [if_neg h.ne, mul_right_comm]; exact jac_ortho_lt a b h
  · subst h
    rw [if_pos rfl]
    have hr := rodrigues a b K
    have hp := pint_parts_iter (P := X ^ (a + K) * (1 - X) ^ (b + K)) K (Dvd.dvd.mul_right (pow_dvd_pow _ (by omega)) _)
      (Dvd.dvd.mul_left (pow_dvd_pow _ (by omega)) _) (jac a b K)
    rw [hr, iterate_derivative_top (jac_degree a b K), mul_comm (_ * _) (C _), mul_assoc (C _), pint_C_mul, pint_C_mul, pint_beta, jac_coeff,
      show a + K + (b + K) + 1 = a + b + 2 * K + 1 by ring, Nat.factorial_succ (a + b + 2 * K)] at hp
    have f1 := Nat.factorial_pos K
    have f2 := Nat.factorial_pos (a + K)
    have f3 := Nat.factorial_pos (b + K)
    have f4 := Nat.factorial_pos (a + b + K)
    have f5 := Nat.factorial_pos (a + b + 2 * K)
    have hs : ((-1 : ℝ)) ^ K * (-1) ^ K = 1 := by rw [← mul_pow]; norm_num
    refine mul_left_cancel₀ (show (K.factorial : ℝ) * (a + K).factorial * (b + K).factorial ≠ 0 by positivity) (hp.trans ?_)
    push_cast
    field_simp
    linear_combination hs
  · rw [if_neg h.ne']; exact jac_ortho_lt a b h

/-! ## Wigner functions -/

theorem fac_natCast (n : ℕ) : fac n = n.factorial := by simp [fac]

theorem wpoly_eq {l m n : ℤ} (hm : |m| ≤ l) (hn : |n| ≤ l) : wpoly l m n =
    C ((-1) ^ (max 0 (m - n)).toNat * Real.sqrt ((l - max |m| |n|).toNat.factorial * (|m - n|.toNat + (l - max |m| |n|).toNat).factorial *
      (|m + n|.toNat + (l - max |m| |n|).toNat).factorial * (|m - n|.toNat + |m + n|.toNat + (l - max |m| |n|).toNat).factorial)) *
      jac |m - n|.toNat |m + n|.toNat (l - max |m| |n|).toNat := by
  have hr := wrange (l := l) (m := m) (n := n)
  have hM : max |m| |n| ≤ l := max_le hm hn
  obtain ⟨K, hK⟩ : ∃ K : ℕ, l - max |m| |n| = K := ⟨(l - max |m| |n|).toNat, by omega⟩
  obtain ⟨a, ha⟩ : ∃ a : ℕ, |m - n| = a := ⟨|m - n|.toNat, by rw [Int.toNat_of_nonneg (abs_nonneg _)]⟩
  obtain ⟨b, hb⟩ : ∃ b : ℕ, |m + n| = b := ⟨|m + n|.toNat, by rw [Int.toNat_of_nonneg (abs_nonneg _)]⟩
  rw [hK, ha, hb, Int.toNat_natCast, Int.toNat_natCast, Int.toNat_natCast]
  have hsq : fac (l + m) * fac (l - m) * fac (l + n) * fac (l - n) = (K.factorial : ℝ) * (a + K).factorial * (b + K).factorial * (a + b + K).factorial := by
    rw [← fac_natCast, ← fac_natCast, ← fac_natCast, ← fac_natCast]
    push_cast
    rw [← ha, ← hb, ← hK]
    rcases abs_cases (m - n) with h1 | h1 <;> rcases abs_cases (m + n) with h2 | h2
    · have e1 : |m - n| + (l - max |m| |n|) = l - n := by rcases abs_cases m with h | h <;> rcases abs_cases n with h' | h' <;> omega
      have e2 : |m + n| + (l - max |m| |n|) = l + n := by rcases abs_cases m with h | h <;> rcases abs_cases n with h' | h' <;> omega
      have e3 : |m - n| + |m + n| + (l - max |m| |n|) = l + m := by rcases abs_cases m with h | h <;> rcases abs_cases n with h' | h' <;> omega
      have e4 : (l - max |m| |n|) = l - m := by rcases abs_cases m with h | h <;> rcases abs_cases n with h' | h' <;> omega
      rw [e3, e2, e1, e4]; ring
    · have e1 : |m - n| + (l - max |m| |n|) = l + m := by rcases abs_cases m with h | h <;> rcases abs_cases n with h' | h' <;> omega
      have e2 : |m + n| + (l - max |m| |n|) = l - m := by rcases abs_cases m with h | h <;> rcases abs_cases n with h' | h' <;> omega
      have e3 : |m - n| + |m + n| + (l - max |m| |n|) = l - n := by rcases abs_cases m with h | h <;> rcases abs_cases n with h' | h' <;> omega
      have e4 : (l - max |m| |n|) = l + n := by rcases abs_cases m with h | h <;> rcases abs_cases n with h' | h' <;> omega
      rw [e3, e2, e1, e4]; ring
    · have e1 : |m - n| + (l - max |m| |n|) = l - m := by rcases abs_cases m with h | h <;> rcases abs_cases n with h' | h' <;> omega
      have e2 : |m + n| + (l - max |m| |n|) = l + m := by rcases abs_cases m with h | h <;> rcases abs_cases n with h' | h' <;> omega
      have e3 : |m - n| + |m + n| + (l - max |m| |n|) = l + n := by rcases abs_cases m with h | h <;> rcases abs_cases n with h' | h' <;> omega
      have e4 : (l - max |m| |n|) = l - n := by rcases abs_cases m with h | h <;> rcases abs_cases n with h' | h' <;> omega
      rw [e3, e2, e1, e4]; ring
    · have e1 : |m - n| + (l - max |m| |n|) = l + n := by rcases abs_cases m with h | h <;> rcases abs_cases n with h' | h' <;> omega
      have e2 : |m + n| + (l - max |m| |n|) = l - n := by rcases abs_cases m with h | h <;> rcases abs_cases n with h' | h' <;> omega
      have e3 : |m - n| + |m + n| + (l - max |m| |n|) = l - m := by rcases abs_cases m with h | h <;> rcases abs_cases n with h' | h' <;> omega
      have e4 : (l - max |m| |n|) = l + m := by rcases abs_cases m with h | h <;> rcases abs_cases n with h' | h' <;> omega
      rw [e3, e2, e1, e4]; ring
  rw [← hsq]
  unfold wpoly jac
  rw [Finset.mul_sum]
  refine Finset.sum_bij' (fun k _ => (k - max 0 (n - m)).toNat) (fun s _ => max 0 (n - m) + (s : ℤ)) ?_ ?_ ?_ ?_ ?_
  · intro k hk; rw [Finset.mem_Icc] at hk; rw [Finset.mem_range]; omega
  · intro s hs; rw [Finset.mem_range] at hs; rw [Finset.mem_Icc]; omega
  · intro k hk; rw [Finset.mem_Icc] at hk; omega
  · intro s hs; omega
  · intro k hk
    rw [Finset.mem_Icc] at hk
    obtain ⟨s, hs⟩ : ∃ s : ℕ, k = max 0 (n - m) + s := ⟨(k - max 0 (n - m)).toNat, by omega⟩
    have hsK : s ≤ K := by omega
    have e1 : (k - max 0 (n - m)).toNat = s := by omega
    have e2 : (min (l + n) (l - m) - k).toNat = K - s := by omega
    have e3 : (m - n + k).toNat = (max 0 (m - n)).toNat + s := by omega
    rw [e1, e2, e3, pow_add]
    have e4 : wwt l m n k = Real.sqrt (fac (l + m) * fac (l - m) * fac (l + n) * fac (l - n)) * jwt a b K s := by
      unfold wwt jwt
      rw [div_eq_mul_inv]
      congr 2
      rw [← fac_natCast, ← fac_natCast, ← fac_natCast, ← fac_natCast]
      push_cast [hsK]
      rw [← ha, ← hb]
      rcases abs_cases (m - n) with h1 | h1 <;> rcases abs_cases (m + n) with h2 | h2
      · have a1 : (s : ℤ) = k := by omega
        have a2 : (K : ℤ) - k = l - m - k := by omega
        rw [a1, a2, show |m - n| + k = m - n + k by omega, show |m + n| + (l - m - k) = l + n - k by omega]; ring
      · have a1 : (s : ℤ) = k := by omega
        have a2 : (K : ℤ) - k = l + n - k := by omega
        rw [a1, a2, show |m - n| + k = m - n + k by omega, show |m + n| + (l + n - k) = l - m - k by omega]; ring
      · have a1 : (s : ℤ) = m - n + k := by omega
        have a2 : (K : ℤ) - (m - n + k) = l - m - k := by omega
        rw [a1, a2, show |m - n| + (m - n + k) = k by omega, show |m + n| + (l - m - k) = l + n - k by omega]; ring
      · have a1 : (s : ℤ) = m - n + k := by omega
        have a2 : (K : ℤ) - (m - n + k) = l + n - k := by omega
        rw [a1, a2, show |m - n| + (m - n + k) = k by omega, show |m + n| + (l + n - k) = l - m - k by omega]; ring
    rw [e4]
    simp only [C_mul]
    ring

/-- substituting `u = sin² (β/2)` -/
theorem integral_sin_sq (P : ℝ[X]) : ∫ β in (0 : ℝ)..Real.pi, P.eval (Real.sin (β / 2) ^ 2) * Real.sin β = 2 * pint P := by
  have h := intervalIntegral.integral_comp_mul_deriv (a := 0) (b := Real.pi) (f := fun β => Real.sin (β / 2) ^ 2)
    (f' := fun β => Real.sin β / 2) (g := fun x => P.eval x) (fun x _ => by
      have h1 : HasDerivAt (fun β => Real.sin (β / 2)) (Real.cos (x / 2) * (1 / 2)) x :=
        ((hasDerivAt_id' x).div_const 2).sin
      have h2 := h1.fun_pow 2
      have h3 : Real.sin x / 2 = (2 : ℕ) * Real.sin (x / 2) ^ (2 - 1) * (Real.cos (x / 2) * (1 / 2)) := by
        have : Real.sin x = 2 * Real.sin (x / 2) * Real.cos (x / 2) := by rw [← Real.sin_two_mul]; congr 1; ring
        rw [this]; push_cast; ring
      rw [h3]; exact h2) (by fun_prop) P.continuous
  simp only [zero_div, Real.sin_zero, Real.sin_pi_div_two, Function.comp_def] at h
  norm_num at h
  rw [pint, ← h, ← intervalIntegral.integral_const_mul]
  congr 1; ext β; ring

/-- orthogonality of the Wigner d-functions -/
theorem wignerd_ortho {l l' m n : ℤ} (hl : max |m| |n| ≤ l) (hl' : max |m| |n| ≤ l') :
    ∫ β in (0 : ℝ)..Real.pi, wignerd l m n β * wignerd l' m n β * Real.sin β = if l = l' then 2 / (2 * (l : ℝ) + 1) else 0 := by
  have hm := (le_max_left _ _).trans hl; have hn := (le_max_right _ _).trans hl
  have hm' := (le_max_left _ _).trans hl'; have hn' := (le_max_right _ _).trans hl'
  have e : ∀ β, wignerd l m n β * wignerd l' m n β * Real.sin β =
      (X ^ |m - n|.toNat * (1 - X) ^ |m + n|.toNat * wpoly l m n * wpoly l' m n).eval (Real.sin (β / 2) ^ 2) * Real.sin β := by
    intro β
    rw [wignerd_eq, wignerd_eq]
    simp only [eval_mul, eval_pow, eval_X, eval_sub, eval_one]
    rw [← Real.cos_sq', ← pow_mul, ← pow_mul, mul_comm 2, mul_comm 2, pow_mul, pow_mul]
    ring
  simp only [e]
  rw [integral_sin_sq, wpoly_eq hm hn, wpoly_eq hm' hn']
  set M := max |m| |n|
  set a := |m - n|.toNat with ha
  set b := |m + n|.toNat with hb
  have hab : (a : ℤ) + b = 2 * M := by
    rw [ha, hb, Int.toNat_of_nonneg (abs_nonneg _), Int.toNat_of_nonneg (abs_nonneg _)]
    rcases abs_cases (m - n) with h1 | h1 <;> rcases abs_cases (m + n) with h2 | h2 <;> rcases abs_cases m with h | h <;>
      rcases abs_cases n with h' | h' <;> omega
  have e3 : ∀ (c c' : ℝ) (P Q R : ℝ[X]), P * (C c * Q) * (C c' * R) = C (c * c') * (P * Q * R) := by
    intro c c' P Q R; rw [C_mul]; ring
  rw [e3, pint_C_mul, jac_ortho]
  by_cases h : l = l'
  · subst h
    rw [if_pos rfl, if_pos rfl]
    obtain ⟨K, hK⟩ : ∃ K : ℕ, l - M = K := ⟨(l - M).toNat, by omega⟩
    rw [hK, Int.toNat_natCast]
    have h2 : ((a + b + 2 * K + 1 : ℕ) : ℝ) = 2 * l + 1 := by
      have : ((a + b + 2 * K + 1 : ℕ) : ℤ) = 2 * l + 1 := by push_cast; omega
      exact_mod_cast this
    have f1 := Nat.factorial_pos K
    have f2 := Nat.factorial_pos (a + K)
    have f3 := Nat.factorial_pos (b + K)
    have f4 := Nat.factorial_pos (a + b + K)
    have h3 : (0 : ℝ) < 2 * l + 1 := by rw [← h2]; positivity
    rw [h2]
    have h4 := Real.mul_self_sqrt (show 0 ≤ (K.factorial : ℝ) * (a + K).factorial * (b + K).factorial * (a + b + K).factorial by positivity)
    have h5 : ((-1 : ℝ)) ^ (max 0 (m - n)).toNat * (-1) ^ (max 0 (m - n)).toNat = 1 := by rw [← mul_pow]; norm_num
    set S := Real.sqrt ((K.factorial : ℝ) * (a + K).factorial * (b + K).factorial * (a + b + K).factorial)
    rw [mul_mul_mul_comm, h5, h4]
    field_simp
  · rw [if_neg h, if_neg (by omega), mul_zero, mul_zero]

end S2wav.Sphere
