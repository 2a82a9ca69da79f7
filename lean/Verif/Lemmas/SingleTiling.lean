import Verif.Lemmas.SingleBinom
import Verif.Lemmas.FloatJax

/-! # `tiling_direction_jax` in single precision -/

namespace S2wav.Single
open Classical

variable {m : Libm} {lg : F64 → F64} {L N : ℤ}

theorem of_rep {x : ℝ} (h : Rep x) (hx : |x| ≤ 4 * 2 ^ 24) : of x = .fin x := by rw [of_fin' hx, rnd_id h]

theorem div_fin {x y : ℝ} (h : y ≠ 0) : div (.fin x) (.fin y) = of (x / y) := if_neg h

/-- modulus of the rounded directional coefficient -/
noncomputable def sig32 (m : Libm) (lg : F64 → F64) (N el n : ℤ) : ℝ :=
  if 1 ≤ el ∧ |n| ≤ gam N el ∧ (N + n) % 2 ≠ 0 then
    rnd (Real.sqrt (rnd ((binomial_coefficient_jax32 m lg ((gam N el).toNat : ℕ) (.fin (((gam N el - n) / 2).toNat : ℕ))).val / 2 ^ (gam N el).toNat)))
  else 0

/-- relative error of the squared directional coefficients -/
noncomputable def binS (N : ℤ) : ℝ := if N ≤ 15 then 1 / 2 ^ 21 else 1 / 2 ^ 10 + 1 / 2 ^ 20

theorem binS_bounds (N : ℤ) : 0 < binS N ∧ binS N ≤ 1 / 2 ^ 10 + 1 / 2 ^ 20 ∧ (N ≤ 15 → binS N = 1 / 2 ^ 21) := by
  unfold binS; split_ifs with h
  · exact ⟨by positivity, by norm_num, fun _ => rfl⟩
  · exact ⟨by positivity, le_rfl, fun h' => absurd h' h⟩

theorem sig32_nonneg (N el n : ℤ) : 0 ≤ sig32 m lg N el n := by
  unfold sig32; split_ifs
  · exact rnd_nonneg (Real.sqrt_nonneg _)
  · exact le_rfl

theorem sig32_eq_zero {N el n : ℤ} (h : ¬ (1 ≤ el ∧ |n| ≤ gam N el ∧ (N + n) % 2 ≠ 0)) : sig32 m lg N el n = 0 := if_neg h

theorem sig32_step {N el n : ℤ} (hs : Special m lg) (hN : 1 ≤ N) (hN' : N ≤ 31) (h : 1 ≤ el ∧ |n| ≤ gam N el ∧ (N + n) % 2 ≠ 0) :
    ∃ b : ℝ, binomial_coefficient_jax32 m lg ((gam N el).toNat : ℕ) (.fin (((gam N el - n) / 2).toNat : ℕ)) = .fin b ∧ 0 ≤ b ∧
      |b / 2 ^ (gam N el).toNat - ‖sdir N el n‖ ^ 2| ≤ ‖sdir N el n‖ ^ 2 / 2 ^ 10 ∧ ‖sdir N el n‖ ^ 2 ≤ 1 ∧
      (N ≤ 15 → b / 2 ^ (gam N el).toNat = ‖sdir N el n‖ ^ 2 ∧ b = (gam N el).toNat.choose ((gam N el - n) / 2).toNat) := by
  have hg := gam_facts hN h.1
  obtain ⟨-, -, e3⟩ := binom_arg hN h.1 h.2.1 h.2.2
  obtain ⟨b, hb, hb0, hb1, hb2⟩ := binomial_coefficient_jax32_ok hs e3 (by omega)
  have hp : (0 : ℝ) < 2 ^ (gam N el).toNat := by positivity
  refine ⟨b, hb, by exact_mod_cast hb0, ?_, ?_, fun h15 => ?_⟩
  · rw [sdir_normSq h, ← sub_div, abs_div, abs_of_pos hp, div_right_comm]
    exact div_le_div_of_nonneg_right hb1 hp.le
  · rw [sdir_normSq h, div_le_one hp]
    exact_mod_cast Nat.choose_le_two_pow _ _
  · have := hb2 (by omega)
    exact ⟨by rw [sdir_normSq h, this], this⟩

/-- accuracy of the squared directional coefficients -/
theorem sig32_sq {N el n : ℤ} (hs : Special m lg) (hN : 1 ≤ N) (hN' : N ≤ 31) :
    |sig32 m lg N el n ^ 2 - ‖sdir N el n‖ ^ 2| ≤ ‖sdir N el n‖ ^ 2 * binS N + 1 / 2 ^ 98 ∧ sig32 m lg N el n ≤ 2 := by
  by_cases h : 1 ≤ el ∧ |n| ≤ gam N el ∧ (N + n) % 2 ≠ 0
  swap
  · rw [sig32_eq_zero h, sdir_eq_zero h]; norm_num
  obtain ⟨b, hb, hb0, hb1, hb2, hb3⟩ := sig32_step hs hN hN' h
  rw [sig32, if_pos h, hb]
  set c := ‖sdir N el n‖ ^ 2 with hc
  have hc0 : 0 ≤ c := by positivity
  change |rnd (Real.sqrt (rnd (b / 2 ^ (gam N el).toNat))) ^ 2 - c| ≤ _ ∧ rnd (Real.sqrt (rnd (b / 2 ^ (gam N el).toNat))) ≤ 2
  have hy0 : 0 ≤ b / 2 ^ (gam N el).toNat := by positivity
  set y := b / 2 ^ (gam N el).toNat
  have hr := rnd_acc' y
  rw [abs_of_nonneg hy0] at hr
  have hr0 := rnd_nonneg hy0
  have hy1 : y ≤ 1.1 := by rw [abs_le] at hb1; norm_num at hb1 ⊢; linarith
  have hr1 : rnd y ≤ 2 := by rw [abs_le] at hr; norm_num at hr hy1 ⊢; linarith
  have hq := sq_rnd_sqrt hr0 (by linarith)
  have hs0 : 0 ≤ rnd (Real.sqrt (rnd y)) := rnd_nonneg (Real.sqrt_nonneg _)
  constructor
  · rw [abs_le] at *
    unfold binS
    split_ifs with h15
    · have hyc := (hb3 h15).1
      norm_num at *; constructor <;> linarith
    · norm_num at *; constructor <;> linarith
  · rw [abs_le] at hq
    norm_num at hq
    nlinarith

/-- for few directions the rounded coefficients are symmetric in the order -/
theorem sig32_neg {N el n : ℤ} (hs : Special m lg) (hN : 1 ≤ N) (hN' : N ≤ 15) : sig32 m lg N el (-n) = sig32 m lg N el n := by
  by_cases h : 1 ≤ el ∧ |n| ≤ gam N el ∧ (N + n) % 2 ≠ 0
  · have h' : 1 ≤ el ∧ |-n| ≤ gam N el ∧ (N + -n) % 2 ≠ 0 := ⟨h.1, by rw [abs_neg]; exact h.2.1, by omega⟩
    obtain ⟨b, hb, -, -, -, hb3⟩ := sig32_step hs hN (by omega) h
    obtain ⟨b', hb', -, -, -, hb3'⟩ := sig32_step hs hN (by omega) h'
    rw [sig32, sig32, if_pos h, if_pos h', hb, hb']
    change rnd (Real.sqrt (rnd (b' / _))) = rnd (Real.sqrt (rnd (b / _)))
    rw [(hb3 hN').1, (hb3' hN').1, sdir_neg hN]
  · rw [sig32_eq_zero h, sig32_eq_zero]
    rintro ⟨h1, h2, h3⟩
    rw [abs_neg] at h2
    exact h ⟨h1, h2, by omega⟩

theorem of_zero : of 0 = .fin 0 := by
  rw [of_fin' (by norm_num), rnd_zero]

/-- product with a real factor -/
theorem real_cmul {N : ℤ} {x s : ℝ} (h : |x * s| ≤ 2 ^ 24) :
    cmul (C64.ofReal (.fin x)) (C64.ofC (nuC N * (s : ℂ))) = C64.ofC (nuC N * ((rnd (x * s) : ℝ) : ℂ)) := by
  have hr : Rep (rnd (x * s)) := rep_rnd _
  have hb : |rnd (x * s)| ≤ 4 * 2 ^ 24 := by
    have := abs_rnd_le (rep_pow (e := 24) (by norm_num)) (by rw [show (2 : ℝ) ^ (24 : ℤ) = 2 ^ 24 by norm_num]; exact h)
    rw [show (2 : ℝ) ^ (24 : ℤ) = 2 ^ 24 by norm_num] at this
    linarith
  have h1 : of (x * s) = .fin (rnd (x * s)) := of_fin' (by linarith)
  have h2 : of (rnd (x * s)) = .fin (rnd (x * s)) := of_rep hr hb
  have z : (0 : F64) = .fin 0 := rfl
  unfold nuC
  split_ifs with hn
  · simp only [one_mul, cmul, C64.ofReal, C64.ofC, Complex.ofReal_re, Complex.ofReal_im, z, mul_fin, mul_zero, zero_mul, of_zero, h1,
      sub_fin, add_fin, sub_zero, add_zero, h2]
  · simp only [cmul, C64.ofReal, C64.ofC, Complex.mul_re, Complex.mul_im, Complex.I_re, Complex.I_im, Complex.ofReal_re, Complex.ofReal_im, z,
      mul_fin, mul_zero, zero_mul, of_zero, sub_zero, one_mul, add_zero, zero_add, h1, sub_fin, add_fin, h2]

/-- product with the unit `nu` -/
theorem nu_cmul {N : ℤ} {s : ℝ} (hr : Rep s) (h : |s| ≤ 2) :
    cmul (if N % 2 ≠ 0 then (⟨.fin 1, .fin 0⟩ : C64) else ⟨.fin 0, .fin 1⟩) (C64.ofReal (.fin s)) = C64.ofC (nuC N * (s : ℂ)) := by
  have h2 : of s = .fin s := of_rep hr (h.trans (by norm_num))
  have z : (0 : F64) = .fin 0 := rfl
  unfold nuC
  split_ifs with hn
  · simp only [one_mul, cmul, C64.ofReal, C64.ofC, Complex.ofReal_re, Complex.ofReal_im, z, mul_fin, mul_zero, zero_mul, of_zero, h2,
      sub_fin, add_fin, sub_zero, add_zero, zero_add]
  · simp only [cmul, C64.ofReal, C64.ofC, Complex.mul_re, Complex.mul_im, Complex.I_re, Complex.I_im, Complex.ofReal_re, Complex.ofReal_im, z,
      mul_fin, mul_zero, zero_mul, of_zero, sub_zero, one_mul, add_zero, zero_add, sub_fin, add_fin, h2]

/-- what `tiling_direction` computes at one entry -/
noncomputable def tdir32 (m : Libm) (lg : F64 → F64) (N el n : ℤ) : C64 :=
  if |n| < N ∧ (N + n) % 2 ≠ 0 then
    cmul (if N % 2 ≠ 0 then (⟨.fin 1, .fin 0⟩ : C64) else ⟨.fin 0, .fin 1⟩) (.ofReal
      (sqrt (div (binomial_coefficient_jax32 m lg (gam N el) (div (ofInt (gam N el - n)) (.fin 2))) (ofInt (2 ^ (gam N el).toNat)))))
  else 0

theorem nu_jax32 (N : ℤ) : (⟨ofInt (N % 2), ofInt ((N % 2 - 1) ^ 2)⟩ : C64) = if N % 2 ≠ 0 then ⟨.fin 1, .fin 0⟩ else ⟨.fin 0, .fin 1⟩ := by
  have h0 : ofInt 0 = .fin 0 := by rw [ofInt, ofInt_eq (by norm_num)]; norm_num
  have h1 : ofInt 1 = .fin 1 := by rw [ofInt, ofInt_eq (by norm_num)]; norm_num
  rcases Int.emod_two_eq_zero_or_one N with h | h
  · rw [h, if_neg (by norm_num), h0, show ((0 : ℤ) - 1) ^ 2 = 1 by norm_num, h1]
  · rw [h, if_pos (by norm_num), h1, show ((1 : ℤ) - 1) ^ 2 = 0 by norm_num, h0]

theorem jaxInt_pow {g : ℤ} : jaxInt (2 ^ g.toNat) = if g < 31 then .ok (2 ^ g.toNat) else .error .overflow := by
  unfold jaxInt
  have h0 : (0 : ℤ) < 2 ^ g.toNat := by positivity
  by_cases h : g < 31
  · have : (2 : ℤ) ^ g.toNat < 2 ^ 31 := pow_lt_pow_right₀ (by norm_num) (by omega)
    rw [if_pos h, if_pos ⟨by omega, this⟩]
  · have : (2 : ℤ) ^ 31 ≤ 2 ^ g.toNat := pow_le_pow_right₀ (by norm_num) (by omega)
    rw [if_neg h, if_neg (by omega)]

theorem tiling_direction_jax32_gen (hL : 1 ≤ L) (hg : ∀ el, 1 ≤ el → el < L → gam N el < 31) :
    tiling_direction_jax32 m lg L N =
      .ok (Arr2.of L (2 * L - 1) fun el k => if |k - (L - 1)| ≤ el ∧ 1 ≤ el then tdir32 m lg N el (k - (L - 1)) else 0) := by
  unfold tiling_direction_jax32
  simp only [zeros2, nu_jax32, gam_jax]
  rw [if_neg (by omega)]
  simp only [Py.bind_ok]
  rw [rows_loop (f := fun el k => if |k - (L - 1)| ≤ el ∧ 1 ≤ el then tdir32 m lg N el (k - (L - 1)) else 0)]
  · congr 1
    refine Arr2.of_congr fun i j h0 h1 _ _ => ?_
    by_cases h : 1 ≤ i
    · rw [if_pos ⟨h, h1⟩]
    · rw [if_neg (by omega), if_neg (by tauto)]
  · intro g el hi0 hi1 hg0
    rw [jaxInt_pow, if_pos (hg el hi0 hi1), Py.bind_ok, tiling_jax_step hL hi0 hi1 _ rfl rfl _ rfl]
    congr 1
    refine Arr2.of_congr fun i k h0 h1 h2 h3 => ?_
    by_cases hi : i = el
    · subst hi
      simp only [true_and, and_true, if_true]
      by_cases h : |k - (L - 1)| ≤ i
      · have := abs_le.1 h
        rw [if_pos h, if_pos (show |k - (L - 1)| ≤ i ∧ 1 ≤ i from ⟨h, hi0⟩), Arr1.of_v _ _ _ ⟨by omega, by omega⟩, show -i + (k - (L - 1) + i) = k - (L - 1) by ring]
        unfold tdir32
        by_cases hq : |k - (L - 1)| < N ∧ (N + (k - (L - 1))) % 2 ≠ 0
        · have := abs_lt.1 hq.1
          rw [if_pos hq, if_pos (show k - (L - 1) < N ∧ k - (L - 1) > -N ∧ (N + (k - (L - 1))) % 2 = 1 from ⟨by omega, by omega, by omega⟩)]
        · rw [if_neg hq, if_neg]
          rintro ⟨q1, q2, q3⟩
          exact hq ⟨abs_lt.2 ⟨by omega, by omega⟩, by omega⟩
      · rw [if_neg h, if_neg (by tauto), Arr2.of_v _ _ _ _ _ ⟨h0, h1, h2, h3⟩, hg0]
    · rw [if_neg (by tauto), if_neg hi, Arr2.of_v _ _ _ _ _ ⟨h0, h1, h2, h3⟩]

theorem tiling_direction_jax32_overflow (hL : 1 ≤ L) {el : ℤ} (h0 : 1 ≤ el) (h1 : el < L) (hg : 31 ≤ gam N el) :
    tiling_direction_jax32 m lg L N = .error .overflow := by
  unfold tiling_direction_jax32
  simp only [zeros2, nu_jax32, gam_jax]
  rw [if_neg (by omega)]
  simp only [Py.bind_ok]
  refine foldlM_error (P := fun s : Arr2 C64 => s.r = L ∧ s.c = 2 * L - 1) (fun s x hx hs => ?_) ⟨el, mem_pyRange.2 ⟨h0, h1⟩, fun s hs => ?_⟩ ⟨rfl, rfl⟩
  · obtain ⟨x0, x1⟩ := mem_pyRange.1 hx
    rw [jaxInt_pow]
    by_cases h : gam N x < 31
    · right
      rw [if_pos h, Py.bind_ok, tiling_jax_step hL x0 x1 _ hs.1 hs.2 _ rfl]
      exact ⟨_, rfl, rfl, rfl⟩
    · left; rw [if_neg h]; rfl
  · rw [jaxInt_pow, if_neg (by omega)]; rfl


/-- `tiling_direction_jax` in single precision -/
theorem tiling_direction_jax32_ok (hs : Special m lg) (hL : 1 ≤ L) (hN : 1 ≤ N) (hN' : N ≤ 31) :
    tiling_direction_jax32 m lg L N = .ok (Arr2.of L (2 * L - 1) fun el k => C64.ofC (nuC N * ((sig32 m lg N el (k - (L - 1)) : ℝ) : ℂ))) := by
  have hzero : C64.ofC (nuC N * ((0 : ℝ) : ℂ)) = 0 := by
    simp only [Complex.ofReal_zero, mul_zero]; rfl
  rw [tiling_direction_jax32_gen hL fun el h0 _ => by have := (gam_facts hN h0).2.2.1; omega]
  congr 1
  refine Arr2.of_congr fun el k _ _ _ _ => ?_
  generalize k - (L - 1) = n
  by_cases he : |n| ≤ el ∧ 1 ≤ el
  swap
  · rw [if_neg he, sig32_eq_zero, hzero]
    rintro ⟨h1, h2, -⟩
    exact he ⟨h2.trans (gam_facts hN h1).2.2.2.1, h1⟩
  rw [if_pos he]
  have hi0 := he.2
  have hgf := gam_facts hN hi0
  unfold tdir32
  by_cases hc : |n| < N ∧ (N + n) % 2 ≠ 0
  · have hm : |n| ≤ gam N el := (hgf.2.2.2.2 n hc.2).2 ⟨hc.1, he.1⟩
    obtain ⟨e1, e2, e3⟩ := binom_arg hN hi0 hm hc.2
    have hsup : 1 ≤ el ∧ |n| ≤ gam N el ∧ (N + n) % 2 ≠ 0 := ⟨hi0, hm, hc.2⟩
    obtain ⟨b, hb, hb0, hb1, hb2, -⟩ := sig32_step hs hN hN' hsup
    have hnn := abs_le.1 hm
    have hk : div (ofInt (gam N el - n)) (.fin 2) = .fin (((gam N el - n) / 2).toNat : ℕ) := by
      have hbig : (2000 : ℤ) ≤ 2 ^ 24 := by norm_num
      rw [ofInt, ofInt_eq (by rw [abs_of_nonneg (by omega)]; omega), div_fin (by norm_num)]
      push_cast
      rw [e2]
      exact nat_of (by omega)
    have e0 : ((gam N el).toNat : ℤ) = gam N el := by omega
    have hden : ofInt (2 ^ (gam N el).toNat) = .fin (2 ^ (gam N el).toNat) := by
      unfold ofInt
      push_cast
      have hr : Rep ((2 : ℝ) ^ (gam N el).toNat) := by have := rep_pow (e := (gam N el).toNat) (by omega); rwa [zpow_natCast] at this
      rw [of_fin, rnd_id hr]
      rw [abs_of_pos (by positivity), ← zpow_natCast]
      exact zpow_le_zpow_right₀ (by norm_num) (by omega)
    rw [if_pos hc, hk, hden, show binomial_coefficient_jax32 m lg (gam N el) (.fin (((gam N el - n) / 2).toNat : ℕ)) = .fin b by rw [← hb, e0]]
    have hpos : (0 : ℝ) < 2 ^ (gam N el).toNat := by positivity
    have hy : b / 2 ^ (gam N el).toNat ≤ 2 := by rw [abs_le] at hb1; norm_num at hb1; linarith
    have hy0 : 0 ≤ b / 2 ^ (gam N el).toNat := by positivity
    have hy1 : rnd (b / 2 ^ (gam N el).toNat) ≤ 5 := by
      have := abs_le.1 (rnd_abs_le (x := b / 2 ^ (gam N el).toNat) (by rw [abs_of_nonneg hy0]; linarith)); exact this.2
    rw [div_fin hpos.ne', of_fin' (by rw [abs_of_nonneg hy0]; norm_num; linarith),
      sqrt32 (rnd_nonneg hy0) (by linarith)]
    have hsg : rnd (Real.sqrt (rnd (b / 2 ^ (gam N el).toNat))) = sig32 m lg N el n := by
      rw [sig32, if_pos hsup, hb]; rfl
    rw [hsg, nu_cmul (by rw [← hsg]; exact rep_rnd _) (by rw [abs_of_nonneg (sig32_nonneg _ _ _)]; exact (sig32_sq hs hN hN').2)]
  · rw [if_neg hc, sig32_eq_zero, hzero]
    rintro ⟨_, h1, h2⟩
    exact hc ⟨((hgf.2.2.2.2 n h2).1 h1).1, h2⟩

end S2wav.Single
