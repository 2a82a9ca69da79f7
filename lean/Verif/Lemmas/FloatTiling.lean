import Verif.Lemmas.FloatBinom
import Verif.Lemmas.Tiling

/-! # `tiling_direction` in double precision -/

namespace S2wav
open Classical

variable {m : Libm} {lg : F64 → F64}

/-- the value of a finite double -/
noncomputable def F64.val : F64 → ℝ
  | .fin x => x | _ => 0

/-- modulus of the rounded directional coefficient -/
noncomputable def sig64 (m : Libm) (lg : F64 → F64) (N el n : ℤ) : ℝ :=
  if 1 ≤ el ∧ |n| ≤ gam N el ∧ (N + n) % 2 ≠ 0 then
    rnd (Real.sqrt (rnd ((binomial_coefficient64 m lg ((gam N el).toNat : ℕ) (.fin (((gam N el - n) / 2).toNat : ℕ))).val / 2 ^ (gam N el).toNat)))
  else 0

/-- relative error of the squared directional coefficients -/
noncomputable def binE (N : ℤ) : ℝ := if N ≤ 41 then 1 / 2 ^ 50 else 1 / 2 ^ 33

theorem binE_bounds (N : ℤ) : 0 < binE N ∧ binE N ≤ 1 / 2 ^ 33 ∧ (N ≤ 41 → binE N = 1 / 2 ^ 50) := by
  unfold binE; split_ifs with h
  · exact ⟨by positivity, by norm_num, fun _ => rfl⟩
  · exact ⟨by positivity, le_rfl, fun h' => absurd h' h⟩

theorem sig64_nonneg (N el n : ℤ) : 0 ≤ sig64 m lg N el n := by
  unfold sig64; split_ifs
  · exact rnd_nonneg (Real.sqrt_nonneg _)
  · exact le_rfl

theorem sig64_eq_zero {N el n : ℤ} (h : ¬ (1 ≤ el ∧ |n| ≤ gam N el ∧ (N + n) % 2 ≠ 0)) : sig64 m lg N el n = 0 := if_neg h

theorem sig64_step {N el n : ℤ} (hs : Libm.Special m lg) (hN : 1 ≤ N) (hN' : N ≤ 990) (h : 1 ≤ el ∧ |n| ≤ gam N el ∧ (N + n) % 2 ≠ 0) :
    ∃ b : ℝ, binomial_coefficient64 m lg ((gam N el).toNat : ℕ) (.fin (((gam N el - n) / 2).toNat : ℕ)) = .fin b ∧ 0 ≤ b ∧
      |b / 2 ^ (gam N el).toNat - ‖sdir N el n‖ ^ 2| ≤ ‖sdir N el n‖ ^ 2 / 2 ^ 34 ∧ ‖sdir N el n‖ ^ 2 ≤ 1 ∧
      (N ≤ 41 → b / 2 ^ (gam N el).toNat = ‖sdir N el n‖ ^ 2 ∧ b = (gam N el).toNat.choose ((gam N el - n) / 2).toNat) := by
  have hg := gam_facts hN h.1
  obtain ⟨-, -, e3⟩ := binom_arg hN h.1 h.2.1 h.2.2
  obtain ⟨b, hb, hb0, hb1, hb2⟩ := binomial_coefficient64_ok hs e3 (by omega)
  have hp : (0 : ℝ) < 2 ^ (gam N el).toNat := by positivity
  refine ⟨b, hb, by exact_mod_cast hb0, ?_, ?_, fun h41 => ?_⟩
  · rw [sdir_normSq h, ← sub_div, abs_div, abs_of_pos hp, div_right_comm]
    exact div_le_div_of_nonneg_right hb1 hp.le
  · rw [sdir_normSq h, div_le_one hp]
    exact_mod_cast Nat.choose_le_two_pow _ _
  · have := hb2 (by omega)
    exact ⟨by rw [sdir_normSq h, this], this⟩

/-- accuracy of the squared directional coefficients -/
theorem sig64_sq {N el n : ℤ} (hs : Libm.Special m lg) (hN : 1 ≤ N) (hN' : N ≤ 990) :
    |sig64 m lg N el n ^ 2 - ‖sdir N el n‖ ^ 2| ≤ ‖sdir N el n‖ ^ 2 * binE N + 1 / 2 ^ 99 ∧ sig64 m lg N el n ≤ 2 := by
  by_cases h : 1 ≤ el ∧ |n| ≤ gam N el ∧ (N + n) % 2 ≠ 0
  swap
  · rw [sig64_eq_zero h, sdir_eq_zero h]; norm_num
  obtain ⟨b, hb, hb0, hb1, hb2, hb3⟩ := sig64_step hs hN hN' h
  rw [sig64, if_pos h, hb]
  set c := ‖sdir N el n‖ ^ 2 with hc
  have hc0 : 0 ≤ c := by positivity
  change |rnd (Real.sqrt (rnd (b / 2 ^ (gam N el).toNat))) ^ 2 - c| ≤ _ ∧ rnd (Real.sqrt (rnd (b / 2 ^ (gam N el).toNat))) ≤ 2
  have hy0 : 0 ≤ b / 2 ^ (gam N el).toNat := by positivity
  set y := b / 2 ^ (gam N el).toNat
  have hr := rnd_acc' y
  rw [abs_of_nonneg hy0] at hr
  have hr0 := rnd_nonneg hy0
  have hy1 : y ≤ 1.1 := by rw [abs_le] at hb1; norm_num at hb1 ⊢; linarith
  have hr1 : rnd y ≤ 2 := by rw [abs_le] at hr; norm_num at hr hy1 ⊢; linarith
  have hq := sq_rnd_sqrt hr0 (by linarith)
  have hs0 : 0 ≤ rnd (Real.sqrt (rnd y)) := rnd_nonneg (Real.sqrt_nonneg _)
  constructor
  · rw [abs_le] at *
    unfold binE
    split_ifs with h41
    · have hyc := (hb3 h41).1
      norm_num at *; constructor <;> linarith
    · norm_num at *; constructor <;> linarith
  · rw [abs_le] at hq
    norm_num at hq
    nlinarith

/-- for few directions the rounded coefficients are symmetric in the order -/
theorem sig64_neg {N el n : ℤ} (hs : Libm.Special m lg) (hN : 1 ≤ N) (hN' : N ≤ 41) : sig64 m lg N el (-n) = sig64 m lg N el n := by
  by_cases h : 1 ≤ el ∧ |n| ≤ gam N el ∧ (N + n) % 2 ≠ 0
  · have h' : 1 ≤ el ∧ |-n| ≤ gam N el ∧ (N + -n) % 2 ≠ 0 := ⟨h.1, by rw [abs_neg]; exact h.2.1, by omega⟩
    obtain ⟨b, hb, -, -, -, hb3⟩ := sig64_step hs hN (by omega) h
    obtain ⟨b', hb', -, -, -, hb3'⟩ := sig64_step hs hN (by omega) h'
    rw [sig64, sig64, if_pos h, if_pos h', hb, hb']
    change rnd (Real.sqrt (rnd (b' / _))) = rnd (Real.sqrt (rnd (b / _)))
    rw [(hb3 hN').1, (hb3' hN').1, sdir_neg hN]
  · rw [sig64_eq_zero h, sig64_eq_zero]
    rintro ⟨h1, h2, h3⟩
    rw [abs_neg] at h2
    exact h ⟨h1, h2, by omega⟩

theorem of_zero : F64.of 0 = .fin 0 := by
  rw [F64.of_fin' (by norm_num), rnd_zero]

/-- product with a real factor -/
theorem C64.real_mul {N : ℤ} {x s : ℝ} (h : |x * s| ≤ 2 ^ 53) :
    (C64.ofReal (.fin x)).mul (C64.ofC (nuC N * (s : ℂ))) = C64.ofC (nuC N * ((rnd (x * s) : ℝ) : ℂ)) := by
  have hr : Rep (rnd (x * s)) := rep_rnd _
  have hb : |rnd (x * s)| ≤ 4 * 2 ^ 53 := by
    have := abs_rnd_le (rep_pow (e := 53) (by norm_num)) (by rw [show (2 : ℝ) ^ (53 : ℤ) = 2 ^ 53 by norm_num]; exact h)
    rw [show (2 : ℝ) ^ (53 : ℤ) = 2 ^ 53 by norm_num] at this
    linarith
  have h1 : F64.of (x * s) = .fin (rnd (x * s)) := F64.of_fin' (by linarith)
  have h2 : F64.of (rnd (x * s)) = .fin (rnd (x * s)) := F64.of_rep hr hb
  have z : (0 : F64) = .fin 0 := rfl
  unfold nuC
  split_ifs with hn
  · simp only [one_mul, C64.mul, C64.ofReal, C64.ofC, Complex.ofReal_re, Complex.ofReal_im, z, F64.mul_fin, mul_zero, zero_mul, of_zero, h1,
      F64.sub_fin, F64.add_fin, sub_zero, add_zero, h2]
  · simp only [C64.mul, C64.ofReal, C64.ofC, Complex.mul_re, Complex.mul_im, Complex.I_re, Complex.I_im, Complex.ofReal_re, Complex.ofReal_im, z,
      F64.mul_fin, mul_zero, zero_mul, of_zero, sub_zero, one_mul, add_zero, zero_add, h1, F64.sub_fin, F64.add_fin, h2]

/-- product with the unit `nu` -/
theorem C64.nu_mul {N : ℤ} {s : ℝ} (hr : Rep s) (h : |s| ≤ 2) :
    (if N % 2 ≠ 0 then (⟨.fin 1, .fin 0⟩ : C64) else ⟨.fin 0, .fin 1⟩).mul (C64.ofReal (.fin s)) = C64.ofC (nuC N * (s : ℂ)) := by
  have h2 : F64.of s = .fin s := F64.of_rep hr (h.trans (by norm_num))
  have z : (0 : F64) = .fin 0 := rfl
  unfold nuC
  split_ifs with hn
  · simp only [one_mul, C64.mul, C64.ofReal, C64.ofC, Complex.ofReal_re, Complex.ofReal_im, z, F64.mul_fin, mul_zero, zero_mul, of_zero, h2,
      F64.sub_fin, F64.add_fin, sub_zero, add_zero, zero_add]
  · simp only [C64.mul, C64.ofReal, C64.ofC, Complex.mul_re, Complex.mul_im, Complex.I_re, Complex.I_im, Complex.ofReal_re, Complex.ofReal_im, z,
      F64.mul_fin, mul_zero, zero_mul, of_zero, sub_zero, one_mul, add_zero, zero_add, F64.sub_fin, F64.add_fin, h2]

theorem ofIntPy_pow {n : ℕ} (hn : n ≤ 1000) : F64.ofIntPy (2 ^ n) = .ok (.fin (2 ^ n)) := by
  have h1 : F64.ofInt (2 ^ n) = .fin (2 ^ n) := by
    unfold F64.ofInt
    push_cast
    have hr : Rep ((2 : ℝ) ^ n) := by have := rep_pow (e := n) (by omega); rwa [zpow_natCast] at this
    rw [F64.of_fin, rnd_id hr]
    rw [abs_of_pos (by positivity), ← zpow_natCast]
    exact zpow_le_zpow_right₀ (by norm_num) (by exact_mod_cast hn)
  unfold F64.ofIntPy
  rw [h1]

/-- `tiling_direction` in double precision -/
theorem tiling_direction64_ok {L N : ℤ} (hs : Libm.Special m lg) (hL : 1 ≤ L) (hN : 1 ≤ N) (hN' : N ≤ 990) :
    tiling_direction64 m lg L N = .ok (Arr2.of L (2 * L - 1) fun el k => C64.ofC (nuC N * ((sig64 m lg N el (k - (L - 1)) : ℝ) : ℂ))) := by
  have hzero : C64.ofC (nuC N * ((0 : ℝ) : ℂ)) = 0 := by
    simp only [Complex.ofReal_zero, mul_zero]; rfl
  unfold tiling_direction64
  simp only [zeros2]
  rw [if_neg (by omega)]
  simp only [Py.bind_ok]
  rw [rows_loop (f := fun el k => C64.ofC (nuC N * ((sig64 m lg N el (k - (L - 1)) : ℝ) : ℂ)))]
  · congr 1
    refine Arr2.of_congr fun i j h0 h1 _ _ => ?_
    by_cases h : 1 ≤ i
    · rw [if_pos ⟨h, h1⟩]
    · rw [if_neg (by omega), sig64_eq_zero (by tauto), hzero]
  · intro g el hi0 hi1 hg0
    have hg : (if (N + el) % 2 ≠ 0 then min (N - 1) el else min (N - 1) (el - 1)) = gam N el := rfl
    simp only [hg]
    have hgf := gam_facts hN hi0
    rw [fillrow_loop (sh := L - 1) (f := fun n => C64.ofC (nuC N * ((sig64 m lg N el n : ℝ) : ℂ))) (i := el)]
    · congr 1
      refine Arr2.of_congr fun i' k h0 h1 h2 h3 => ?_
      by_cases hi : i' = el
      · subst hi
        simp only [true_and, if_true]
        split_ifs with h
        · rfl
        · rw [hg0, sig64_eq_zero, hzero]
          rintro ⟨_, h4, _⟩
          have := abs_le.1 (h4.trans hgf.2.2.2.1)
          omega
      · rw [if_neg (by tauto), if_neg hi]
    · omega
    · omega
    · omega
    · omega
    · intro a n hm0 hm1 _ _
      by_cases hc : |n| < N ∧ (N + n) % 2 ≠ 0
      · have habs : |n| ≤ el := abs_le.2 ⟨by omega, by omega⟩
        have hm : |n| ≤ gam N el := (hgf.2.2.2.2 n hc.2).2 ⟨hc.1, habs⟩
        obtain ⟨e1, e2, e3⟩ := binom_arg hN hi0 hm hc.2
        have hsup : 1 ≤ el ∧ |n| ≤ gam N el ∧ (N + n) % 2 ≠ 0 := ⟨hi0, hm, hc.2⟩
        obtain ⟨b, hb, hb0, hb1, hb2, -⟩ := sig64_step hs hN hN' hsup
        have hnn := abs_le.1 hm
        have hk : F64.pdiv (.ofInt (gam N el - n)) (.fin 2) = .ok (.fin (((gam N el - n) / 2).toNat : ℕ)) := by
          have hbig : (2000 : ℤ) ≤ 2 ^ 53 := by norm_num
          rw [F64.ofInt_eq (by rw [abs_of_nonneg (by omega)]; omega), F64.pdiv_fin (by norm_num)]
          push_cast
          rw [e2]
          have hr : Rep ((((gam N el - n) / 2).toNat : ℕ) : ℝ) := by
            have := rep_int (n := (((gam N el - n) / 2).toNat : ℕ)) (by rw [Nat.abs_cast]; omega)
            push_cast at this; exact this
          have hle : ((((gam N el - n) / 2).toNat : ℕ) : ℝ) ≤ 990 := by exact_mod_cast (by omega : ((gam N el - n) / 2).toNat ≤ 990)
          rw [F64.of_rep hr (by rw [Nat.abs_cast]; exact hle.trans (by norm_num))]
        have e0 : ((gam N el).toNat : ℤ) = gam N el := by omega
        rw [if_pos hc, hk]
        simp only [Py.bind_ok]
        rw [ofIntPy_pow (by omega)]
        simp only [Py.bind_ok]
        rw [show binomial_coefficient64 m lg (gam N el) (.fin (((gam N el - n) / 2).toNat : ℕ)) = .fin b by rw [← hb, e0]]
        have hpos : (0 : ℝ) < 2 ^ (gam N el).toNat := by positivity
        have hy : b / 2 ^ (gam N el).toNat ≤ 2 := by rw [abs_le] at hb1; norm_num at hb1; linarith
        have hy0 : 0 ≤ b / 2 ^ (gam N el).toNat := by positivity
        have hy1 : rnd (b / 2 ^ (gam N el).toNat) ≤ 5 := by
          have := abs_le.1 (rnd_abs_le (x := b / 2 ^ (gam N el).toNat) (by rw [abs_of_nonneg hy0]; linarith)); exact this.2
        rw [F64.div_fin hpos.ne', F64.of_fin' (by rw [abs_of_nonneg hy0]; norm_num; linarith),
          sqrt64 (rnd_nonneg hy0) (by linarith)]
        have hsg : rnd (Real.sqrt (rnd (b / 2 ^ (gam N el).toNat))) = sig64 m lg N el n := by
          rw [sig64, if_pos hsup, hb]; rfl
        rw [hsg, C64.nu_mul (by rw [← hsg]; exact rep_rnd _) (by rw [abs_of_nonneg (sig64_nonneg _ _ _)]; exact (sig64_sq hs hN hN').2)]
      · rw [if_neg hc, sig64_eq_zero, hzero]
        rintro ⟨_, h1, h2⟩
        exact hc ⟨((hgf.2.2.2.2 n h2).1 h1).1, h2⟩

end S2wav
