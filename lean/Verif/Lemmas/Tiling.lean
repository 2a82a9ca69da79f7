import Verif.Model.Filters
import Verif.Lemmas.Arrays
import Verif.Lemmas.Axisym
import Mathlib.Analysis.SpecialFunctions.Gamma.Basic
import Mathlib.Data.Nat.Choose.Sum
import Mathlib.Data.Nat.Choose.Cast

/-! # The directional component -/

namespace S2wav
open Classical

/-- the exponent/log/Gamma formula of `binomial_coefficient` on naturals -/
theorem exp_log_gamma {n k : ℕ} (hk : k ≤ n) :
    Real.exp (Real.log (Real.Gamma ((n : ℝ) + 1)) - Real.log (Real.Gamma ((k : ℝ) + 1))
      - Real.log (Real.Gamma ((n : ℝ) - k + 1))) = (n.choose k : ℝ) := by
  have h1 : (n : ℝ) - k + 1 = ((n - k : ℕ) : ℝ) + 1 := by rw [Nat.cast_sub hk]
  rw [h1, Real.Gamma_nat_eq_factorial, Real.Gamma_nat_eq_factorial, Real.Gamma_nat_eq_factorial]
  have a := Nat.factorial_pos n
  have b := Nat.factorial_pos k
  have c := Nat.factorial_pos (n - k)
  have a' : (0 : ℝ) < n.factorial := by exact_mod_cast a
  have b' : (0 : ℝ) < k.factorial := by exact_mod_cast b
  have c' : (0 : ℝ) < (n - k).factorial := by exact_mod_cast c
  rw [Real.exp_sub, Real.exp_sub, Real.exp_log a', Real.exp_log b', Real.exp_log c', Nat.cast_choose ℝ hk, div_div]

theorem floor_half_add_nat (n : ℕ) : ⌊(1 / 2 : ℝ) + (n : ℝ)⌋ = (n : ℤ) := by
  rw [Int.floor_add_natCast]
  norm_num

theorem binomial_coefficient_nat {n k : ℕ} (hk : k ≤ n) :
    binomial_coefficient (n : ℝ) (k : ℝ) = .ok (n.choose k : ℝ) := by
  have h1 : (0 : ℝ) ≤ n := Nat.cast_nonneg _
  have h2 : (0 : ℝ) ≤ k := Nat.cast_nonneg _
  have h3 : (k : ℝ) ≤ n := by exact_mod_cast hk
  unfold binomial_coefficient
  rw [if_neg, if_neg, exp_log_gamma hk, floor_half_add_nat]
  · simp
  · rintro (h | h) <;> linarith
  · rintro (h | h | h) <;> linarith

theorem binomial_coefficient_jax_nat {n k : ℕ} (hk : k ≤ n) :
    binomial_coefficient_jax (n : ℝ) (k : ℝ) = (n.choose k : ℝ) := by
  have h1 : (0 : ℝ) ≤ n := Nat.cast_nonneg _
  have h2 : (0 : ℝ) ≤ k := Nat.cast_nonneg _
  have h3 : (k : ℝ) ≤ n := by exact_mod_cast hk
  unfold binomial_coefficient_jax
  rw [if_neg, abs_of_pos (Real.Gamma_pos_of_pos (by linarith)), abs_of_pos (Real.Gamma_pos_of_pos (by linarith)),
    abs_of_pos (Real.Gamma_pos_of_pos (by linarith)), exp_log_gamma hk, floor_half_add_nat]
  · simp
  · rintro (⟨p, h⟩ | ⟨p, h⟩) <;>
    · have : (0 : ℝ) ≤ p := Nat.cast_nonneg _
      linarith

theorem binomial_coefficient_jax_nonneg (n k : ℝ) : 0 ≤ binomial_coefficient_jax n k := by
  unfold binomial_coefficient_jax
  split_ifs
  · exact le_rfl
  · have : (0 : ℤ) ≤ ⌊(1 / 2 : ℝ) + Real.exp (Real.log |Real.Gamma (n + 1)| - Real.log |Real.Gamma (k + 1)|
      - Real.log |Real.Gamma (n - k + 1)|)⌋ := Int.floor_nonneg.2 (by positivity)
    exact_mod_cast this

/-- `gamma` of `tiling_direction` -/
def gam (N el : ℤ) : ℤ := if (N + el) % 2 ≠ 0 then min (N - 1) el else min (N - 1) (el - 1)

theorem gam_facts {N el : ℤ} (hN : 1 ≤ N) (hel : 1 ≤ el) :
    0 ≤ gam N el ∧ (gam N el - N) % 2 ≠ 0 ∧ gam N el ≤ N - 1 ∧ gam N el ≤ el ∧
      (∀ m : ℤ, (N + m) % 2 ≠ 0 → (|m| ≤ gam N el ↔ |m| < N ∧ |m| ≤ el)) := by
  unfold gam
  refine ⟨?_, ?_, ?_, ?_, fun m hm => ?_⟩
  · split_ifs <;> omega
  · split_ifs <;> omega
  · split_ifs <;> omega
  · split_ifs <;> omega
  · rcases abs_cases m with ⟨h, _⟩ | ⟨h, _⟩ <;> rw [h] <;> split_ifs <;> omega

/-- the phase `nu` -/
noncomputable def nuC (N : ℤ) : ℂ := if N % 2 ≠ 0 then 1 else Complex.I

theorem nuC_norm (N : ℤ) : ‖nuC N‖ = 1 := by unfold nuC; split_ifs <;> simp

/-- closed form of the directional coefficient `s_elm` at degree `el ≥ 1`, order `m` -/
noncomputable def sdir (N el m : ℤ) : ℂ :=
  if 1 ≤ el ∧ |m| ≤ gam N el ∧ (N + m) % 2 ≠ 0 then
    nuC N * ((Real.sqrt (((gam N el).toNat.choose ((gam N el - m) / 2).toNat : ℝ) / 2 ^ (gam N el).toNat) : ℝ) : ℂ)
  else 0

theorem binom_arg {N el m : ℤ} (hN : 1 ≤ N) (hel : 1 ≤ el) (hm : |m| ≤ gam N el) (hp : (N + m) % 2 ≠ 0) :
    ((gam N el : ℤ) : ℝ) = (((gam N el).toNat : ℕ) : ℝ) ∧
    (((gam N el : ℤ) : ℝ) - (m : ℝ)) / 2 = ((((gam N el - m) / 2).toNat : ℕ) : ℝ) ∧
    ((gam N el - m) / 2).toNat ≤ (gam N el).toNat := by
  have hg := gam_facts hN hel
  have h1 := hg.1
  have h2 := hg.2.1
  have hm' := abs_le.1 hm
  refine ⟨?_, ?_, ?_⟩
  · have : (gam N el : ℤ) = (((gam N el).toNat : ℕ) : ℤ) := by omega
    exact_mod_cast this
  · have : gam N el - m = 2 * ((((gam N el - m) / 2).toNat : ℕ) : ℤ) := by omega
    have h3 : ((gam N el : ℤ) : ℝ) - (m : ℝ) = 2 * ((((gam N el - m) / 2).toNat : ℕ) : ℝ) := by exact_mod_cast this
    rw [h3]; ring
  · omega

theorem tiling_direction_ok {L N : ℤ} (hL : 1 ≤ L) (hN : 1 ≤ N) :
    tiling_direction L N = .ok (Arr2.of L (2 * L - 1) fun el k => sdir N el (k - (L - 1))) := by
  unfold tiling_direction
  simp only [zeros2]
  rw [if_neg (by omega)]
  simp only [Py.bind_ok]
  rw [rows_loop (f := fun el k => sdir N el (k - (L - 1)))]
  · congr 1
    refine Arr2.of_congr fun i j h0 h1 _ _ => ?_
    by_cases h : 1 ≤ i
    · rw [if_pos ⟨h, h1⟩]
    · rw [if_neg (by omega), sdir, if_neg (by tauto)]
  · intro g el hi0 hi1 hg0
    have hg : (if (N + el) % 2 ≠ 0 then min (N - 1) el else min (N - 1) (el - 1)) = gam N el := rfl
    simp only [hg]
    have hgf := gam_facts hN hi0
    rw [fillrow_loop (sh := L - 1) (f := fun m => sdir N el m) (i := el)]
    · congr 1
      refine Arr2.of_congr fun i' k h0 h1 h2 h3 => ?_
      by_cases hi : i' = el
      · subst hi
        simp only [true_and, if_true]
        split_ifs with h
        · rfl
        · rw [hg0, sdir, if_neg]
          rintro ⟨_, h4, _⟩
          have := abs_le.1 (h4.trans hgf.2.2.2.1)
          omega
      · rw [if_neg (by tauto), if_neg hi]
    · omega
    · omega
    · omega
    · omega
    · intro a m hm0 hm1 _ _
      by_cases hc : |m| < N ∧ (N + m) % 2 ≠ 0
      · have habs : |m| ≤ el := abs_le.2 ⟨by omega, by omega⟩
        have hm : |m| ≤ gam N el := (hgf.2.2.2.2 m hc.2).2 ⟨hc.1, habs⟩
        obtain ⟨e1, e2, e3⟩ := binom_arg hN hi0 hm hc.2
        rw [if_pos hc, e2, e1, binomial_coefficient_nat e3, Py.bind_ok]
        have h2 : (2 : ℝ) ^ gam N el = 2 ^ (gam N el).toNat := by
          rw [← zpow_natCast]; congr 1; omega
        have h3 : sdir N el m = nuC N * ((Real.sqrt (((gam N el).toNat.choose ((gam N el - m) / 2).toNat : ℝ) /
            2 ^ (gam N el).toNat) : ℝ) : ℂ) := by rw [sdir, if_pos ⟨hi0, hm, hc.2⟩]
        rw [h2, npSqrt, if_neg (not_lt.2 (by positivity)), Py.bind_ok, h3]
        rfl
      · rw [if_neg hc, sdir, if_neg]
        rintro ⟨_, h1, h2⟩
        exact hc ⟨((hgf.2.2.2.2 m h2).1 h1).1, h2⟩

theorem nu_jax (N : ℤ) : (((N % 2 - 1) ^ 2 : ℤ) : ℂ) * Complex.I + ((N % 2 : ℤ) : ℂ) = nuC N := by
  unfold nuC
  rcases Int.emod_two_eq_zero_or_one N with h | h <;> rw [h] <;> simp

theorem gam_jax (N el : ℤ) : min (N - 1) (el - 1 + (N + el) % 2) = gam N el := by
  unfold gam; split_ifs <;> omega

theorem tiling_direction_jax_ok {L N : ℤ} (hL : 1 ≤ L) (hN : 1 ≤ N) :
    tiling_direction_jax L N = .ok (Arr2.of L (2 * L - 1) fun el k => sdir N el (k - (L - 1))) := by
  unfold tiling_direction_jax
  simp only [zeros2, nu_jax, gam_jax]
  rw [if_neg (by omega)]
  simp only [Py.bind_ok]
  rw [rows_loop (f := fun el k => sdir N el (k - (L - 1)))]
  · congr 1
    refine Arr2.of_congr fun i j h0 h1 _ _ => ?_
    by_cases h : 1 ≤ i
    · rw [if_pos ⟨h, h1⟩]
    · rw [if_neg (by omega), sdir, if_neg (by tauto)]
  · intro g el hi0 hi1 hg0
    have hgf := gam_facts hN hi0
    have hn : max 0 (el + 1 - -el) = 2 * el + 1 := by omega
    simp only [arange, Arr1.of_n, hn]
    rw [npSqrt1_of]
    swap
    · intro i _ _
      exact div_nonneg (binomial_coefficient_jax_nonneg _ _) (zpow_nonneg (by norm_num) _)
    simp only [Py.bind_ok, Arr2.of_c]
    rw [mkSl_mid (by omega) (by omega) (by omega), min_eq_left (by omega)]
    have hmx : max 0 (L + el - (L - 1 - el)) = 2 * el + 1 := by omega
    simp only [hmx, Arr2.setRow, Arr2.of_r, Arr2.of_c, Arr1.of_n, pyIdx_ok (show 0 ≤ el by omega) hi1, Py.bind_ok]
    rw [if_pos (show bcast (2 * el + 1) (2 * el + 1) from Or.inl rfl)]
    congr 1
    refine Arr2.of_congr fun i' k h0 h1 h2 h3 => ?_
    simp only [Sl.mem_one, Sl.pos_one]
    by_cases hi : i' = el
    · subst hi
      simp only [true_and, if_true]
      split_ifs with h
      · have hb : bix (2 * i' + 1) (k - (L - 1 - i')) = k - (L - 1 - i') := by
          rw [bix, if_neg (by omega)]
        have hr : 0 ≤ k - (L - 1 - i') ∧ k - (L - 1 - i') < 2 * i' + 1 := by omega
        have hm : -i' + (k - (L - 1 - i')) = k - (L - 1) := by ring
        rw [hb, Arr1.of_v _ _ _ hr, hm]
        generalize hmd : k - (L - 1) = m at *
        have habs : |m| ≤ i' := abs_le.2 ⟨by omega, by omega⟩
        by_cases hc : m < N ∧ m > -N ∧ (N + m) % 2 = 1
        · have hp : (N + m) % 2 ≠ 0 := by omega
          have hm' : |m| ≤ gam N i' := (hgf.2.2.2.2 m hp).2 ⟨abs_lt.2 ⟨by omega, by omega⟩, habs⟩
          obtain ⟨e1, e2, e3⟩ := binom_arg hN hi0 hm' hp
          rw [if_pos hc, Arr1.of_v _ _ _ hr, Arr1.of_v _ _ _ hr, hm]
          have h2' : (2 : ℝ) ^ gam N i' = 2 ^ (gam N i').toNat := by
            rw [← zpow_natCast]; congr 1; omega
          have h3' : sdir N i' m = nuC N * ((Real.sqrt (((gam N i').toNat.choose ((gam N i' - m) / 2).toNat : ℝ) /
            2 ^ (gam N i').toNat) : ℝ) : ℂ) := by rw [sdir, if_pos ⟨hi0, hm', hp⟩]
          rw [e2, h2', h3']
          conv_lhs => rw [e1, binomial_coefficient_jax_nat e3]
        · rw [if_neg hc, sdir, if_neg]
          rintro ⟨_, h5, h6⟩
          have := abs_lt.1 ((hgf.2.2.2.2 m h6).1 h5).1
          omega
      · rw [Arr2.of_v _ _ _ _ _ ⟨h0, h1, h2, h3⟩, hg0, sdir, if_neg]
        rintro ⟨_, h4, _⟩
        have := abs_le.1 (h4.trans hgf.2.2.2.1)
        omega
    · rw [if_neg (by tauto), if_neg hi]
      rw [Arr2.of_v _ _ _ _ _ ⟨h0, h1, h2, h3⟩]

/-- squared modulus -/
theorem sdir_normSq {N el m : ℤ} (h : 1 ≤ el ∧ |m| ≤ gam N el ∧ (N + m) % 2 ≠ 0) :
    ‖sdir N el m‖ ^ 2 = ((gam N el).toNat.choose ((gam N el - m) / 2).toNat : ℝ) / 2 ^ (gam N el).toNat := by
  rw [sdir, if_pos h, norm_mul, nuC_norm, one_mul, Complex.norm_real, Real.norm_eq_abs, sq_abs, Real.sq_sqrt (by positivity)]

theorem sdir_eq_zero {N el m : ℤ} (h : ¬ (1 ≤ el ∧ |m| ≤ gam N el ∧ (N + m) % 2 ≠ 0)) : sdir N el m = 0 := if_neg h

/-- unit energy of the directional component, over any symmetric window containing the support -/
theorem sdir_energy {N el M : ℤ} (hN : 1 ≤ N) (hel : 1 ≤ el) (hM : gam N el ≤ M) :
    ∑ m ∈ Finset.Icc (-M) M, ‖sdir N el m‖ ^ 2 = 1 := by
  have hg := gam_facts hN hel
  obtain ⟨n, hn⟩ : ∃ n : ℕ, gam N el = n := ⟨(gam N el).toNat, by omega⟩
  have hsub : (Finset.range (n + 1)).image (fun k : ℕ => (n : ℤ) - 2 * k) ⊆ Finset.Icc (-M) M := by
    intro x hx
    obtain ⟨k, hk, rfl⟩ := Finset.mem_image.1 hx
    rw [Finset.mem_range] at hk
    rw [Finset.mem_Icc]
    omega
  rw [← Finset.sum_subset hsub, Finset.sum_image]
  · have : ∀ k ∈ Finset.range (n + 1), ‖sdir N el ((n : ℤ) - 2 * k)‖ ^ 2 = (n.choose k : ℝ) / 2 ^ n := by
      intro k hk
      rw [Finset.mem_range] at hk
      have h2 := hg.2.1
      rw [sdir_normSq]
      · rw [hn]
        have : (((n : ℤ) - (n - 2 * k)) / 2).toNat = k := by omega
        rw [this]; simp
      · refine ⟨hel, ?_, ?_⟩
        · rw [hn]; exact abs_le.2 ⟨by omega, by omega⟩
        · omega
    rw [Finset.sum_congr rfl this, ← Finset.sum_div]
    have h := Nat.sum_range_choose n
    have h' : (∑ k ∈ Finset.range (n + 1), (n.choose k : ℝ)) = 2 ^ n := by exact_mod_cast h
    rw [h', div_self (by positivity)]
  · intro a _ b _ hab
    simp only at hab
    omega
  · intro m hm hm'
    rw [sdir_eq_zero, norm_zero, zero_pow (by norm_num)]
    rintro ⟨_, h1, h2⟩
    apply hm'
    have h3 := abs_le.1 h1
    have h4 := hg.2.1
    rw [Finset.mem_image]
    refine ⟨((n - m) / 2).toNat, ?_, ?_⟩
    · rw [Finset.mem_range]; omega
    · omega

/-- symmetry `s[el, -m] = s[el, m]` -/
theorem sdir_neg {N el m : ℤ} (hN : 1 ≤ N) : sdir N el (-m) = sdir N el m := by
  by_cases h : 1 ≤ el ∧ |m| ≤ gam N el ∧ (N + m) % 2 ≠ 0
  · obtain ⟨h1, h2, h3⟩ := h
    have hg := gam_facts hN h1
    have hg1 := hg.1
    have hg2 := hg.2.1
    have h4 := abs_le.1 h2
    rw [sdir, sdir, if_pos ⟨h1, by rwa [abs_neg], by omega⟩, if_pos ⟨h1, h2, h3⟩]
    have : ((gam N el - m) / 2).toNat = (gam N el).toNat - ((gam N el - -m) / 2).toNat := by omega
    rw [this, Nat.choose_symm (by omega)]
  · rw [sdir_eq_zero h, sdir_eq_zero]
    rintro ⟨h1, h2, h3⟩
    rw [abs_neg] at h2
    exact h ⟨h1, h2, by omega⟩

/-- reality symmetry `s[el, -m] = (-1)^m conj s[el, m]` -/
theorem sdir_conj {N el m : ℤ} (hN : 1 ≤ N) : sdir N el (-m) = (-1) ^ m * (starRingEnd ℂ) (sdir N el m) := by
  rw [sdir_neg hN]
  by_cases h : 1 ≤ el ∧ |m| ≤ gam N el ∧ (N + m) % 2 ≠ 0
  · rw [sdir, if_pos h, map_mul, Complex.conj_ofReal, ← mul_assoc]
    congr 1
    unfold nuC
    split_ifs with hp
    · have : Even m := by rw [Int.even_iff]; omega
      rw [this.neg_one_zpow]; simp
    · have : Odd m := by rw [Int.odd_iff]; omega
      rw [this.neg_one_zpow]; simp
  · rw [sdir_eq_zero h]; simp

end S2wav
