import Verif.Lemmas.QuadEight

/-! # `k_lam` in double precision for `lam = 8` and band-limits up to 2^48 -/

namespace S2wav
open Classical

variable {m : Libm} (hm : m.Ok)

theorem quad_eight_norm : 0.067 ≤ quad 8 300 (1 / 8) := by
  have h := quad_norm (lam := 8) (by norm_num) (n := 300) le_rfl
  have hI := tailI_total (lam := 8) (by norm_num)
  have hs : shiftC 8 = 9 / 7 := by unfold shiftC; norm_num
  rw [hs] at h
  have h1 := h.1
  have h2 := h.2.2.2
  norm_num at h1 h2 hI ⊢
  linarith

theorem quad_eight_ratio {a : ℝ} (h1 : 1 / 8 ≤ a) (h2 : a < 1) : quad 8 300 a / quad 8 300 (1 / 8) ≤ 1.001 := by
  have := quad_ratio_le (lam := 8) (by norm_num) (a := a) (n := 300) h1 h2 le_rfl
  norm_num at this ⊢
  exact this

include hm

theorem pow_eight64 {n : ℤ} (h1 : -1 ≤ n) (h2 : n ≤ 340) : m.pyPow (.fin 8) n = .ok (.fin ((8 : ℝ) ^ n)) := by
  have e : (8 : ℝ) ^ n = 2 ^ (3 * n) := by rw [zpow_mul]; norm_num
  refine Libm.pyPow_fin (hm.pow_exact _ _ (by norm_num) (by rw [e]; exact rep_pow (by omega)) ?_)
  rw [e, abs_of_pos (two_zpow_pos _)]
  exact zpow_lt_zpow_right₀ (by norm_num) (by omega)

omit hm in
theorem part_one_eight64 : part_scaling_fn64 m (.fin 1) (.fin 1) 300 (.fin 8) = .ok (.fin 0) := by
  unfold part_scaling_fn64
  rw [F64.sub_fin, sub_self, F64.ofInt_eq (by norm_num),
    F64.of_rep (by have := rep_int (n := 0) (by norm_num); push_cast at this; exact this) (by norm_num),
    F64.pdiv_fin (by norm_num)]
  simp only [Py.bind_ok]
  rw [if_pos ((F64.eq_fin 1 1).2 rfl)]

/-- the array computed in double precision, entry by entry -/
theorem k_lam64_eight {jm : JMax} {L J : ℤ} (hJ : jm L 8 = .ok J) (hL : 1 ≤ L)
    (hL' : L ≤ 2 ^ 48) (hJ0 : 0 ≤ J) (hJ1 : J ≤ 338) :
    ∃ X : ℤ → ℤ → ℝ, k_lam64 m jm L 8 300 = .ok (Arr2.of (J + 2) L fun j l => .fin (X j l)) ∧
      ∀ j l, 0 ≤ j → j < J + 2 → 0 ≤ l → l < L → 0 ≤ X j l ∧ |X j l - kval 8 300 j l| ≤ 1 / 2 ^ 31 ∧
        ((l : ℝ) ≤ 8 ^ (j - 1) → X j l = 1) ∧ ((8 : ℝ) ^ j ≤ l → X j l = 0) := by
  have hb : ∀ y : ℝ, -4 ≤ y → y ≤ 4 → |y| ≤ 4 * 2 ^ 53 := fun y ha hb => by
    rw [abs_le]; constructor <;> norm_num <;> linarith
  obtain ⟨N, hN, hN0, hNa⟩ := part_eight64 hm low8_eighth
  have hQ := quad_eight_norm
  have hNb := abs_le.1 hNa
  have hN1 : 0.056 ≤ N := by norm_num at hNb hQ ⊢; linarith
  have hNp : 0 < N := by norm_num at hN1; linarith
  have hQp : 0 < quad 8 300 (1 / 8) := by norm_num at hQ ⊢; linarith
  have hent : ∀ j l : ℤ, ∃ x : ℝ, 0 ≤ j → j < J + 2 → 0 ≤ l → l < L → 0 ≤ x ∧ |x - kval 8 300 j l| ≤ 1 / 2 ^ 31 ∧
      ((l : ℝ) ≤ 8 ^ (j - 1) → x = 1) ∧ ((8 : ℝ) ^ j ≤ l → x = 0) ∧ ∀ k : Arr2 F64,
      (do
        let lo ← m.pyPow (.fin 8) (j - 1)
        if F64.intLt l lo then k.set j l (.fin 1)
        else do
          let hi ← m.pyPow (.fin 8) j
          if F64.intGt l hi then k.set j l (.fin 0)
          else do
            let a ← F64.pdiv (.ofInt l) hi
            let p ← part_scaling_fn64 m a (.fin 1) 300 (.fin 8)
            k.set j l (p.div (.fin N)) : Py (Arr2 F64)) = k.set j l (.fin x) := by
    intro j l
    by_cases hr : 0 ≤ j ∧ j < J + 2 ∧ 0 ≤ l ∧ l < L
    swap
    · exact ⟨0, fun a b c d => absurd ⟨a, b, c, d⟩ hr⟩
    obtain ⟨hj0, hj1, hl0, hl1⟩ := hr
    obtain ⟨j, rfl⟩ := Int.eq_ofNat_of_zero_le hj0
    obtain ⟨l, rfl⟩ := Int.eq_ofNat_of_zero_le hl0
    have p1 := pow_eight64 hm (n := (j : ℤ) - 1) (by omega) (by omega)
    have p2 := pow_eight64 hm (n := (j : ℤ)) (by omega) (by omega)
    rw [zpow_natCast] at p2
    have hjp : (0 : ℝ) < 8 ^ j := by positivity
    have hmono : (8 : ℝ) ^ ((j : ℤ) - 1) < 8 ^ (j : ℤ) := zpow_lt_zpow_right₀ (by norm_num) (by omega)
    by_cases c1 : ((l : ℤ) : ℝ) < 8 ^ ((j : ℤ) - 1)
    · refine ⟨1, fun _ _ _ _ => ⟨by norm_num, ?_, fun _ => rfl, fun h => by linarith, fun k => ?_⟩⟩
      · unfold kval; rw [if_pos c1]; norm_num
      · rw [p1]; simp only [Py.bind_ok]; rw [if_pos (show F64.intLt l (.fin _) from c1)]
    by_cases c2 : ((l : ℤ) : ℝ) > 8 ^ (j : ℤ)
    · refine ⟨0, fun _ _ _ _ => ⟨le_rfl, ?_, fun h => by linarith, fun _ => rfl, fun k => ?_⟩⟩
      · unfold kval; rw [if_neg c1, if_pos c2]; norm_num
      · rw [p1]; simp only [Py.bind_ok]; rw [if_neg (show ¬ F64.intLt l (.fin _) from c1), p2]
        simp only [Py.bind_ok]; rw [if_pos (show F64.intGt l (.fin _) by rw [zpow_natCast] at c2; exact c2)]
    obtain ⟨ha1, ha2⟩ := ratio_bounds (lam := 8) (by norm_num) c1 c2
    have hP : ∃ P, part_scaling_fn64 m (.fin (rnd (((l : ℤ) : ℝ) / 8 ^ j))) (.fin 1) 300 (.fin 8) = .ok (.fin P) ∧ 0 ≤ P ∧
        |P - quad 8 300 (((l : ℤ) : ℝ) / 8 ^ (j : ℤ))| ≤ 1 / 2 ^ 37 ∧ (((l : ℤ) : ℝ) / 8 ^ (j : ℤ) = 1 → P = 0) := by
      rw [zpow_natCast] at ha1 ha2 ⊢
      rcases lt_or_eq_of_le ha2 with h2 | h2
      · have g1 : 8 ^ j ≤ 8 * l := by
          rw [le_div_iff₀ hjp] at ha1
          have : (8 : ℝ) ^ j ≤ 8 * (l : ℕ) := by push_cast at ha1; linarith
          exact_mod_cast this
        have g2 : l < 8 ^ j := by
          rw [div_lt_one hjp] at h2
          exact_mod_cast h2
        have hlow := low8 (show l < 2 ^ 48 by omega) g1 g2
        have := part_eight64 hm hlow
        rw [Int.cast_natCast, rnd_id hlow.rep]
        obtain ⟨P, q1, q2, q3⟩ := this
        exact ⟨P, q1, q2, q3, fun h => absurd h h2.ne⟩
      · rw [h2, rnd_id rep_one]
        exact ⟨0, part_one_eight64, le_rfl, by rw [quad_one, sub_zero, abs_zero]; positivity, fun _ => rfl⟩
    obtain ⟨P, hP, hP0, hPa, hP1⟩ := hP
    have hratio : quad 8 300 (((l : ℤ) : ℝ) / 8 ^ (j : ℤ)) / quad 8 300 (1 / 8) ≤ 1.001 := by
      rcases lt_or_eq_of_le ha2 with h | h
      · exact quad_eight_ratio ha1 h
      · rw [h, quad_one, zero_div]; norm_num
    have hq0 : 0 ≤ quad 8 300 (((l : ℤ) : ℝ) / 8 ^ (j : ℤ)) := quad_nonneg (by norm_num) ha1 ha2 (by norm_num)
    set A := quad 8 300 (((l : ℤ) : ℝ) / 8 ^ (j : ℤ)) with hA
    set B := quad 8 300 (1 / 8) with hB
    have hAB : A ≤ 1.001 * B := by rwa [div_le_iff₀ hQp] at hratio
    have hPb := abs_le.1 hPa
    -- the quotient
    have hPN : |P / N - A / B| ≤ 1 / 2 ^ 31 - 1 / 2 ^ 40 := by
      have e : P / N - A / B = ((P - A) + A / B * (B - N)) / N := by field_simp; ring
      have hAB0 : 0 ≤ A / B := div_nonneg hq0 hQp.le
      rw [e, abs_div, abs_of_pos hNp, div_le_iff₀ hNp]
      calc |(P - A) + A / B * (B - N)| ≤ |P - A| + |A / B * (B - N)| := abs_add_le _ _
        _ = |P - A| + A / B * |N - B| := by rw [abs_mul, abs_of_nonneg hAB0, abs_sub_comm B N]
        _ ≤ 1 / 2 ^ 37 + 1.001 * (1 / 2 ^ 37) := by gcongr
        _ ≤ (1 / 2 ^ 31 - 1 / 2 ^ 40) * 0.056 := by norm_num
        _ ≤ (1 / 2 ^ 31 - 1 / 2 ^ 40) * N := by gcongr
    have hPN0 : 0 ≤ P / N := by positivity
    have hPNb := abs_le.1 hPN
    have hPN1 : P / N ≤ 2 := by norm_num at hPNb hratio ⊢; linarith
    have hacc := abs_le.1 (rnd_acc' (P / N))
    rw [abs_of_nonneg hPN0] at hacc
    refine ⟨rnd (P / N), fun _ _ _ _ => ⟨rnd_nonneg hPN0, ?_, fun h => ?_, fun h => ?_, fun k => ?_⟩⟩
    · unfold kval
      rw [if_neg c1, if_neg c2, ← hA, ← hB, abs_le]
      norm_num at hPNb hacc ⊢
      constructor <;> linarith
    · have e : ((l : ℤ) : ℝ) / 8 ^ j = 1 / 8 := by
        have e1 : ((l : ℤ) : ℝ) = 8 ^ ((j : ℤ) - 1) := le_antisymm h (not_lt.1 c1)
        rw [e1, zpow_sub_one₀ (by norm_num), zpow_natCast]; field_simp
      rw [e, rnd_id rep_eighth, hN] at hP
      have e2 : P = N := by cases hP; rfl
      rw [e2, div_self hNp.ne', rnd_id rep_one]
    · have e : ((l : ℤ) : ℝ) / 8 ^ (j : ℤ) = 1 := by
        rw [le_antisymm (not_lt.1 c2) h, div_self (by rw [zpow_natCast]; exact hjp.ne')]
      rw [hP1 e, zero_div, rnd_zero]
    · rw [p1]; simp only [Py.bind_ok]; rw [if_neg (show ¬ F64.intLt l (.fin _) from c1), p2]
      simp only [Py.bind_ok]
      rw [zpow_natCast] at c2 ha1 ha2
      rw [if_neg (show ¬ F64.intGt l (.fin _) from c2), F64.ofInt_eq (by rw [abs_le]; constructor <;> omega),
        F64.pdiv_fin hjp.ne', F64.of_fin' (hb _ (by norm_num at ha1 ⊢; linarith) (by linarith))]
      simp only [Py.bind_ok]
      rw [hP]
      simp only [Py.bind_ok]
      rw [F64.div_fin hNp.ne', F64.of_fin' (hb _ (by linarith) (by linarith))]
  choose X hX using hent
  refine ⟨X, ?_, fun j l a b c d => ?_⟩
  · unfold k_lam64
    simp only [hJ, Py.bind_ok]
    rw [inv_eight64]
    simp only [Py.bind_ok]
    rw [hN]
    simp only [Py.bind_ok, zeros2]
    rw [if_neg (by omega)]
    simp only [Py.bind_ok]
    rw [rows_loop (f := fun j l => F64.fin (X j l))]
    · congr 1
      exact Arr2.of_congr fun i j h0 h1 _ _ => by rw [if_pos ⟨h0, h1⟩]
    · intro g i hi0 hi1 _
      rw [fillrow_loop (sh := 0) (f := fun l => F64.fin (X i l)) (i := i)]
      · congr 1
        refine Arr2.of_congr fun i' k h0 h1 h2 h3 => ?_
        have : (i' = i ∧ 0 + 0 ≤ k ∧ k < 0 + L) ↔ i' = i := by omega
        simp only [this, sub_zero]
      · exact hi0
      · exact hi1
      · omega
      · omega
      · intro a l hl0 hl1 _ _
        rw [zero_add]
        exact (hX i l hi0 hi1 hl0 hl1).2.2.2.2 a
  · obtain ⟨q1, q2, q3, q4, -⟩ := hX j l a b c d
    exact ⟨q1, q2, q3, q4⟩

end S2wav
