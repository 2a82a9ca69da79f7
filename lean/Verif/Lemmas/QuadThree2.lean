import Verif.Lemmas.QuadThree

/-! # `k_lam` in double precision for `lam = 3` and band-limits up to 794 -/

namespace S2wav
open Classical

variable {m : Libm} (hm : m.Ok)

theorem quad_three_norm : 0.057 ≤ quad 3 300 (1 / 3) := by
  have h := quad_norm (lam := 3) (by norm_num) (n := 300) le_rfl
  have hI := tailI_total (lam := 3) (by norm_num)
  have hs : shiftC 3 = 2 := by unfold shiftC; norm_num
  rw [hs] at h
  have h1 := h.1
  have h2 := h.2.2.2
  norm_num at h1 h2 hI ⊢
  linarith

theorem quad_three_ratio {a : ℝ} (h1 : 1 / 3 ≤ a) (h2 : a < 1) : quad 3 300 a / quad 3 300 (1 / 3) ≤ 1.001 := by
  have := quad_ratio_le (lam := 3) (by norm_num) (a := a) (n := 300) h1 h2 le_rfl
  norm_num at this ⊢
  exact this

include hm

theorem pow_three64 {n : ℕ} (h2 : n ≤ 33) : m.pyPow (.fin 3) n = .ok (.fin ((3 : ℝ) ^ n)) := by
  have hle : (3 : ℤ) ^ n ≤ 2 ^ 53 := by
    calc (3 : ℤ) ^ n ≤ 3 ^ 33 := by gcongr; norm_num
      _ ≤ 2 ^ 53 := by norm_num
  have hr : Rep ((3 : ℝ) ^ n) := by
    have := rep_int (n := 3 ^ n) (by rw [abs_of_nonneg (by positivity)]; exact hle)
    push_cast at this; exact this
  have hlt : |(3 : ℝ) ^ (n : ℤ)| < (2 : ℝ) ^ (1024 : ℤ) := by
    rw [zpow_natCast, abs_of_pos (by positivity)]
    calc (3 : ℝ) ^ n ≤ 2 ^ (53 : ℤ) := by exact_mod_cast hle
      _ < 2 ^ (1024 : ℤ) := zpow_lt_zpow_right₀ (by norm_num) (by norm_num)
  have := Libm.pyPow_fin (hm.pow_exact 3 n (by norm_num) (by rw [zpow_natCast]; exact hr) hlt)
  rwa [zpow_natCast] at this

omit hm in
theorem part_one64 : part_scaling_fn64 m (.fin 1) (.fin 1) 300 (.fin 3) = .ok (.fin 0) := by
  unfold part_scaling_fn64
  rw [F64.sub_fin, sub_self, F64.ofInt_eq (by norm_num),
    F64.of_rep (by have := rep_int (n := 0) (by norm_num); push_cast at this; exact this) (by norm_num),
    F64.pdiv_fin (by norm_num)]
  simp only [Py.bind_ok]
  rw [if_pos ((F64.eq_fin 1 1).2 rfl)]

/-- the array computed in double precision, entry by entry; the C library is only asked to return something in (0, 1] for 3^-1 -/
theorem k_lam64_three {jm : JMax} {L J : ℤ} (hp : ∃ y, m.pow 3 (-1) = .fin y ∧ 0 < y ∧ y ≤ 1) (hJ : jm L 3 = .ok J) (hL : 1 ≤ L)
    (hL' : L ≤ 794) (hJ0 : 0 ≤ J) (hJ1 : J ≤ 32) :
    ∃ X : ℤ → ℤ → ℝ, k_lam64 m jm L 3 300 = .ok (Arr2.of (J + 2) L fun j l => .fin (X j l)) ∧
      ∀ j l, 0 ≤ j → j < J + 2 → 0 ≤ l → l < L → 0 ≤ X j l ∧ |X j l - kval 3 300 j l| ≤ 1 / 2 ^ 31 ∧
        ((l : ℝ) ≤ 3 ^ (j - 1) → X j l = 1) ∧ ((3 : ℝ) ^ j ≤ l → X j l = 0) := by
  have hb : ∀ y : ℝ, -4 ≤ y → y ≤ 4 → |y| ≤ 4 * 2 ^ 53 := fun y ha hb => by
    rw [abs_le]; constructor <;> norm_num <;> linarith
  obtain ⟨N, hN, hN0, hNa⟩ := part_three64 hm low3_third
  have hQ := quad_three_norm
  have hNb := abs_le.1 hNa
  have hN1 : 0.056 ≤ N := by norm_num at hNb hQ ⊢; linarith
  have hNp : 0 < N := by norm_num at hN1; linarith
  have hQp : 0 < quad 3 300 (1 / 3) := by norm_num at hQ ⊢; linarith
  have hent : ∀ j l : ℤ, ∃ x : ℝ, 0 ≤ j → j < J + 2 → 0 ≤ l → l < L → 0 ≤ x ∧ |x - kval 3 300 j l| ≤ 1 / 2 ^ 31 ∧
      ((l : ℝ) ≤ 3 ^ (j - 1) → x = 1) ∧ ((3 : ℝ) ^ j ≤ l → x = 0) ∧ ∀ k : Arr2 F64,
      (do
        let lo ← m.pyPow (.fin 3) (j - 1)
        if F64.intLt l lo then k.set j l (.fin 1)
        else do
          let hi ← m.pyPow (.fin 3) j
          if F64.intGt l hi then k.set j l (.fin 0)
          else do
            let a ← F64.pdiv (.ofInt l) hi
            let p ← part_scaling_fn64 m a (.fin 1) 300 (.fin 3)
            k.set j l (p.div (.fin N)) : Py (Arr2 F64)) = k.set j l (.fin x) := by
    intro j l
    by_cases hr : 0 ≤ j ∧ j < J + 2 ∧ 0 ≤ l ∧ l < L
    swap
    · exact ⟨0, fun a b c d => absurd ⟨a, b, c, d⟩ hr⟩
    obtain ⟨hj0, hj1, hl0, hl1⟩ := hr
    obtain ⟨j, rfl⟩ := Int.eq_ofNat_of_zero_le hj0
    obtain ⟨l, rfl⟩ := Int.eq_ofNat_of_zero_le hl0
    -- the lower power: whatever the library returns for 3^-1, the comparison with the integer comes out right
    have p1 : ∃ y : ℝ, m.pyPow (.fin 3) ((j : ℤ) - 1) = .ok (.fin y) ∧ (((l : ℤ) : ℝ) < y ↔ ((l : ℤ) : ℝ) < 3 ^ ((j : ℤ) - 1)) := by
      rcases j with _ | j
      · obtain ⟨y, h1, h2, h3⟩ := hp
        refine ⟨y, by simpa using Libm.pyPow_fin h1, ?_⟩
        rcases Nat.eq_zero_or_pos l with rfl | hl
        · simp [h2]
        · have : (1 : ℝ) ≤ ((l : ℤ) : ℝ) := by exact_mod_cast hl
          constructor <;> intro h
          · linarith
          · simp only [Nat.cast_zero, zero_sub, zpow_neg_one] at h; norm_num at h; rw [Int.cast_natCast] at this; linarith
      · refine ⟨3 ^ j, ?_, ?_⟩
        · rw [show ((j + 1 : ℕ) : ℤ) - 1 = (j : ℕ) by push_cast; ring]
          exact pow_three64 hm (by omega)
        · rw [show ((j + 1 : ℕ) : ℤ) - 1 = (j : ℕ) by push_cast; ring, zpow_natCast]
    obtain ⟨y, p1, py⟩ := p1
    have p2 := pow_three64 hm (n := j) (by omega)
    have hjp : (0 : ℝ) < 3 ^ j := by positivity
    have hmono : (3 : ℝ) ^ ((j : ℤ) - 1) < 3 ^ (j : ℤ) := zpow_lt_zpow_right₀ (by norm_num) (by omega)
    by_cases c1 : ((l : ℤ) : ℝ) < 3 ^ ((j : ℤ) - 1)
    · refine ⟨1, fun _ _ _ _ => ⟨by norm_num, ?_, fun _ => rfl, fun h => by linarith, fun k => ?_⟩⟩
      · unfold kval; rw [if_pos c1]; norm_num
      · rw [p1]; simp only [Py.bind_ok]; rw [if_pos (show F64.intLt l (.fin _) from py.2 c1)]
    have c1' : ¬ ((l : ℤ) : ℝ) < y := fun h => c1 (py.1 h)
    by_cases c2 : ((l : ℤ) : ℝ) > 3 ^ (j : ℤ)
    · refine ⟨0, fun _ _ _ _ => ⟨le_rfl, ?_, fun h => by linarith, fun _ => rfl, fun k => ?_⟩⟩
      · unfold kval; rw [if_neg c1, if_pos c2]; norm_num
      · rw [p1]; simp only [Py.bind_ok]; rw [if_neg (show ¬ F64.intLt l (.fin _) from c1'), p2]
        simp only [Py.bind_ok]; rw [if_pos (show F64.intGt l (.fin _) by rw [zpow_natCast] at c2; exact c2)]
    obtain ⟨ha1, ha2⟩ := ratio_bounds (lam := 3) (by norm_num) c1 c2
    have hP : ∃ P, part_scaling_fn64 m (.fin (rnd (((l : ℤ) : ℝ) / 3 ^ j))) (.fin 1) 300 (.fin 3) = .ok (.fin P) ∧ 0 ≤ P ∧
        |P - quad 3 300 (((l : ℤ) : ℝ) / 3 ^ (j : ℤ))| ≤ 1 / 2 ^ 37 ∧ (((l : ℤ) : ℝ) / 3 ^ (j : ℤ) = 1 → P = 0) := by
      rw [zpow_natCast] at ha1 ha2 ⊢
      rcases lt_or_eq_of_le ha2 with h2 | h2
      · have g1 : 3 ^ j ≤ 3 * l := by
          rw [le_div_iff₀ hjp] at ha1
          have : (3 : ℝ) ^ j ≤ 3 * (l : ℕ) := by push_cast at ha1; linarith
          exact_mod_cast this
        have g2 : l < 3 ^ j := by
          rw [div_lt_one hjp] at h2
          exact_mod_cast h2
        have g3 : j ≤ 7 := by
          by_contra h
          have : 3 ^ 8 ≤ 3 ^ j := Nat.pow_le_pow_right (by norm_num) (by omega)
          omega
        have := part_three64 hm (low3 g3 (by omega) g1 g2)
        obtain ⟨P, q1, q2, q3⟩ := this
        rw [Int.cast_natCast]
        exact ⟨P, q1, q2, q3, fun h => absurd h h2.ne⟩
      · rw [h2, rnd_id rep_one]
        exact ⟨0, part_one64, le_rfl, by rw [quad_one, sub_zero, abs_zero]; positivity, fun _ => rfl⟩
    obtain ⟨P, hP, hP0, hPa, hP1⟩ := hP
    have hratio : quad 3 300 (((l : ℤ) : ℝ) / 3 ^ (j : ℤ)) / quad 3 300 (1 / 3) ≤ 1.001 := by
      rcases lt_or_eq_of_le ha2 with h | h
      · exact quad_three_ratio ha1 h
      · rw [h, quad_one, zero_div]; norm_num
    have hq0 : 0 ≤ quad 3 300 (((l : ℤ) : ℝ) / 3 ^ (j : ℤ)) := quad_nonneg (by norm_num) ha1 ha2 (by norm_num)
    set A := quad 3 300 (((l : ℤ) : ℝ) / 3 ^ (j : ℤ)) with hA
    set B := quad 3 300 (1 / 3) with hB
    have hAB : A ≤ 1.001 * B := by rwa [div_le_iff₀ hQp] at hratio
    have hPb := abs_le.1 hPa
    -- the quotient
    have hPN : |P / N - A / B| ≤ 1 / 2 ^ 31 - 1 / 2 ^ 40 := by
      have e : P / N - A / B = ((P - A) + A / B * (B - N)) / N := by field_simp; ring
      have hAB0 : 0 ≤ A / B := div_nonneg hq0 hQp.le
      rw [e, abs_div, abs_of_pos hNp, div_le_iff₀ hNp]
      calc |(P - A) + A / B * (B - N)| ≤ |P - A| + |A / B * (B - N)| := abs_add_le _ _
        _ = |P - A| + A / B * |N - B| := by rw [abs_mul, abs_of_nonneg hAB0, abs_sub_comm B N]
        _ ≤ 1 / 2 ^ 37 + 1.001 * (1 / 2 ^ 37) := by gcongr
        _ ≤ (1 / 2 ^ 31 - 1 / 2 ^ 40) * 0.056 := by norm_num
        _ ≤ (1 / 2 ^ 31 - 1 / 2 ^ 40) * N := by gcongr
    have hPN0 : 0 ≤ P / N := by positivity
    have hPNb := abs_le.1 hPN
    have hPN1 : P / N ≤ 2 := by norm_num at hPNb hratio ⊢; linarith
    have hacc := abs_le.1 (rnd_acc' (P / N))
    rw [abs_of_nonneg hPN0] at hacc
    refine ⟨rnd (P / N), fun _ _ _ _ => ⟨rnd_nonneg hPN0, ?_, fun h => ?_, fun h => ?_, fun k => ?_⟩⟩
    · unfold kval
      rw [if_neg c1, if_neg c2, ← hA, ← hB, abs_le]
      norm_num at hPNb hacc ⊢
      constructor <;> linarith
    · have e : ((l : ℤ) : ℝ) / 3 ^ j = 1 / 3 := by
        have e1 : ((l : ℤ) : ℝ) = 3 ^ ((j : ℤ) - 1) := le_antisymm h (not_lt.1 c1)
        rw [e1, zpow_sub_one₀ (by norm_num), zpow_natCast]; field_simp
      rw [e, hN] at hP
      have e2 : P = N := by cases hP; rfl
      rw [e2, div_self hNp.ne', rnd_id rep_one]
    · have e : ((l : ℤ) : ℝ) / 3 ^ (j : ℤ) = 1 := by
        rw [le_antisymm (not_lt.1 c2) h, div_self (by rw [zpow_natCast]; exact hjp.ne')]
      rw [hP1 e, zero_div, rnd_zero]
    · rw [p1]; simp only [Py.bind_ok]; rw [if_neg (show ¬ F64.intLt l (.fin _) from c1'), p2]
      simp only [Py.bind_ok]
      rw [zpow_natCast] at c2 ha1 ha2
      rw [if_neg (show ¬ F64.intGt l (.fin _) from c2), F64.ofInt_eq (by rw [abs_le]; constructor <;> omega),
        F64.pdiv_fin hjp.ne', F64.of_fin' (hb _ (by norm_num at ha1 ⊢; linarith) (by linarith))]
      simp only [Py.bind_ok]
      rw [hP]
      simp only [Py.bind_ok]
      rw [F64.div_fin hNp.ne', F64.of_fin' (hb _ (by linarith) (by linarith))]
  choose X hX using hent
  refine ⟨X, ?_, fun j l a b c d => ?_⟩
  · unfold k_lam64
    simp only [hJ, Py.bind_ok]
    rw [inv_three64]
    simp only [Py.bind_ok]
    rw [hN]
    simp only [Py.bind_ok, zeros2]
    rw [if_neg (by omega)]
    simp only [Py.bind_ok]
    rw [rows_loop (f := fun j l => F64.fin (X j l))]
    · congr 1
      exact Arr2.of_congr fun i j h0 h1 _ _ => by rw [if_pos ⟨h0, h1⟩]
    · intro g i hi0 hi1 _
      rw [fillrow_loop (sh := 0) (f := fun l => F64.fin (X i l)) (i := i)]
      · congr 1
        refine Arr2.of_congr fun i' k h0 h1 h2 h3 => ?_
        have : (i' = i ∧ 0 + 0 ≤ k ∧ k < 0 + L) ↔ i' = i := by omega
        simp only [this, sub_zero]
      · exact hi0
      · exact hi1
      · omega
      · omega
      · intro a l hl0 hl1 _ _
        rw [zero_add]
        exact (hX i l hi0 hi1 hl0 hl1).2.2.2.2 a
  · obtain ⟨q1, q2, q3, q4, -⟩ := hX j l a b c d
    exact ⟨q1, q2, q3, q4⟩

end S2wav
