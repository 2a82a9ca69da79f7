import Verif.Lemmas.FloatCert3
import Verif.Props.RoundedPoisonOther

/-! # C128, continued: with `lam = 7` and band-limit 9 the calls do return -/

namespace S2wav
open Classical

variable {m : Libm} {lg : F64 → F64} {jm : JMax} {J : ℤ}

theorem seven_slope : F64.pdiv ((F64.fin 2).mul (.fin 7)) ((F64.fin 7).sub (.fin 1)) = .ok (.fin (5254199565265579 / 2251799813685248)) :=
  slope64 (lam := 7) (c := 5254199565265579 / 2251799813685248)
    (by have := rep_nat 14 (by norm_num); norm_num at this ⊢; exact this)
    (by have := rep_nat 6 (by norm_num); norm_num at this ⊢; exact this)
    (by rw [abs_of_pos] <;> norm_num) (by rw [abs_of_pos] <;> norm_num) (by norm_num) (by rw [abs_of_pos] <;> norm_num)
    (by have := seven_c; norm_num at this ⊢; exact this)

theorem svn1_returns (hm : m.Ok) : ∃ r, part_scaling_fn64 m (.fin (2573485501354569 / 18014398509481984)) (.fin 1) 300 (.fin 7) = .ok r := by
  have hinv := inv64 (lam := 7) (by norm_num) (by rw [abs_of_pos] <;> norm_num) seven_inv
  have ha : Rep (2573485501354569 / 18014398509481984 : ℝ) := by rw [← svn1_a]; exact rep_rnd _
  refine part_returns hm hinv seven_slope svn1_d svn1_h svn1_p svn1_x svn1_u svn1_w svn1_s ha ?_ ?_ (.inl rfl) ?_ ?_ ?_ ?_ ?_ ?_ ?_ ?_ ?_ ?_ ?_ (.inl rfl)
  all_goals norm_num [abs_of_pos]

theorem svn2_returns (hm : m.Ok) : ∃ r, part_scaling_fn64 m (.fin (2573485501354569 / 9007199254740992)) (.fin 1) 300 (.fin 7) = .ok r := by
  have hinv := inv64 (lam := 7) (by norm_num) (by rw [abs_of_pos] <;> norm_num) seven_inv
  have ha : Rep (2573485501354569 / 9007199254740992 : ℝ) := by rw [← svn2_a]; exact rep_rnd _
  refine part_returns hm hinv seven_slope svn2_d svn2_h svn2_p svn2_x svn2_u svn2_w svn2_s ha ?_ ?_ (.inr ?_) ?_ ?_ ?_ ?_ ?_ ?_ ?_ ?_ ?_ ?_ ?_ (.inl rfl)
  all_goals norm_num [abs_of_pos]

theorem svn3_returns (hm : m.Ok) : ∃ r, part_scaling_fn64 m (.fin (7720456504063707 / 18014398509481984)) (.fin 1) 300 (.fin 7) = .ok r := by
  have hinv := inv64 (lam := 7) (by norm_num) (by rw [abs_of_pos] <;> norm_num) seven_inv
  have ha : Rep (7720456504063707 / 18014398509481984 : ℝ) := by rw [← svn3_a]; exact rep_rnd _
  refine part_returns hm hinv seven_slope svn3_d svn3_h svn3_p svn3_x svn3_u svn3_w svn3_s ha ?_ ?_ (.inr ?_) ?_ ?_ ?_ ?_ ?_ ?_ ?_ ?_ ?_ ?_ ?_ (.inl rfl)
  all_goals norm_num [abs_of_pos]

theorem svn4_returns (hm : m.Ok) : ∃ r, part_scaling_fn64 m (.fin (2573485501354569 / 4503599627370496)) (.fin 1) 300 (.fin 7) = .ok r := by
  have hinv := inv64 (lam := 7) (by norm_num) (by rw [abs_of_pos] <;> norm_num) seven_inv
  have ha : Rep (2573485501354569 / 4503599627370496 : ℝ) := by rw [← svn4_a]; exact rep_rnd _
  refine part_returns hm hinv seven_slope svn4_d svn4_h svn4_p svn4_x svn4_u svn4_w svn4_s ha ?_ ?_ (.inr ?_) ?_ ?_ ?_ ?_ ?_ ?_ ?_ ?_ ?_ ?_ ?_ (.inl rfl)
  all_goals norm_num [abs_of_pos]

theorem svn5_returns (hm : m.Ok) : ∃ r, part_scaling_fn64 m (.fin (6433713753386423 / 9007199254740992)) (.fin 1) 300 (.fin 7) = .ok r := by
  have hinv := inv64 (lam := 7) (by norm_num) (by rw [abs_of_pos] <;> norm_num) seven_inv
  have ha : Rep (6433713753386423 / 9007199254740992 : ℝ) := by rw [← svn5_a]; exact rep_rnd _
  refine part_returns hm hinv seven_slope svn5_d svn5_h svn5_p svn5_x svn5_u svn5_w svn5_s ha ?_ ?_ (.inr ?_) ?_ ?_ ?_ ?_ ?_ ?_ ?_ ?_ ?_ ?_ ?_ (.inl rfl)
  all_goals norm_num [abs_of_pos]

theorem svn6_returns (hm : m.Ok) : ∃ r, part_scaling_fn64 m (.fin (7720456504063707 / 9007199254740992)) (.fin 1) 300 (.fin 7) = .ok r := by
  have hinv := inv64 (lam := 7) (by norm_num) (by rw [abs_of_pos] <;> norm_num) seven_inv
  have ha : Rep (7720456504063707 / 9007199254740992 : ℝ) := by rw [← svn6_a]; exact rep_rnd _
  refine part_returns hm hinv seven_slope svn6_d svn6_h svn6_p svn6_x svn6_u svn6_w svn6_s ha ?_ ?_ (.inr ?_) ?_ ?_ ?_ ?_ ?_ ?_ ?_ ?_ ?_ ?_ ?_ (.inl rfl)
  all_goals norm_num [abs_of_pos]

theorem seven_returns (hm : m.Ok) : ∃ r, part_scaling_fn64 m (.fin (5882252574524729 / 36028797018963968)) (.fin 1) 300 (.fin 7) = .ok r := by
  have hinv := inv64 (lam := 7) (by norm_num) (by rw [abs_of_pos] <;> norm_num) seven_inv
  have ha : Rep (5882252574524729 / 36028797018963968 : ℝ) := by rw [← seven_a]; exact rep_rnd _
  refine part_returns hm hinv seven_slope seven_d seven_h seven_p seven_x seven_u seven_w seven_s ha ?_ ?_ (.inr ?_) ?_ ?_ ?_ ?_ ?_ ?_ ?_ ?_ ?_ ?_ ?_ (.inr ⟨?_, ?_⟩)
  all_goals norm_num [abs_of_pos]

/-- what is asked of the C library for `lam = 7`: the power 7^-1, which no double equals, is computed to be a number in (0, 1] -/
def Libm.Seventh (m : Libm) : Prop := ∃ y, m.pow 7 (-1) = .fin y ∧ 0 < y ∧ y ≤ 1

/-- a correctly rounding C library meets the extra condition -/
theorem Libm.exact_seventh : Libm.exact.Seventh := by
  have h : Libm.exact.pow 7 (-1) = .fin (rnd (1 / 7)) := by
    unfold Libm.exact
    simp only [zpow_neg_one]
    rw [← one_div, F64.of_fin' (by rw [abs_of_pos] <;> norm_num)]
  have ha := abs_le.1 (rnd_acc' (1 / 7))
  norm_num at ha
  exact ⟨_, h, by linarith, by linarith⟩

/-- the quadrature over an empty interval -/
theorem part_empty {lam : ℝ} : part_scaling_fn64 m (.fin 1) (.fin 1) 300 (.fin lam) = .ok (.fin 0) := by
  unfold part_scaling_fn64
  rw [F64.sub_fin, sub_self, F64.ofInt_eq (by norm_num),
    F64.of_rep (by have := rep_int (n := 0) (by norm_num); push_cast at this; exact this) (by norm_num), F64.pdiv_fin (by norm_num)]
  simp only [Py.bind_ok]
  rw [if_pos ((F64.eq_fin 1 1).2 rfl)]

/-- the part of an entry after the comparisons -/
theorem entry_tail {q a : ℝ} {P norm : F64} {l : ℤ} (hl : |l| ≤ 2 ^ 53) (hq : q ≠ 0) (hb : |(l : ℝ) / q| ≤ 4 * 2 ^ 53) (ha : rnd (l / q) = a) {lam : F64}
    (hP : part_scaling_fn64 m (.fin a) (.fin 1) 300 lam = .ok P) :
    ∃ x, (do
      let a ← F64.pdiv (.ofInt l) (.fin q)
      let p ← part_scaling_fn64 m a (.fin 1) 300 lam
      .ok (p.div norm) : Py F64) = .ok x := by
  rw [F64.ofInt_eq hl, F64.pdiv_fin hq, Py.bind_ok, F64.of_fin' hb, ha, hP]
  exact ⟨_, rfl⟩

/-- **C128** with `lam = 7` and band-limit 9 `k_lam` raises no exception: it returns an entry that is not a finite number. -/
theorem C128_seven_returns (hm : m.Ok) (hp : m.Seventh) (hT : TopScale jm 9 7 J) (hJ : J ≤ 13) :
    ∃ k, k_lam64 m jm 9 7 300 = .ok k ∧ ¬ (k.v 2 8).Finite := by
  obtain ⟨P1, hP1⟩ := svn1_returns hm
  obtain ⟨P2, hP2⟩ := svn2_returns hm
  obtain ⟨P3, hP3⟩ := svn3_returns hm
  obtain ⟨P4, hP4⟩ := svn4_returns hm
  obtain ⟨P5, hP5⟩ := svn5_returns hm
  obtain ⟨P6, hP6⟩ := svn6_returns hm
  obtain ⟨P, hP⟩ := seven_returns hm
  have hinv := inv64 (lam := 7) (by norm_num) (by rw [abs_of_pos] <;> norm_num) seven_inv
  have h1 : rnd 1 = 1 := rnd_id rep_one
  obtain ⟨k, hk⟩ : ∃ k, k_lam64 m jm 9 7 300 = .ok k := by
    refine k_lam64_returns hT.hJ hT.hJ0 (by norm_num) hinv hP1 fun j l hj0 hj1 hl0 hl1 => ?_
    obtain ⟨y, hy, hy0, hy1⟩ := hp
    have hpow : ∀ n : ℕ, n ≤ 15 → m.pyPow (.fin 7) n = .ok (.fin ((7 ^ n : ℕ) : ℝ)) := fun n hn => by
      refine pow64 hm (lam := 7) (n := n) (k := 7 ^ n) (by rw [zpow_natCast]; push_cast; rfl) ?_
      calc 7 ^ n ≤ 7 ^ 15 := Nat.pow_le_pow_right (by norm_num) hn
        _ ≤ 2 ^ 53 := by norm_num
    unfold entry64
    obtain ⟨j, rfl⟩ := Int.eq_ofNat_of_zero_le hj0
    rcases j with _ | _ | _ | j
    · rw [show ((0 : ℕ) : ℤ) - 1 = -1 by norm_num, Libm.pyPow_fin hy, Py.bind_ok]
      split_ifs with c
      · exact ⟨_, rfl⟩
      have hl : l ≠ 0 := by
        have : ¬ ((l : ℤ) : ℝ) < y := c
        rintro rfl; exact this (by push_cast; exact hy0)
      rw [hpow 0 (by norm_num), Py.bind_ok]
      split_ifs with c'
      · exact ⟨_, rfl⟩
      have hl1 : l = 1 := by
        have h2 : ¬ ((l : ℤ) : ℝ) > ((7 ^ 0 : ℕ) : ℝ) := c'
        have h3 : l ≤ 1 := by
          have : (l : ℝ) ≤ 1 := by push_cast at h2; linarith
          exact_mod_cast this
        omega
      subst hl1
      exact entry_tail (a := 1) (by norm_num) (by norm_num) (by norm_num) (by push_cast; norm_num [h1]) (part_empty (lam := 7))
    · rw [show ((0 + 1 : ℕ) : ℤ) - 1 = ((0 : ℕ) : ℤ) by norm_num, hpow 0 (by norm_num), Py.bind_ok]
      split_ifs with c
      · exact ⟨_, rfl⟩
      have hl : l ≠ 0 := by rintro rfl; exact c (by change ((0 : ℤ) : ℝ) < _; norm_num)
      rw [hpow (0 + 1) (by norm_num), Py.bind_ok]
      split_ifs with c'
      · exact ⟨_, rfl⟩
      have hl1 : l ≤ 7 := by
        have h2 : ¬ ((l : ℤ) : ℝ) > ((7 ^ (0 + 1) : ℕ) : ℝ) := c'
        have : (l : ℝ) ≤ 7 := by push_cast at h2; linarith
        exact_mod_cast this
      rcases (by omega : l = 1 ∨ l = 2 ∨ l = 3 ∨ l = 4 ∨ l = 5 ∨ l = 6 ∨ l = 7) with rfl | rfl | rfl | rfl | rfl | rfl | rfl
      · exact entry_tail (by norm_num) (by norm_num) (by rw [abs_of_pos] <;> norm_num) (by have := svn1_a; push_cast; norm_num at this ⊢; exact this) hP1
      · exact entry_tail (by norm_num) (by norm_num) (by rw [abs_of_pos] <;> norm_num) (by have := svn2_a; push_cast; norm_num at this ⊢; exact this) hP2
      · exact entry_tail (by norm_num) (by norm_num) (by rw [abs_of_pos] <;> norm_num) (by have := svn3_a; push_cast; norm_num at this ⊢; exact this) hP3
      · exact entry_tail (by norm_num) (by norm_num) (by rw [abs_of_pos] <;> norm_num) (by have := svn4_a; push_cast; norm_num at this ⊢; exact this) hP4
      · exact entry_tail (by norm_num) (by norm_num) (by rw [abs_of_pos] <;> norm_num) (by have := svn5_a; push_cast; norm_num at this ⊢; exact this) hP5
      · exact entry_tail (by norm_num) (by norm_num) (by rw [abs_of_pos] <;> norm_num) (by have := svn6_a; push_cast; norm_num at this ⊢; exact this) hP6
      · exact entry_tail (a := 1) (by norm_num) (by norm_num) (by norm_num) (by push_cast; norm_num [h1]) (part_empty (lam := 7))
    · rw [show ((0 + 1 + 1 : ℕ) : ℤ) - 1 = ((1 : ℕ) : ℤ) by norm_num, hpow 1 (by norm_num), Py.bind_ok]
      split_ifs with c
      · exact ⟨_, rfl⟩
      have hl : 7 ≤ l := by
        have h2 : ¬ ((l : ℤ) : ℝ) < ((7 ^ 1 : ℕ) : ℝ) := c
        have : (7 : ℝ) ≤ l := by push_cast at h2; linarith
        exact_mod_cast this
      rw [hpow (0 + 1 + 1) (by norm_num), Py.bind_ok]
      rcases (by omega : l = 7 ∨ l = 8) with rfl | rfl
      · rw [if_neg (by change ¬ ((7 : ℤ) : ℝ) > _; norm_num)]
        exact entry_tail (by norm_num) (by norm_num) (by rw [abs_of_pos] <;> norm_num) (by have := svn1_a; push_cast; norm_num at this ⊢; exact this) hP1
      · rw [if_neg (by change ¬ ((8 : ℤ) : ℝ) > _; norm_num)]
        exact entry_tail (by norm_num) (by norm_num) (by rw [abs_of_pos] <;> norm_num) (by have := seven_a; push_cast; norm_num at this ⊢; exact this) hP
    · rw [show ((j + 1 + 1 + 1 : ℕ) : ℤ) - 1 = ((j + 2 : ℕ) : ℤ) by push_cast; ring, hpow (j + 2) (by push_cast at hj1; omega), Py.bind_ok, if_pos]
      · exact ⟨_, rfl⟩
      · change ((l : ℤ) : ℝ) < _
        have h1 : (l : ℝ) ≤ 8 := by exact_mod_cast (by omega : l ≤ 8)
        have h2 : (49 : ℝ) ≤ ((7 ^ (j + 2) : ℕ) : ℝ) := by
          have : 7 ^ 2 ≤ 7 ^ (j + 2) := Nat.pow_le_pow_right (by norm_num) (by omega)
          exact_mod_cast this
        linarith
  exact ⟨k, hk, C122_lam_seven hm hT (by norm_num) hk⟩

/-- so C128 is about actual calls with `lam = 7` too: band-limit 9, three directions, spin 2, any signal -/
example : ∃ psi phi, filters_directional_vectorised64 Libm.exact lgExact j_max 9 3 0 7 2 = .ok (psi, phi) ∧
    ∀ flm : Arr2 C64, flm.r = 9 → flm.c = 17 →
      ∃ J W j a, generate_and_apply_waveletsO Ops.ieee flm 9 3 0 J 7 (some psi) = .ok W ∧ listGet W j = .ok a ∧ ¬ (a.v 0 8 0).re.Finite := by
  have hJ := j_max_eq (L := 9) (by norm_num) (lam := 7) (by norm_num)
  have hT := TopScale.of_j_max (by norm_num) (by norm_num) hJ
  have hJ1 := (j_max_spec (by norm_num) (by norm_num) hJ).2.2 2 (by norm_num)
  obtain ⟨k, hk, -⟩ := C128_seven_returns Libm.exact_ok Libm.exact_seventh hT (by omega)
  obtain ⟨psi, phi, e1, j, -, -, e3⟩ := C128_lam_seven (lg := lgExact) (N := 3) (spin := 2) Libm.exact_ok hT le_rfl hk le_rfl (by norm_num)
    (by norm_num) (by norm_num) (by norm_num) (by norm_num)
  refine ⟨psi, phi, e1, fun flm hr hc => ?_⟩
  obtain ⟨W, a, f1, f2, f3, f4, f5⟩ := e3 flm hr (by rw [hc]; norm_num)
  exact ⟨_, W, _, a, f1, f2, f5 0 0 le_rfl f3 rfl le_rfl f4⟩

end S2wav
