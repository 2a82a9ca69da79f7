import Verif.Lemmas.FloatCert2
import Verif.Props.RoundedReturn

/-! # C122: the generating function in double precision, `lam = 6, 7, 9, 10`

C99 found failures for `lam = 3`, 5 and 10. Here the remaining integers up to 10 that are not powers of two. -/

namespace S2wav
open Classical

variable {m : Libm} {jm : JMax} {L J : ℤ}

theorem six_bad (hm : m.Ok) {r : F64}
    (hr : part_scaling_fn64 m (.fin (3155299738929329 / 18014398509481984)) (.fin 1) 300 (.fin 6) = .ok r) : r = .inf := by
  have hinv := inv64 (lam := 6) (by norm_num) (by rw [abs_of_pos] <;> norm_num) six_inv
  have hq := slope64 (lam := 6) (c := 5404319552844595 / 2251799813685248)
    (by have := rep_nat 12 (by norm_num); norm_num at this ⊢; exact this)
    (by have := rep_nat 5 (by norm_num); norm_num at this ⊢; exact this)
    (by rw [abs_of_pos] <;> norm_num) (by rw [abs_of_pos] <;> norm_num) (by norm_num) (by rw [abs_of_pos] <;> norm_num)
    (by have := six_c; norm_num at this ⊢; exact this)
  have ha : Rep (3155299738929329 / 18014398509481984 : ℝ) := by rw [← six_a]; exact rep_rnd _
  refine (part_bad hm hinv hq six_d six_h six_p six_x six_u six_w six_s ha ?_ ?_ ?_ ?_ ?_ ?_ ?_ ?_ ?_ ?_ ?_ ?_ ?_ ?_ ?_ ?_ hr).2 ?_ ?_
  all_goals norm_num [abs_of_pos]

theorem seven_bad (hm : m.Ok) {r : F64}
    (hr : part_scaling_fn64 m (.fin (5882252574524729 / 36028797018963968)) (.fin 1) 300 (.fin 7) = .ok r) : r = .inf := by
  have hinv := inv64 (lam := 7) (by norm_num) (by rw [abs_of_pos] <;> norm_num) seven_inv
  have hq := slope64 (lam := 7) (c := 5254199565265579 / 2251799813685248)
    (by have := rep_nat 14 (by norm_num); norm_num at this ⊢; exact this)
    (by have := rep_nat 6 (by norm_num); norm_num at this ⊢; exact this)
    (by rw [abs_of_pos] <;> norm_num) (by rw [abs_of_pos] <;> norm_num) (by norm_num) (by rw [abs_of_pos] <;> norm_num)
    (by have := seven_c; norm_num at this ⊢; exact this)
  have ha : Rep (5882252574524729 / 36028797018963968 : ℝ) := by rw [← seven_a]; exact rep_rnd _
  refine (part_bad hm hinv hq seven_d seven_h seven_p seven_x seven_u seven_w seven_s ha ?_ ?_ ?_ ?_ ?_ ?_ ?_ ?_ ?_ ?_ ?_ ?_ ?_ ?_ ?_ ?_ hr).2 ?_ ?_
  all_goals norm_num [abs_of_pos]

theorem nine_bad (hm : m.Ok) {r : F64}
    (hr : part_scaling_fn64 m (.fin (2891199760781059 / 9007199254740992)) (.fin 1) 300 (.fin 9) = .ok r) : False := by
  have hinv := inv64 (lam := 9) (by norm_num) (by rw [abs_of_pos] <;> norm_num) nine_inv
  have hq := slope64 (lam := 9) (c := 9 / 4)
    (by have := rep_nat 18 (by norm_num); norm_num at this ⊢; exact this)
    (by have := rep_nat 8 (by norm_num); norm_num at this ⊢; exact this)
    (by rw [abs_of_pos] <;> norm_num) (by rw [abs_of_pos] <;> norm_num) (by norm_num) (by rw [abs_of_pos] <;> norm_num)
    (by have := nine_c; norm_num at this ⊢; exact this)
  have ha : Rep (2891199760781059 / 9007199254740992 : ℝ) := by rw [← nine_a]; exact rep_rnd _
  refine (part_bad hm hinv hq nine_d nine_h nine_p nine_x nine_u nine_w nine_s ha ?_ ?_ ?_ ?_ ?_ ?_ ?_ ?_ ?_ ?_ ?_ ?_ ?_ ?_ ?_ ?_ hr).1 rfl
  all_goals norm_num [abs_of_pos]

theorem tenb_bad (hm : m.Ok) {r : F64}
    (hr : part_scaling_fn64 m (.fin (3602879701896397 / 18014398509481984)) (.fin 1) 300 (.fin 10) = .ok r) : r = .inf := by
  have hinv := inv64 (lam := 10) (by norm_num) (by rw [abs_of_pos] <;> norm_num) tenb_inv
  have hq := slope64 (lam := 10) (c := 2501999792983609 / 1125899906842624)
    (by have := rep_nat 20 (by norm_num); norm_num at this ⊢; exact this)
    (by have := rep_nat 9 (by norm_num); norm_num at this ⊢; exact this)
    (by rw [abs_of_pos] <;> norm_num) (by rw [abs_of_pos] <;> norm_num) (by norm_num) (by rw [abs_of_pos] <;> norm_num)
    (by have := tenb_c; norm_num at this ⊢; exact this)
  have ha : Rep (3602879701896397 / 18014398509481984 : ℝ) := by rw [← tenb_a]; exact rep_rnd _
  refine (part_bad hm hinv hq tenb_d tenb_h tenb_p tenb_x tenb_u tenb_w tenb_s ha ?_ ?_ ?_ ?_ ?_ ?_ ?_ ?_ ?_ ?_ ?_ ?_ ?_ ?_ ?_ ?_ hr).2 ?_ ?_
  all_goals norm_num [abs_of_pos]

theorem inf_div_not_finite {x norm : F64} (h : x = F64.inf.div norm) : ¬ x.Finite := by
  rintro ⟨y, hy⟩
  rw [h] at hy
  rcases norm with z | _ | _ | _
  · change (if 0 ≤ z then F64.inf else F64.ninf) = _ at hy
    split_ifs at hy
  all_goals exact absurd hy (by simp [F64.div])

/-- **C122** with `lam = 6` the entry `k[4, 227]` is not a finite number, for every band-limit above 227. -/
theorem C122_lam_six (hm : m.Ok) (hT : TopScale jm L 6 J) (hL : 228 ≤ L) {k : Arr2 F64}
    (hk : k_lam64 m jm L 6 300 = .ok k) : ¬ (k.v 4 227).Finite := by
  have hJ : 3 < J := by
    refine zpow_lt_of (lam := 6) (by norm_num) ?_
    have h1 := hT.hLJ
    have h2 : (228 : ℝ) ≤ L := by exact_mod_cast hL
    have h3 : (6 : ℝ) ^ (3 : ℤ) = 216 := by norm_num
    rw [h3]; linarith
  obtain ⟨inv, norm, hinv, hnorm, he⟩ := k_lam64_entry hT.hJ hk (j := 4) (l := 227) (by norm_num) (by omega) (by norm_num) (by omega)
  unfold entry64 at he
  rw [show (4 : ℤ) - 1 = 3 by norm_num, pow64 hm (lam := 6) (n := 3) (k := 216) (by norm_num) (by norm_num), Py.bind_ok,
    if_neg (by change ¬ ((227 : ℤ) : ℝ) < _; norm_num), pow64 hm (lam := 6) (n := 4) (k := 1296) (by norm_num) (by norm_num), Py.bind_ok,
    if_neg (by change ¬ ((227 : ℤ) : ℝ) > _; norm_num), F64.ofInt_eq (by norm_num), F64.pdiv_fin (by norm_num)] at he
  push_cast at he
  rw [F64.of_fin' (by rw [abs_of_pos] <;> norm_num), six_a, Py.bind_ok, Py.bind_eq_ok] at he
  obtain ⟨p, hp, he⟩ := he
  rw [six_bad hm hp] at he
  exact inf_div_not_finite (Except.ok.inj he).symm

/-- **C122** with `lam = 7` the entry `k[2, 8]` is not a finite number, for every band-limit above 8. -/
theorem C122_lam_seven (hm : m.Ok) (hT : TopScale jm L 7 J) (hL : 9 ≤ L) {k : Arr2 F64}
    (hk : k_lam64 m jm L 7 300 = .ok k) : ¬ (k.v 2 8).Finite := by
  have hJ : 1 < J := by
    refine zpow_lt_of (lam := 7) (by norm_num) ?_
    have h1 := hT.hLJ
    have h2 : (9 : ℝ) ≤ L := by exact_mod_cast hL
    have h3 : (7 : ℝ) ^ (1 : ℤ) = 7 := by norm_num
    rw [h3]; linarith
  obtain ⟨inv, norm, hinv, hnorm, he⟩ := k_lam64_entry hT.hJ hk (j := 2) (l := 8) (by norm_num) (by omega) (by norm_num) (by omega)
  unfold entry64 at he
  rw [show (2 : ℤ) - 1 = 1 by norm_num, pow64 hm (lam := 7) (n := 1) (k := 7) (by norm_num) (by norm_num), Py.bind_ok,
    if_neg (by change ¬ ((8 : ℤ) : ℝ) < _; norm_num), pow64 hm (lam := 7) (n := 2) (k := 49) (by norm_num) (by norm_num), Py.bind_ok,
    if_neg (by change ¬ ((8 : ℤ) : ℝ) > _; norm_num), F64.ofInt_eq (by norm_num), F64.pdiv_fin (by norm_num)] at he
  push_cast at he
  rw [F64.of_fin' (by rw [abs_of_pos] <;> norm_num), seven_a, Py.bind_ok, Py.bind_eq_ok] at he
  obtain ⟨p, hp, he⟩ := he
  rw [seven_bad hm hp] at he
  exact inf_div_not_finite (Except.ok.inj he).symm

/-- **C122** with `lam = 9` no call with band-limit 27 or more returns: `k[2, 26]` divides by zero. -/
theorem C122_lam_nine (hm : m.Ok) (hT : TopScale jm L 9 J) (hL : 27 ≤ L) (k : Arr2 F64) : k_lam64 m jm L 9 300 ≠ .ok k := by
  intro hk
  have hJ : 1 < J := by
    refine zpow_lt_of (lam := 9) (by norm_num) ?_
    have h1 := hT.hLJ
    have h2 : (27 : ℝ) ≤ L := by exact_mod_cast hL
    have h3 : (9 : ℝ) ^ (1 : ℤ) = 9 := by norm_num
    rw [h3]; linarith
  obtain ⟨inv, norm, hinv, hnorm, he⟩ := k_lam64_entry hT.hJ hk (j := 2) (l := 26) (by norm_num) (by omega) (by norm_num) (by omega)
  unfold entry64 at he
  rw [show (2 : ℤ) - 1 = 1 by norm_num, pow64 hm (lam := 9) (n := 1) (k := 9) (by norm_num) (by norm_num), Py.bind_ok,
    if_neg (by change ¬ ((26 : ℤ) : ℝ) < _; norm_num), pow64 hm (lam := 9) (n := 2) (k := 81) (by norm_num) (by norm_num), Py.bind_ok,
    if_neg (by change ¬ ((26 : ℤ) : ℝ) > _; norm_num), F64.ofInt_eq (by norm_num), F64.pdiv_fin (by norm_num)] at he
  push_cast at he
  rw [F64.of_fin' (by rw [abs_of_pos] <;> norm_num), nine_a, Py.bind_ok, Py.bind_eq_ok] at he
  obtain ⟨p, hp, he⟩ := he
  exact nine_bad hm hp

/-- **C122** with `lam = 10` the entry `k[1, 2]` is not a finite number, for every band-limit above 2. -/
theorem C122_lam_ten (hm : m.Ok) (hT : TopScale jm L 10 J) (hL : 3 ≤ L) {k : Arr2 F64}
    (hk : k_lam64 m jm L 10 300 = .ok k) : ¬ (k.v 1 2).Finite := by
  have hJ : 0 < J := by
    refine zpow_lt_of (lam := 10) (by norm_num) ?_
    have h1 := hT.hLJ
    have h2 : (3 : ℝ) ≤ L := by exact_mod_cast hL
    have h3 : (10 : ℝ) ^ (0 : ℤ) = 1 := by norm_num
    rw [h3]; linarith
  obtain ⟨inv, norm, hinv, hnorm, he⟩ := k_lam64_entry hT.hJ hk (j := 1) (l := 2) (by norm_num) (by omega) (by norm_num) (by omega)
  unfold entry64 at he
  rw [show (1 : ℤ) - 1 = 0 by norm_num, pow64 hm (lam := 10) (n := 0) (k := 1) (by norm_num) (by norm_num), Py.bind_ok,
    if_neg (by change ¬ ((2 : ℤ) : ℝ) < _; norm_num), pow64 hm (lam := 10) (n := 1) (k := 10) (by norm_num) (by norm_num), Py.bind_ok,
    if_neg (by change ¬ ((2 : ℤ) : ℝ) > _; norm_num), F64.ofInt_eq (by norm_num), F64.pdiv_fin (by norm_num)] at he
  push_cast at he
  rw [F64.of_fin' (by rw [abs_of_pos] <;> norm_num), tenb_a, Py.bind_ok, Py.bind_eq_ok] at he
  obtain ⟨p, hp, he⟩ := he
  rw [tenb_bad hm hp] at he
  exact inf_div_not_finite (Except.ok.inj he).symm

/-- **C122** in short: no such call returns an array of finite numbers -/
theorem C122_never_finite (hm : m.Ok) {lam : ℝ} (hT : TopScale jm L lam J)
    (h : lam = 6 ∧ 228 ≤ L ∨ lam = 7 ∧ 9 ≤ L ∨ lam = 9 ∧ 27 ≤ L ∨ lam = 10 ∧ 3 ≤ L) :
    ¬ ∃ k, k_lam64 m jm L lam 300 = .ok k ∧ ∀ j l, (k.v j l).Finite := by
  rintro ⟨k, hk, hf⟩
  rcases h with ⟨rfl, hL⟩ | ⟨rfl, hL⟩ | ⟨rfl, hL⟩ | ⟨rfl, hL⟩
  · exact C122_lam_six hm hT hL hk (hf 4 227)
  · exact C122_lam_seven hm hT hL hk (hf 2 8)
  · exact C122_lam_nine hm hT hL k hk
  · exact C122_lam_ten hm hT hL hk (hf 1 2)

/-- **C122** in exact arithmetic the same calls return numbers between 0 and 1, at the smallest failing band-limits and some way beyond -/
theorem C122_rounding_alone {p : ℕ} (hp : p = 7 ∨ p = 9 ∨ p = 10) (h1 : 1 ≤ L) (h2 : L ≤ maxL p) :
    ∃ k, k_lam j_max L p 300 = .ok k ∧ ∀ j l, 0 ≤ k.v j l ∧ k.v j l ≤ 1 := by
  obtain ⟨k, hk, -, hb⟩ := C62_no_overshoot (by omega) (by omega) h1 h2
  exact ⟨k, hk, hb⟩

theorem ten_slope : F64.pdiv ((F64.fin 2).mul (.fin 10)) ((F64.fin 10).sub (.fin 1)) = .ok (.fin (2501999792983609 / 1125899906842624)) :=
  slope64 (lam := 10) (c := 2501999792983609 / 1125899906842624)
    (by have := rep_nat 20 (by norm_num); norm_num at this ⊢; exact this)
    (by have := rep_nat 9 (by norm_num); norm_num at this ⊢; exact this)
    (by rw [abs_of_pos] <;> norm_num) (by rw [abs_of_pos] <;> norm_num) (by norm_num) (by rw [abs_of_pos] <;> norm_num)
    (by have := ten_c; norm_num at this ⊢; exact this)

theorem tenn_returns (hm : m.Ok) :
    ∃ r, part_scaling_fn64 m (.fin (3602879701896397 / 36028797018963968)) (.fin 1) 300 (.fin 10) = .ok r := by
  have hinv := inv64 (lam := 10) (by norm_num) (by rw [abs_of_pos] <;> norm_num) ten_inv
  have ha : Rep (3602879701896397 / 36028797018963968 : ℝ) := by rw [← ten_inv]; exact rep_rnd _
  refine part_returns hm hinv ten_slope tenn_d tenn_h tenn_p tenn_x tenn_u tenn_w tenn_s ha ?_ ?_ (.inl rfl) ?_ ?_ ?_ ?_ ?_ ?_ ?_ ?_ ?_ ?_ ?_ (.inl rfl)
  all_goals norm_num [abs_of_pos]

theorem tenb_returns (hm : m.Ok) :
    ∃ r, part_scaling_fn64 m (.fin (3602879701896397 / 18014398509481984)) (.fin 1) 300 (.fin 10) = .ok r := by
  have hinv := inv64 (lam := 10) (by norm_num) (by rw [abs_of_pos] <;> norm_num) ten_inv
  have ha : Rep (3602879701896397 / 18014398509481984 : ℝ) := by rw [← tenb_a]; exact rep_rnd _
  refine part_returns hm hinv ten_slope tenb_d tenb_h tenb_p tenb_x tenb_u tenb_w tenb_s ha ?_ ?_ (.inr ?_) ?_ ?_ ?_ ?_ ?_ ?_ ?_ ?_ ?_ ?_ ?_ (.inr ⟨?_, ?_⟩)
  all_goals norm_num [abs_of_pos]

/-- what is asked of the C library for `lam = 10`: the power 10^-1, which no double equals, is computed to be a number in (0, 1] -/
def Libm.Tenth (m : Libm) : Prop := ∃ y, m.pow 10 (-1) = .fin y ∧ 0 < y ∧ y ≤ 1

/-- **C122** with `lam = 10` and band-limit 3 the call raises no exception: it returns an entry that is not a finite number. -/
theorem C122_returns (hm : m.Ok) (hp : m.Tenth) (hT : TopScale jm 3 10 J) (hJ : J ≤ 13) :
    ∃ k, k_lam64 m jm 3 10 300 = .ok k ∧ ¬ (k.v 1 2).Finite := by
  obtain ⟨N, hN⟩ := tenn_returns hm
  obtain ⟨P, hP⟩ := tenb_returns hm
  have hinv := inv64 (lam := 10) (by norm_num) (by rw [abs_of_pos] <;> norm_num) ten_inv
  obtain ⟨k, hk⟩ : ∃ k, k_lam64 m jm 3 10 300 = .ok k := by
    refine k_lam64_returns hT.hJ hT.hJ0 (by norm_num) hinv hN fun j l hj0 hj1 hl0 hl1 => ?_
    obtain ⟨y, hy, hy0, hy1⟩ := hp
    have hpow : ∀ n : ℕ, n ≤ 15 → m.pyPow (.fin 10) n = .ok (.fin ((10 ^ n : ℕ) : ℝ)) := fun n hn => by
      refine pow64 hm (lam := 10) (n := n) (k := 10 ^ n) (by rw [zpow_natCast]; push_cast; rfl) ?_
      calc 10 ^ n ≤ 10 ^ 15 := Nat.pow_le_pow_right (by norm_num) hn
        _ ≤ 2 ^ 53 := by norm_num
    unfold entry64
    obtain ⟨j, rfl⟩ := Int.eq_ofNat_of_zero_le hj0
    rcases j with _ | _ | j
    · rw [show ((0 : ℕ) : ℤ) - 1 = -1 by norm_num, Libm.pyPow_fin hy, Py.bind_ok]
      split_ifs with c
      · exact ⟨_, rfl⟩
      have hl : l ≠ 0 := by
        have : ¬ ((l : ℤ) : ℝ) < y := c
        rintro rfl; exact this (by push_cast; exact hy0)
      rw [hpow 0 (by norm_num), Py.bind_ok]
      rcases (by omega : l = 1 ∨ l = 2) with rfl | rfl
      · rw [if_neg (by change ¬ ((1 : ℤ) : ℝ) > _; norm_num), F64.ofInt_eq (by norm_num),
          F64.pdiv_fin (by norm_num), Py.bind_ok]
        push_cast
        rw [div_one, F64.of_rep rep_one (by norm_num)]
        unfold part_scaling_fn64
        rw [F64.sub_fin, sub_self, F64.ofInt_eq (by norm_num),
          F64.of_rep (by have := rep_int (n := 0) (by norm_num); push_cast at this; exact this) (by norm_num), F64.pdiv_fin (by norm_num)]
        simp only [Py.bind_ok]
        rw [if_pos ((F64.eq_fin 1 1).2 rfl)]
        exact ⟨_, rfl⟩
      · rw [if_pos (by change ((2 : ℤ) : ℝ) > _; norm_num)]
        exact ⟨_, rfl⟩
    · rw [show ((0 + 1 : ℕ) : ℤ) - 1 = ((0 : ℕ) : ℤ) by norm_num, hpow 0 (by norm_num), Py.bind_ok]
      split_ifs with c
      · exact ⟨_, rfl⟩
      have hl : l ≠ 0 := by rintro rfl; exact c (by change ((0 : ℤ) : ℝ) < _; norm_num)
      rw [hpow (0 + 1) (by norm_num), Py.bind_ok]
      rcases (by omega : l = 1 ∨ l = 2) with rfl | rfl
      · rw [if_neg (by change ¬ ((1 : ℤ) : ℝ) > _; norm_num), F64.ofInt_eq (by norm_num), F64.pdiv_fin (by norm_num), Py.bind_ok]
        push_cast
        rw [F64.of_fin' (by rw [abs_of_pos] <;> norm_num), ten_inv, hN]
        exact ⟨_, rfl⟩
      · rw [if_neg (by change ¬ ((2 : ℤ) : ℝ) > _; norm_num), F64.ofInt_eq (by norm_num), F64.pdiv_fin (by norm_num), Py.bind_ok]
        push_cast
        rw [F64.of_fin' (by rw [abs_of_pos] <;> norm_num), tenb_a, hP]
        exact ⟨_, rfl⟩
    · rw [show ((j + 1 + 1 : ℕ) : ℤ) - 1 = ((j + 1 : ℕ) : ℤ) by push_cast; ring, hpow (j + 1) (by omega), Py.bind_ok, if_pos]
      · exact ⟨_, rfl⟩
      · change ((l : ℤ) : ℝ) < _
        have h1 : (l : ℝ) ≤ 2 := by exact_mod_cast (by omega : l ≤ 2)
        have h2 : (10 : ℝ) ≤ ((10 ^ (j + 1) : ℕ) : ℝ) := by
          have : 10 ^ 1 ≤ 10 ^ (j + 1) := Nat.pow_le_pow_right (by norm_num) (by omega)
          exact_mod_cast this
        linarith
  exact ⟨k, hk, C122_lam_ten hm hT (by norm_num) hk⟩

/-- a correctly rounding C library meets the extra condition -/
theorem Libm.exact_tenth : Libm.exact.Tenth := by
  have h : Libm.exact.pow 10 (-1) = .fin (rnd (1 / 10)) := by
    unfold Libm.exact
    simp only [zpow_neg_one]
    rw [← one_div, F64.of_fin' (by norm_num)]
  have ha := abs_le.1 (rnd_acc' (1 / 10))
  norm_num at ha
  exact ⟨_, h, by linarith, by linarith⟩

/-- so with the exact top scale `k_lam(3, 10)` returns such an array -/
example : ∃ k, k_lam64 Libm.exact j_max 3 10 300 = .ok k ∧ ¬ (k.v 1 2).Finite := by
  have hJ := j_max_eq (L := 3) (by norm_num) (lam := 10) (by norm_num)
  have h1 := (j_max_spec (by norm_num) (by norm_num) hJ).2.2 1 (by norm_num)
  exact C122_returns Libm.exact_ok Libm.exact_tenth (TopScale.of_j_max (by norm_num) (by norm_num) hJ) (by omega)

/-- the hypotheses are met by actual calls, with the exact top scale and a correctly rounding C library -/
example : (∀ k, k_lam64 Libm.exact j_max 228 6 300 = .ok k → ¬ (k.v 4 227).Finite) ∧
    (∀ k, k_lam64 Libm.exact j_max 9 7 300 = .ok k → ¬ (k.v 2 8).Finite) ∧
    (∀ k, k_lam64 Libm.exact j_max 27 9 300 ≠ .ok k) ∧
    (∀ k, k_lam64 Libm.exact j_max 3 10 300 = .ok k → ¬ (k.v 1 2).Finite) :=
  ⟨fun _ => C122_lam_six Libm.exact_ok (TopScale.of_j_max (by norm_num) (by norm_num) (j_max_eq (by norm_num) (by norm_num))) (by norm_num),
    fun _ => C122_lam_seven Libm.exact_ok (TopScale.of_j_max (by norm_num) (by norm_num) (j_max_eq (by norm_num) (by norm_num))) (by norm_num),
    C122_lam_nine Libm.exact_ok (TopScale.of_j_max (by norm_num) (by norm_num) (j_max_eq (by norm_num) (by norm_num))) (by norm_num),
    fun _ => C122_lam_ten Libm.exact_ok (TopScale.of_j_max (by norm_num) (by norm_num) (j_max_eq (by norm_num) (by norm_num))) (by norm_num)⟩

end S2wav
