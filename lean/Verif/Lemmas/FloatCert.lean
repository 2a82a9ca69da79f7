import Verif.Lemmas.QuadFloat2

/-! # Some roundings

The roundings occurring in the last abscissa of the trapezium rule for `lam = 5` (`l = 1`), `lam = 3` (`j = 7`, `l = 794`)
and `lam = 10` (`j = 2`, `l = 11`). -/

namespace S2wav
open Classical

/-- evaluation of a rounding to an even significand, ties included -/
theorem rnd_eval_even {x : ℝ} (m e : ℤ) (hm : m % 2 = 0) (he : -1074 ≤ e) (h1 : 2 ^ 52 * (2 : ℝ) ^ e ≤ x) (h2 : x < 2 ^ 53 * (2 : ℝ) ^ e)
    (h3 : (m - 1 / 2) * (2 : ℝ) ^ e ≤ x) (h4 : x ≤ (m + 1 / 2) * (2 : ℝ) ^ e) : rnd x = m * (2 : ℝ) ^ e := by
  have hp := two_zpow_pos e
  have hx : 0 < x := lt_of_lt_of_le (by positivity) h1
  have hlo : e + 52 ≤ Int.log 2 |x| := by
    refine (Int.zpow_le_iff_le_log (by norm_num) (abs_pos.2 hx.ne')).1 ?_
    push_cast
    rw [abs_of_pos hx, zpow_split]
    norm_num
    linarith
  have hhi : Int.log 2 |x| < e + 53 := by
    refine (Int.lt_zpow_iff_log_lt (by norm_num) (abs_pos.2 hx.ne')).1 ?_
    push_cast
    rw [abs_of_pos hx, zpow_split]
    norm_num
    linarith
  have hu : ulp x = 2 ^ e := by
    unfold ulp
    rw [max_eq_left (by omega), show Int.log 2 |x| - 52 = e by omega]
  have h3' : (m : ℝ) - 1 / 2 ≤ x / 2 ^ e := by rw [le_div_iff₀ hp]; exact h3
  have h4' : x / 2 ^ e ≤ m + 1 / 2 := by rw [div_le_iff₀ hp]; exact h4
  unfold rnd
  rw [hu]
  congr 2
  rcases eq_or_lt_of_le h3' with h | h
  · have hf : ⌊x / 2 ^ e⌋ = m - 1 := by rw [← h, Int.floor_eq_iff]; push_cast; constructor <;> linarith
    unfold rne
    rw [hf, ← h, if_neg (by push_cast; linarith), if_neg (by push_cast; linarith), if_neg (by omega)]
    ring
  rcases eq_or_lt_of_le h4' with h' | h'
  · have hf : ⌊x / 2 ^ e⌋ = m := by rw [h', Int.floor_eq_iff]; constructor <;> linarith
    unfold rne
    rw [hf, h', if_neg (by linarith), if_neg (by linarith), if_pos hm]
  · exact rne_eval h h'

theorem rnd_rep {x : ℝ} (m e : ℤ) (hm : |m| ≤ 2 ^ 53) (he : -1074 ≤ e) (hx : x = m * (2 : ℝ) ^ e) {y : ℝ} (hy : x = y) : rnd x = y := by
  rw [rnd_id ⟨m, e, hm, he, hx⟩, hy]

theorem five_inv : rnd (1 / 5) = 3602879701896397 / 18014398509481984 := by
  rw [rnd_eval (7205759403792794) (-55) (by norm_num) (by norm_num) (by norm_num) (by norm_num) (by norm_num)]
  norm_num

theorem five_c : rnd (10 / 4) = 5 / 2 := by
  exact rnd_rep (5629499534213120) (-51) (by norm_num) (by norm_num) (by norm_num) (by norm_num)

theorem five_a : rnd (1 / 5) = 3602879701896397 / 18014398509481984 := by
  rw [rnd_eval (7205759403792794) (-55) (by norm_num) (by norm_num) (by norm_num) (by norm_num) (by norm_num)]
  norm_num

theorem five_d : rnd (1 - 3602879701896397 / 18014398509481984) = 3602879701896397 / 4503599627370496 := by
  rw [rnd_eval_even (7205759403792794) (-53) (by norm_num) (by norm_num) (by norm_num) (by norm_num) (by norm_num) (by norm_num)]
  norm_num

theorem five_h : rnd ((3602879701896397 / 4503599627370496) / 300) = 3074457345618259 / 1152921504606846976 := by
  rw [rnd_eval (6148914691236518) (-61) (by norm_num) (by norm_num) (by norm_num) (by norm_num) (by norm_num)]
  norm_num

theorem five_p : rnd (300 * (3074457345618259 / 1152921504606846976)) = 7205759403792795 / 9007199254740992 := by
  rw [rnd_eval (7205759403792795) (-53) (by norm_num) (by norm_num) (by norm_num) (by norm_num) (by norm_num)]
  norm_num

theorem five_x : rnd (3602879701896397 / 18014398509481984 + 7205759403792795 / 9007199254740992) = 4503599627370497 / 4503599627370496 := by
  rw [rnd_eval (4503599627370497) (-52) (by norm_num) (by norm_num) (by norm_num) (by norm_num) (by norm_num)]
  norm_num

theorem five_u : rnd (4503599627370497 / 4503599627370496 - 3602879701896397 / 18014398509481984) = 1801439850948199 / 2251799813685248 := by
  rw [rnd_eval_even (7205759403792796) (-53) (by norm_num) (by norm_num) (by norm_num) (by norm_num) (by norm_num) (by norm_num)]
  norm_num

theorem five_w : rnd (1801439850948199 / 2251799813685248 * (5 / 2)) = 2251799813685249 / 1125899906842624 := by
  rw [rnd_eval_even (4503599627370498) (-51) (by norm_num) (by norm_num) (by norm_num) (by norm_num) (by norm_num) (by norm_num)]
  norm_num

theorem five_s : rnd (2251799813685249 / 1125899906842624 - 1) = 1125899906842625 / 1125899906842624 := by
  exact rnd_rep (4503599627370500) (-52) (by norm_num) (by norm_num) (by norm_num) (by norm_num)

theorem three_inv : rnd (1 / 3) = 6004799503160661 / 18014398509481984 := by
  rw [rnd_eval (6004799503160661) (-54) (by norm_num) (by norm_num) (by norm_num) (by norm_num) (by norm_num)]
  norm_num

theorem three_c : rnd (6 / 2) = 3 := by
  exact rnd_rep (6755399441055744) (-51) (by norm_num) (by norm_num) (by norm_num) (by norm_num)

theorem three_a : rnd (794 / 2187) = 6540206866268265 / 18014398509481984 := by
  rw [rnd_eval (6540206866268265) (-54) (by norm_num) (by norm_num) (by norm_num) (by norm_num) (by norm_num)]
  norm_num

theorem three_d : rnd (1 - 6540206866268265 / 18014398509481984) = 1434273955401715 / 2251799813685248 := by
  rw [rnd_eval_even (5737095821606860) (-53) (by norm_num) (by norm_num) (by norm_num) (by norm_num) (by norm_num) (by norm_num)]
  norm_num

theorem three_h : rnd ((1434273955401715 / 2251799813685248) / 300) = 4895655101104521 / 2305843009213693952 := by
  rw [rnd_eval (4895655101104521) (-61) (by norm_num) (by norm_num) (by norm_num) (by norm_num) (by norm_num)]
  norm_num

theorem three_p : rnd (300 * (4895655101104521 / 2305843009213693952)) = 5737095821606861 / 9007199254740992 := by
  rw [rnd_eval (5737095821606861) (-53) (by norm_num) (by norm_num) (by norm_num) (by norm_num) (by norm_num)]
  norm_num

theorem three_x : rnd (6540206866268265 / 18014398509481984 + 5737095821606861 / 9007199254740992) = 4503599627370497 / 4503599627370496 := by
  rw [rnd_eval (4503599627370497) (-52) (by norm_num) (by norm_num) (by norm_num) (by norm_num) (by norm_num)]
  norm_num

theorem three_u : rnd (4503599627370497 / 4503599627370496 - 6004799503160661 / 18014398509481984) = 750599937895083 / 1125899906842624 := by
  rw [rnd_eval_even (6004799503160664) (-53) (by norm_num) (by norm_num) (by norm_num) (by norm_num) (by norm_num) (by norm_num)]
  norm_num

theorem three_w : rnd (750599937895083 / 1125899906842624 * (3)) = 2251799813685249 / 1125899906842624 := by
  exact rnd_rep (4503599627370498) (-51) (by norm_num) (by norm_num) (by norm_num) (by norm_num)

theorem three_s : rnd (2251799813685249 / 1125899906842624 - 1) = 1125899906842625 / 1125899906842624 := by
  exact rnd_rep (4503599627370500) (-52) (by norm_num) (by norm_num) (by norm_num) (by norm_num)

theorem ten_inv : rnd (1 / 10) = 3602879701896397 / 36028797018963968 := by
  rw [rnd_eval (7205759403792794) (-56) (by norm_num) (by norm_num) (by norm_num) (by norm_num) (by norm_num)]
  norm_num

theorem ten_c : rnd (20 / 9) = 2501999792983609 / 1125899906842624 := by
  rw [rnd_eval (5003999585967218) (-51) (by norm_num) (by norm_num) (by norm_num) (by norm_num) (by norm_num)]
  norm_num

theorem ten_a : rnd (11 / 100) = 7926335344172073 / 72057594037927936 := by
  rw [rnd_eval (7926335344172073) (-56) (by norm_num) (by norm_num) (by norm_num) (by norm_num) (by norm_num)]
  norm_num

theorem ten_d : rnd (1 - 7926335344172073 / 72057594037927936) = 8016407336719483 / 9007199254740992 := by
  rw [rnd_eval (8016407336719483) (-53) (by norm_num) (by norm_num) (by norm_num) (by norm_num) (by norm_num)]
  norm_num

theorem ten_h : rnd ((8016407336719483 / 9007199254740992) / 300) = 6840667594000625 / 2305843009213693952 := by
  rw [rnd_eval (6840667594000625) (-61) (by norm_num) (by norm_num) (by norm_num) (by norm_num) (by norm_num)]
  norm_num

theorem ten_p : rnd (300 * (6840667594000625 / 2305843009213693952)) = 4008203668359741 / 4503599627370496 := by
  rw [rnd_eval (8016407336719482) (-53) (by norm_num) (by norm_num) (by norm_num) (by norm_num) (by norm_num)]
  norm_num

theorem ten_x : rnd (7926335344172073 / 72057594037927936 + 4008203668359741 / 4503599627370496) = 9007199254740991 / 9007199254740992 := by
  rw [rnd_eval (9007199254740991) (-53) (by norm_num) (by norm_num) (by norm_num) (by norm_num) (by norm_num)]
  norm_num

theorem ten_u : rnd (9007199254740991 / 9007199254740992 - 3602879701896397 / 36028797018963968) = 2026619832316723 / 2251799813685248 := by
  rw [rnd_eval (8106479329266892) (-53) (by norm_num) (by norm_num) (by norm_num) (by norm_num) (by norm_num)]
  norm_num

theorem ten_w : rnd (2026619832316723 / 2251799813685248 * (2501999792983609 / 1125899906842624)) = 2 := by
  rw [rnd_eval (9007199254740992) (-52) (by norm_num) (by norm_num) (by norm_num) (by norm_num) (by norm_num)]
  norm_num

theorem ten_s : rnd (2 - 1) = 1 := by
  exact rnd_rep (4503599627370496) (-52) (by norm_num) (by norm_num) (by norm_num) (by norm_num)

end S2wav
