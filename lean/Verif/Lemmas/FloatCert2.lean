import Verif.Lemmas.FloatCert

/-! # Some more roundings

The roundings occurring in the last abscissa of the trapezium rule for `lam = 6` (`j = 4`, `l = 227`), `lam = 7` (`j = 2`,
`l = 8`), `lam = 9` (`j = 2`, `l = 26`) and `lam = 10` (`j = 1`, `l = 2`). -/

namespace S2wav
open Classical

theorem six_inv : rnd (1 / 6) = 6004799503160661 / 36028797018963968 := by
  rw [rnd_eval (6004799503160661) (-55) (by norm_num) (by norm_num) (by norm_num) (by norm_num) (by norm_num)]
  norm_num

theorem six_c : rnd (12 / 5) = 5404319552844595 / 2251799813685248 := by
  rw [rnd_eval (5404319552844595) (-51) (by norm_num) (by norm_num) (by norm_num) (by norm_num) (by norm_num)]
  norm_num

theorem six_a : rnd (227 / 1296) = 3155299738929329 / 18014398509481984 := by
  rw [rnd_eval (6310599477858658) (-55) (by norm_num) (by norm_num) (by norm_num) (by norm_num) (by norm_num)]
  norm_num

theorem six_d : rnd (1 - 3155299738929329 / 18014398509481984) = 928693673159541 / 1125899906842624 := by
  rw [rnd_eval_even (7429549385276328) (-53) (by norm_num) (by norm_num) (by norm_num) (by norm_num) (by norm_num) (by norm_num)]
  norm_num

theorem six_h : rnd ((928693673159541 / 1125899906842624) / 300) = 6339882142102467 / 2305843009213693952 := by
  rw [rnd_eval (6339882142102467) (-61) (by norm_num) (by norm_num) (by norm_num) (by norm_num) (by norm_num)]
  norm_num

theorem six_p : rnd (300 * (6339882142102467 / 2305843009213693952)) = 7429549385276329 / 9007199254740992 := by
  rw [rnd_eval (7429549385276329) (-53) (by norm_num) (by norm_num) (by norm_num) (by norm_num) (by norm_num)]
  norm_num

theorem six_x : rnd (3155299738929329 / 18014398509481984 + 7429549385276329 / 9007199254740992) = 4503599627370497 / 4503599627370496 := by
  rw [rnd_eval (4503599627370497) (-52) (by norm_num) (by norm_num) (by norm_num) (by norm_num) (by norm_num)]
  norm_num

theorem six_u : rnd (4503599627370497 / 4503599627370496 - 6004799503160661 / 36028797018963968) = 7505999378950829 / 9007199254740992 := by
  rw [rnd_eval (7505999378950829) (-53) (by norm_num) (by norm_num) (by norm_num) (by norm_num) (by norm_num)]
  norm_num

theorem six_w : rnd (7505999378950829 / 9007199254740992 * (5404319552844595 / 2251799813685248)) = 4503599627370497 / 2251799813685248 := by
  rw [rnd_eval (4503599627370497) (-51) (by norm_num) (by norm_num) (by norm_num) (by norm_num) (by norm_num)]
  norm_num

theorem six_s : rnd (4503599627370497 / 2251799813685248 - 1) = 2251799813685249 / 2251799813685248 := by
  exact rnd_rep (4503599627370498) (-52) (by norm_num) (by norm_num) (by norm_num) (by norm_num)

theorem seven_inv : rnd (1 / 7) = 2573485501354569 / 18014398509481984 := by
  rw [rnd_eval (5146971002709138) (-55) (by norm_num) (by norm_num) (by norm_num) (by norm_num) (by norm_num)]
  norm_num

theorem seven_c : rnd (14 / 6) = 5254199565265579 / 2251799813685248 := by
  rw [rnd_eval (5254199565265579) (-51) (by norm_num) (by norm_num) (by norm_num) (by norm_num) (by norm_num)]
  norm_num

theorem seven_a : rnd (8 / 49) = 5882252574524729 / 36028797018963968 := by
  rw [rnd_eval (5882252574524729) (-55) (by norm_num) (by norm_num) (by norm_num) (by norm_num) (by norm_num)]
  norm_num

theorem seven_d : rnd (1 - 5882252574524729 / 36028797018963968) = 3768318055554905 / 4503599627370496 := by
  rw [rnd_eval (7536636111109810) (-53) (by norm_num) (by norm_num) (by norm_num) (by norm_num) (by norm_num)]
  norm_num

theorem seven_h : rnd ((3768318055554905 / 4503599627370496) / 300) = 6431262814813705 / 2305843009213693952 := by
  rw [rnd_eval (6431262814813705) (-61) (by norm_num) (by norm_num) (by norm_num) (by norm_num) (by norm_num)]
  norm_num

theorem seven_p : rnd (300 * (6431262814813705 / 2305843009213693952)) = 7536636111109811 / 9007199254740992 := by
  rw [rnd_eval (7536636111109811) (-53) (by norm_num) (by norm_num) (by norm_num) (by norm_num) (by norm_num)]
  norm_num

theorem seven_x : rnd (5882252574524729 / 36028797018963968 + 7536636111109811 / 9007199254740992) = 4503599627370497 / 4503599627370496 := by
  rw [rnd_eval (4503599627370497) (-52) (by norm_num) (by norm_num) (by norm_num) (by norm_num) (by norm_num)]
  norm_num

theorem seven_u : rnd (4503599627370497 / 4503599627370496 - 2573485501354569 / 18014398509481984) = 3860228252031855 / 4503599627370496 := by
  rw [rnd_eval_even (7720456504063710) (-53) (by norm_num) (by norm_num) (by norm_num) (by norm_num) (by norm_num) (by norm_num)]
  norm_num

theorem seven_w : rnd (3860228252031855 / 4503599627370496 * (5254199565265579 / 2251799813685248)) = 2251799813685249 / 1125899906842624 := by
  rw [rnd_eval (4503599627370498) (-51) (by norm_num) (by norm_num) (by norm_num) (by norm_num) (by norm_num)]
  norm_num

theorem seven_s : rnd (2251799813685249 / 1125899906842624 - 1) = 1125899906842625 / 1125899906842624 := by
  exact rnd_rep (4503599627370500) (-52) (by norm_num) (by norm_num) (by norm_num) (by norm_num)

theorem nine_inv : rnd (1 / 9) = 2001599834386887 / 18014398509481984 := by
  rw [rnd_eval (8006399337547548) (-56) (by norm_num) (by norm_num) (by norm_num) (by norm_num) (by norm_num)]
  norm_num

theorem nine_c : rnd (18 / 8) = 9 / 4 := by
  exact rnd_rep (5066549580791808) (-51) (by norm_num) (by norm_num) (by norm_num) (by norm_num)

theorem nine_a : rnd (26 / 81) = 2891199760781059 / 9007199254740992 := by
  rw [rnd_eval (5782399521562118) (-54) (by norm_num) (by norm_num) (by norm_num) (by norm_num) (by norm_num)]
  norm_num

theorem nine_d : rnd (1 - 2891199760781059 / 9007199254740992) = 6115999493959933 / 9007199254740992 := by
  exact rnd_rep (6115999493959933) (-53) (by norm_num) (by norm_num) (by norm_num) (by norm_num)

theorem nine_h : rnd ((6115999493959933 / 9007199254740992) / 300) = 5218986234845809 / 2305843009213693952 := by
  rw [rnd_eval (5218986234845809) (-61) (by norm_num) (by norm_num) (by norm_num) (by norm_num) (by norm_num)]
  norm_num

theorem nine_p : rnd (300 * (5218986234845809 / 2305843009213693952)) = 1528999873489983 / 2251799813685248 := by
  rw [rnd_eval (6115999493959932) (-53) (by norm_num) (by norm_num) (by norm_num) (by norm_num) (by norm_num)]
  norm_num

theorem nine_x : rnd (2891199760781059 / 9007199254740992 + 1528999873489983 / 2251799813685248) = 9007199254740991 / 9007199254740992 := by
  exact rnd_rep (9007199254740991) (-53) (by norm_num) (by norm_num) (by norm_num) (by norm_num)

theorem nine_u : rnd (9007199254740991 / 9007199254740992 - 2001599834386887 / 18014398509481984) = 2001599834386887 / 2251799813685248 := by
  rw [rnd_eval_even (8006399337547548) (-53) (by norm_num) (by norm_num) (by norm_num) (by norm_num) (by norm_num) (by norm_num)]
  norm_num

theorem nine_w : rnd (2001599834386887 / 2251799813685248 * (9 / 4)) = 2 := by
  rw [rnd_eval_even (9007199254740992) (-52) (by norm_num) (by norm_num) (by norm_num) (by norm_num) (by norm_num) (by norm_num)]
  norm_num

theorem nine_s : rnd (2 - 1) = 1 := by
  exact rnd_rep (4503599627370496) (-52) (by norm_num) (by norm_num) (by norm_num) (by norm_num)

theorem tenb_inv : rnd (1 / 10) = 3602879701896397 / 36028797018963968 := by
  rw [rnd_eval (7205759403792794) (-56) (by norm_num) (by norm_num) (by norm_num) (by norm_num) (by norm_num)]
  norm_num

theorem tenb_c : rnd (20 / 9) = 2501999792983609 / 1125899906842624 := by
  rw [rnd_eval (5003999585967218) (-51) (by norm_num) (by norm_num) (by norm_num) (by norm_num) (by norm_num)]
  norm_num

theorem tenb_a : rnd (2 / 10) = 3602879701896397 / 18014398509481984 := by
  rw [rnd_eval (7205759403792794) (-55) (by norm_num) (by norm_num) (by norm_num) (by norm_num) (by norm_num)]
  norm_num

theorem tenb_d : rnd (1 - 3602879701896397 / 18014398509481984) = 3602879701896397 / 4503599627370496 := by
  rw [rnd_eval_even (7205759403792794) (-53) (by norm_num) (by norm_num) (by norm_num) (by norm_num) (by norm_num) (by norm_num)]
  norm_num

theorem tenb_h : rnd ((3602879701896397 / 4503599627370496) / 300) = 3074457345618259 / 1152921504606846976 := by
  rw [rnd_eval (6148914691236518) (-61) (by norm_num) (by norm_num) (by norm_num) (by norm_num) (by norm_num)]
  norm_num

theorem tenb_p : rnd (300 * (3074457345618259 / 1152921504606846976)) = 7205759403792795 / 9007199254740992 := by
  rw [rnd_eval (7205759403792795) (-53) (by norm_num) (by norm_num) (by norm_num) (by norm_num) (by norm_num)]
  norm_num

theorem tenb_x : rnd (3602879701896397 / 18014398509481984 + 7205759403792795 / 9007199254740992) = 4503599627370497 / 4503599627370496 := by
  rw [rnd_eval (4503599627370497) (-52) (by norm_num) (by norm_num) (by norm_num) (by norm_num) (by norm_num)]
  norm_num

theorem tenb_u : rnd (4503599627370497 / 4503599627370496 - 3602879701896397 / 36028797018963968) = 8106479329266895 / 9007199254740992 := by
  rw [rnd_eval (8106479329266895) (-53) (by norm_num) (by norm_num) (by norm_num) (by norm_num) (by norm_num)]
  norm_num

theorem tenb_w : rnd (8106479329266895 / 9007199254740992 * (2501999792983609 / 1125899906842624)) = 4503599627370497 / 2251799813685248 := by
  rw [rnd_eval (4503599627370497) (-51) (by norm_num) (by norm_num) (by norm_num) (by norm_num) (by norm_num)]
  norm_num

theorem tenb_s : rnd (4503599627370497 / 2251799813685248 - 1) = 2251799813685249 / 2251799813685248 := by
  exact rnd_rep (4503599627370498) (-52) (by norm_num) (by norm_num) (by norm_num) (by norm_num)

theorem tenn_d : rnd (1 - 3602879701896397 / 36028797018963968) = 8106479329266893 / 9007199254740992 := by
  rw [rnd_eval (8106479329266893) (-53) (by norm_num) (by norm_num) (by norm_num) (by norm_num) (by norm_num)]
  norm_num

theorem tenn_h : rnd ((8106479329266893 / 9007199254740992) / 300) = 3458764513820541 / 1152921504606846976 := by
  rw [rnd_eval (6917529027641082) (-61) (by norm_num) (by norm_num) (by norm_num) (by norm_num) (by norm_num)]
  norm_num

theorem tenn_p : rnd (300 * (3458764513820541 / 1152921504606846976)) = 8106479329266893 / 9007199254740992 := by
  rw [rnd_eval (8106479329266893) (-53) (by norm_num) (by norm_num) (by norm_num) (by norm_num) (by norm_num)]
  norm_num

theorem tenn_x : rnd (3602879701896397 / 36028797018963968 + 8106479329266893 / 9007199254740992) = 1 := by
  rw [rnd_eval (4503599627370496) (-52) (by norm_num) (by norm_num) (by norm_num) (by norm_num) (by norm_num)]
  norm_num

theorem tenn_u : rnd (1 - 3602879701896397 / 36028797018963968) = 8106479329266893 / 9007199254740992 := by
  rw [rnd_eval (8106479329266893) (-53) (by norm_num) (by norm_num) (by norm_num) (by norm_num) (by norm_num)]
  norm_num

theorem tenn_w : rnd (8106479329266893 / 9007199254740992 * (2501999792983609 / 1125899906842624)) = 2 := by
  rw [rnd_eval (4503599627370496) (-51) (by norm_num) (by norm_num) (by norm_num) (by norm_num) (by norm_num)]
  norm_num

theorem tenn_s : rnd (2 - 1) = 1 := by
  exact rnd_rep (4503599627370496) (-52) (by norm_num) (by norm_num) (by norm_num) (by norm_num)

end S2wav
