import Verif.Lemmas.FloatCert2

/-! # The roundings at the last abscissa for `lam = 7`

For the entries `k[1, 1], ..., k[1, 6]` of the generating function (the entry `k[2, 8]` is in `FloatCert2`). -/

namespace S2wav
open Classical

theorem svn1_a : rnd (1 / 7) = 2573485501354569 / 18014398509481984 := by
  rw [rnd_eval (5146971002709138) (-55) (by norm_num) (by norm_num) (by norm_num) (by norm_num) (by norm_num)]
  norm_num

theorem svn1_d : rnd (1 - 2573485501354569 / 18014398509481984) = 1930114126015927 / 2251799813685248 := by
  rw [rnd_eval_even (7720456504063708) (-53) (by norm_num) (by norm_num) (by norm_num) (by norm_num) (by norm_num) (by norm_num)]
  norm_num

theorem svn1_h : rnd ((1930114126015927 / 2251799813685248) / 300) = 6588122883467697 / 2305843009213693952 := by
  rw [rnd_eval (6588122883467697) (-61) (by norm_num) (by norm_num) (by norm_num) (by norm_num) (by norm_num)]
  norm_num

theorem svn1_p : rnd (300 * (6588122883467697 / 2305843009213693952)) = 7720456504063707 / 9007199254740992 := by
  rw [rnd_eval (7720456504063707) (-53) (by norm_num) (by norm_num) (by norm_num) (by norm_num) (by norm_num)]
  norm_num

theorem svn1_x : rnd (2573485501354569 / 18014398509481984 + 7720456504063707 / 9007199254740992) = 1 := by
  rw [rnd_eval_even (9007199254740992) (-53) (by norm_num) (by norm_num) (by norm_num) (by norm_num) (by norm_num) (by norm_num)]
  norm_num

theorem svn1_u : rnd (1 - 2573485501354569 / 18014398509481984) = 1930114126015927 / 2251799813685248 := by
  rw [rnd_eval_even (7720456504063708) (-53) (by norm_num) (by norm_num) (by norm_num) (by norm_num) (by norm_num) (by norm_num)]
  norm_num

theorem svn1_w : rnd (1930114126015927 / 2251799813685248 * (5254199565265579 / 2251799813685248)) = 4503599627370497 / 2251799813685248 := by
  rw [rnd_eval (4503599627370497) (-51) (by norm_num) (by norm_num) (by norm_num) (by norm_num) (by norm_num)]
  norm_num

theorem svn1_s : rnd (4503599627370497 / 2251799813685248 - 1) = 2251799813685249 / 2251799813685248 := by
  exact rnd_rep (4503599627370498) (-52) (by norm_num) (by norm_num) (by norm_num) (by norm_num)

theorem svn2_a : rnd (2 / 7) = 2573485501354569 / 9007199254740992 := by
  rw [rnd_eval (5146971002709138) (-54) (by norm_num) (by norm_num) (by norm_num) (by norm_num) (by norm_num)]
  norm_num

theorem svn2_d : rnd (1 - 2573485501354569 / 9007199254740992) = 6433713753386423 / 9007199254740992 := by
  exact rnd_rep (6433713753386423) (-53) (by norm_num) (by norm_num) (by norm_num) (by norm_num)

theorem svn2_h : rnd ((6433713753386423 / 9007199254740992) / 300) = 1372525600722437 / 576460752303423488 := by
  rw [rnd_eval (5490102402889748) (-61) (by norm_num) (by norm_num) (by norm_num) (by norm_num) (by norm_num)]
  norm_num

theorem svn2_p : rnd (300 * (1372525600722437 / 576460752303423488)) = 6433713753386423 / 9007199254740992 := by
  rw [rnd_eval (6433713753386423) (-53) (by norm_num) (by norm_num) (by norm_num) (by norm_num) (by norm_num)]
  norm_num

theorem svn2_x : rnd (2573485501354569 / 9007199254740992 + 6433713753386423 / 9007199254740992) = 1 := by
  exact rnd_rep (4503599627370496) (-52) (by norm_num) (by norm_num) (by norm_num) (by norm_num)

theorem svn2_u : rnd (1 - 2573485501354569 / 18014398509481984) = 1930114126015927 / 2251799813685248 := by
  rw [rnd_eval_even (7720456504063708) (-53) (by norm_num) (by norm_num) (by norm_num) (by norm_num) (by norm_num) (by norm_num)]
  norm_num

theorem svn2_w : rnd (1930114126015927 / 2251799813685248 * (5254199565265579 / 2251799813685248)) = 4503599627370497 / 2251799813685248 := by
  rw [rnd_eval (4503599627370497) (-51) (by norm_num) (by norm_num) (by norm_num) (by norm_num) (by norm_num)]
  norm_num

theorem svn2_s : rnd (4503599627370497 / 2251799813685248 - 1) = 2251799813685249 / 2251799813685248 := by
  exact rnd_rep (4503599627370498) (-52) (by norm_num) (by norm_num) (by norm_num) (by norm_num)

theorem svn3_a : rnd (3 / 7) = 7720456504063707 / 18014398509481984 := by
  rw [rnd_eval (7720456504063707) (-54) (by norm_num) (by norm_num) (by norm_num) (by norm_num) (by norm_num)]
  norm_num

theorem svn3_d : rnd (1 - 7720456504063707 / 18014398509481984) = 2573485501354569 / 4503599627370496 := by
  rw [rnd_eval_even (5146971002709138) (-53) (by norm_num) (by norm_num) (by norm_num) (by norm_num) (by norm_num) (by norm_num)]
  norm_num

theorem svn3_h : rnd ((2573485501354569 / 4503599627370496) / 300) = 2196040961155899 / 1152921504606846976 := by
  rw [rnd_eval (8784163844623596) (-62) (by norm_num) (by norm_num) (by norm_num) (by norm_num) (by norm_num)]
  norm_num

theorem svn3_p : rnd (300 * (2196040961155899 / 1152921504606846976)) = 2573485501354569 / 4503599627370496 := by
  rw [rnd_eval (5146971002709138) (-53) (by norm_num) (by norm_num) (by norm_num) (by norm_num) (by norm_num)]
  norm_num

theorem svn3_x : rnd (7720456504063707 / 18014398509481984 + 2573485501354569 / 4503599627370496) = 1 := by
  rw [rnd_eval_even (9007199254740992) (-53) (by norm_num) (by norm_num) (by norm_num) (by norm_num) (by norm_num) (by norm_num)]
  norm_num

theorem svn3_u : rnd (1 - 2573485501354569 / 18014398509481984) = 1930114126015927 / 2251799813685248 := by
  rw [rnd_eval_even (7720456504063708) (-53) (by norm_num) (by norm_num) (by norm_num) (by norm_num) (by norm_num) (by norm_num)]
  norm_num

theorem svn3_w : rnd (1930114126015927 / 2251799813685248 * (5254199565265579 / 2251799813685248)) = 4503599627370497 / 2251799813685248 := by
  rw [rnd_eval (4503599627370497) (-51) (by norm_num) (by norm_num) (by norm_num) (by norm_num) (by norm_num)]
  norm_num

theorem svn3_s : rnd (4503599627370497 / 2251799813685248 - 1) = 2251799813685249 / 2251799813685248 := by
  exact rnd_rep (4503599627370498) (-52) (by norm_num) (by norm_num) (by norm_num) (by norm_num)

theorem svn4_a : rnd (4 / 7) = 2573485501354569 / 4503599627370496 := by
  rw [rnd_eval (5146971002709138) (-53) (by norm_num) (by norm_num) (by norm_num) (by norm_num) (by norm_num)]
  norm_num

theorem svn4_d : rnd (1 - 2573485501354569 / 4503599627370496) = 1930114126015927 / 4503599627370496 := by
  exact rnd_rep (7720456504063708) (-54) (by norm_num) (by norm_num) (by norm_num) (by norm_num)

theorem svn4_h : rnd ((1930114126015927 / 4503599627370496) / 300) = 6588122883467697 / 4611686018427387904 := by
  rw [rnd_eval (6588122883467697) (-62) (by norm_num) (by norm_num) (by norm_num) (by norm_num) (by norm_num)]
  norm_num

theorem svn4_p : rnd (300 * (6588122883467697 / 4611686018427387904)) = 7720456504063707 / 18014398509481984 := by
  rw [rnd_eval (7720456504063707) (-54) (by norm_num) (by norm_num) (by norm_num) (by norm_num) (by norm_num)]
  norm_num

theorem svn4_x : rnd (2573485501354569 / 4503599627370496 + 7720456504063707 / 18014398509481984) = 1 := by
  rw [rnd_eval_even (9007199254740992) (-53) (by norm_num) (by norm_num) (by norm_num) (by norm_num) (by norm_num) (by norm_num)]
  norm_num

theorem svn4_u : rnd (1 - 2573485501354569 / 18014398509481984) = 1930114126015927 / 2251799813685248 := by
  rw [rnd_eval_even (7720456504063708) (-53) (by norm_num) (by norm_num) (by norm_num) (by norm_num) (by norm_num) (by norm_num)]
  norm_num

theorem svn4_w : rnd (1930114126015927 / 2251799813685248 * (5254199565265579 / 2251799813685248)) = 4503599627370497 / 2251799813685248 := by
  rw [rnd_eval (4503599627370497) (-51) (by norm_num) (by norm_num) (by norm_num) (by norm_num) (by norm_num)]
  norm_num

theorem svn4_s : rnd (4503599627370497 / 2251799813685248 - 1) = 2251799813685249 / 2251799813685248 := by
  exact rnd_rep (4503599627370498) (-52) (by norm_num) (by norm_num) (by norm_num) (by norm_num)

theorem svn5_a : rnd (5 / 7) = 6433713753386423 / 9007199254740992 := by
  rw [rnd_eval (6433713753386423) (-53) (by norm_num) (by norm_num) (by norm_num) (by norm_num) (by norm_num)]
  norm_num

theorem svn5_d : rnd (1 - 6433713753386423 / 9007199254740992) = 2573485501354569 / 9007199254740992 := by
  exact rnd_rep (5146971002709138) (-54) (by norm_num) (by norm_num) (by norm_num) (by norm_num)

theorem svn5_h : rnd ((2573485501354569 / 9007199254740992) / 300) = 2196040961155899 / 2305843009213693952 := by
  rw [rnd_eval (8784163844623596) (-63) (by norm_num) (by norm_num) (by norm_num) (by norm_num) (by norm_num)]
  norm_num

theorem svn5_p : rnd (300 * (2196040961155899 / 2305843009213693952)) = 2573485501354569 / 9007199254740992 := by
  rw [rnd_eval (5146971002709138) (-54) (by norm_num) (by norm_num) (by norm_num) (by norm_num) (by norm_num)]
  norm_num

theorem svn5_x : rnd (6433713753386423 / 9007199254740992 + 2573485501354569 / 9007199254740992) = 1 := by
  exact rnd_rep (4503599627370496) (-52) (by norm_num) (by norm_num) (by norm_num) (by norm_num)

theorem svn5_u : rnd (1 - 2573485501354569 / 18014398509481984) = 1930114126015927 / 2251799813685248 := by
  rw [rnd_eval_even (7720456504063708) (-53) (by norm_num) (by norm_num) (by norm_num) (by norm_num) (by norm_num) (by norm_num)]
  norm_num

theorem svn5_w : rnd (1930114126015927 / 2251799813685248 * (5254199565265579 / 2251799813685248)) = 4503599627370497 / 2251799813685248 := by
  rw [rnd_eval (4503599627370497) (-51) (by norm_num) (by norm_num) (by norm_num) (by norm_num) (by norm_num)]
  norm_num

theorem svn5_s : rnd (4503599627370497 / 2251799813685248 - 1) = 2251799813685249 / 2251799813685248 := by
  exact rnd_rep (4503599627370498) (-52) (by norm_num) (by norm_num) (by norm_num) (by norm_num)

theorem svn6_a : rnd (6 / 7) = 7720456504063707 / 9007199254740992 := by
  rw [rnd_eval (7720456504063707) (-53) (by norm_num) (by norm_num) (by norm_num) (by norm_num) (by norm_num)]
  norm_num

theorem svn6_d : rnd (1 - 7720456504063707 / 9007199254740992) = 1286742750677285 / 9007199254740992 := by
  exact rnd_rep (5146971002709140) (-55) (by norm_num) (by norm_num) (by norm_num) (by norm_num)

theorem svn6_h : rnd ((1286742750677285 / 9007199254740992) / 300) = 8784163844623599 / 18446744073709551616 := by
  rw [rnd_eval (8784163844623599) (-64) (by norm_num) (by norm_num) (by norm_num) (by norm_num) (by norm_num)]
  norm_num

theorem svn6_p : rnd (300 * (8784163844623599 / 18446744073709551616)) = 1286742750677285 / 9007199254740992 := by
  rw [rnd_eval (5146971002709140) (-55) (by norm_num) (by norm_num) (by norm_num) (by norm_num) (by norm_num)]
  norm_num

theorem svn6_x : rnd (7720456504063707 / 9007199254740992 + 1286742750677285 / 9007199254740992) = 1 := by
  exact rnd_rep (4503599627370496) (-52) (by norm_num) (by norm_num) (by norm_num) (by norm_num)

theorem svn6_u : rnd (1 - 2573485501354569 / 18014398509481984) = 1930114126015927 / 2251799813685248 := by
  rw [rnd_eval_even (7720456504063708) (-53) (by norm_num) (by norm_num) (by norm_num) (by norm_num) (by norm_num) (by norm_num)]
  norm_num

theorem svn6_w : rnd (1930114126015927 / 2251799813685248 * (5254199565265579 / 2251799813685248)) = 4503599627370497 / 2251799813685248 := by
  rw [rnd_eval (4503599627370497) (-51) (by norm_num) (by norm_num) (by norm_num) (by norm_num) (by norm_num)]
  norm_num

theorem svn6_s : rnd (4503599627370497 / 2251799813685248 - 1) = 2251799813685249 / 2251799813685248 := by
  exact rnd_rep (4503599627370498) (-52) (by norm_num) (by norm_num) (by norm_num) (by norm_num)

end S2wav
