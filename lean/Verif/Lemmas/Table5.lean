import Verif.Lemmas.IntTable

/-! # Tables for `lam = 4`, `lam = 5` -/

namespace S2wav

/-! ## `lam = 4` -/

namespace Dyadic

set_option maxRecDepth 100000 in
theorem low0_4 : low0 4 = 84689526758491307615983224926154 := by decide +kernel

set_option maxRecDepth 100000 in
theorem up0_4 : up0 4 = 84689526758491307615983225055329 := by decide +kernel

set_option maxRecDepth 100000 in
theorem tab4_0 : allLe 4 1024 84689526758491307615983224926154 1 60 257 = true := by decide +kernel

set_option maxRecDepth 100000 in
theorem tab4_1 : allLe 4 1024 84689526758491307615983224926154 1 35 317 = true := by decide +kernel

set_option maxRecDepth 100000 in
theorem over4 : Nat.blt (4096 * (4 - 1) * 84689526758491307615983225055329) (4 * (4096 - 1025) * low 4 4096 1025) = true := by decide +kernel

end Dyadic

theorem kval_le_4 {j l : ℤ} (hl : l ≤ 1024) : kval 4 300 j l ≤ 1 := by
  have h := kval_nat_le (p := 4) (a := 5) (K := 1024) (by norm_num) (by norm_num) (fun i h1 h2 h3 => by
    refine Dyadic.quad_le_of_check (by norm_num) (by omega) (by omega) ?_
    rw [Dyadic.low0_4]
    rcases lt_or_ge i 317 with h | h
    · exact Dyadic.allLe_one Dyadic.tab4_0 (by omega) (by omega)
    exact Dyadic.allLe_one Dyadic.tab4_1 (by omega) (by omega)) (j := j) (l := l) (by exact_mod_cast hl)
  exact_mod_cast h

theorem kval_gt_4 : 1 < kval 4 300 6 1025 := by
  have h := kval_nat_gt (p := 4) (a := 6) (l := 1025) (m := 4096) (by norm_num) (by norm_num) (by norm_num) (by norm_num)
    (by rw [Dyadic.up0_4]; exact Dyadic.blt_lt Dyadic.over4)
  exact_mod_cast h

/-! ## `lam = 5` -/

namespace Dyadic

set_option maxRecDepth 100000 in
theorem low0_5 : low0 5 = 89254877045925089358988464481804 := by decide +kernel

set_option maxRecDepth 100000 in
theorem up0_5 : up0 5 = 89254877045925089358988464627251 := by decide +kernel

set_option maxRecDepth 100000 in
theorem tab5_0 : allLe 5 625 89254877045925089358988464481804 1 60 126 = true := by decide +kernel

set_option maxRecDepth 100000 in
theorem tab5_1 : allLe 5 625 89254877045925089358988464481804 1 2 186 = true := by decide +kernel

set_option maxRecDepth 100000 in
theorem over5 : Nat.blt (3125 * (5 - 1) * 89254877045925089358988464627251) (5 * (3125 - 626) * low 5 3125 626) = true := by decide +kernel

end Dyadic

theorem kval_le_5 {j l : ℤ} (hl : l ≤ 625) : kval 5 300 j l ≤ 1 := by
  have h := kval_nat_le (p := 5) (a := 4) (K := 625) (by norm_num) (by norm_num) (fun i h1 h2 h3 => by
    refine Dyadic.quad_le_of_check (by norm_num) (by omega) (by omega) ?_
    rw [Dyadic.low0_5]
    rcases lt_or_ge i 186 with h | h
    · exact Dyadic.allLe_one Dyadic.tab5_0 (by omega) (by omega)
    exact Dyadic.allLe_one Dyadic.tab5_1 (by omega) (by omega)) (j := j) (l := l) (by exact_mod_cast hl)
  exact_mod_cast h

theorem kval_gt_5 : 1 < kval 5 300 5 626 := by
  have h := kval_nat_gt (p := 5) (a := 5) (l := 626) (m := 3125) (by norm_num) (by norm_num) (by norm_num) (by norm_num)
    (by rw [Dyadic.up0_5]; exact Dyadic.blt_lt Dyadic.over5)
  exact_mod_cast h

end S2wav
