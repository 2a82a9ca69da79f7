import Verif.Lemmas.IntTable

/-! # Tables for `lam = 9`, `lam = 10` -/

namespace S2wav

/-! ## `lam = 9` -/

namespace Dyadic

set_option maxRecDepth 100000 in
theorem low0_9 : low0 9 = 99261251246525999369452752391096 := by decide +kernel

set_option maxRecDepth 100000 in
theorem up0_9 : up0 9 = 99261251246525999369452752588393 := by decide +kernel

set_option maxRecDepth 100000 in
theorem tab9_0 : allLe 9 729 99261251246525999369452752391096 1 60 82 = true := by decide +kernel

set_option maxRecDepth 100000 in
theorem tab9_1 : allLe 9 729 99261251246525999369452752391096 1 20 142 = true := by decide +kernel

set_option maxRecDepth 100000 in
theorem over9 : Nat.blt (6561 * (9 - 1) * 99261251246525999369452752588393) (9 * (6561 - 730) * low 9 6561 730) = true := by decide +kernel

end Dyadic

theorem kval_le_9 {j l : ℤ} (hl : l ≤ 729) : kval 9 300 j l ≤ 1 := by
  have h := kval_nat_le (p := 9) (a := 3) (K := 729) (by norm_num) (by norm_num) (fun i h1 h2 h3 => by
    refine Dyadic.quad_le_of_check (by norm_num) (by omega) (by omega) ?_
    rw [Dyadic.low0_9]
    rcases lt_or_ge i 142 with h | h
    · exact Dyadic.allLe_one Dyadic.tab9_0 (by omega) (by omega)
    exact Dyadic.allLe_one Dyadic.tab9_1 (by omega) (by omega)) (j := j) (l := l) (by exact_mod_cast hl)
  exact_mod_cast h

theorem kval_gt_9 : 1 < kval 9 300 4 730 := by
  have h := kval_nat_gt (p := 9) (a := 4) (l := 730) (m := 6561) (by norm_num) (by norm_num) (by norm_num) (by norm_num)
    (by rw [Dyadic.up0_9]; exact Dyadic.blt_lt Dyadic.over9)
  exact_mod_cast h

/-! ## `lam = 10` -/

namespace Dyadic

set_option maxRecDepth 100000 in
theorem low0_10 : low0 10 = 100738703362742804261498991781202 := by decide +kernel

set_option maxRecDepth 100000 in
theorem up0_10 : up0 10 = 100738703362742804261498991989117 := by decide +kernel

set_option maxRecDepth 100000 in
theorem tab10_0 : allLe 10 1000 100738703362742804261498991781202 1 60 101 = true := by decide +kernel

set_option maxRecDepth 100000 in
theorem tab10_1 : allLe 10 1000 100738703362742804261498991781202 1 52 161 = true := by decide +kernel

set_option maxRecDepth 100000 in
theorem over10 : Nat.blt (10000 * (10 - 1) * 100738703362742804261498991989117) (10 * (10000 - 1001) * low 10 10000 1001) = true := by decide +kernel

end Dyadic

theorem kval_le_10 {j l : ℤ} (hl : l ≤ 1000) : kval 10 300 j l ≤ 1 := by
  have h := kval_nat_le (p := 10) (a := 3) (K := 1000) (by norm_num) (by norm_num) (fun i h1 h2 h3 => by
    refine Dyadic.quad_le_of_check (by norm_num) (by omega) (by omega) ?_
    rw [Dyadic.low0_10]
    rcases lt_or_ge i 161 with h | h
    · exact Dyadic.allLe_one Dyadic.tab10_0 (by omega) (by omega)
    exact Dyadic.allLe_one Dyadic.tab10_1 (by omega) (by omega)) (j := j) (l := l) (by exact_mod_cast hl)
  exact_mod_cast h

theorem kval_gt_10 : 1 < kval 10 300 4 1001 := by
  have h := kval_nat_gt (p := 10) (a := 4) (l := 1001) (m := 10000) (by norm_num) (by norm_num) (by norm_num) (by norm_num)
    (by rw [Dyadic.up0_10]; exact Dyadic.blt_lt Dyadic.over10)
  exact_mod_cast h

end S2wav
