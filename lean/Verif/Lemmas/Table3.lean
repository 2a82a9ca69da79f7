import Verif.Lemmas.IntTable

/-! # Tables for `lam = 3` -/

namespace S2wav

/-! ## `lam = 3` -/

namespace Dyadic

set_option maxRecDepth 100000 in
theorem low0_3 : low0 3 = 78254785726933273768186932148854 := by decide +kernel

set_option maxRecDepth 100000 in
theorem up0_3 : up0 3 = 78254785726933273768186932259665 := by decide +kernel

set_option maxRecDepth 100000 in
theorem tab3_0 : allLe 3 2187 78254785726933273768186932148854 1 60 730 = true := by decide +kernel

set_option maxRecDepth 100000 in
theorem tab3_1 : allLe 3 2187 78254785726933273768186932148854 1 60 790 = true := by decide +kernel

set_option maxRecDepth 100000 in
theorem tab3_2 : allLe 3 2187 78254785726933273768186932148854 1 60 850 = true := by decide +kernel

set_option maxRecDepth 100000 in
theorem tab3_3 : allLe 3 2187 78254785726933273768186932148854 1 2 910 = true := by decide +kernel

set_option maxRecDepth 100000 in
theorem over3 : Nat.blt (6561 * (3 - 1) * 78254785726933273768186932259665) (3 * (6561 - 2188) * low 3 6561 2188) = true := by decide +kernel

end Dyadic

theorem kval_le_3 {j l : ℤ} (hl : l ≤ 2187) : kval 3 300 j l ≤ 1 := by
  have h := kval_nat_le (p := 3) (a := 7) (K := 2187) (by norm_num) (by norm_num) (fun i h1 h2 h3 => by
    refine Dyadic.quad_le_of_check (by norm_num) (by omega) (by omega) ?_
    rw [Dyadic.low0_3]
    rcases lt_or_ge i 790 with h | h
    · exact Dyadic.allLe_one Dyadic.tab3_0 (by omega) (by omega)
    rcases lt_or_ge i 850 with h | h
    · exact Dyadic.allLe_one Dyadic.tab3_1 (by omega) (by omega)
    rcases lt_or_ge i 910 with h | h
    · exact Dyadic.allLe_one Dyadic.tab3_2 (by omega) (by omega)
    exact Dyadic.allLe_one Dyadic.tab3_3 (by omega) (by omega)) (j := j) (l := l) (by exact_mod_cast hl)
  exact_mod_cast h

theorem kval_gt_3 : 1 < kval 3 300 8 2188 := by
  have h := kval_nat_gt (p := 3) (a := 8) (l := 2188) (m := 6561) (by norm_num) (by norm_num) (by norm_num) (by norm_num)
    (by rw [Dyadic.up0_3]; exact Dyadic.blt_lt Dyadic.over3)
  exact_mod_cast h

end S2wav
