import Verif.Lemmas.IntTable

/-! # Tables for `lam = 2` -/

namespace S2wav

/-! ## `lam = 2` -/

namespace Dyadic

set_option maxRecDepth 100000 in
theorem low0_2 : low0 2 = 68370300558613482178506881181048 := by decide +kernel

set_option maxRecDepth 100000 in
theorem up0_2 : up0 2 = 68370300558613482178506881270547 := by decide +kernel

set_option maxRecDepth 100000 in
theorem tab2_0 : allLe 2 2048 68370300558613482178506881181048 1 60 1025 = true := by decide +kernel

set_option maxRecDepth 100000 in
theorem tab2_1 : allLe 2 2048 68370300558613482178506881181048 1 60 1085 = true := by decide +kernel

set_option maxRecDepth 100000 in
theorem tab2_2 : allLe 2 2048 68370300558613482178506881181048 1 7 1145 = true := by decide +kernel

set_option maxRecDepth 100000 in
theorem over2 : Nat.blt (4096 * (2 - 1) * 68370300558613482178506881270547) (2 * (4096 - 2049) * low 2 4096 2049) = true := by decide +kernel

end Dyadic

theorem kval_le_2 {j l : ℤ} (hl : l ≤ 2048) : kval 2 300 j l ≤ 1 := by
  have h := kval_nat_le (p := 2) (a := 11) (K := 2048) (by norm_num) (by norm_num) (fun i h1 h2 h3 => by
    refine Dyadic.quad_le_of_check (by norm_num) (by omega) (by omega) ?_
    rw [Dyadic.low0_2]
    rcases lt_or_ge i 1085 with h | h
    · exact Dyadic.allLe_one Dyadic.tab2_0 (by omega) (by omega)
    rcases lt_or_ge i 1145 with h | h
    · exact Dyadic.allLe_one Dyadic.tab2_1 (by omega) (by omega)
    exact Dyadic.allLe_one Dyadic.tab2_2 (by omega) (by omega)) (j := j) (l := l) (by exact_mod_cast hl)
  exact_mod_cast h

theorem kval_gt_2 : 1 < kval 2 300 12 2049 := by
  have h := kval_nat_gt (p := 2) (a := 12) (l := 2049) (m := 4096) (by norm_num) (by norm_num) (by norm_num) (by norm_num)
    (by rw [Dyadic.up0_2]; exact Dyadic.blt_lt Dyadic.over2)
  exact_mod_cast h

end S2wav
