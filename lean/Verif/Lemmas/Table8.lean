import Verif.Lemmas.IntTable

/-! # Tables for `lam = 6`, `lam = 7`, `lam = 8` -/

namespace S2wav

/-! ## `lam = 6` -/

namespace Dyadic

set_option maxRecDepth 100000 in
theorem low0_6 : low0 6 = 92679167730586917411243868535774 := by decide +kernel

set_option maxRecDepth 100000 in
theorem up0_6 : up0 6 = 92679167730586917411243868695931 := by decide +kernel

set_option maxRecDepth 100000 in
theorem tab6_0 : allLe 6 1296 92679167730586917411243868535774 1 3 217 = true := by decide +kernel

set_option maxRecDepth 100000 in
theorem tab6_mul : allLe 6 1296 92679167730586917411243868535774 6 22 222 = true := by decide +kernel

set_option maxRecDepth 100000 in
theorem over6 : Nat.blt (1296 * (6 - 1) * 92679167730586917411243868695931) (6 * (1296 - 220) * low 6 1296 220) = true := by decide +kernel

end Dyadic

theorem kval_le_6 {j l : ℤ} (hl : l ≤ 219) : kval 6 300 j l ≤ 1 := by
  have h := kval_nat_le (p := 6) (a := 4) (K := 219) (by norm_num) (by norm_num) (fun i h1 h2 h3 => by
    refine Dyadic.quad_le_of_check (by norm_num) (by omega) (by omega) ?_
    rw [Dyadic.low0_6]
    rcases h3 with h3 | ⟨k, rfl⟩
    · exact Dyadic.allLe_one Dyadic.tab6_0 (by omega) (by omega)
    · have := Dyadic.allLe_get Dyadic.tab6_mul (k := k - 37) (by omega)
      rwa [show 222 + (k - 37) * 6 = 6 * k by omega] at this) (j := j) (l := l) (by exact_mod_cast hl)
  exact_mod_cast h

theorem kval_gt_6 : 1 < kval 6 300 4 220 := by
  have h := kval_nat_gt (p := 6) (a := 4) (l := 220) (m := 1296) (by norm_num) (by norm_num) (by norm_num) (by norm_num)
    (by rw [Dyadic.up0_6]; exact Dyadic.blt_lt Dyadic.over6)
  exact_mod_cast h

/-! ## `lam = 7` -/

namespace Dyadic

set_option maxRecDepth 100000 in
theorem low0_7 : low0 7 = 95350565621050063931244823978520 := by decide +kernel

set_option maxRecDepth 100000 in
theorem up0_7 : up0 7 = 95350565621050063931244824152081 := by decide +kernel

set_option maxRecDepth 100000 in
theorem tab7_0 : allLe 7 343 95350565621050063931244823978520 1 36 50 = true := by decide +kernel

set_option maxRecDepth 100000 in
theorem over7 : Nat.blt (2401 * (7 - 1) * 95350565621050063931244824152081) (7 * (2401 - 344) * low 7 2401 344) = true := by decide +kernel

end Dyadic

theorem kval_le_7 {j l : ℤ} (hl : l ≤ 343) : kval 7 300 j l ≤ 1 := by
  have h := kval_nat_le (p := 7) (a := 3) (K := 343) (by norm_num) (by norm_num) (fun i h1 h2 h3 => by
    refine Dyadic.quad_le_of_check (by norm_num) (by omega) (by omega) ?_
    rw [Dyadic.low0_7]
    exact Dyadic.allLe_one Dyadic.tab7_0 (by omega) (by omega)) (j := j) (l := l) (by exact_mod_cast hl)
  exact_mod_cast h

theorem kval_gt_7 : 1 < kval 7 300 4 344 := by
  have h := kval_nat_gt (p := 7) (a := 4) (l := 344) (m := 2401) (by norm_num) (by norm_num) (by norm_num) (by norm_num)
    (by rw [Dyadic.up0_7]; exact Dyadic.blt_lt Dyadic.over7)
  exact_mod_cast h

/-! ## `lam = 8` -/

namespace Dyadic

set_option maxRecDepth 100000 in
theorem low0_8 : low0 8 = 97496847715864121966374937747324 := by decide +kernel

set_option maxRecDepth 100000 in
theorem up0_8 : up0 8 = 97496847715864121966374937933215 := by decide +kernel

set_option maxRecDepth 100000 in
theorem tab8_0 : allLe 8 512 97496847715864121966374937747324 1 55 65 = true := by decide +kernel

set_option maxRecDepth 100000 in
theorem over8 : Nat.blt (4096 * (8 - 1) * 97496847715864121966374937933215) (8 * (4096 - 513) * low 8 4096 513) = true := by decide +kernel

end Dyadic

theorem kval_le_8 {j l : ℤ} (hl : l ≤ 512) : kval 8 300 j l ≤ 1 := by
  have h := kval_nat_le (p := 8) (a := 3) (K := 512) (by norm_num) (by norm_num) (fun i h1 h2 h3 => by
    refine Dyadic.quad_le_of_check (by norm_num) (by omega) (by omega) ?_
    rw [Dyadic.low0_8]
    exact Dyadic.allLe_one Dyadic.tab8_0 (by omega) (by omega)) (j := j) (l := l) (by exact_mod_cast hl)
  exact_mod_cast h

theorem kval_gt_8 : 1 < kval 8 300 4 513 := by
  have h := kval_nat_gt (p := 8) (a := 4) (l := 513) (m := 4096) (by norm_num) (by norm_num) (by norm_num) (by norm_num)
    (by rw [Dyadic.up0_8]; exact Dyadic.blt_lt Dyadic.over8)
  exact_mod_cast h

end S2wav
