import Verif.Props.RoundedJax
import Verif.Props.RoundedThreeFilters
import Verif.Props.RoundedFourFilters
import Verif.Props.RoundedEightFilters

/-! # C127: the JAX filters in double precision with `lam = 3`, `4` and `8`

C108 compares the JAX filters with the vectorised ones for every `lam`, given the same `exp` and `gammaln`.  Here the JAX routine may use its
own `exp` and `gammaln` (XLA's, `mx` and `lg`), and `lam` is one of the parameters other than 2 that stay finite in double precision. -/

namespace S2wav
open Classical

/-- the dilation parameters, band-limits and top scales for which C118, C120 and C123 show that `k_lam` is accurate -/
def OtherRange (m : Libm) (lam : ℝ) (L J : ℤ) : Prop :=
  lam = 3 ∧ m.Third ∧ L ≤ 794 ∧ J ≤ 32 ∨ lam = 4 ∧ L ≤ 2 ^ 48 ∧ J ≤ 498 ∨ lam = 8 ∧ L ≤ 2 ^ 48 ∧ J ≤ 338

section
variable {m mx : Libm} {lg : F64 → F64} {jm : JMax} {L N J J_min : ℤ} {lam : ℝ}

theorem other_kOk (hm : m.Ok) (hr : OtherRange m lam L J) (hT : TopScale jm L lam J) :
    Gen.KOk m jm lam L J ∧ L ≤ 2 ^ 48 ∧ J ≤ 498 ∧ 1 < lam ∧
      (lam = 3 ∨ lam = 4 ∧ L ≤ 1025 ∨ lam = 8 ∧ L ≤ 513 → ∀ j l, l < L → kval lam 300 j l ≤ 1) := by
  have n34 : (3 : ℝ) ≠ 4 := by norm_num
  have n38 : (3 : ℝ) ≠ 8 := by norm_num
  have n48 : (4 : ℝ) ≠ 8 := by norm_num
  rcases hr with ⟨h, hp, hL, hJ⟩ | ⟨h, hL, hJ⟩ | ⟨h, hL, hJ⟩ <;> rw [h] at hT ⊢
  · exact ⟨kOk_three hm hp hT.hJ hT.hL hL hT.hJ0 hJ, by omega, by omega, by norm_num, fun _ j l hl => kval_le_tab3 (by omega)⟩
  · refine ⟨kOk_four hm hT.hJ hT.hL hL hT.hJ0 hJ, hL, hJ, by norm_num, ?_⟩
    rintro (e | ⟨-, e⟩ | ⟨e, -⟩) j l hl
    · exact absurd e.symm n34
    · exact kval_le_tab4 (by omega)
    · exact absurd e n48
  · refine ⟨kOk_eight hm hT.hJ hT.hL hL hT.hJ0 hJ, hL, by omega, by norm_num, ?_⟩
    rintro (e | ⟨e, -⟩ | ⟨-, e⟩) j l hl
    · exact absurd e.symm n38
    · exact absurd e.symm n48
    · exact kval_le_tab8 (by omega)

theorem Gen.dir64_jax_exists [Fact (1 < lam)] (hK : KOk m jm lam L J) (hs : Libm.Special mx lg) (hT : TopScale jm L lam J) (hL : L ≤ 2 ^ 53) (hJ : J ≤ 1000)
    (hN : 1 ≤ N) (hN' : N ≤ 63) (h0 : 0 ≤ J_min) (h1 : J_min < J) (spin : ℤ) :
    ∃ (psi : Arr3 ℂ) (phi : Arr1 ℝ) (X : ℤ → ℤ → ℝ), filters_directional_jax64 m mx lg jm L N J_min lam spin = .ok (psi.map C64.ofC, phi.map F64.fin) ∧
      Gen.Dir64 lam mx lg L N J J_min spin psi phi X := by
  obtain ⟨X, hX, -, ha⟩ := Gen.filters_axisym_vectorised64_ok hK hT.hJ hT.hL hL hJ h0 h1
  have hL1 := hT.hL
  have ht : tiling_direction_jax64 mx lg L N = tiling_direction64 mx lg L N := by
    rw [C108_tiling, if_neg (by omega)]
  refine ⟨_, _, X, ?_, hX, rfl, rfl⟩
  rw [map_of3, map_of1]
  exact Gen.dirBody_ok hs hX hL1 hL hN (by omega) h0 h1 ((filters_axisym_jax64_eq _).trans ha)
    (ht.trans (S2wav.tiling_direction64_ok hs hL1 hN (by omega))) spin

theorem Gen.dir64_jax_elim [Fact (1 < lam)] (hK : KOk m jm lam L J) (hs : Libm.Special mx lg) (hT : TopScale jm L lam J) (hL : L ≤ 2 ^ 53) (hJ : J ≤ 1000)
    (hN : 1 ≤ N) (hN' : N ≤ 63) (h0 : 0 ≤ J_min) (h1 : J_min < J) {spin : ℤ} {psi : Arr3 ℂ} {phi : Arr1 ℝ}
    (h : filters_directional_jax64 m mx lg jm L N J_min lam spin = .ok (psi.map C64.ofC, phi.map F64.fin)) :
    ∃ X, Gen.Dir64 lam mx lg L N J J_min spin psi phi X := by
  obtain ⟨psi', phi', X, h', hd⟩ := Gen.dir64_jax_exists hK hs hT hL hJ hN hN' h0 h1 spin
  rw [h] at h'
  simp only [Except.ok.injEq, Prod.mk.injEq] at h'
  rw [← map_ofC_inj h'.1, ← map_fin_inj h'.2] at hd
  exact ⟨X, hd⟩

/-! ### The properties -/

/-- **C127** the directional JAX filters in double precision for `lam = 3`, `4` and `8`, up to 63 directions and any spin: no exception, no
infinity, no NaN; the shapes are right; a wavelet entry is exactly zero outside the two bands of its scale, below the spin, for orders
above the degree or not below `N`, and for orders of the wrong parity; the scaling function is exactly zero below the spin and from
`lam^J_min` on. -/
theorem C127_directional (hm : m.Ok) (hr : OtherRange m lam L J) (hs : Libm.Special mx lg) (hT : TopScale jm L lam J)
    (hN : 1 ≤ N) (hN' : N ≤ 63) (h0 : 0 ≤ J_min) (h1 : J_min < J) (spin : ℤ) :
    ∃ (psi : Arr3 ℂ) (phi : Arr1 ℝ), filters_directional_jax64 m mx lg jm L N J_min lam spin = .ok (psi.map C64.ofC, phi.map F64.fin) ∧
      psi.d = J + 1 ∧ psi.r = L ∧ psi.c = 2 * L - 1 ∧ phi.n = L ∧
      (∀ j l n, psi.v j l (L - 1 + n) ≠ 0 →
        |spin| ≤ l ∧ lam ^ (j - 1) < l ∧ (l : ℝ) < lam ^ (j + 1) ∧ |n| ≤ l ∧ |n| < N ∧ (N + n) % 2 ≠ 0) ∧
      (∀ l, phi.v l ≠ 0 → |spin| ≤ l ∧ (l : ℝ) < lam ^ J_min) := by
  obtain ⟨hK, hL, hJ, hl, -⟩ := other_kOk hm hr hT
  haveI : Fact (1 < lam) := ⟨hl⟩
  obtain ⟨psi, phi, X, hf, hd⟩ := Gen.dir64_jax_exists hK hs hT (by omega) (by omega) hN hN' h0 h1 spin
  exact ⟨psi, phi, hf, hd.support hN h0 h1⟩

/-- **C127** they are admissible up to rounding, at every degree from the spin on: within 1/900 at every band-limit, and within `2^-29`
for `lam = 3`, for `lam = 4` and `L ≤ 1025`, and for `lam = 8` and `L ≤ 513`. -/
theorem C127_admissible (hm : m.Ok) (hr : OtherRange m lam L J) (hs : Libm.Special mx lg) (hT : TopScale jm L lam J)
    (hN : 1 ≤ N) (hN' : N ≤ 63) (h0 : 0 ≤ J_min) (h1 : J_min < J) {spin : ℤ} {psi : Arr3 ℂ} {phi : Arr1 ℝ}
    (h : filters_directional_jax64 m mx lg jm L N J_min lam spin = .ok (psi.map C64.ofC, phi.map F64.fin)) {l : ℤ} (hl0 : 0 ≤ l) (hl1 : l < L)
    (hl : |spin| ≤ l) :
    |frameSum J_min J L psi phi l - 1| ≤ 1 / 900 ∧
    (lam = 3 ∨ lam = 4 ∧ L ≤ 1025 ∨ lam = 8 ∧ L ≤ 513 → |frameSum J_min J L psi phi l - 1| ≤ 1 / 2 ^ 29) ∧
    (N ≤ 41 → 1 - 1 / 2 ^ 44 ≤ frameSum J_min J L psi phi l) := by
  obtain ⟨hK, hL, hJ, hlam, hk⟩ := other_kOk hm hr hT
  haveI : Fact (1 < lam) := ⟨hlam⟩
  obtain ⟨X, hd⟩ := Gen.dir64_jax_elim hK hs hT (by omega) (by omega) hN hN' h0 h1 h
  obtain ⟨a, b, c⟩ := hd.admissible hs hT (by omega) (by omega) hN (by omega) h0 h1 hl0 hl1 hl
  exact ⟨a, fun hc => b fun j => hk hc j l hl1, c⟩

/-- **C127** with 64 directions or more, at band-limits above 64, `filters_directional_jax` raises `OverflowError` for these `lam` too. -/
theorem C127_overflow (hm : m.Ok) (hr : OtherRange m lam L J) (hT : TopScale jm L lam J) (h0 : 0 ≤ J_min) (h1 : J_min < J) (hN : 64 ≤ N)
    (h : 65 ≤ L ∨ (L = 64 ∧ N % 2 = 0)) (spin : ℤ) : filters_directional_jax64 m mx lg jm L N J_min lam spin = .error .overflow := by
  obtain ⟨hK, hL, hJ, hlam, -⟩ := other_kOk hm hr hT
  haveI : Fact (1 < lam) := ⟨hlam⟩
  obtain ⟨X, -, -, ha⟩ := Gen.filters_axisym_vectorised64_ok hK hT.hJ hT.hL (by omega) (by omega) h0 h1
  unfold filters_directional_jax64
  rw [C108_axisym, ha, C108_tiling, if_pos ⟨hN, h⟩]
  rfl

end

/-! ### The hypotheses are met -/

/-- `L = 4096`, `N = 3`, spin 2, `lam = 8`; with 64 directions there is an exception from JAX and none from NumPy -/
example : (∃ (psi : Arr3 ℂ) (phi : Arr1 ℝ),
      filters_directional_jax64 Libm.exact Libm.exact lgExact j_max 4096 3 0 8 2 = .ok (psi.map C64.ofC, phi.map F64.fin) ∧
      ∀ l, 2 ≤ l → l < 4096 → |frameSum 0 4 4096 psi phi l - 1| ≤ 1 / 900) ∧
    filters_directional_jax64 Libm.exact Libm.exact lgExact j_max 4096 64 0 8 2 = .error .overflow ∧
    ∃ r, filters_directional_vectorised64 Libm.exact lgExact j_max 4096 64 0 8 2 = .ok r := by
  have hT := TopScale.of_j_max (L := 4096) (lam := 8) (by norm_num) (by norm_num) j_max_eight
  have hr : OtherRange Libm.exact 8 4096 4 := Or.inr (Or.inr ⟨rfl, by norm_num, by norm_num⟩)
  refine ⟨?_, C127_overflow Libm.exact_ok hr hT le_rfl (by norm_num) le_rfl (by norm_num) 2, ?_⟩
  · obtain ⟨psi, phi, h, -⟩ := C127_directional (N := 3) Libm.exact_ok hr lgExact_special hT (by norm_num) (by norm_num) le_rfl (by norm_num : (0 : ℤ) < 4) 2
    exact ⟨psi, phi, h, fun l h0 h1 => (C127_admissible (N := 3) Libm.exact_ok hr lgExact_special hT (by norm_num) (by norm_num) le_rfl
      (by norm_num : (0 : ℤ) < 4) h (by omega) h1 (by simpa using h0)).1⟩
  · obtain ⟨psi, phi, h, -⟩ := C125_directional (N := 64) Libm.exact_ok lgExact_special hT (by norm_num) (by norm_num) (by norm_num)
      (by norm_num) le_rfl (by norm_num : (0 : ℤ) < 4) 2
    exact ⟨_, h⟩

/-- the range of `lam = 3` is not empty either -/
example : ∃ J, j_max 81 3 = .ok J ∧ OtherRange Libm.exact 3 81 J := ⟨4, j_max_three, Or.inl ⟨rfl, Libm.exact_third, by norm_num, by norm_num⟩⟩

end S2wav
