import Verif.Props.RoundedFour
import Verif.Lemmas.FloatFilters
import Verif.Props.Dyadic

/-! # C121: the filters in double precision with `lam = 4`

The counterparts of C100, C101 and C102 for `lam = 4` and band-limits up to 2^48. -/

namespace S2wav
open Classical
variable {m : Libm} {lg : F64 → F64} {jm : JMax} {L N J J_min : ℤ}

theorem kOk_four (hm : m.Ok) (hJ : jm L 4 = .ok J) (hL : 1 ≤ L) (hL' : L ≤ 2 ^ 48) (hJ0 : 0 ≤ J) (hJ1 : J ≤ 498) : Gen.KOk m jm 4 L J := by
  obtain ⟨X, hX, hX'⟩ := k_lam64_four hm hJ hL hL' hJ0 hJ1
  exact ⟨X, hX', hX⟩

theorem kval_le_tab4 {j l : ℤ} (hl : l < 1025) : kval 4 300 j l ≤ 1 := by
  have := kval_le_table (p := 4) (by norm_num) (by norm_num) (j := j) (l := l) (by simp only [maxL]; omega)
  push_cast at this
  exact this

/-! ### The properties -/

/-- **C121** for `lam = 4` and every band-limit up to 2^48, the vectorised axisymmetric filters in double precision: no
exception, no infinity and no NaN; entries are non-negative and their squares are within `2^-29` of those of exact arithmetic; a
wavelet vanishes exactly outside the two bands of its scale. -/
theorem C121_vectorised (hm : m.Ok) (hT : TopScale jm L 4 J) (hL : L ≤ 2 ^ 48) (hJ : J ≤ 498) (h0 : 0 ≤ J_min) (h1 : J_min < J) :
    ∃ (psi : Arr2 ℝ) (phi : Arr1 ℝ) (psi' : Arr2 ℝ) (phi' : Arr1 ℝ),
      filters_axisym_vectorised64 m jm L J_min 4 = .ok (psi.map F64.fin, phi.map F64.fin) ∧
      filters_axisym_vectorised jm L J_min 4 = .ok (psi', phi') ∧ psi.r = J + 1 ∧ psi.c = L ∧ phi.n = L ∧
      (∀ j l, 0 ≤ psi.v j l) ∧ (∀ l, 0 ≤ phi.v l) ∧
      (∀ j l, |psi.v j l ^ 2 - psi'.v j l ^ 2| ≤ 1 / 2 ^ 29) ∧ (∀ l, |phi.v l ^ 2 - phi'.v l ^ 2| ≤ 1 / 2 ^ 29) ∧
      (∀ j l : ℤ, (l : ℝ) ≤ 4 ^ (j - 1) ∨ (4 : ℝ) ^ (j + 1) ≤ l → psi.v j l = 0) ∧
      (∀ l : ℤ, (4 : ℝ) ^ J_min ≤ l → phi.v l = 0) := by
  haveI : Fact ((1 : ℝ) < 4) := ⟨by norm_num⟩
  exact Gen.vectorised (kOk_four hm hT.hJ hT.hL hL hT.hJ0 hJ) hT (by omega) (by omega) h0 h1

/-- **C121** they are admissible up to rounding: at every degree the squares add up to at least `1 - 2^-48`, to at most `1.001`
(up to `2^-30`) at any band-limit and to at most `1 + 2^-30` for `L ≤ 1025`. -/
theorem C121_admissible (hm : m.Ok) (hT : TopScale jm L 4 J) (hL : L ≤ 2 ^ 48) (hJ : J ≤ 498) (h0 : 0 ≤ J_min) (h1 : J_min < J) {psi : Arr2 ℝ}
    {phi : Arr1 ℝ} (h : filters_axisym_vectorised64 m jm L J_min 4 = .ok (psi.map F64.fin, phi.map F64.fin)) {l : ℤ} (hl0 : 0 ≤ l) (hl1 : l < L) :
    1 - 1 / 2 ^ 48 ≤ phi.v l ^ 2 + ∑ j ∈ Finset.Icc J_min J, psi.v j l ^ 2 ∧
    phi.v l ^ 2 + ∑ j ∈ Finset.Icc J_min J, psi.v j l ^ 2 ≤ 1.001 + 1 / 2 ^ 30 ∧
    (L ≤ 1025 → phi.v l ^ 2 + ∑ j ∈ Finset.Icc J_min J, psi.v j l ^ 2 ≤ 1 + 1 / 2 ^ 30) := by
  haveI : Fact ((1 : ℝ) < 4) := ⟨by norm_num⟩
  obtain ⟨a, b, c⟩ := Gen.admissible (kOk_four hm hT.hJ hT.hL hL hT.hJ0 hJ) hT (by omega) (by omega) h0 h1 h hl0 hl1
  exact ⟨a, b, fun hL1 => c (fun j => kval_le_tab4 (by omega))⟩

/-- **C121** the directional filters in double precision, for `lam = 4`, any band-limit up to 2^48, up to 990 directions and any
spin: no exception, no infinity, no NaN; the shapes are right; a wavelet entry is exactly zero outside the two bands of its
scale, below the spin, for orders above the degree or not below `N`, and for orders of the wrong parity; the
scaling function is exactly zero below the spin and from `4^J_min` on. -/
theorem C121_directional (hm : m.Ok) (hs : Libm.Special m lg) (hT : TopScale jm L 4 J) (hL : L ≤ 2 ^ 48) (hJ : J ≤ 498)
    (hN : 1 ≤ N) (hN' : N ≤ 990) (h0 : 0 ≤ J_min) (h1 : J_min < J) (spin : ℤ) :
    ∃ (psi : Arr3 ℂ) (phi : Arr1 ℝ), filters_directional_vectorised64 m lg jm L N J_min 4 spin = .ok (psi.map C64.ofC, phi.map F64.fin) ∧
      psi.d = J + 1 ∧ psi.r = L ∧ psi.c = 2 * L - 1 ∧ phi.n = L ∧
      (∀ j l n, psi.v j l (L - 1 + n) ≠ 0 →
        |spin| ≤ l ∧ (4 : ℝ) ^ (j - 1) < l ∧ (l : ℝ) < 4 ^ (j + 1) ∧ |n| ≤ l ∧ |n| < N ∧ (N + n) % 2 ≠ 0) ∧
      (∀ l, phi.v l ≠ 0 → |spin| ≤ l ∧ (l : ℝ) < 4 ^ J_min) := by
  haveI : Fact ((1 : ℝ) < 4) := ⟨by norm_num⟩
  exact Gen.directional (kOk_four hm hT.hJ hT.hL hL hT.hJ0 hJ) hs hT (by omega) (by omega) hN hN' h0 h1 spin

/-- **C121** they are admissible up to rounding, at every degree from the spin on. -/
theorem C121_directional_admissible (hm : m.Ok) (hs : Libm.Special m lg) (hT : TopScale jm L 4 J) (hL : L ≤ 2 ^ 48) (hJ : J ≤ 498)
    (hN : 1 ≤ N) (hN' : N ≤ 990) (h0 : 0 ≤ J_min) (h1 : J_min < J) {spin : ℤ} {psi : Arr3 ℂ} {phi : Arr1 ℝ}
    (h : filters_directional_vectorised64 m lg jm L N J_min 4 spin = .ok (psi.map C64.ofC, phi.map F64.fin)) {l : ℤ} (hl0 : 0 ≤ l) (hl1 : l < L)
    (hl : |spin| ≤ l) :
    |frameSum J_min J L psi phi l - 1| ≤ 1 / 900 ∧ (L ≤ 1025 → |frameSum J_min J L psi phi l - 1| ≤ 1 / 2 ^ 29) ∧ (N ≤ 41 → 1 - 1 / 2 ^ 44 ≤ frameSum J_min J L psi phi l) := by
  haveI : Fact ((1 : ℝ) < 4) := ⟨by norm_num⟩
  obtain ⟨a, b, c⟩ := Gen.directional_admissible (kOk_four hm hT.hJ hT.hL hL hT.hJ0 hJ) hs hT (by omega) (by omega) hN hN' h0 h1 h hl0 hl1 hl
  exact ⟨a, fun hL1 => b (fun j => kval_le_tab4 (by omega)), c⟩

section
variable {c : Cfg} {b : Backend} {psi : Arr3 ℂ} {phi : Arr1 ℝ} {f : Px} {flm : Arr2 ℂ}

/-- **C121** with these filters, analysis followed by synthesis returns every harmonic coefficient of a band-limited signal up
to a factor within `2^-29` of 1 for `L ≤ 1025`, and within 1/900 of 1 at every band-limit up to 2^48. -/
theorem C121_gain (hm : m.Ok) (hs : Libm.Special m lg) (hw : b.Works jm c J) (hb : b.isBase = false) (hlam : c.lam = 4) (hL : c.L ≤ 2 ^ 48) (hJ : J ≤ 498)
    (hN : c.N ≤ 990) (hre : c.reality = true → c.N ≤ 41)
    (h : filters_directional_vectorised64 m lg jm c.L c.N c.J_min c.lam c.spin = .ok (psi.map C64.ofC, phi.map F64.fin))
    (hf : (b.engine c).sphF f c.L = .ok flm) (hbl : BL2 c.L c.spin flm) :
    ∃ w s glm, b.analysisWith jm c (psi, phi) f = .ok (w, s) ∧
      b.synthesisWith jm c (psi, phi) w s = (b.engine c).sphI glm c.L ∧ glm.r = c.L ∧ glm.c = 2 * c.L - 1 ∧
      (∀ l m, ‖co2 glm l m - co2 flm l m‖ ≤ 1 / 900 * ‖co2 flm l m‖) ∧
      (c.L ≤ 1025 → ∀ l m, ‖co2 glm l m - co2 flm l m‖ ≤ 1 / 2 ^ 29 * ‖co2 flm l m‖) := by
  haveI : Fact ((1 : ℝ) < 4) := ⟨by norm_num⟩
  have hT := hw.valid.top
  rw [hlam] at hT
  obtain ⟨w, s, glm, h1, h2, h3, h4, h5, h6⟩ := Gen.gain (kOk_four hm hT.hJ hT.hL hL hT.hJ0 hJ) hs hw hb hlam (by omega) (by omega) hN hre h hf hbl
  exact ⟨w, s, glm, h1, h2, h3, h4, h5, fun hL1 => h6 fun j l hl => kval_le_tab4 (by omega)⟩

end

/-! ### The hypotheses are met -/

theorem j_max_four : j_max 256 4 = .ok 4 := by
  rw [j_max_eq (L := 256) (lam := 4) (by norm_num) (by norm_num)]
  have : Real.log ((256 : ℤ) : ℝ) / Real.log 4 = 4 := by
    rw [div_eq_iff (Real.log_pos (by norm_num)).ne']
    have : ((256 : ℤ) : ℝ) = 4 ^ 4 := by norm_num
    rw [this, Real.log_pow]; norm_num
  rw [this]; norm_num

/-- `L = 256`, `N = 3`, spin 2, `lam = 4`, with correctly rounded functions -/
example : ∃ (psi : Arr3 ℂ) (phi : Arr1 ℝ),
    filters_directional_vectorised64 Libm.exact lgExact j_max 256 3 0 4 2 = .ok (psi.map C64.ofC, phi.map F64.fin) ∧
    ∀ l, 2 ≤ l → l < 256 → |frameSum 0 4 256 psi phi l - 1| ≤ 1 / 2 ^ 29 := by
  have hT := TopScale.of_j_max (L := 256) (lam := 4) (by norm_num) (by norm_num) j_max_four
  obtain ⟨psi, phi, h, -⟩ := C121_directional (N := 3) Libm.exact_ok lgExact_special hT (by norm_num) (by norm_num) (by norm_num)
    (by norm_num) le_rfl (by norm_num : (0 : ℤ) < 4) 2
  exact ⟨psi, phi, h, fun l h0 h1 => (C121_directional_admissible (N := 3) Libm.exact_ok lgExact_special hT (by norm_num) (by norm_num)
    (by norm_num) (by norm_num) le_rfl (by norm_num : (0 : ℤ) < 4) h (by omega) h1 (by simpa using h0)).2.1 (by norm_num)⟩

/-- and the axisymmetric filters there -/
example : ∃ (psi : Arr2 ℝ) (phi : Arr1 ℝ), filters_axisym_vectorised64 Libm.exact j_max 256 1 4 = .ok (psi.map F64.fin, phi.map F64.fin) ∧
    ∀ l, 0 ≤ l → l < 256 → 1 - 1 / 2 ^ 48 ≤ phi.v l ^ 2 + ∑ j ∈ Finset.Icc 1 4, psi.v j l ^ 2 := by
  have hT := TopScale.of_j_max (L := 256) (lam := 4) (by norm_num) (by norm_num) j_max_four
  obtain ⟨psi, phi, -, -, h, -⟩ := C121_vectorised Libm.exact_ok hT (by norm_num) (by norm_num) (by norm_num) (by norm_num : (1 : ℤ) < 4)
  exact ⟨psi, phi, h, fun l a b => (C121_admissible Libm.exact_ok hT (by norm_num) (by norm_num) (by norm_num) (by norm_num : (1 : ℤ) < 4) h a b).1⟩

end S2wav
