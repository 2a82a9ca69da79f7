import Verif.Props.RoundedThree
import Verif.Lemmas.FloatFilters
import Verif.Props.Dyadic

/-! # C119: the filters in double precision with `lam = 3`

The counterparts of C100, C101 and C102 for `lam = 3` and band-limits up to 794; from 795 on the filters contain infinities or
NaN. -/

namespace S2wav
open Classical
variable {m : Libm} {lg : F64 → F64} {jm : JMax} {L N J J_min : ℤ}

theorem kOk_three (hm : m.Ok) (hp : m.Third) (hJ : jm L 3 = .ok J) (hL : 1 ≤ L) (hL' : L ≤ 794) (hJ0 : 0 ≤ J) (hJ1 : J ≤ 32) : Gen.KOk m jm 3 L J := by
  obtain ⟨X, hX, hX'⟩ := k_lam64_three hm hp hJ hL hL' hJ0 hJ1
  exact ⟨X, hX', hX⟩

theorem kval_le_tab3 {j l : ℤ} (hl : l < 2188) : kval 3 300 j l ≤ 1 := by
  have := kval_le_table (p := 3) (by norm_num) (by norm_num) (j := j) (l := l) (by simp only [maxL]; omega)
  push_cast at this
  exact this

/-! ### The properties -/

/-- **C119** for `lam = 3` and every band-limit up to 794, the vectorised axisymmetric filters in double precision: no
exception, no infinity and no NaN; entries are non-negative and their squares are within `2^-29` of those of exact arithmetic; a
wavelet vanishes exactly outside the two bands of its scale. -/
theorem C119_vectorised (hm : m.Ok) (hp : m.Third) (hT : TopScale jm L 3 J) (hL : L ≤ 794) (hJ : J ≤ 32) (h0 : 0 ≤ J_min) (h1 : J_min < J) :
    ∃ (psi : Arr2 ℝ) (phi : Arr1 ℝ) (psi' : Arr2 ℝ) (phi' : Arr1 ℝ),
      filters_axisym_vectorised64 m jm L J_min 3 = .ok (psi.map F64.fin, phi.map F64.fin) ∧
      filters_axisym_vectorised jm L J_min 3 = .ok (psi', phi') ∧ psi.r = J + 1 ∧ psi.c = L ∧ phi.n = L ∧
      (∀ j l, 0 ≤ psi.v j l) ∧ (∀ l, 0 ≤ phi.v l) ∧
      (∀ j l, |psi.v j l ^ 2 - psi'.v j l ^ 2| ≤ 1 / 2 ^ 29) ∧ (∀ l, |phi.v l ^ 2 - phi'.v l ^ 2| ≤ 1 / 2 ^ 29) ∧
      (∀ j l : ℤ, (l : ℝ) ≤ 3 ^ (j - 1) ∨ (3 : ℝ) ^ (j + 1) ≤ l → psi.v j l = 0) ∧
      (∀ l : ℤ, (3 : ℝ) ^ J_min ≤ l → phi.v l = 0) := by
  haveI : Fact ((1 : ℝ) < 3) := ⟨by norm_num⟩
  exact Gen.vectorised (kOk_three hm hp hT.hJ hT.hL hL hT.hJ0 hJ) hT (by omega) (by omega) h0 h1

/-- **C119** they are admissible up to rounding: at every degree the squares add up to between `1 - 2^-48` and `1 + 2^-30`. -/
theorem C119_admissible (hm : m.Ok) (hp : m.Third) (hT : TopScale jm L 3 J) (hL : L ≤ 794) (hJ : J ≤ 32) (h0 : 0 ≤ J_min) (h1 : J_min < J) {psi : Arr2 ℝ}
    {phi : Arr1 ℝ} (h : filters_axisym_vectorised64 m jm L J_min 3 = .ok (psi.map F64.fin, phi.map F64.fin)) {l : ℤ} (hl0 : 0 ≤ l) (hl1 : l < L) :
    1 - 1 / 2 ^ 48 ≤ phi.v l ^ 2 + ∑ j ∈ Finset.Icc J_min J, psi.v j l ^ 2 ∧
    phi.v l ^ 2 + ∑ j ∈ Finset.Icc J_min J, psi.v j l ^ 2 ≤ 1 + 1 / 2 ^ 30 := by
  haveI : Fact ((1 : ℝ) < 3) := ⟨by norm_num⟩
  obtain ⟨a, -, c⟩ := Gen.admissible (kOk_three hm hp hT.hJ hT.hL hL hT.hJ0 hJ) hT (by omega) (by omega) h0 h1 h hl0 hl1
  exact ⟨a, c (fun j => kval_le_tab3 (by omega))⟩

/-- **C119** beyond band-limit 794 the wavelets contain an infinity: that of scale 6 at degree 794. -/
theorem C119_infinite (hm : m.Ok) (hT : TopScale jm L 3 J) (hL : 795 ≤ L) {psi : Arr2 F64} {phi : Arr1 F64}
    (h : filters_axisym_vectorised64 m jm L J_min 3 = .ok (psi, phi)) : psi.v 6 794 = .inf := by
  unfold filters_axisym_vectorised64 at h
  simp only [hT.hJ, Py.bind_ok] at h
  split at h
  · cases h
  obtain ⟨k, hk, h⟩ := Py.bind_eq_ok.1 h
  obtain ⟨hr, hc, hJ6, k7, k6⟩ := C118_infinite hm hT hL hk
  simp only [Arr2.rollUp, Arr2.zip, Arr2.of_r, Arr2.of_c, and_self, if_true, Py.bind_ok] at h
  obtain ⟨row, -, h⟩ := Py.bind_eq_ok.1 h
  simp only [Except.ok.injEq, Prod.mk.injEq] at h
  rw [← h.1]
  have hsl : mkSl (J + 2) none (some (-1)) = ⟨0, J + 1, 1⟩ := by
    simp only [mkSl, slBound, if_pos (show (-1 : ℤ) < 0 by norm_num)]
    congr 1
    omega
  have hmap : ∀ (g : F64 → F64) (A : Arr2 F64), A.r = J + 1 → A.c = L → (A.map g).r = J + 1 ∧ (A.map g).c = L ∧ (A.map g).v 6 794 = g (A.v 6 794) :=
    fun g A h1 h2 => ⟨h1, h2, Arr2.of_v _ _ _ _ _ ⟨by norm_num, by omega, by norm_num, by omega⟩⟩
  set D := (Arr2.of k.r k.c fun i j => ((Arr2.of k.r k.c fun i j => k.v ((i + 1) % k.r) j).v i j).sub (k.v i j)).slice
    (mkSl k.r none (some (-1))) (mkSl k.c none none) with hD
  have d1 : D.r = J + 1 := by rw [hD, hr, hsl]; rfl
  have d2 : D.c = L := by rw [hD, hc, mkSl_all (by omega)]; rfl
  have d3 : D.v 6 794 = .inf := by
    rw [hD, hr, hc, hsl, mkSl_all (by omega)]
    unfold Arr2.slice
    rw [Arr2.of_v _ _ _ _ _ ⟨by norm_num, by simp only; omega, by norm_num, by simp only; omega⟩]
    simp only [Sl.at_one, zero_add]
    rw [Arr2.of_v _ _ _ _ _ ⟨by norm_num, by omega, by norm_num, by omega⟩, Arr2.of_v _ _ _ _ _ ⟨by norm_num, by omega, by norm_num, by omega⟩,
      show ((6 : ℤ) + 1) % (J + 2) = 7 from Int.emod_eq_of_lt (by omega) (by omega), k7, k6]
    rfl
  obtain ⟨m1, m2, m3⟩ := hmap (fun x => if x.isNeg then 0 else x) D d1 d2
  rw [(hmap F64.sqrt _ m1 m2).2.2, m3, d3]
  rw [if_neg (show ¬ F64.isNeg .inf from id)]
  rfl

/-- **C119** the directional filters in double precision, for `lam = 3`, any band-limit up to 794, up to 990 directions and any
spin: no exception, no infinity, no NaN; the shapes are right; a wavelet entry is exactly zero outside the two bands of its
scale, below the spin, for orders above the degree or not below `N`, and for orders of the wrong parity; the
scaling function is exactly zero below the spin and from `3^J_min` on. -/
theorem C119_directional (hm : m.Ok) (hp : m.Third) (hs : Libm.Special m lg) (hT : TopScale jm L 3 J) (hL : L ≤ 794) (hJ : J ≤ 32)
    (hN : 1 ≤ N) (hN' : N ≤ 990) (h0 : 0 ≤ J_min) (h1 : J_min < J) (spin : ℤ) :
    ∃ (psi : Arr3 ℂ) (phi : Arr1 ℝ), filters_directional_vectorised64 m lg jm L N J_min 3 spin = .ok (psi.map C64.ofC, phi.map F64.fin) ∧
      psi.d = J + 1 ∧ psi.r = L ∧ psi.c = 2 * L - 1 ∧ phi.n = L ∧
      (∀ j l n, psi.v j l (L - 1 + n) ≠ 0 →
        |spin| ≤ l ∧ (3 : ℝ) ^ (j - 1) < l ∧ (l : ℝ) < 3 ^ (j + 1) ∧ |n| ≤ l ∧ |n| < N ∧ (N + n) % 2 ≠ 0) ∧
      (∀ l, phi.v l ≠ 0 → |spin| ≤ l ∧ (l : ℝ) < 3 ^ J_min) := by
  haveI : Fact ((1 : ℝ) < 3) := ⟨by norm_num⟩
  exact Gen.directional (kOk_three hm hp hT.hJ hT.hL hL hT.hJ0 hJ) hs hT (by omega) (by omega) hN hN' h0 h1 spin

/-- **C119** they are admissible up to rounding, at every degree from the spin on. -/
theorem C119_directional_admissible (hm : m.Ok) (hp : m.Third) (hs : Libm.Special m lg) (hT : TopScale jm L 3 J) (hL : L ≤ 794) (hJ : J ≤ 32)
    (hN : 1 ≤ N) (hN' : N ≤ 990) (h0 : 0 ≤ J_min) (h1 : J_min < J) {spin : ℤ} {psi : Arr3 ℂ} {phi : Arr1 ℝ}
    (h : filters_directional_vectorised64 m lg jm L N J_min 3 spin = .ok (psi.map C64.ofC, phi.map F64.fin)) {l : ℤ} (hl0 : 0 ≤ l) (hl1 : l < L)
    (hl : |spin| ≤ l) :
    |frameSum J_min J L psi phi l - 1| ≤ 1 / 2 ^ 29 ∧ (N ≤ 41 → 1 - 1 / 2 ^ 44 ≤ frameSum J_min J L psi phi l) := by
  haveI : Fact ((1 : ℝ) < 3) := ⟨by norm_num⟩
  obtain ⟨-, b, c⟩ := Gen.directional_admissible (kOk_three hm hp hT.hJ hT.hL hL hT.hJ0 hJ) hs hT (by omega) (by omega) hN hN' h0 h1 h hl0 hl1 hl
  exact ⟨b (fun j => kval_le_tab3 (by omega)), c⟩

section
variable {c : Cfg} {b : Backend} {psi : Arr3 ℂ} {phi : Arr1 ℝ} {f : Px} {flm : Arr2 ℂ}

/-- **C119** with these filters, analysis followed by synthesis returns every harmonic coefficient of a band-limited signal up
to a factor within `2^-29` of 1. -/
theorem C119_gain (hm : m.Ok) (hp : m.Third) (hs : Libm.Special m lg) (hw : b.Works jm c J) (hb : b.isBase = false) (hlam : c.lam = 3) (hL : c.L ≤ 794) (hJ : J ≤ 32)
    (hN : c.N ≤ 990) (hre : c.reality = true → c.N ≤ 41)
    (h : filters_directional_vectorised64 m lg jm c.L c.N c.J_min c.lam c.spin = .ok (psi.map C64.ofC, phi.map F64.fin))
    (hf : (b.engine c).sphF f c.L = .ok flm) (hbl : BL2 c.L c.spin flm) :
    ∃ w s glm, b.analysisWith jm c (psi, phi) f = .ok (w, s) ∧
      b.synthesisWith jm c (psi, phi) w s = (b.engine c).sphI glm c.L ∧ glm.r = c.L ∧ glm.c = 2 * c.L - 1 ∧
      ∀ l m, ‖co2 glm l m - co2 flm l m‖ ≤ 1 / 2 ^ 29 * ‖co2 flm l m‖ := by
  haveI : Fact ((1 : ℝ) < 3) := ⟨by norm_num⟩
  have hT := hw.valid.top
  rw [hlam] at hT
  obtain ⟨w, s, glm, h1, h2, h3, h4, h5, h6⟩ := Gen.gain (kOk_three hm hp hT.hJ hT.hL hL hT.hJ0 hJ) hs hw hb hlam (by omega) (by omega) hN hre h hf hbl
  exact ⟨w, s, glm, h1, h2, h3, h4, h6 fun j l hl => kval_le_tab3 (by omega)⟩

end

/-! ### The hypotheses are met -/

theorem j_max_three : j_max 81 3 = .ok 4 := by
  rw [j_max_eq (L := 81) (lam := 3) (by norm_num) (by norm_num)]
  have : Real.log ((81 : ℤ) : ℝ) / Real.log 3 = 4 := by
    rw [div_eq_iff (Real.log_pos (by norm_num)).ne']
    have : ((81 : ℤ) : ℝ) = 3 ^ 4 := by norm_num
    rw [this, Real.log_pow]; norm_num
  rw [this]; norm_num

/-- `L = 81`, `N = 3`, spin 2, `lam = 3`, with correctly rounded functions -/
example : ∃ (psi : Arr3 ℂ) (phi : Arr1 ℝ),
    filters_directional_vectorised64 Libm.exact lgExact j_max 81 3 0 3 2 = .ok (psi.map C64.ofC, phi.map F64.fin) ∧
    ∀ l, 2 ≤ l → l < 81 → |frameSum 0 4 81 psi phi l - 1| ≤ 1 / 2 ^ 29 := by
  have hT := TopScale.of_j_max (L := 81) (lam := 3) (by norm_num) (by norm_num) j_max_three
  obtain ⟨psi, phi, h, -⟩ := C119_directional (N := 3) Libm.exact_ok Libm.exact_third lgExact_special hT (by norm_num) (by norm_num) (by norm_num)
    (by norm_num) le_rfl (by norm_num : (0 : ℤ) < 4) 2
  exact ⟨psi, phi, h, fun l h0 h1 => (C119_directional_admissible (N := 3) Libm.exact_ok Libm.exact_third lgExact_special hT (by norm_num) (by norm_num)
    (by norm_num) (by norm_num) le_rfl (by norm_num : (0 : ℤ) < 4) h (by omega) h1 (by simpa using h0)).1⟩

/-- and the axisymmetric filters there -/
example : ∃ (psi : Arr2 ℝ) (phi : Arr1 ℝ), filters_axisym_vectorised64 Libm.exact j_max 81 1 3 = .ok (psi.map F64.fin, phi.map F64.fin) ∧
    ∀ l, 0 ≤ l → l < 81 → 1 - 1 / 2 ^ 48 ≤ phi.v l ^ 2 + ∑ j ∈ Finset.Icc 1 4, psi.v j l ^ 2 := by
  have hT := TopScale.of_j_max (L := 81) (lam := 3) (by norm_num) (by norm_num) j_max_three
  obtain ⟨psi, phi, -, -, h, -⟩ := C119_vectorised Libm.exact_ok Libm.exact_third hT (by norm_num) (by norm_num) (by norm_num) (by norm_num : (1 : ℤ) < 4)
  exact ⟨psi, phi, h, fun l a b => (C119_admissible Libm.exact_ok Libm.exact_third hT (by norm_num) (by norm_num) (by norm_num) (by norm_num : (1 : ℤ) < 4) h a b).1⟩

end S2wav
