import Verif.Lemmas.FloatJax
import Verif.Props.RoundedPipeline

/-! # C108: the JAX filters in double precision

`filters_axisym_jax`, `tiling_direction_jax` and `filters_directional_jax` (`Model/IeeeJax.lean`) against their NumPy counterparts and
against exact arithmetic. -/

namespace S2wav
open Classical

variable {m mx : Libm} {lg : F64 → F64} {jm : JMax} {L N J J_min : ℤ}

/-! ### Helpers -/

theorem gam_small (hN : N ≤ 63 ∨ L ≤ 63 ∨ (L = 64 ∧ N % 2 = 1)) {el : ℤ} (_h0 : 1 ≤ el) (h1 : el < L) : gam N el < 63 := by
  rw [← gam_jax]; omega

theorem dir64_jax_exists (hm : m.Ok) (hs : Libm.Special mx lg) (hT : TopScale jm L 2 J) (hL : L ≤ 2 ^ 53) (hJ : J ≤ 1000)
    (hN : 1 ≤ N) (hN' : N ≤ 63) (h0 : 0 ≤ J_min) (h1 : J_min < J) (spin : ℤ) :
    ∃ (psi : Arr3 ℂ) (phi : Arr1 ℝ) (X : ℤ → ℤ → ℝ), filters_directional_jax64 m mx lg jm L N J_min 2 spin = .ok (psi.map C64.ofC, phi.map F64.fin) ∧
      Dir64 mx lg jm L N J J_min spin psi phi X := by
  obtain ⟨X, hX, -, ha⟩ := filters_axisym_vectorised64_ok hm hT.hJ hT.hL hL hJ h0 h1
  have hL1 := hT.hL
  have ht : tiling_direction_jax64 mx lg L N = tiling_direction64 mx lg L N := by
    rw [tiling_direction_jax64_gen hL1 fun el => gam_small (Or.inl hN'), tiling_direction64_gen hL1 fun el a b => by
      have := gam_small (Or.inl hN') a b; omega]
  refine ⟨_, _, X, ?_, hX, ⟨m, hm, ha⟩, rfl, rfl⟩
  rw [map_of3, map_of1]
  exact dirBody_ok hs hX hL1 hL hN (by omega) h0 h1 ((filters_axisym_jax64_eq _).trans ha)
    (ht.trans (tiling_direction64_ok hs hL1 hN (by omega))) spin

theorem dir64_jax_elim (hm : m.Ok) (hs : Libm.Special mx lg) (hT : TopScale jm L 2 J) (hL : L ≤ 2 ^ 53) (hJ : J ≤ 1000)
    (hN : 1 ≤ N) (hN' : N ≤ 63) (h0 : 0 ≤ J_min) (h1 : J_min < J) {spin : ℤ} {psi : Arr3 ℂ} {phi : Arr1 ℝ}
    (h : filters_directional_jax64 m mx lg jm L N J_min 2 spin = .ok (psi.map C64.ofC, phi.map F64.fin)) :
    ∃ X, Dir64 mx lg jm L N J J_min spin psi phi X := by
  obtain ⟨psi', phi', X, h', hd⟩ := dir64_jax_exists hm hs hT hL hJ hN hN' h0 h1 spin
  rw [h] at h'
  simp only [Except.ok.injEq, Prod.mk.injEq] at h'
  rw [← map_ofC_inj h'.1, ← map_fin_inj h'.2] at hd
  exact ⟨X, hd⟩

/-! ### C108 -/

/-- **C108** the axisymmetric JAX filters are those of the vectorised routine, bit for bit (NaN and infinities included), and
raise the same exceptions, for all inputs. -/
theorem C108_axisym (m : Libm) (jm : JMax) (L J_min : ℤ) (lam : ℝ) :
    filters_axisym_jax64 m jm L J_min lam = filters_axisym_vectorised64 m jm L J_min lam := filters_axisym_jax64_eq lam

/-- **C108** the directional coefficients: with the same `exp` and `gammaln` the JAX routine returns those of the NumPy routine, bit
for bit and for all inputs, except that it raises `OverflowError` as soon as a denominator `2**gamma` does not fit into an
`int64`. -/
theorem C108_tiling (mx : Libm) (lg : F64 → F64) (L N : ℤ) :
    tiling_direction_jax64 mx lg L N =
      if 64 ≤ N ∧ (65 ≤ L ∨ (L = 64 ∧ N % 2 = 0)) then .error .overflow else tiling_direction64 mx lg L N := by
  by_cases hL : 1 ≤ L
  · split_ifs with h
    · refine tiling_direction_jax64_overflow hL (el := min (L - 1) 64) (by omega) (by omega) ?_
      rw [← gam_jax]; omega
    · have hg := fun el => gam_small (N := N) (L := L) (by omega) (el := el)
      rw [tiling_direction_jax64_gen hL hg, tiling_direction64_gen hL fun el a b => by have := hg el a b; omega]
  · have hz : zeros2 (α := C64) L (2 * L - 1) = .error .valueError := if_pos (by omega)
    rw [if_neg (by omega), tiling_direction_jax64, tiling_direction64, hz]
    exact (Py.bind_error _ _).trans (Py.bind_error _ _).symm

/-- **C108** the directional filters: with the same `exp` and `gammaln` the JAX routine and the vectorised one agree bit for bit on all
inputs, for up to 63 directions or small band-limits. -/
theorem C108_bits (m : Libm) (lg : F64 → F64) (jm : JMax) (J_min spin : ℤ) (lam : ℝ) (h : ¬ (64 ≤ N ∧ (65 ≤ L ∨ (L = 64 ∧ N % 2 = 0)))) :
    filters_directional_jax64 m m lg jm L N J_min lam spin = filters_directional_vectorised64 m lg jm L N J_min lam spin := by
  unfold filters_directional_jax64 filters_directional_vectorised64
  rw [C108_axisym, C108_tiling, if_neg h]

/-- **C108** with 64 directions or more, at band-limits above 64, `filters_directional_jax` raises `OverflowError`, although the NumPy
routines return filters (up to 990 directions, C101). -/
theorem C108_overflow (hm : m.Ok) (hT : TopScale jm L 2 J) (hL : L ≤ 2 ^ 53) (hJ : J ≤ 1000) (h0 : 0 ≤ J_min) (h1 : J_min < J) (hN : 64 ≤ N)
    (h : 65 ≤ L ∨ (L = 64 ∧ N % 2 = 0)) (spin : ℤ) : filters_directional_jax64 m mx lg jm L N J_min 2 spin = .error .overflow := by
  obtain ⟨X, -, -, ha⟩ := filters_axisym_vectorised64_ok hm hT.hJ hT.hL hL hJ h0 h1
  unfold filters_directional_jax64
  rw [C108_axisym, ha, C108_tiling, if_pos ⟨hN, h⟩]
  rfl

/-- **C108** for `lam = 2`, any band-limit up to 2^53, up to 63 directions and any spin: no exception, no infinity, no NaN; the
shapes are right; a wavelet entry is exactly zero outside the two bands of its scale, below the spin, for orders above the degree or not
below `N`, and for orders of the wrong parity; the scaling function is exactly zero below the spin and from `2^J_min` on. -/
theorem C108_directional (hm : m.Ok) (hs : Libm.Special mx lg) (hT : TopScale jm L 2 J) (hL : L ≤ 2 ^ 53) (hJ : J ≤ 1000)
    (hN : 1 ≤ N) (hN' : N ≤ 63) (h0 : 0 ≤ J_min) (h1 : J_min < J) (spin : ℤ) :
    ∃ (psi : Arr3 ℂ) (phi : Arr1 ℝ), filters_directional_jax64 m mx lg jm L N J_min 2 spin = .ok (psi.map C64.ofC, phi.map F64.fin) ∧
      psi.d = J + 1 ∧ psi.r = L ∧ psi.c = 2 * L - 1 ∧ phi.n = L ∧
      (∀ j l n, psi.v j l (L - 1 + n) ≠ 0 →
        |spin| ≤ l ∧ (2 : ℝ) ^ (j - 1) < l ∧ (l : ℝ) < 2 ^ (j + 1) ∧ |n| ≤ l ∧ |n| < N ∧ (N + n) % 2 ≠ 0) ∧
      (∀ l, phi.v l ≠ 0 → |spin| ≤ l ∧ (l : ℝ) < 2 ^ J_min) := by
  obtain ⟨psi, phi, X, hf, hd⟩ := dir64_jax_exists hm hs hT hL hJ hN hN' h0 h1 spin
  exact ⟨psi, phi, hf, hd.support hN h0 h1⟩

/-- **C108** they are close to those the JAX routine returns in exact arithmetic: same phase, and squared moduli within `2^-30` of each
other when normalised as in the frame sum. -/
theorem C108_close (hm : m.Ok) (hs : Libm.Special mx lg) (hT : TopScale jm L 2 J) (hL : L ≤ 2 ^ 53) (hJ : J ≤ 1000)
    (hN : 1 ≤ N) (hN' : N ≤ 63) (h0 : 0 ≤ J_min) (h1 : J_min < J) {spin : ℤ} {psi psi' : Arr3 ℂ} {phi phi' : Arr1 ℝ}
    (h : filters_directional_jax64 m mx lg jm L N J_min 2 spin = .ok (psi.map C64.ofC, phi.map F64.fin))
    (h' : filters_directional_jax jm L N J_min 2 spin 0 = .ok (psi', phi')) :
    (∃ ν : ℂ, ‖ν‖ = 1 ∧ ∀ j l k, psi.v j l k = ν * ‖psi.v j l k‖ ∧ psi'.v j l k = ν * ‖psi'.v j l k‖) ∧
    (∀ j l k, 0 ≤ l → 8 * Real.pi ^ 2 / (2 * l + 1) * |‖psi.v j l k‖ ^ 2 - ‖psi'.v j l k‖ ^ 2| ≤ 1 / 2 ^ 30) ∧
    (∀ l, 0 ≤ phi.v l ∧ 0 ≤ phi'.v l) ∧
    (∀ l, 0 ≤ l → 4 * Real.pi / (2 * l + 1) * |phi.v l ^ 2 - phi'.v l ^ 2| ≤ 1 / 2 ^ 30) := by
  obtain ⟨X, hd⟩ := dir64_jax_elim hm hs hT hL hJ hN hN' h0 h1 h
  refine hd.close hs hT hL hJ hN (by omega) h0 h1 ?_
  rw [← h', filters_directional_jax_ok hT hN h0 h1, filters_directional_vectorised_ok hT hN h0 h1]

/-- **C108** they are admissible up to rounding, at every degree from the spin on. -/
theorem C108_admissible (hm : m.Ok) (hs : Libm.Special mx lg) (hT : TopScale jm L 2 J) (hL : L ≤ 2 ^ 53) (hJ : J ≤ 1000)
    (hN : 1 ≤ N) (hN' : N ≤ 63) (h0 : 0 ≤ J_min) (h1 : J_min < J) {spin : ℤ} {psi : Arr3 ℂ} {phi : Arr1 ℝ}
    (h : filters_directional_jax64 m mx lg jm L N J_min 2 spin = .ok (psi.map C64.ofC, phi.map F64.fin)) {l : ℤ} (hl0 : 0 ≤ l) (hl1 : l < L)
    (hl : |spin| ≤ l) :
    1 - 1 / 2 ^ 32 ≤ frameSum J_min J L psi phi l ∧ frameSum J_min J L psi phi l ≤ 1.001 + 1 / 2 ^ 31 ∧
    (L ≤ 2049 → frameSum J_min J L psi phi l ≤ 1 + 1 / 2 ^ 31) ∧
    (N ≤ 41 → 1 - 1 / 2 ^ 44 ≤ frameSum J_min J L psi phi l) ∧
    (N ≤ 41 → L ≤ 17 → frameSum J_min J L psi phi l ≤ 1 + 1 / 2 ^ 44) := by
  obtain ⟨X, hd⟩ := dir64_jax_elim hm hs hT hL hJ hN hN' h0 h1 h
  exact hd.admissible hs hT hL hJ hN (by omega) h0 h1 hl0 hl1 hl

section
variable {O : Ops C64 F64} {c : Cfg} {psi : Arr3 ℂ} {phi : Arr1 ℝ} {flm : Arr2 ℂ} {P : Type} {E : CFFTO C64 P} {c1 : F64} {ix : ℕ} {δ K τ : ℝ} {f : P}

/-- **C108** in the transforms they qualify as filters: zero wherever the transforms do not look, and symmetric for real signals
when there are at most 41 directions. -/
theorem C108_filters (hm : m.Ok) (hs : Libm.Special mx lg) (hv : c.Core jm J) (hlam : c.lam = 2) (hL : c.L ≤ 2 ^ 53)
    (hJ : J ≤ 1000) (hN : c.N ≤ 63) (hre : c.reality = true → c.N ≤ 41)
    (h : filters_directional_jax64 m mx lg jm c.L c.N c.J_min c.lam c.spin = .ok (psi.map C64.ofC, phi.map F64.fin)) (mr : Bool) :
    c.Filters J mr psi phi := by
  have hT := hv.top
  rw [hlam] at h hT
  obtain ⟨X, hd⟩ := dir64_jax_elim hm hs hT hL hJ hv.hN hN hv.h0 hv.h1 h
  exact dir64_filters hs hT.hL hlam hv.hN hv.h0 hv.h1 hre rfl hd mr

/-- **C108** the whole round trip in double precision with the JAX filters: the errors of C107. -/
theorem C108_error (hO : O.Good) (hm : m.Ok) (hsp : Libm.Special mx lg) (hn : E.Near O c1 c J ix δ K τ) (hδ : 0 ≤ δ) (hδ1 : δ ≤ 1) (hK : 0 ≤ K)
    (hK1 : K ≤ 2 ^ 20) (hτ : 0 ≤ τ) (hτ1 : τ ≤ 1)
    (hv : c.Valid jm J) (hlam : c.lam = 2) (hL' : c.L ≤ 2 ^ 52) (hN' : c.N ≤ 63) (hJ : J ≤ 1000) (hre : c.reality = true → c.N ≤ 41) (hs : |c.spin| < c.L)
    (h : filters_directional_jax64 m mx lg jm c.L c.N c.J_min c.lam c.spin = .ok (psi.map C64.ofC, phi.map F64.fin))
    (hf : E.sphForward f c.L c.spin c.reality ix = .ok (flm.map C64.ofC)) (hbl : BL2 c.L c.spin flm) (hherm : c.reality = true → Herm2 flm)
    (hfb : ∀ l m, ‖co2 flm l m‖ ≤ 2 ^ (300 : ℤ)) :
    ∃ w s g, analysisO O E c1 jm f c.L c.N c.J_min c.lam c.spin c.sampling c.reality (some (psi.map C64.ofC, phi.map F64.fin)) = .ok (w, s) ∧
      synthesisO O E jm w s c.L c.N c.J_min c.lam c.spin c.sampling c.reality (some (psi.map C64.ofC, phi.map F64.fin)) =
        E.sphInverse (g.map C64.ofC) c.L c.spin c.reality ix ∧
      g.r = c.L ∧ g.c = 2 * c.L - 1 ∧
      norm2 c.L (fun l m => co2 g l m - co2 flm l m) ≤ (1.01 * (δ + K * 2 ^ (-47 : ℤ)) +
          (if c.L ≤ 17 then ((c.N : ℝ) + J + 40) / 2 ^ 48 else if c.L ≤ 2049 then 1 / 2 ^ 30 else 0.0011)) * norm2 c.L (co2 flm) +
        (2 * (J + 2) * τ + 2 ^ (-550 : ℤ)) := by
  have hT := hv.top
  rw [hlam] at hT
  obtain ⟨X, hd⟩ := dir64_jax_elim hm hsp hT (by omega) hJ hv.hN hN' hv.h0 hv.h1 (hlam ▸ h)
  exact dir64_error hO hsp hn hδ hδ1 hK hK1 hτ hτ1 hv hlam hL' (by omega) hJ hre hs hd hf hbl hherm hfb

end

/-! ### Non-vacuity -/

/-- a C library and a `gammaln` with all that is assumed: `L = 128`, `N = 5`, and the frame sum at degree 100; with 64 directions
instead there is an exception from JAX and none from NumPy -/
example : ∃ J, j_max 128 2 = .ok J ∧ ∃ (psi : Arr3 ℂ) (phi : Arr1 ℝ),
    filters_directional_jax64 Libm.exact Libm.exact lgExact j_max 128 5 2 2 0 = .ok (psi.map C64.ofC, phi.map F64.fin) ∧
      |frameSum 2 J 128 psi phi 100 - 1| ≤ 1 / 2 ^ 31 ∧
    filters_directional_jax64 Libm.exact Libm.exact lgExact j_max 128 64 2 2 0 = .error .overflow ∧
    ∃ r, filters_directional_vectorised64 Libm.exact lgExact j_max 128 64 2 2 0 = .ok r := by
  have hJ : j_max 128 2 = .ok 7 := by
    have h := j_max_eq (L := 128) (lam := 2) (by norm_num) (by norm_num)
    rw [h]
    have : Real.log ((128 : ℤ) : ℝ) / Real.log 2 = 7 := by
      rw [div_eq_iff (Real.log_pos (by norm_num)).ne']
      have : ((128 : ℤ) : ℝ) = 2 ^ 7 := by norm_num
      rw [this, Real.log_pow]; norm_num
    rw [this]; norm_num
  have hT := TopScale.of_j_max (L := 128) (lam := 2) (by norm_num) (by norm_num) hJ
  obtain ⟨psi, phi, h, -⟩ := C108_directional (N := 5) (J_min := 2) Libm.exact_ok lgExact_special hT (by norm_num) (by norm_num) (by norm_num) (by norm_num)
    (by norm_num) (by norm_num) 0
  obtain ⟨a, -, b, -, -⟩ := C108_admissible (N := 5) Libm.exact_ok lgExact_special hT (by norm_num) (by norm_num) (by norm_num) (by norm_num)
    (by norm_num) (by norm_num) h (l := 100) (by norm_num) (by norm_num) (by norm_num)
  have b := b (by norm_num)
  obtain ⟨psi', phi', h', -⟩ := C101_directional (N := 64) (J_min := 2) Libm.exact_ok lgExact_special hT (by norm_num) (by norm_num) (by norm_num) (by norm_num)
    (by norm_num) (by norm_num) 0
  refine ⟨7, hJ, psi, phi, h, ?_, C108_overflow Libm.exact_ok hT (by norm_num) (by norm_num) (by norm_num) (by norm_num) le_rfl (by norm_num) 0, _, h'⟩
  rw [abs_le]
  norm_num at *
  constructor <;> linarith

end S2wav
