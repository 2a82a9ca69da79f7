import Verif.Lemmas.SingleGen
import Verif.Props.RoundedOtherJax

/-! # C131: the JAX filters in single precision with `lam = 3`, `4` and `8`

`filters_directional_jax` executed in IEEE single precision (`Model/Ieee32Filters.lean`), as JAX does unless told otherwise, with the
parameters other than 2 for which the generating function, always integrated in double precision, stays accurate: the counterpart of C116. -/

namespace S2wav.Single
open Classical

section
variable {m mx : Libm} {lg : F64 → F64} {jm : JMax} {L N J J_min : ℤ} {lam : ℝ} {O : Ops C64 F64} {c : Cfg} {psi : Arr3 ℂ} {phi : Arr1 ℝ} {flm : Arr2 ℂ}

/-- **C131** for `lam = 3`, `4` and `8`, band-limits up to 2^23 (794 for `lam = 3`), up to 31 directions and any spin: no exception, no infinity,
no NaN; all entries are single precision numbers; the shapes are right; a wavelet entry is exactly zero outside the two bands of its scale,
below the spin, for orders above the degree or not below `N`, and for orders of the wrong parity; the scaling function is exactly zero below the spin
and from `lam^J_min` on. -/
theorem C131_directional (hm : m.Ok) (hr : OtherRange m lam L J) (hs : Special mx lg) (hT : TopScale jm L lam J) (hL : L ≤ 2 ^ 23)
    (hN : 1 ≤ N) (hN' : N ≤ 31) (h0 : 0 ≤ J_min) (h1 : J_min < J) (spin : ℤ) :
    ∃ (psi : Arr3 ℂ) (phi : Arr1 ℝ), filters_directional_jax32 m mx lg jm L N J_min lam spin = .ok (psi.map C64.ofC, phi.map F64.fin) ∧
      (∀ j l k, Sgl (psi.v j l k).re ∧ Sgl (psi.v j l k).im) ∧ (∀ l, Sgl (phi.v l)) ∧
      psi.d = J + 1 ∧ psi.r = L ∧ psi.c = 2 * L - 1 ∧ phi.n = L ∧
      (∀ j l n, psi.v j l (L - 1 + n) ≠ 0 →
        |spin| ≤ l ∧ lam ^ (j - 1) < l ∧ (l : ℝ) < lam ^ (j + 1) ∧ |n| ≤ l ∧ |n| < N ∧ (N + n) % 2 ≠ 0) ∧
      (∀ l, phi.v l ≠ 0 → |spin| ≤ l ∧ (l : ℝ) < lam ^ J_min) := by
  obtain ⟨hK, -, hJ, hl, -⟩ := other_kOk hm hr hT
  haveI : Fact (1 < lam) := ⟨hl⟩
  obtain ⟨psi, phi, X, hf, hd⟩ := Gen.dir32_exists hK hs hT hL (by omega) hN hN' h0 h1 spin
  refine ⟨psi, phi, hf, fun j l k => ?_, fun l => ?_, hd.support hN h0 h1⟩
  · rw [hd.wav]
    by_cases hr : 0 ≤ j ∧ j < J + 1 ∧ 0 ≤ l ∧ l < L ∧ 0 ≤ k ∧ k < 2 * L - 1
    · rw [Arr3.of_v _ _ _ _ _ _ _ hr]
      exact Gen.psiD32_sgl hs hd.k hL hN hN' hr.1 hr.2.1 hr.2.2.1 hr.2.2.2.1
    · rw [Arr3.junk _ j l k hr]; exact ⟨sgl_zero, sgl_zero⟩
  · rw [hd.scal]
    by_cases hr : 0 ≤ l ∧ l < L
    · rw [Arr1.of_v _ _ _ hr]
      exact Gen.phiD32_sgl hd.k hL h0 (by omega) hr.1 hr.2
    · rw [Arr1.junk _ l hr]; exact sgl_zero

/-- **C131** they are close to those the JAX routine returns in exact arithmetic: same phase, and squared moduli within `2^-15` (`0.0011`
for more than 15 directions) of each other when normalised as in the frame sum. -/
theorem C131_close (hm : m.Ok) (hr : OtherRange m lam L J) (hs : Special mx lg) (hT : TopScale jm L lam J) (hL : L ≤ 2 ^ 23)
    (hN : 1 ≤ N) (hN' : N ≤ 31) (h0 : 0 ≤ J_min) (h1 : J_min < J) {spin : ℤ} {psi psi' : Arr3 ℂ} {phi phi' : Arr1 ℝ}
    (h : filters_directional_jax32 m mx lg jm L N J_min lam spin = .ok (psi.map C64.ofC, phi.map F64.fin))
    (h' : filters_directional_jax jm L N J_min lam spin 0 = .ok (psi', phi')) :
    (∃ ν : ℂ, ‖ν‖ = 1 ∧ ∀ j l k, psi.v j l k = ν * ‖psi.v j l k‖ ∧ psi'.v j l k = ν * ‖psi'.v j l k‖) ∧
    (∀ j l k, 0 ≤ l → 8 * Real.pi ^ 2 / (2 * l + 1) * |‖psi.v j l k‖ ^ 2 - ‖psi'.v j l k‖ ^ 2| ≤ if N ≤ 15 then 1 / 2 ^ 15 else 0.0011) ∧
    (∀ l, 0 ≤ phi.v l ∧ 0 ≤ phi'.v l) ∧
    (∀ l, 0 ≤ l → 4 * Real.pi / (2 * l + 1) * |phi.v l ^ 2 - phi'.v l ^ 2| ≤ 1 / 2 ^ 15) := by
  obtain ⟨hK, -, hJ, hl, -⟩ := other_kOk hm hr hT
  haveI : Fact (1 < lam) := ⟨hl⟩
  obtain ⟨X, hd⟩ := Gen.dir32_elim hK hs hT hL (by omega) hN hN' h0 h1 h
  exact hd.close hs hT hL (by omega) hN hN' h0 h1 h'

/-- **C131** they are admissible up to rounding, at every degree from the spin on: within `2^-15` for up to 15 directions and `0.0011` for up to 31
directions, for `lam = 3`, for `lam = 4` and `L ≤ 1025`, and for `lam = 8` and `L ≤ 513`; beyond those band-limits up to `0.001` is added by the
quadrature of the tiling functions. -/
theorem C131_admissible (hm : m.Ok) (hr : OtherRange m lam L J) (hs : Special mx lg) (hT : TopScale jm L lam J) (hL : L ≤ 2 ^ 23)
    (hN : 1 ≤ N) (hN' : N ≤ 31) (h0 : 0 ≤ J_min) (h1 : J_min < J) {spin : ℤ} {psi : Arr3 ℂ} {phi : Arr1 ℝ}
    (h : filters_directional_jax32 m mx lg jm L N J_min lam spin = .ok (psi.map C64.ofC, phi.map F64.fin)) {l : ℤ} (hl0 : 0 ≤ l) (hl1 : l < L)
    (hl : |spin| ≤ l) :
    0.9989 ≤ frameSum J_min J L psi phi l ∧ frameSum J_min J L psi phi l ≤ 1.0021 ∧
    (lam = 3 ∨ lam = 4 ∧ L ≤ 1025 ∨ lam = 8 ∧ L ≤ 513 → frameSum J_min J L psi phi l ≤ 1.0011) ∧
    (N ≤ 15 → 1 - 1 / 2 ^ 15 ≤ frameSum J_min J L psi phi l ∧ frameSum J_min J L psi phi l ≤ 1.001 + 1 / 2 ^ 15) ∧
    (N ≤ 15 → lam = 3 ∨ lam = 4 ∧ L ≤ 1025 ∨ lam = 8 ∧ L ≤ 513 → frameSum J_min J L psi phi l ≤ 1 + 1 / 2 ^ 15) := by
  obtain ⟨hK, -, hJ, hlam, hk⟩ := other_kOk hm hr hT
  haveI : Fact (1 < lam) := ⟨hlam⟩
  obtain ⟨X, hd⟩ := Gen.dir32_elim hK hs hT hL (by omega) hN hN' h0 h1 h
  obtain ⟨a, b, c, d, e⟩ := hd.admissible hs hT hL (by omega) hN hN' h0 h1 hl0 hl1 hl
  exact ⟨a, b, fun q => c (hk q), d, fun p q => e p (hk q)⟩

/-- **C131** with 32 directions or more, at band-limits above 32, `filters_directional_jax` raises `OverflowError` in 32-bit mode for these
`lam` too. -/
theorem C131_overflow (hm : m.Ok) (hr : OtherRange m lam L J) (hT : TopScale jm L lam J) (h0 : 0 ≤ J_min) (h1 : J_min < J) (hN : 32 ≤ N)
    (h : 33 ≤ L ∨ (L = 32 ∧ N % 2 = 0)) (spin : ℤ) : filters_directional_jax32 m mx lg jm L N J_min lam spin = .error .overflow := by
  obtain ⟨hK, hL, hJ, hl, -⟩ := other_kOk hm hr hT
  haveI : Fact (1 < lam) := ⟨hl⟩
  obtain ⟨X, -, ha⟩ := Gen.filters_axisym_jax32_ok hK hT.hJ hT.hL (by omega) (by omega) h0 h1
  unfold filters_directional_jax32
  rw [ha, ((C116_tiling mx lg hT.hL N).1).2 ⟨hN, h⟩]
  rfl

/-- **C131** in the transforms they qualify as filters: zero wherever the transforms do not look, and symmetric for real signals
when there are at most 15 directions. -/
theorem C131_filters (hm : m.Ok) (hr : OtherRange m c.lam c.L J) (hs : Special mx lg) (hv : c.Core jm J) (hL : c.L ≤ 2 ^ 23)
    (hN : c.N ≤ 31) (hre : c.reality = true → c.N ≤ 15)
    (h : filters_directional_jax32 m mx lg jm c.L c.N c.J_min c.lam c.spin = .ok (psi.map C64.ofC, phi.map F64.fin)) (mr : Bool) :
    c.Filters J mr psi phi := by
  have hT := hv.top
  obtain ⟨hK, -, hJ, hl, -⟩ := other_kOk hm hr hT
  haveI : Fact (1 < c.lam) := ⟨hl⟩
  obtain ⟨X, hd⟩ := Gen.dir32_elim hK hs hT hL (by omega) hv.hN hN hv.h0 hv.h1 h
  exact Gen.dir32_filters hs hT.hL rfl hv.hN hv.h0 hv.h1 hre hd mr

/-- **C131** everything the JAX transforms do in harmonic space in 32-bit mode with these filters: no exception, no infinity, no NaN, and the
coefficients of a band-limited signal come back within a relative error of `(N + J + 26) 2^-19` for up to 15 directions and the smaller
band-limits, and within `0.0021` more than `(N + J + 10) 2^-19` otherwise (up to underflow). -/
theorem C131_round_trip (hO : Good O) (hm : m.Ok) (hr : OtherRange m c.lam c.L J) (hsp : Special mx lg) (hv : c.Core jm J) (hL : c.L ≤ 2 ^ 23)
    (hN : c.N ≤ 31) (hNL : c.N ≤ c.L) (hre : c.reality = true → c.N ≤ 15)
    (h : filters_directional_jax32 m mx lg jm c.L c.N c.J_min c.lam c.spin = .ok (psi.map C64.ofC, phi.map F64.fin))
    (hbl : BL2 c.L c.spin flm) (hf : ∀ l m, ‖co2 flm l m‖ ≤ 2 ^ (20 : ℤ)) :
    ∃ (w : List (Arr3 C64)) (s : Arr2 C64) (g : Arr2 ℂ),
      generate_and_apply_waveletsO O (flm.map C64.ofC) c.L c.N c.J_min J c.lam (some (psi.map C64.ofC)) = .ok w ∧
      generate_and_apply_scalingO O (flm.map C64.ofC) c.L c.J_min c.lam (some (phi.map F64.fin)) = .ok s ∧
      sum_over_wavelet_and_scalingO O w s c.L c.N c.J_min J c.lam (some (psi.map C64.ofC, phi.map F64.fin)) = .ok (g.map C64.ofC) ∧
      g.r = c.L ∧ g.c = 2 * c.L - 1 ∧
      (∀ l m, ‖co2 g l m - co2 flm l m‖ ≤ (0.0021 + (c.N + J + 10) / 2 ^ 19) * ‖co2 flm l m‖ + 2 ^ (-75 : ℤ)) ∧
      (c.lam = 3 ∨ c.lam = 4 ∧ c.L ≤ 1025 ∨ c.lam = 8 ∧ c.L ≤ 513 → c.N ≤ 15 → ∀ l m, ‖co2 g l m - co2 flm l m‖ ≤ (c.N + J + 26) / 2 ^ 19 * ‖co2 flm l m‖ + 2 ^ (-75 : ℤ)) := by
  have hG := C131_filters hm hr hsp hv hL hN hre h true
  have hT := hv.top
  obtain ⟨-, -, hJ, hlam1, -⟩ := other_kOk hm hr hT
  have hadm := fun {l : ℤ} => C131_admissible (l := l) hm hr hsp hT hL hv.hN hN hv.h0 hv.h1 h
  have hF : ∀ l, 0 ≤ l → l < c.L → frameSum c.J_min J c.L psi phi l ≤ 2 := by
    intro l a b
    by_cases hl : |c.spin| ≤ l
    · exact (hadm a b hl).2.1.trans (by norm_num)
    · have z1 : phi.v l = 0 := by
        by_contra hne
        exact hl (hG.scal l hne).2
      have z2 : ∀ j k, psi.v j l k = 0 := fun j k => by
        by_contra hne
        have := hG.wav j l (k - (c.L - 1)) (by rw [add_sub_cancel]; exact hne)
        exact hl this.2.2.2.2.2
      unfold frameSum
      simp [z1, z2]
  have hL1 := hv.top.hL
  have hN1 := hv.hN
  have h0 := hv.h0
  have h1 := hv.h1
  have hvv : ∀ l i, flm.v l i = co2 flm l (i - (c.L - 1)) := fun l i => by rw [co2, hbl.r, add_sub_cancel]
  have htri : Tri2 c.L flm := ⟨hbl.r, hbl.c, fun l m hlm => by
    have := hbl.zero l m (Or.inl hlm)
    rw [co2, hbl.r] at this
    exact this⟩
  obtain ⟨t, s, g, A1, A2, A3, A4, A5, A6, A7, A8, A9⟩ := trip_entry (psi := psi) (phi := phi) hO hL1 hL hlam1 hN1 hNL (by omega) h0 (by omega : c.J_min ≤ J + 1) (by omega)
    hG.cols hG.trunc htri (fun l i => by rw [hvv]; exact hf _ _) hF
  refine ⟨(pyRange c.J_min (J + 1)).map fun j => (t j).map C64.ofC, s.map C64.ofC, g, ?_, ?_, ?_, A7, A8, ?_⟩
  · rw [waveletsO_eq O hL1 hlam1 hN1 hNL h0 (by omega) (flm.map C64.ofC) (psi := psi.map C64.ofC) hG.d hG.r hG.cols hbl.r hbl.c]
    congr 1
    exact List.map_congr_left fun j hj => by rw [mem_pyRange] at hj; exact A1 j hj.1 hj.2
  · rw [← harmS_true, harmS_eq O hL1 hlam1 (flm.map C64.ofC) (phi := phi.map F64.fin) hG.n hbl.r hbl.c, A3]
  · rw [← harmSum_true, harmSum_eq O hL1 hlam1 hN1 hNL h0 (by omega) (psi := psi.map C64.ofC) (phi := phi.map F64.fin) hG.d hG.r hG.cols hG.n (s := s.map C64.ofC) A4 A5
      (t := fun j => (t j).map C64.ofC) A2, A6]
  have key : ∀ e : ℝ, 0 ≤ e → (∀ l, 0 ≤ l → l < c.L → |c.spin| ≤ l → |frameSum c.J_min J c.L psi phi l - 1| ≤ e) →
      ∀ l m, ‖co2 g l m - co2 flm l m‖ ≤ (e + (c.N + J + 10) / 2 ^ 19) * ‖co2 flm l m‖ + 2 ^ (-75 : ℤ) := by
    intro e hepos hFe l m
    have a9 := A9 l (c.L - 1 + m)
    rw [hvv, add_sub_cancel_left] at a9
    have hg : g.v l (c.L - 1 + m) = co2 g l m := by rw [co2, A7]
    rw [hg] at a9
    by_cases hz : co2 flm l m = 0
    · rw [hz] at a9 ⊢
      simpa using a9
    · have hr : 0 ≤ l ∧ l < c.L ∧ |c.spin| ≤ l := by
        refine ⟨?_, ?_, ?_⟩ <;> by_contra hc
        · exact hz (hbl.zero l m (Or.inl (by have := abs_nonneg m; omega)))
        · exact hz (flm.junk _ _ (by have := hbl.r; omega))
        · exact hz (hbl.zero l m (Or.inr (by omega)))
      have e1 : co2 g l m - co2 flm l m = (co2 g l m - (frameSum c.J_min J c.L psi phi l : ℂ) * co2 flm l m) +
          ((frameSum c.J_min J c.L psi phi l - 1 : ℝ) : ℂ) * co2 flm l m := by
        push_cast; ring
      rw [e1]
      refine (norm_add_le _ _).trans ?_
      rw [norm_mul, Complex.norm_real, Real.norm_eq_abs]
      have := mul_le_mul_of_nonneg_right (hFe l hr.1 hr.2.1 hr.2.2) (norm_nonneg (co2 flm l m))
      rw [add_mul]
      generalize (2 : ℝ) ^ (-75 : ℤ) = q at *
      linarith
  refine ⟨key 0.0021 (by norm_num) fun l a1 a2 a3 => ?_, fun b1 b2 => ?_⟩
  · obtain ⟨b1, b2, -⟩ := hadm a1 a2 a3
    rw [abs_le]; norm_num at *; constructor <;> linarith
  · have h26 : ((c.N + J + 26) / 2 ^ 19 : ℝ) = 1 / 2 ^ 15 + (c.N + J + 10) / 2 ^ 19 := by norm_num; ring
    rw [h26]
    refine key (1 / 2 ^ 15) (by norm_num) fun l a1 a2 a3 => ?_
    obtain ⟨-, -, -, b3, b4⟩ := hadm a1 a2 a3
    have b3 := (b3 b2).1
    have b4 := b4 b2 b1
    rw [abs_le]; norm_num at *; constructor <;> linarith

end

/-! ### The hypotheses are met -/

/-- `L = 4096`, `N = 3`, spin 2, `lam = 8`, and with 32 directions an exception -/
example : (∃ (psi : Arr3 ℂ) (phi : Arr1 ℝ),
      filters_directional_jax32 Libm.exact exact32 lgExact32 j_max 4096 3 0 8 2 = .ok (psi.map C64.ofC, phi.map F64.fin) ∧
      ∀ l, 2 ≤ l → l < 4096 → 1 - 1 / 2 ^ 15 ≤ frameSum 0 4 4096 psi phi l) ∧
    filters_directional_jax32 Libm.exact exact32 lgExact32 j_max 4096 32 0 8 2 = .error .overflow := by
  have hT := TopScale.of_j_max (L := 4096) (lam := 8) (by norm_num) (by norm_num) j_max_eight
  have hr : OtherRange Libm.exact 8 4096 4 := Or.inr (Or.inr ⟨rfl, by norm_num, by norm_num⟩)
  refine ⟨?_, C131_overflow Libm.exact_ok hr hT le_rfl (by norm_num) le_rfl (by norm_num) 2⟩
  obtain ⟨psi, phi, h, -⟩ := C131_directional (N := 3) Libm.exact_ok hr exact32_special hT (by norm_num) (by norm_num) (by norm_num) le_rfl
    (by norm_num : (0 : ℤ) < 4) 2
  exact ⟨psi, phi, h, fun l h0 h1 => ((C131_admissible (N := 3) Libm.exact_ok hr exact32_special hT (by norm_num) (by norm_num) (by norm_num) le_rfl
    (by norm_num : (0 : ℤ) < 4) h (by omega) h1 (by simpa using h0)).2.2.2.1 (by norm_num)).1⟩

/-- and the round trip of a signal with a single coefficient, `L = 81`, `lam = 3` -/
example : ∃ (psi : Arr3 ℂ) (phi : Arr1 ℝ) (w : List (Arr3 C64)) (s : Arr2 C64) (g : Arr2 ℂ),
    filters_directional_jax32 Libm.exact exact32 lgExact32 j_max 81 3 0 3 0 = .ok (psi.map C64.ofC, phi.map F64.fin) ∧
    generate_and_apply_waveletsO ieee ((Arr2.of 81 161 fun l i => if l = 5 ∧ i = 82 then (1 : ℂ) else 0).map C64.ofC) 81 3 0 4 3 (some (psi.map C64.ofC)) = .ok w ∧
    generate_and_apply_scalingO ieee ((Arr2.of 81 161 fun l i => if l = 5 ∧ i = 82 then (1 : ℂ) else 0).map C64.ofC) 81 0 3 (some (phi.map F64.fin)) = .ok s ∧
    sum_over_wavelet_and_scalingO ieee w s 81 3 0 4 3 (some (psi.map C64.ofC, phi.map F64.fin)) = .ok (g.map C64.ofC) ∧
    ‖co2 g 5 2 - 1‖ ≤ 1 / 2 ^ 13 := by
  have hT := TopScale.of_j_max (L := 81) (lam := 3) (by norm_num) (by norm_num) j_max_three
  have hr : OtherRange Libm.exact 3 81 4 := Or.inl ⟨rfl, Libm.exact_third, by norm_num, by norm_num⟩
  obtain ⟨psi, phi, h, -⟩ := C131_directional (N := 3) (J_min := 0) Libm.exact_ok hr exact32_special hT (by norm_num) (by norm_num) (by norm_num) le_rfl
    (by norm_num) 0
  set flm : Arr2 ℂ := Arr2.of 81 161 fun l i => if l = 5 ∧ i = 82 then (1 : ℂ) else 0 with hfl
  have hco : ∀ l m, co2 flm l m = if l = 5 ∧ m = 2 then 1 else 0 := by
    intro l m
    have hr : flm.r = 81 := rfl
    rw [co2, hr, hfl]
    by_cases hb : 0 ≤ l ∧ l < 81 ∧ 0 ≤ 81 - 1 + m ∧ 81 - 1 + m < 161
    · rw [Arr2.of_v _ _ _ _ _ hb]
      exact if_congr (by omega) rfl rfl
    · rw [Arr2.of_out _ _ _ _ _ hb, if_neg (by omega)]
  have hbl : BL2 81 0 flm := ⟨rfl, rfl, fun l m hlm => by
    rw [hco, if_neg]
    rintro ⟨rfl, rfl⟩
    norm_num at hlm⟩
  obtain ⟨w, s, g, h2, h3, h4, -, -, -, h5⟩ := C131_round_trip (c := ⟨81, 3, 0, 3, 0, "mw", none, false⟩) C115_ieee Libm.exact_ok hr exact32_special
    ⟨hT, by norm_num, le_rfl, by norm_num⟩ (by norm_num) (by norm_num) (by norm_num) (by simp) h hbl (fun l m => by
      rw [hco]
      have : (1 : ℝ) ≤ 2 ^ (20 : ℤ) := one_le_zpow₀ (by norm_num) (by norm_num)
      split_ifs
      · rw [norm_one]; exact this
      · rw [norm_zero]; exact zero_le_one.trans this)
  refine ⟨psi, phi, w, s, g, h, h2, h3, h4, ?_⟩
  have := h5 (Or.inl rfl) (by norm_num) 5 2
  rw [hco, if_pos ⟨rfl, rfl⟩, norm_one] at this
  have hq : (2 : ℝ) ^ (-75 : ℤ) ≤ 1 / 2 ^ 44 := by
    refine (p2_mono (show (-75 : ℤ) ≤ -44 by norm_num)).trans (le_of_eq ?_)
    rw [show (-44 : ℤ) = -((44 : ℕ) : ℤ) by norm_num, zpow_neg, zpow_natCast, one_div]
  generalize (2 : ℝ) ^ (-75 : ℤ) = q at *
  norm_num at *
  linarith

end S2wav.Single
