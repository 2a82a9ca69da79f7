import Verif.Props.RoundedOtherJax
import Verif.Props.RoundedLooped
import Verif.Lemmas.FloatLoopGen

/-! # C130: the looped filters in double precision with `lam = 3`, `4` and `8`

`filters_axisym` and `filters_directional` (`Model/IeeeFilters.lean`) executed in IEEE double precision with the parameters other than 2 that stay
finite: the counterpart of `C100_looped` and C106. -/

namespace S2wav
open Classical

section
variable {m : Libm} {lg : F64 → F64} {jm : JMax} {L N J J_min : ℤ} {lam : ℝ} {X : ℤ → ℤ → ℝ}

/-! ### Helpers -/

/-- everything known of the result -/
structure Gen.LoopDir64 (lam : ℝ) (m : Libm) (lg : F64 → F64) (L N J J_min spin : ℤ) (psi : Arr3 ℂ) (phi : Arr1 ℝ) (X p : ℤ → ℤ → ℝ) : Prop where
  k : Gen.FloatK lam J L X
  lp : Gen.Loop64 L J_min J X p
  wav : psi = Arr3.of (J + 1) L (2 * L - 1) fun j l k => psiG m lg p ufac N |spin| j l (k - (L - 1))
  scal : phi = Arr1.of L fun l => phiD64 X J_min |spin| l

theorem Gen.loopDir64_exists [hlf : Fact (1 < lam)] (hK : Gen.KOk m jm lam L J) (hs : Libm.Special m lg) (hT : TopScale jm L lam J) (hL : L ≤ 2 ^ 53)
    (hJ : J ≤ 1000) (hN : 1 ≤ N) (hN' : N ≤ 990) (h0 : 0 ≤ J_min) (h1 : J_min < J) (spin : ℤ) :
    ∃ (psi psi' : Arr3 ℂ) (phi : Arr1 ℝ) (X p : ℤ → ℤ → ℝ), filters_directional64 m lg jm L N J_min lam spin = .ok (psi.map C64.ofC, phi.map F64.fin) ∧
      filters_directional_vectorised64 m lg jm L N J_min lam spin = .ok (psi'.map C64.ofC, phi.map F64.fin) ∧
      Gen.LoopDir64 lam m lg L N J J_min spin psi phi X p := by
  obtain ⟨X, hX, hk, ha⟩ := Gen.filters_axisym_vectorised64_ok hK hT.hJ hT.hL hL hJ h0 h1
  obtain ⟨p, hp, -, h⟩ := Gen.filters_directional64_ok hs hT.hJ hT.hL hL hN hN' h0 h1 hX hk spin
  have hv := Gen.dirBody_ok hs hX hT.hL hL hN hN' h0 h1 ha (S2wav.tiling_direction64_ok hs hT.hL hN hN') spin
  refine ⟨_, Arr3.of (J + 1) L (2 * L - 1) fun j l k => psiD64 m lg X N |spin| j l (k - (L - 1)), _, X, p, ?_, ?_, hX, hp, rfl, rfl⟩
  · rw [h, map_of3, map_of1]
  · rw [map_of3, map_of1]; exact hv

theorem Gen.loopDir64_elim [hlf : Fact (1 < lam)] (hK : Gen.KOk m jm lam L J) (hs : Libm.Special m lg) (hT : TopScale jm L lam J) (hL : L ≤ 2 ^ 53)
    (hJ : J ≤ 1000) (hN : 1 ≤ N) (hN' : N ≤ 990) (h0 : 0 ≤ J_min) (h1 : J_min < J) {spin : ℤ} {psi : Arr3 ℂ} {phi : Arr1 ℝ}
    (h : filters_directional64 m lg jm L N J_min lam spin = .ok (psi.map C64.ofC, phi.map F64.fin)) :
    ∃ X p, Gen.LoopDir64 lam m lg L N J J_min spin psi phi X p := by
  obtain ⟨psi', -, phi', X, p, h', -, hd⟩ := Gen.loopDir64_exists hK hs hT hL hJ hN hN' h0 h1 spin
  rw [h] at h'
  simp only [Except.ok.injEq, Prod.mk.injEq] at h'
  rw [← map_ofC_inj h'.1, ← map_fin_inj h'.2] at hd
  exact ⟨X, p, hd⟩

theorem Gen.LoopDir64.admissible [hlf : Fact (1 < lam)] {spin : ℤ} {psi : Arr3 ℂ} {phi : Arr1 ℝ} {p : ℤ → ℤ → ℝ}
    (hd : Gen.LoopDir64 lam m lg L N J J_min spin psi phi X p) (hs : Libm.Special m lg) (hT : TopScale jm L lam J) (hL : L ≤ 2 ^ 53)
    (hJ : J ≤ 1000) (hN : 1 ≤ N) (hN' : N ≤ 990) (h0 : 0 ≤ J_min) (h1 : J_min < J) {l : ℤ} (hl0 : 0 ≤ l) (hl1 : l < L) (hl : |spin| ≤ l) :
    1 - 1 / 2 ^ 32 ≤ frameSum J_min J L psi phi l ∧ frameSum J_min J L psi phi l ≤ 1.002 + 1 / 2 ^ 27 ∧
    (N ≤ 41 → 1 - 1 / 2 ^ 44 ≤ frameSum J_min J L psi phi l) ∧
    ((∀ j, kval lam 300 j l ≤ 1) → frameSum J_min J L psi phi l ≤ 1.001 + 1 / 2 ^ 27) := by
  obtain ⟨s1, s2, s3⟩ := Gen.energy64_bounds hd.k hT.hLJ h0 h1 hl0 hl1 rfl
  obtain ⟨u1, u2⟩ := hd.lp.energy hd.k h0 hl0 hl1
  have hF := Gen.frameSumG (m := m) (lg := lg) (a := p) (w := ufac) (elmin := |spin|) hd.k hL hJ hs hN hN' h0 h1 hl0 hl1
    (fun j a b => (hd.lp.range' hd.k h0 b hl0 hl1).1) (fun j a b => (hd.lp.range' hd.k h0 b hl0 hl1).2)
    (fun j a b hz => by subst hz; exact hd.lp.zero hd.k h0 b (by omega)) (ufac_rl hl0 (by omega)) (ufac_le hl0 (by omega)) hl rfl
  rw [← hd.wav, ← hd.scal] at hF
  obtain ⟨hE0, hE1, hE2⟩ := binE_bounds N
  set f := rnd (Real.sqrt (X J_min l)) ^ 2
  set Q := ∑ j ∈ Finset.Icc J_min J, psi64 (X (j + 1) l) (X j l) ^ 2
  set P := ∑ j ∈ Finset.Icc J_min J, p j l ^ 2
  set F := frameSum J_min J L psi phi l
  have hS1 : f + P ≤ 1.01 := by clear s3; norm_num at *; linarith
  have k1 : (f + P) * (binE N + 1 / 2 ^ 45) ≤ 1.01 * (binE N + 1 / 2 ^ 45) :=
    mul_le_mul_of_nonneg_right hS1 (by positivity)
  have hF' := abs_le.1 hF
  clear hF
  generalize (f + P) * (binE N + 1 / 2 ^ 45) = q at *
  refine ⟨?_, ?_, fun hN => ?_, fun hL => ?_⟩
  · clear s3; norm_num at *; linarith
  · clear s3; norm_num at *; linarith
  · clear s3
    rw [hE2 hN] at k1
    norm_num at *; linarith
  · have := s3 hL
    clear s3 hL
    norm_num at *; linarith

theorem Gen.loopDir64_filters [hlf : Fact (1 < lam)] {c : Cfg} {p : ℤ → ℤ → ℝ} {psi : Arr3 ℂ} {phi : Arr1 ℝ} (hs : Libm.Special m lg) (hL : 1 ≤ c.L)
    (hlam : c.lam = lam) (hN : 1 ≤ c.N) (h0 : 0 ≤ c.J_min) (h1 : c.J_min < J) (hre : c.reality = true → c.N ≤ 41)
    (hd : Gen.LoopDir64 lam m lg c.L c.N J c.J_min c.spin psi phi X p) (mr : Bool) : c.Filters J mr psi phi := by
  rw [hd.wav, hd.scal]
  refine Gen.filters64_aux hL hlam hN h0 h1 hd.k (fun j l n a1 a2 a3 a4 hne => ?_) (fun hr j l n => psiG_conj hs hN (hre hr)) mr
  obtain ⟨a, b, hl1', d, e, f⟩ := psiG_support hN hne
  exact ⟨(hd.lp.band hd.k h0 a2 a3 a4 b).2, a, hl1', d, e, f⟩

/-! ### The properties -/

/-- **C130** the looped axisymmetric filters in double precision for `lam = 3`, `4` and `8`: no exception, no infinity, no NaN; the scaling function is
that of the vectorised routine, bit for bit; the wavelets below `J_min` are zero, the others exactly zero outside the two bands of their scale and
equal to those of the vectorised routine, bit for bit, except where that one has replaced a negative difference by zero; at every
degree the squares add up to a number between `1 - 2^-48` and `1.002` (up to `2^-27`). -/
theorem C130_axisym (hm : m.Ok) (hr : OtherRange m lam L J) (hT : TopScale jm L lam J) (h0 : 0 ≤ J_min) (h1 : J_min < J) :
    ∃ (psi : Arr2 ℝ) (phi : Arr1 ℝ) (psi' : Arr2 ℝ), filters_axisym64 m jm L J_min lam = .ok (psi.map F64.fin, phi.map F64.fin) ∧
      filters_axisym_vectorised64 m jm L J_min lam = .ok (psi'.map F64.fin, phi.map F64.fin) ∧ psi.r = J + 1 ∧ psi.c = L ∧
      (∀ l, 0 ≤ l → l < L → 1 - 1 / 2 ^ 48 ≤ phi.v l ^ 2 + ∑ j ∈ Finset.Icc J_min J, psi.v j l ^ 2 ∧
        phi.v l ^ 2 + ∑ j ∈ Finset.Icc J_min J, psi.v j l ^ 2 ≤ 1.002 + 1 / 2 ^ 27) ∧
      (∀ j l, psi.v j l ≠ 0 → J_min ≤ j ∧ lam ^ (j - 1) < l ∧ (l : ℝ) < lam ^ (j + 1)) ∧
      (∀ j l, J_min ≤ j → psi'.v j l ≠ 0 → psi.v j l = psi'.v j l) := by
  obtain ⟨hK, hL, hJ, hl, -⟩ := other_kOk hm hr hT
  haveI : Fact (1 < lam) := ⟨hl⟩
  obtain ⟨X, hX, hk, hf⟩ := Gen.filters_axisym_vectorised64_ok hK hT.hJ hT.hL (by omega) (by omega) h0 h1
  obtain ⟨p, hp, hp'⟩ := Gen.filters_axisym64_ok hT.hJ hT.hL h0 h1 hX hk
  refine ⟨Arr2.of (J + 1) L p, Arr1.of L fun l => rnd (Real.sqrt (X J_min l)), Arr2.of (J + 1) L fun j l => psi64 (X (j + 1) l) (X j l),
    ?_, ?_, rfl, rfl, fun l hl0 hl1 => ?_, fun j l hne => ?_, fun j l hj hne => ?_⟩
  · rw [hp', map_of2, map_of1]
  · rw [hf, map_of2, map_of1]
  · obtain ⟨s1, s2, -⟩ := Gen.energy64_bounds hX hT.hLJ h0 h1 hl0 hl1 rfl
    obtain ⟨u1, u2⟩ := hp.energy hX h0 hl0 hl1
    have e : ∑ j ∈ Finset.Icc J_min J, (Arr2.of (J + 1) L p).v j l ^ 2 = ∑ j ∈ Finset.Icc J_min J, p j l ^ 2 := by
      refine Finset.sum_congr rfl fun j hj => ?_
      rw [Finset.mem_Icc] at hj
      rw [Arr2.of_v _ _ _ _ _ ⟨by omega, by omega, hl0, hl1⟩]
    rw [e, Arr1.of_v _ _ _ ⟨hl0, hl1⟩]
    clear hk hf hp'
    norm_num at *
    constructor <;> linarith
  · by_cases hr : 0 ≤ j ∧ j < J + 1 ∧ 0 ≤ l ∧ l < L
    · rw [Arr2.of_v _ _ _ _ _ hr] at hne
      exact hp.band hX h0 (by omega) hr.2.2.1 hr.2.2.2 hne
    · exact absurd (Arr2.junk _ j l hr) hne
  · by_cases hr : 0 ≤ j ∧ j < J + 1 ∧ 0 ≤ l ∧ l < L
    · rw [Arr2.of_v _ _ _ _ _ hr] at hne ⊢
      rw [Arr2.of_v _ _ _ _ _ hr]
      refine hp.eq j l hj (by omega) hr.2.2.1 hr.2.2.2 ?_
      by_contra hc
      apply hne
      unfold psi64
      rw [max_eq_left (not_le.1 hc).le, Real.sqrt_zero, rnd_zero]
    · exact absurd (Arr2.junk _ j l hr) hne

/-- **C130** the looped directional filters in double precision for `lam = 3`, `4` and `8`, up to 990 directions and any spin: no exception, no infinity,
no NaN; the shapes are right; the scaling function is that of the vectorised routine, bit for bit; a wavelet entry is exactly zero for scales
below `J_min`, outside the two bands of its scale, below the spin, for orders above the degree or not below `N`, and for orders of the
wrong parity. -/
theorem C130_directional (hm : m.Ok) (hr : OtherRange m lam L J) (hs : Libm.Special m lg) (hT : TopScale jm L lam J)
    (hN : 1 ≤ N) (hN' : N ≤ 990) (h0 : 0 ≤ J_min) (h1 : J_min < J) (spin : ℤ) :
    ∃ (psi psi' : Arr3 ℂ) (phi : Arr1 ℝ), filters_directional64 m lg jm L N J_min lam spin = .ok (psi.map C64.ofC, phi.map F64.fin) ∧
      filters_directional_vectorised64 m lg jm L N J_min lam spin = .ok (psi'.map C64.ofC, phi.map F64.fin) ∧
      psi.d = J + 1 ∧ psi.r = L ∧ psi.c = 2 * L - 1 ∧ phi.n = L ∧
      (∀ j l n, psi.v j l (L - 1 + n) ≠ 0 → J_min ≤ j ∧
        |spin| ≤ l ∧ lam ^ (j - 1) < l ∧ (l : ℝ) < lam ^ (j + 1) ∧ |n| ≤ l ∧ |n| < N ∧ (N + n) % 2 ≠ 0) ∧
      (∀ l, phi.v l ≠ 0 → |spin| ≤ l ∧ (l : ℝ) < lam ^ J_min) := by
  obtain ⟨hK, hL, hJ, hl, -⟩ := other_kOk hm hr hT
  haveI : Fact (1 < lam) := ⟨hl⟩
  obtain ⟨psi, psi', phi, X, p, h, h', hd⟩ := Gen.loopDir64_exists hK hs hT (by omega) (by omega) hN hN' h0 h1 spin
  refine ⟨psi, psi', phi, h, h', by rw [hd.wav]; rfl, by rw [hd.wav]; rfl, by rw [hd.wav]; rfl, by rw [hd.scal]; rfl, fun j l n hne => ?_, fun l hne => ?_⟩
  · rw [hd.wav] at hne
    by_cases hr : 0 ≤ j ∧ j < J + 1 ∧ 0 ≤ l ∧ l < L ∧ 0 ≤ L - 1 + n ∧ L - 1 + n < 2 * L - 1
    · rw [Arr3.of_v _ _ _ _ _ _ _ hr, add_sub_cancel_left] at hne
      obtain ⟨a, b, -, c, d, e⟩ := psiG_support hN hne
      obtain ⟨f, g, i⟩ := hd.lp.band hd.k h0 (by omega) hr.2.2.1 hr.2.2.2.1 b
      exact ⟨f, a, g, i, c, d, e⟩
    · exact absurd (Arr3.junk _ j l _ hr) hne
  · rw [hd.scal] at hne
    by_cases hr : 0 ≤ l ∧ l < L
    · rw [Arr1.of_v _ _ _ hr] at hne
      exact Gen.phiD64_support hd.k h0 h1.le hr.1 hr.2 hne
    · exact absurd (Arr1.junk _ l hr) hne

/-- **C130** they are admissible up to rounding, at every degree from the spin on: the frame sum is at least `1 - 2^-32`, and at least
`1 - 2^-44` for `N ≤ 41`; it is at most `1.002` (up to `2^-27`), and at most `1.001` (up to `2^-27`) for `lam = 3`, for `lam = 4` and
`L ≤ 1025`, and for `lam = 8` and `L ≤ 513`. -/
theorem C130_admissible (hm : m.Ok) (hr : OtherRange m lam L J) (hs : Libm.Special m lg) (hT : TopScale jm L lam J)
    (hN : 1 ≤ N) (hN' : N ≤ 990) (h0 : 0 ≤ J_min) (h1 : J_min < J) {spin : ℤ} {psi : Arr3 ℂ} {phi : Arr1 ℝ}
    (h : filters_directional64 m lg jm L N J_min lam spin = .ok (psi.map C64.ofC, phi.map F64.fin)) {l : ℤ} (hl0 : 0 ≤ l) (hl1 : l < L)
    (hl : |spin| ≤ l) :
    1 - 1 / 2 ^ 32 ≤ frameSum J_min J L psi phi l ∧ frameSum J_min J L psi phi l ≤ 1.002 + 1 / 2 ^ 27 ∧
    (N ≤ 41 → 1 - 1 / 2 ^ 44 ≤ frameSum J_min J L psi phi l) ∧
    (lam = 3 ∨ lam = 4 ∧ L ≤ 1025 ∨ lam = 8 ∧ L ≤ 513 → frameSum J_min J L psi phi l ≤ 1.001 + 1 / 2 ^ 27) := by
  obtain ⟨hK, hL, hJ, hlam, hk⟩ := other_kOk hm hr hT
  haveI : Fact (1 < lam) := ⟨hlam⟩
  obtain ⟨X, p, hd⟩ := Gen.loopDir64_elim hK hs hT (by omega) (by omega) hN hN' h0 h1 h
  obtain ⟨a, b, c, d⟩ := hd.admissible hs hT (by omega) (by omega) hN hN' h0 h1 hl0 hl1 hl
  exact ⟨a, b, c, fun hc => d fun j => hk hc j l hl1⟩

/-- **C130** with these filters, analysis followed by synthesis returns every harmonic coefficient of a band-limited signal multiplied by a
factor within `0.002` (up to `2^-27`) of 1. -/
theorem C130_gain {c : Cfg} {b : Backend} {psi : Arr3 ℂ} {phi : Arr1 ℝ} {f : Px} {flm : Arr2 ℂ} (hm : m.Ok) (hr : OtherRange m c.lam c.L J)
    (hs : Libm.Special m lg) (hw : b.Works jm c J) (hb : b.isBase = false) (hN : c.N ≤ 990) (hre : c.reality = true → c.N ≤ 41)
    (h : filters_directional64 m lg jm c.L c.N c.J_min c.lam c.spin = .ok (psi.map C64.ofC, phi.map F64.fin))
    (hf : (b.engine c).sphF f c.L = .ok flm) (hbl : BL2 c.L c.spin flm) :
    ∃ w s glm, b.analysisWith jm c (psi, phi) f = .ok (w, s) ∧
      b.synthesisWith jm c (psi, phi) w s = (b.engine c).sphI glm c.L ∧ glm.r = c.L ∧ glm.c = 2 * c.L - 1 ∧
      ∀ l m, ‖co2 glm l m - co2 flm l m‖ ≤ (0.002 + 1 / 2 ^ 27) * ‖co2 flm l m‖ := by
  have hv := hw.valid
  have hT := hv.top
  obtain ⟨hK, hL, hJ, hlam, hk⟩ := other_kOk hm hr hT
  haveI : Fact (1 < c.lam) := ⟨hlam⟩
  obtain ⟨X, p, hd⟩ := Gen.loopDir64_elim hK hs hT (by omega) (by omega) hv.hN hN hv.h0 hv.h1 h
  have hG := Gen.loopDir64_filters hs hT.hL rfl hv.hN hv.h0 hv.h1 hre hd true
  obtain ⟨w, s, glm, h1, h2, h3, h4, h5⟩ := C67_round_trip hw hb hG hf
  refine ⟨w, s, glm, h1, h2, h3, h4, fun l m => ?_⟩
  by_cases hz : co2 flm l m = 0
  · rw [h5, hz]; simp
  have hr : 0 ≤ l ∧ l < c.L ∧ |c.spin| ≤ l := by
    refine ⟨?_, ?_, ?_⟩ <;> by_contra hc
    · exact hz (hbl.zero l m (Or.inl (by have := abs_nonneg m; omega)))
    · exact hz (flm.junk _ _ (by have := hbl.r; omega))
    · exact hz (hbl.zero l m (Or.inr (by omega)))
  have e1 : co2 glm l m - co2 flm l m = ((frameSum c.J_min J c.L psi phi l - 1 : ℝ) : ℂ) * co2 flm l m := by
    rw [h5]; push_cast; ring
  rw [e1, norm_mul, Complex.norm_real, Real.norm_eq_abs]
  refine mul_le_mul_of_nonneg_right ?_ (norm_nonneg _)
  obtain ⟨b1, b2, -⟩ := hd.admissible hs hT (by omega) (by omega) hv.hN hN hv.h0 hv.h1 hr.1 hr.2.1 hr.2.2
  clear h5 e1 hk
  rw [abs_le]; norm_num at b1 b2 ⊢; constructor <;> linarith

end

/-! ### The hypotheses are met -/

/-- `L = 4096`, `N = 3`, spin 2, `lam = 8` -/
example : ∃ (psi : Arr3 ℂ) (phi : Arr1 ℝ),
    filters_directional64 Libm.exact lgExact j_max 4096 3 0 8 2 = .ok (psi.map C64.ofC, phi.map F64.fin) ∧
    ∀ l, 2 ≤ l → l < 4096 → 1 - 1 / 2 ^ 44 ≤ frameSum 0 4 4096 psi phi l := by
  have hT := TopScale.of_j_max (L := 4096) (lam := 8) (by norm_num) (by norm_num) j_max_eight
  have hr : OtherRange Libm.exact 8 4096 4 := Or.inr (Or.inr ⟨rfl, by norm_num, by norm_num⟩)
  obtain ⟨psi, -, phi, h, -⟩ := C130_directional (N := 3) Libm.exact_ok hr lgExact_special hT (by norm_num) (by norm_num) le_rfl (by norm_num : (0 : ℤ) < 4) 2
  exact ⟨psi, phi, h, fun l h0 h1 => (C130_admissible (N := 3) Libm.exact_ok hr lgExact_special hT (by norm_num) (by norm_num) le_rfl
    (by norm_num : (0 : ℤ) < 4) h (by omega) h1 (by simpa using h0)).2.2.1 (by norm_num)⟩

/-- `L = 81`, `lam = 3`: the axisymmetric filters -/
example : ∃ (psi : Arr2 ℝ) (phi : Arr1 ℝ), filters_axisym64 Libm.exact j_max 81 1 3 = .ok (psi.map F64.fin, phi.map F64.fin) ∧
    ∀ l, 0 ≤ l → l < 81 → 1 - 1 / 2 ^ 48 ≤ phi.v l ^ 2 + ∑ j ∈ Finset.Icc 1 4, psi.v j l ^ 2 := by
  have hT := TopScale.of_j_max (L := 81) (lam := 3) (by norm_num) (by norm_num) j_max_three
  have hr : OtherRange Libm.exact 3 81 4 := Or.inl ⟨rfl, Libm.exact_third, by norm_num, by norm_num⟩
  obtain ⟨psi, phi, -, h, -, -, -, he, -⟩ := C130_axisym Libm.exact_ok hr hT (by norm_num : (0 : ℤ) ≤ 1) (by norm_num)
  exact ⟨psi, phi, h, fun l a b => (he l a b).1⟩

end S2wav
