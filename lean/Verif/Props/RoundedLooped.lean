import Verif.Props.RoundedDirectional
import Verif.Lemmas.FloatLoopDir

/-! # C106: the looped directional filters in double precision

`filters_directional` (`Model/IeeeFilters.lean`, `spin0 = 0`) executed in IEEE double precision with the default `lam = 2`, next to
`filters_directional_vectorised`, and the transforms that take these filters as an argument. -/

namespace S2wav
open Classical

variable {m : Libm} {lg : F64 → F64} {jm : JMax} {L N J J_min : ℤ} {X : ℤ → ℤ → ℝ}

/-! ### Helpers -/

/-- everything known of the result -/
structure LoopDir64 (m : Libm) (lg : F64 → F64) (L N J J_min spin : ℤ) (psi : Arr3 ℂ) (phi : Arr1 ℝ) (X p : ℤ → ℤ → ℝ) : Prop where
  k : FloatK J L X
  lp : Loop64 L J_min J X p
  wav : psi = Arr3.of (J + 1) L (2 * L - 1) fun j l k => psiG m lg p ufac N |spin| j l (k - (L - 1))
  scal : phi = Arr1.of L fun l => phiD64 X J_min |spin| l

theorem loopDir64_exists (hm : m.Ok) (hs : Libm.Special m lg) (hT : TopScale jm L 2 J) (hL : L ≤ 2 ^ 53) (hJ : J ≤ 1000)
    (hN : 1 ≤ N) (hN' : N ≤ 990) (h0 : 0 ≤ J_min) (h1 : J_min < J) (spin : ℤ) :
    ∃ (psi : Arr3 ℂ) (phi : Arr1 ℝ) (X p : ℤ → ℤ → ℝ), filters_directional64 m lg jm L N J_min 2 spin = .ok (psi.map C64.ofC, phi.map F64.fin) ∧
      LoopDir64 m lg L N J J_min spin psi phi X p := by
  obtain ⟨X, hX, hk, hf⟩ := filters_axisym_vectorised64_ok hm hT.hJ hT.hL hL hJ h0 h1
  obtain ⟨p, hp, -, h⟩ := filters_directional64_ok hs hT.hJ hT.hL hL hN hN' h0 h1 hX hk spin
  refine ⟨_, _, X, p, ?_, hX, hp, rfl, rfl⟩
  rw [h, map_of3, map_of1]

theorem loopDir64_elim (hm : m.Ok) (hs : Libm.Special m lg) (hT : TopScale jm L 2 J) (hL : L ≤ 2 ^ 53) (hJ : J ≤ 1000)
    (hN : 1 ≤ N) (hN' : N ≤ 990) (h0 : 0 ≤ J_min) (h1 : J_min < J) {spin : ℤ} {psi : Arr3 ℂ} {phi : Arr1 ℝ}
    (h : filters_directional64 m lg jm L N J_min 2 spin = .ok (psi.map C64.ofC, phi.map F64.fin)) :
    ∃ X p, LoopDir64 m lg L N J J_min spin psi phi X p := by
  obtain ⟨psi', phi', X, p, h', hd⟩ := loopDir64_exists hm hs hT hL hJ hN hN' h0 h1 spin
  rw [h] at h'
  simp only [Except.ok.injEq, Prod.mk.injEq] at h'
  rw [← map_ofC_inj h'.1, ← map_fin_inj h'.2] at hd
  exact ⟨X, p, hd⟩

/-! ### C106 -/

/-- **C106** the looped directional filters in double precision, for `lam = 2`, any band-limit up to 2^53, up to 990 directions
and any spin: no exception, no infinity, no NaN; the shapes are right; the scaling function is that of the vectorised routine,
bit for bit; a wavelet entry is exactly zero for scales below `J_min`, outside the two bands of its scale, below the spin, for
orders above the degree or not below `N`, and for orders of the wrong parity. -/
theorem C106_looped (hm : m.Ok) (hs : Libm.Special m lg) (hT : TopScale jm L 2 J) (hL : L ≤ 2 ^ 53) (hJ : J ≤ 1000)
    (hN : 1 ≤ N) (hN' : N ≤ 990) (h0 : 0 ≤ J_min) (h1 : J_min < J) (spin : ℤ) :
    ∃ (psi psi' : Arr3 ℂ) (phi : Arr1 ℝ), filters_directional64 m lg jm L N J_min 2 spin = .ok (psi.map C64.ofC, phi.map F64.fin) ∧
      filters_directional_vectorised64 m lg jm L N J_min 2 spin = .ok (psi'.map C64.ofC, phi.map F64.fin) ∧
      psi.d = J + 1 ∧ psi.r = L ∧ psi.c = 2 * L - 1 ∧ phi.n = L ∧
      (∀ j l n, psi.v j l (L - 1 + n) ≠ 0 → J_min ≤ j ∧
        |spin| ≤ l ∧ (2 : ℝ) ^ (j - 1) < l ∧ (l : ℝ) < 2 ^ (j + 1) ∧ |n| ≤ l ∧ |n| < N ∧ (N + n) % 2 ≠ 0) ∧
      (∀ l, phi.v l ≠ 0 → |spin| ≤ l ∧ (l : ℝ) < 2 ^ J_min) ∧
      -- up to `L = 17` the wavelets from `J_min` on are those of the vectorised routine up to rounding, with the same phase
      (L ≤ 17 → ∀ j l k, J_min ≤ j → 0 ≤ l → (∃ ν : ℂ, ‖ν‖ = 1 ∧ psi.v j l k = ν * ‖psi.v j l k‖ ∧ psi'.v j l k = ν * ‖psi'.v j l k‖) ∧
        8 * Real.pi ^ 2 / (2 * l + 1) * |‖psi.v j l k‖ ^ 2 - ‖psi'.v j l k‖ ^ 2| ≤ 1 / 2 ^ 29 ∧
        (N ≤ 41 → 8 * Real.pi ^ 2 / (2 * l + 1) * |‖psi.v j l k‖ ^ 2 - ‖psi'.v j l k‖ ^ 2| ≤ 1 / 2 ^ 41)) := by
  obtain ⟨X, hX, hk, hf⟩ := filters_axisym_vectorised64_ok hm hT.hJ hT.hL hL hJ h0 h1
  obtain ⟨p, hp, -, h⟩ := filters_directional64_ok hs hT.hJ hT.hL hL hN hN' h0 h1 hX hk spin
  obtain ⟨psi', phi', X', h', hd, hax⟩ := dir64_exists' hm hs hT hL hJ hN hN' h0 h1 spin
  rw [hf] at hax
  simp only [Except.ok.injEq, Prod.mk.injEq] at hax
  have e2 : ∀ l, 0 ≤ l → l < L → rnd (Real.sqrt (X J_min l)) = rnd (Real.sqrt (X' J_min l)) := by
    intro l a b
    have := congrArg (fun q => Arr1.v q l) hax.2
    simp only [Arr1.of_v _ _ _ (⟨a, b⟩ : 0 ≤ l ∧ l < L)] at this
    injection this
  have e1 : ∀ j l, 0 ≤ j → j < J + 1 → 0 ≤ l → l < L → psi64 (X (j + 1) l) (X j l) = psi64 (X' (j + 1) l) (X' j l) := by
    intro j l a b c d
    have := congrArg (fun q => Arr2.v q j l) hax.1
    simp only [Arr2.of_v _ _ _ _ _ (⟨a, b, c, d⟩ : 0 ≤ j ∧ j < J + 1 ∧ 0 ≤ l ∧ l < L)] at this
    injection this
  have hphi : phi' = Arr1.of L fun l => phiD64 X J_min |spin| l := by
    rw [hd.scal]
    refine Arr1.of_congr fun l a b => ?_
    unfold phiD64
    rw [e2 l a b]
  refine ⟨Arr3.of (J + 1) L (2 * L - 1) fun j l k => psiG m lg p ufac N |spin| j l (k - (L - 1)), psi', phi', ?_, h', rfl, rfl, rfl, by rw [hphi]; rfl, fun j l n hne => ?_, fun l hne => ?_, fun hL17 j l k hj hl0 => ?_⟩
  · rw [h, hphi, map_of3, map_of1]
  · by_cases hr : 0 ≤ j ∧ j < J + 1 ∧ 0 ≤ l ∧ l < L ∧ 0 ≤ L - 1 + n ∧ L - 1 + n < 2 * L - 1
    · rw [Arr3.of_v _ _ _ _ _ _ _ hr, add_sub_cancel_left] at hne
      obtain ⟨a, b, -, c, d, e⟩ := psiG_support hN hne
      obtain ⟨f, g, i⟩ := hp.band hX h0 (by omega) hr.2.2.1 hr.2.2.2.1 b
      exact ⟨f, a, g, i, c, d, e⟩
    · exact absurd (Arr3.junk _ j l _ hr) hne
  · rw [hphi] at hne
    by_cases hr : 0 ≤ l ∧ l < L
    · rw [Arr1.of_v _ _ _ hr] at hne
      exact phiD64_support hX h0 h1.le hr.1 hr.2 hne
    · exact absurd (Arr1.junk _ l hr) hne
  · rw [hd.wav]
    by_cases hr : 0 ≤ j ∧ j < J + 1 ∧ 0 ≤ l ∧ l < L ∧ 0 ≤ k ∧ k < 2 * L - 1
    swap
    · rw [(Arr3.of (J + 1) L (2 * L - 1) _).junk j l k hr, (Arr3.of (J + 1) L (2 * L - 1) _).junk j l k hr]
      exact ⟨⟨1, by simp⟩, by norm_num, fun _ => by norm_num⟩
    rw [Arr3.of_v _ _ _ _ _ _ _ hr, Arr3.of_v _ _ _ _ _ _ _ hr, psiD64_eq]
    have ep : p j l = psi64 (X' (j + 1) l) (X' j l) := by
      rw [hp.eq j l hj (by omega) hl0 hr.2.2.2.1 (rnd_nonneg (sub_nonneg.2 (hX.mono hL17 hr.1 (by omega) hl0 hr.2.2.2.1))), e1 j l hr.1 hr.2.1 hl0 hr.2.2.2.1]
    have hph : ∀ (a : ℤ → ℤ → ℝ) (w : ℤ → ℝ), 0 ≤ a j l → 0 ≤ w l → psiG m lg a w N |spin| j l (k - (L - 1)) =
        nuC N * ‖psiG m lg a w N |spin| j l (k - (L - 1))‖ := by
      intro a w ha hw
      unfold psiG
      split_ifs
      · simp
      · rw [norm_mul, nuC_norm, one_mul, Complex.norm_real, Real.norm_of_nonneg]
        exact rnd_nonneg (mul_nonneg (rnd_nonneg (mul_nonneg ha hw)) (sig64_nonneg _ _ _))
    have hw := wfac_rl hl0 (show l < 2 ^ 53 by omega)
    have hu := ufac_rl hl0 (show l < 2 ^ 53 by omega)
    obtain ⟨q0, q1⟩ := hp.range' hX h0 (show j ≤ J by omega) hl0 hr.2.2.2.1
    refine ⟨⟨nuC N, nuC_norm N, hph _ _ q0 hu.2.le, hph _ _ (psi64_nonneg _ _) hw.2.le⟩, ?_⟩
    by_cases hl : l < |spin|
    · unfold psiG
      rw [if_pos hl, if_pos hl]
      exact ⟨by norm_num, fun _ => by norm_num⟩
    have hl' : (0 : ℝ) ≤ l := by exact_mod_cast hl0
    have hpi := Real.pi_pos
    have n1 := psiG_sq (n := k - (L - 1)) (elmin := |spin|) hs hN hN' hl0 (show l < 2 ^ 53 by omega) q0 q1 hu (ufac_le hl0 (by omega)) (by omega)
    have n2 := psiG_sq (a := fun j l => psi64 (X' (j + 1) l) (X' j l)) (n := k - (L - 1)) (elmin := |spin|) hs hN hN' hl0 (show l < 2 ^ 53 by omega)
      (psi64_nonneg _ _) (by change psi64 _ _ ≤ 2; rw [← ep]; exact q1) ⟨hw.1.mono (by norm_num), hw.2⟩ (wfac_le hl0 (by omega)) (show |spin| ≤ l by omega)
    change |_ - psi64 _ _ ^ 2 * _| ≤ psi64 _ _ ^ 2 * _ * _ + _ at n2
    rw [← ep] at n2
    have hg : 0 ≤ 8 * Real.pi ^ 2 / (2 * l + 1) := by positivity
    have hc1 : ‖sdir N l (k - (L - 1))‖ ^ 2 ≤ 1 := by
      by_cases h : 1 ≤ l ∧ |k - (L - 1)| ≤ gam N l ∧ (N + (k - (L - 1))) % 2 ≠ 0
      · exact (sig64_step hs hN hN' h).choose_spec.2.2.2.1
      · rw [sdir_eq_zero h, norm_zero]; norm_num
    have hA4 : p j l ^ 2 ≤ 4 := by nlinarith
    have hAc : p j l ^ 2 * ‖sdir N l (k - (L - 1))‖ ^ 2 ≤ 4 := by
      calc _ ≤ 4 * (1 : ℝ) := mul_le_mul hA4 hc1 (by positivity) (by norm_num)
        _ = 4 := by norm_num
    have hAc0 : 0 ≤ p j l ^ 2 * ‖sdir N l (k - (L - 1))‖ ^ 2 := by positivity
    obtain ⟨hE0, hE1, hE2⟩ := binE_bounds N
    have key : 8 * Real.pi ^ 2 / (2 * l + 1) * |‖psiG m lg p ufac N |spin| j l (k - (L - 1))‖ ^ 2 -
        ‖psiG m lg (fun j l => psi64 (X' (j + 1) l) (X' j l)) wfac N |spin| j l (k - (L - 1))‖ ^ 2| ≤ 8 * (binE N + 1 / 2 ^ 45) + 1 / 2 ^ 67 := by
      rw [← abs_of_nonneg hg, ← abs_mul, mul_sub]
      rw [abs_sub_comm] at n2
      refine (abs_sub_le _ _ _).trans ((add_le_add n1 n2).trans ?_)
      have : p j l ^ 2 * ‖sdir N l (k - (L - 1))‖ ^ 2 * (binE N + 1 / 2 ^ 45) ≤ 4 * (binE N + 1 / 2 ^ 45) :=
        mul_le_mul_of_nonneg_right hAc (by positivity)
      generalize p j l ^ 2 * ‖sdir N l (k - (L - 1))‖ ^ 2 * (binE N + 1 / 2 ^ 45) = q at *
      norm_num at *; linarith
    refine ⟨key.trans ?_, fun hN => key.trans ?_⟩
    · norm_num at *; linarith
    · rw [hE2 hN]; norm_num

/-- **C106** they are admissible up to rounding, at every degree from the spin on: the frame sum is at least `1 - 2^-32` and at
most `1.002` (up to `2^-28`) at any band-limit; at least `1 - 2^-44` for `N ≤ 41`, and then at most `1 + 2^-44` for `L ≤ 17`. -/
theorem C106_admissible (hm : m.Ok) (hs : Libm.Special m lg) (hT : TopScale jm L 2 J) (hL : L ≤ 2 ^ 53) (hJ : J ≤ 1000)
    (hN : 1 ≤ N) (hN' : N ≤ 990) (h0 : 0 ≤ J_min) (h1 : J_min < J) {spin : ℤ} {psi : Arr3 ℂ} {phi : Arr1 ℝ}
    (h : filters_directional64 m lg jm L N J_min 2 spin = .ok (psi.map C64.ofC, phi.map F64.fin)) {l : ℤ} (hl0 : 0 ≤ l) (hl1 : l < L)
    (hl : |spin| ≤ l) :
    1 - 1 / 2 ^ 32 ≤ frameSum J_min J L psi phi l ∧ frameSum J_min J L psi phi l ≤ 1.002 + 1 / 2 ^ 28 ∧
    (N ≤ 41 → 1 - 1 / 2 ^ 44 ≤ frameSum J_min J L psi phi l) ∧
    (L ≤ 17 → frameSum J_min J L psi phi l ≤ 1 + 1 / 2 ^ 31) ∧
    (N ≤ 41 → L ≤ 17 → frameSum J_min J L psi phi l ≤ 1 + 1 / 2 ^ 44) := by
  obtain ⟨X, p, hd⟩ := loopDir64_elim hm hs hT hL hJ hN hN' h0 h1 h
  obtain ⟨s1, s2, s3, s4⟩ := energy64_bounds hd.k hT.hLJ h0 h1 hl0 hl1 rfl
  obtain ⟨u1, u2⟩ := hd.lp.energy hd.k h0 hl0 hl1
  have u3 : L ≤ 17 → ∑ j ∈ Finset.Icc J_min J, p j l ^ 2 = ∑ j ∈ Finset.Icc J_min J, psi64 (X (j + 1) l) (X j l) ^ 2 := by
    intro hL
    refine Finset.sum_congr rfl fun j hj => ?_
    rw [Finset.mem_Icc] at hj
    rw [hd.lp.eq j l hj.1 hj.2 hl0 hl1 (rnd_nonneg (sub_nonneg.2 (hd.k.mono hL (by omega) (by omega) hl0 hl1)))]
  have hF := frameSumG (m := m) (lg := lg) (a := p) (w := ufac) (elmin := |spin|) hd.k hL hJ hs hN hN' h0 h1 hl0 hl1
    (fun j a b => (hd.lp.range' hd.k h0 b hl0 hl1).1) (fun j a b => (hd.lp.range' hd.k h0 b hl0 hl1).2)
    (fun j a b hz => by subst hz; exact hd.lp.zero hd.k h0 b (by omega)) (ufac_rl hl0 (by omega)) (ufac_le hl0 (by omega)) hl rfl
  rw [← hd.wav, ← hd.scal] at hF
  obtain ⟨hE0, hE1, hE2⟩ := binE_bounds N
  set f := rnd (Real.sqrt (X J_min l)) ^ 2
  set Q := ∑ j ∈ Finset.Icc J_min J, psi64 (X (j + 1) l) (X j l) ^ 2
  set P := ∑ j ∈ Finset.Icc J_min J, p j l ^ 2
  set F := frameSum J_min J L psi phi l
  have hS1 : f + P ≤ 1.01 := by norm_num at *; linarith
  have k1 : (f + P) * (binE N + 1 / 2 ^ 45) ≤ 1.01 * (binE N + 1 / 2 ^ 45) :=
    mul_le_mul_of_nonneg_right hS1 (by positivity)
  have hF' := abs_le.1 hF
  clear hF
  generalize (f + P) * (binE N + 1 / 2 ^ 45) = q at *
  refine ⟨?_, ?_, fun hN => ?_, fun hL => ?_, fun hN hL => ?_⟩
  · norm_num at *; linarith
  · norm_num at *; linarith
  · rw [hE2 hN] at k1
    norm_num at *; linarith
  · have := s4 hL
    have := u3 hL
    norm_num at *; linarith
  · have := s4 hL
    have := u3 hL
    rw [hE2 hN] at k1
    norm_num at *; linarith

theorem loopDir64_filters {c : Cfg} {p : ℤ → ℤ → ℝ} {psi : Arr3 ℂ} {phi : Arr1 ℝ} (hs : Libm.Special m lg) (hL : 1 ≤ c.L) (hlam : c.lam = 2) (hN : 1 ≤ c.N)
    (h0 : 0 ≤ c.J_min) (h1 : c.J_min < J) (hre : c.reality = true → c.N ≤ 41)
    (hd : LoopDir64 m lg c.L c.N J c.J_min c.spin psi phi X p) (mr : Bool) : c.Filters J mr psi phi := by
  rw [hd.wav, hd.scal]
  refine filters64_aux hL hlam hN h0 h1 hd.k (fun j l n a1 a2 a3 a4 hne => ?_) (fun hr j l n => psiG_conj hs hN (hre hr)) mr
  obtain ⟨a, b, hl1', d, e, f⟩ := psiG_support hN hne
  exact ⟨(hd.lp.band hd.k h0 a2 a3 a4 b).2, a, hl1', d, e, f⟩

section
variable {c : Cfg} {b : Backend} {psi : Arr3 ℂ} {phi : Arr1 ℝ} {f : Px} {flm : Arr2 ℂ}

/-- **C106** in the transforms they qualify as filters: zero wherever the transforms do not look, and symmetric for real signals
when there are at most 41 directions. -/
theorem C106_filters (hm : m.Ok) (hs : Libm.Special m lg) (hv : c.Core jm J) (hlam : c.lam = 2) (hL : c.L ≤ 2 ^ 53)
    (hJ : J ≤ 1000) (hN : c.N ≤ 990) (hre : c.reality = true → c.N ≤ 41)
    (h : filters_directional64 m lg jm c.L c.N c.J_min c.lam c.spin = .ok (psi.map C64.ofC, phi.map F64.fin)) (mr : Bool) :
    c.Filters J mr psi phi := by
  have hT := hv.top
  rw [hlam] at h hT
  obtain ⟨X, p, hd⟩ := loopDir64_elim hm hs hT hL hJ hv.hN hN hv.h0 hv.h1 h
  exact loopDir64_filters hs hT.hL hlam hv.hN hv.h0 hv.h1 hre hd mr

/-- **C106** with looped directional filters computed in double precision, analysis followed by synthesis returns every harmonic
coefficient of a band-limited signal multiplied by a factor close to 1: within `0.002` (up to `2^-28`) at any band-limit, within
`2^-31` for `L ≤ 17`, and within `2^-44` if also `N ≤ 41`. -/
theorem C106_gain (hm : m.Ok) (hs : Libm.Special m lg) (hw : b.Works jm c J) (hb : b.isBase = false) (hlam : c.lam = 2) (hL : c.L ≤ 2 ^ 53) (hJ : J ≤ 1000)
    (hN : c.N ≤ 990) (hre : c.reality = true → c.N ≤ 41)
    (h : filters_directional64 m lg jm c.L c.N c.J_min c.lam c.spin = .ok (psi.map C64.ofC, phi.map F64.fin))
    (hf : (b.engine c).sphF f c.L = .ok flm) (hbl : BL2 c.L c.spin flm) :
    ∃ w s glm, b.analysisWith jm c (psi, phi) f = .ok (w, s) ∧
      b.synthesisWith jm c (psi, phi) w s = (b.engine c).sphI glm c.L ∧ glm.r = c.L ∧ glm.c = 2 * c.L - 1 ∧
      (∀ l m, ‖co2 glm l m - co2 flm l m‖ ≤ (0.002 + 1 / 2 ^ 28) * ‖co2 flm l m‖) ∧
      (c.L ≤ 17 → ∀ l m, ‖co2 glm l m - co2 flm l m‖ ≤ 1 / 2 ^ 31 * ‖co2 flm l m‖) ∧
      (c.L ≤ 17 → c.N ≤ 41 → ∀ l m, ‖co2 glm l m - co2 flm l m‖ ≤ 1 / 2 ^ 44 * ‖co2 flm l m‖) := by
  have hv := hw.valid
  have hT := hv.top
  rw [hlam] at h hT
  obtain ⟨X, p, hd⟩ := loopDir64_elim hm hs hT hL hJ hv.hN hN hv.h0 hv.h1 h
  have hG := loopDir64_filters hs hT.hL hlam hv.hN hv.h0 hv.h1 hre hd true
  obtain ⟨w, s, glm, h1, h2, h3, h4, h5⟩ := C67_round_trip hw hb hG hf
  refine ⟨w, s, glm, h1, h2, h3, h4, ?_⟩
  have key : ∀ e : ℝ, 0 ≤ e → (∀ l, 0 ≤ l → l < c.L → |c.spin| ≤ l → |frameSum c.J_min J c.L psi phi l - 1| ≤ e) →
      ∀ l m, ‖co2 glm l m - co2 flm l m‖ ≤ e * ‖co2 flm l m‖ := by
    intro e he hF l m
    by_cases hz : co2 flm l m = 0
    · rw [h5, hz]; simp
    · have hr : 0 ≤ l ∧ l < c.L ∧ |c.spin| ≤ l := by
        refine ⟨?_, ?_, ?_⟩ <;> by_contra hc
        · exact hz (hbl.zero l m (Or.inl (by have := abs_nonneg m; omega)))
        · exact hz (flm.junk _ _ (by have := hbl.r; omega))
        · exact hz (hbl.zero l m (Or.inr (by omega)))
      have e1 : co2 glm l m - co2 flm l m = ((frameSum c.J_min J c.L psi phi l - 1 : ℝ) : ℂ) * co2 flm l m := by
        rw [h5]; push_cast; ring
      rw [e1, norm_mul, Complex.norm_real, Real.norm_eq_abs]
      exact mul_le_mul_of_nonneg_right (hF l hr.1 hr.2.1 hr.2.2) (norm_nonneg _)
  refine ⟨key _ (by norm_num) fun l a1 a2 a3 => ?_, fun hL' => key _ (by norm_num) fun l a1 a2 a3 => ?_, fun hL' hN' => key _ (by norm_num) fun l a1 a2 a3 => ?_⟩ <;>
    obtain ⟨b1, b2, b3, b4, b5⟩ := C106_admissible hm hs hT hL hJ hv.hN hN hv.h0 hv.h1 h a1 a2 a3
  · rw [abs_le]; norm_num at *; constructor <;> linarith
  · have := b4 hL'
    rw [abs_le]; norm_num at *; constructor <;> linarith
  · have := b3 hN'
    have := b5 hN' hL'
    rw [abs_le]; norm_num at *; constructor <;> linarith

end

/-- **C106** a bad `J_min` raises `ValueError`, as in exact arithmetic -/
theorem C106_range (hJ : jm L 2 = .ok J) (hL : 0 ≤ J + 1 ∧ 1 ≤ L) (h : J_min < 0 ∨ J ≤ J_min) (spin : ℤ) :
    filters_directional64 m lg jm L N J_min 2 spin = .error .valueError := by
  unfold filters_directional64
  simp only [hJ, Py.bind_ok, zeros1, zeros3]
  rw [if_neg (by omega), if_neg (by omega), (C100_range hJ h).2]
  rfl

/-- the hypotheses are met by a default call: `L = 16`, `N = 3`, `J_min = 0`, `lam = 2` -/
example : ∃ (psi : Arr3 ℂ) (phi : Arr1 ℝ),
    filters_directional64 Libm.exact lgExact j_max 16 3 0 2 0 = .ok (psi.map C64.ofC, phi.map F64.fin) ∧
    ∀ l, 0 ≤ l → l < 16 → |frameSum 0 4 16 psi phi l - 1| ≤ 1 / 2 ^ 44 := by
  have hJ : j_max 16 2 = .ok 4 := by
    have h := j_max_eq (L := 16) (lam := 2) (by norm_num) (by norm_num)
    rw [h]
    have : Real.log ((16 : ℤ) : ℝ) / Real.log 2 = 4 := by
      rw [div_eq_iff (Real.log_pos (by norm_num)).ne']
      have : ((16 : ℤ) : ℝ) = 2 ^ 4 := by norm_num
      rw [this, Real.log_pow]; norm_num
    rw [this]; norm_num
  have hT := TopScale.of_j_max (L := 16) (lam := 2) (by norm_num) (by norm_num) hJ
  obtain ⟨psi, -, phi, h, -⟩ := C106_looped (N := 3) Libm.exact_ok lgExact_special hT (by norm_num) (by norm_num) (by norm_num) (by norm_num) le_rfl
    (by norm_num : (0 : ℤ) < 4) 0
  refine ⟨psi, phi, h, fun l a b => ?_⟩
  obtain ⟨-, -, q1, -, q2⟩ := C106_admissible Libm.exact_ok lgExact_special hT (by norm_num) (by norm_num) (by norm_num) (by norm_num) le_rfl
    (by norm_num : (0 : ℤ) < 4) h a b (by simpa using a)
  have := q1 (by norm_num)
  have := q2 (by norm_num) (by norm_num)
  rw [abs_le]
  constructor <;> linarith

/-- and a round trip of a real signal with such filters: `L = 3` -/
example : ∃ (psi : Arr3 ℂ) (phi : Arr1 ℝ) (w : List Px) (s : Px) (glm : Arr2 ℂ),
    filters_directional64 Libm.exact lgExact j_max 3 (exCfg true 0).N 0 2 0 = .ok (psi.map C64.ofC, phi.map F64.fin) ∧
    Backend.analysisWith j_max (.jax Toy.jax) (exCfg true 0) (psi, phi) (Toy.sphInv true exFlm 3) = .ok (w, s) ∧
    Backend.synthesisWith j_max (.jax Toy.jax) (exCfg true 0) (psi, phi) w s = ((Backend.jax Toy.jax).engine (exCfg true 0)).sphI glm 3 ∧
    ‖co2 glm 1 0 - 1‖ ≤ 1 / 2 ^ 44 := by
  have hw := exCfg_works (b := .jax Toy.jax) (Or.inr (Or.inr (Or.inl rfl))) true 0
  obtain ⟨p, hp, hp'⟩ := hw.exact.sph 3 exFlm (by norm_num) exFlm_bl (fun _ => exFlm_herm)
  cases hp
  have hT := hw.valid.top
  obtain ⟨psi, -, phi, h, -⟩ := C106_looped (N := (exCfg true 0).N) Libm.exact_ok lgExact_special hT (by norm_num [exCfg]) (by norm_num) hw.valid.hN
    (hw.valid.hNL.trans (by norm_num [exCfg])) hw.valid.h0 hw.valid.h1 0
  obtain ⟨w, s, glm, h1, h2, -, -, -, -, h3⟩ := C106_gain Libm.exact_ok lgExact_special hw rfl rfl (by norm_num [exCfg]) (by norm_num) (hw.valid.hNL.trans (by norm_num [exCfg]))
    (fun _ => hw.valid.hNL.trans (by norm_num [exCfg])) h hp' exFlm_bl
  refine ⟨psi, phi, w, s, glm, h, h1, h2, ?_⟩
  have := h3 (by norm_num [exCfg]) (hw.valid.hNL.trans (by norm_num [exCfg])) 1 0
  rwa [exFlm_co, norm_one, mul_one] at this

end S2wav
