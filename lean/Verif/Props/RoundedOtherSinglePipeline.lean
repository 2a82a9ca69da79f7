import Verif.Props.RoundedSinglePipeline
import Verif.Props.RoundedOtherPipeline
import Verif.Props.RoundedOtherSingle

/-! # C132: the JAX transforms in single precision with `lam = 3`, `4` and `8`

C117 for the other dilation parameters whose generating function stays finite and accurate: `analysis` and `synthesis` of `s2wav/transforms/wavelet.py`
and `wavelet_precompute.py` in JAX's default 32-bit mode, with the filters of the NumPy routine (double precision, converted) or of the JAX
routine (single precision). -/

namespace S2wav.Single
open Classical

/-- what the quadrature of the tiling functions may add to the relative error of a round trip: nothing for `lam = 3`, `lam = 4` and `L ≤ 1025`, or
`lam = 8` and `L ≤ 513` -/
noncomputable def otherQuad (c : Cfg) : ℝ :=
  if c.lam = 3 ∨ c.lam = 4 ∧ c.L ≤ 1025 ∨ c.lam = 8 ∧ c.L ≤ 513 then 0 else 1 / 900

theorem otherQuad_le (c : Cfg) : otherQuad c ≤ 1 / 900 := by
  unfold otherQuad
  split_ifs <;> norm_num

section
variable {O : Ops C64 F64} {jm : JMax} {c : Cfg} {J : ℤ} {psi : Arr3 ℂ} {phi : Arr1 ℝ} {flm : Arr2 ℂ} {P : Type} {c1 : F64} {δ κ τ : ℝ} {f : P}

theorem other_psi_le {m : Libm} {lg : F64 → F64} {X : ℤ → ℤ → ℝ} {L N J_min spin : ℤ} {lam : ℝ} [hlf : Fact (1 < lam)] (hs : Libm.Special m lg) (hL : L ≤ 2 ^ 23) (hN : 1 ≤ N) (hN' : N ≤ 990)
    (hd : S2wav.Gen.Dir64 lam m lg L N J J_min spin psi phi X) (j l k : ℤ) : ‖psi.v j l k‖ ≤ 2 ^ (12 : ℤ) := by
  rw [hd.wav]
  by_cases hr : 0 ≤ j ∧ j < J + 1 ∧ 0 ≤ l ∧ l < L ∧ 0 ≤ k ∧ k < 2 * L - 1
  · rw [Arr3.of_v _ _ _ _ _ _ _ hr]
    by_cases hel : |spin| ≤ l
    · have h := S2wav.Gen.psiD64_sq hd.k (by omega) hs hN hN' (n := k - (L - 1)) hr.1 (by omega : j ≤ J) hr.2.2.1 hr.2.2.2.1 hel
      have h2 := hd.k.psi_le hr.1 hr.2.1 hr.2.2.1 hr.2.2.2.1
      have h3 := psi64_nonneg (X (j + 1) l) (X j l)
      have h4 := sdir_le (N := N) (el := l) (m := k - (L - 1)) hN
      have h5 := k8_lo hr.2.2.1 (by omega : l < 2 ^ 23)
      have h6 := (binE_bounds N).1
      have h7 := (binE_bounds N).2.1
      unfold k8 at h5
      generalize psi64 (X (j + 1) l) (X j l) = p at *
      have hs0 : 0 ≤ ‖sdir N l (k - (L - 1))‖ ^ 2 := by positivity
      generalize ‖sdir N l (k - (L - 1))‖ ^ 2 = s at *
      generalize binE N = b at *
      generalize 8 * Real.pi ^ 2 / (2 * (l : ℝ) + 1) = w at *
      have e1 : p ^ 2 * s ≤ 4 := by nlinarith [mul_le_mul_of_nonneg_left h4 (sq_nonneg p)]
      have e0 : 0 ≤ p ^ 2 * s := by positivity
      generalize p ^ 2 * s = q at *
      have e2 := (abs_le.1 h).2
      refine abs_le_of_sq_le_sq' ?_ (by positivity) |>.2
      have hn := sq_nonneg ‖psiD64 m lg X N |spin| j l (k - (L - 1))‖
      generalize ‖psiD64 m lg X N |spin| j l (k - (L - 1))‖ ^ 2 = y at *
      have e3 := mul_le_mul_of_nonneg_right h5 hn
      have e4 : q * (b + 1 / 2 ^ 45) ≤ 4 * (1 / 2 ^ 33 + 1 / 2 ^ 45) := mul_le_mul e1 (by linarith) (by positivity) (by norm_num)
      clear * - e3 e4 e1 e2
      norm_num at *
      linarith
    · unfold psiD64
      rw [if_pos (by omega), norm_zero]; positivity
  · rw [Arr3.of_out _ _ _ _ _ _ _ hr, norm_zero]; positivity

section
variable {m : Libm} {lg : F64 → F64}

/-- **C132** converting the double precision filters for these `lam` to single precision: nothing overflows, every entry becomes the nearest single
precision number, the result qualifies as filters, and the frame sum changes by less than `2^-22`. -/
theorem C132_filters (hm : m.Ok) (hsp : Libm.Special m lg) (hr : OtherRange m c.lam c.L J) (hv : c.Core jm J) (hL : c.L ≤ 2 ^ 23) (hN : c.N ≤ 990)
    (hre : c.reality = true → c.N ≤ 41)
    (h : filters_directional_vectorised64 m lg jm c.L c.N c.J_min c.lam c.spin = .ok (psi.map C64.ofC, phi.map F64.fin)) :
    ∃ (psi' : Arr3 ℂ) (phi' : Arr1 ℝ),
      (psi.map C64.ofC).map castC = psi'.map C64.ofC ∧ (phi.map F64.fin).map cast = phi'.map F64.fin ∧
      (∀ j l k, Nearest (psi.v j l k).re (.fin (psi'.v j l k).re) ∧ Nearest (psi.v j l k).im (.fin (psi'.v j l k).im)) ∧
      (∀ l, Nearest (phi.v l) (.fin (phi'.v l))) ∧ (∀ mr, c.Filters J mr psi' phi') ∧
      ∀ l, 0 ≤ l → l < c.L → |frameSum c.J_min J c.L psi' phi' l - frameSum c.J_min J c.L psi phi l| ≤ 1 / 2 ^ 22 := by
  obtain ⟨hK, -, hJ, hlam, -⟩ := other_kOk hm hr hv.top
  haveI : Fact (1 < c.lam) := ⟨hlam⟩
  obtain ⟨X, hd⟩ := S2wav.Gen.dir64_elim hK hsp hv.top (by omega) (by omega) hv.hN hN hv.h0 hv.h1 h
  have hG := S2wav.Gen.dir64_filters hsp hv.top.hL rfl hv.hN hv.h0 hv.h1 hre rfl hd
  have hF : ∀ l, 0 ≤ l → l < c.L → frameSum c.J_min J c.L psi phi l ≤ 1.0015 := by
    intro l a b
    by_cases hl : |c.spin| ≤ l
    · have := (abs_le.1 (hd.admissible hsp hv.top (by omega) (by omega) hv.hN hN hv.h0 hv.h1 a b hl).1).2
      norm_num at *
      linarith
    · have z1 : phi.v l = 0 := by
        by_contra hne
        exact hl ((hG true).scal l hne).2
      have z2 : ∀ j k, psi.v j l k = 0 := fun j k => by
        by_contra hne
        have := (hG true).wav j l (k - (c.L - 1)) (by rw [add_sub_cancel]; exact hne)
        exact hl this.2.2.2.2.2
      unfold frameSum
      simp [z1, z2]
      norm_num
  have hpsi : ∀ j l k, ‖psi.v j l k‖ ≤ 2 ^ (120 : ℤ) :=
    fun j l k => (other_psi_le hsp hL hv.hN hN hd j l k).trans (p2_mono (by norm_num))
  have hphi : ∀ l, |phi.v l| ≤ 2 ^ (120 : ℤ) := by
    intro l
    by_cases hl : 0 ≤ l ∧ l < c.L
    · refine (frame_phi (J_min := c.J_min) (J := J) (L := c.L) (psi := psi) hl.1 (by omega) ((hF l hl.1 hl.2).trans (by norm_num))).trans (p2_mono (by norm_num))
    · rw [phi.junk l (by rw [(hG true).n]; exact hl), abs_zero]; positivity
  refine ⟨psi.map rndC, phi.map rnd, cast_psi hpsi, cast_phi hphi, fun j l k => ?_, fun l => ?_, fun mr => filters_rnd (hG mr), fun l a b => ?_⟩
  · rw [map_rndC]
    exact ⟨(C115_rounding _ _).2 (of_fin ((Complex.abs_re_le_norm _).trans (hpsi j l k))),
      (C115_rounding _ _).2 (of_fin ((Complex.abs_im_le_norm _).trans (hpsi j l k)))⟩
  · rw [map_rnd]
    exact (C115_rounding _ _).2 (of_fin (hphi l))
  · refine (frame_rnd a hv.top.hL hL hv.h0 (by omega)).trans ?_
    have := hF l a b
    rw [vv_eq]
    norm_num at *
    linarith

end

theorem other_cast {m : Libm} {lg : F64 → F64} (hm : m.Ok) (hsp : Libm.Special m lg) (hr : OtherRange m c.lam c.L J) (hv : c.Core jm J) (hL : c.L ≤ 2 ^ 23)
    (hN : c.N ≤ 990) (hre : c.reality = true → c.N ≤ 41)
    (h : filters_directional_vectorised64 m lg jm c.L c.N c.J_min c.lam c.spin = .ok (psi.map C64.ofC, phi.map F64.fin)) :
    ∃ (psi' : Arr3 ℂ) (phi' : Arr1 ℝ), (psi.map C64.ofC).map castC = psi'.map C64.ofC ∧ (phi.map F64.fin).map cast = phi'.map F64.fin ∧
      (∀ mr, c.Filters J mr psi' phi') ∧ ∀ l, 0 ≤ l → l < c.L → |c.spin| ≤ l →
        |frameSum c.J_min J c.L psi' phi' l - 1| ≤ otherQuad c + 1 / 2 ^ 21 := by
  obtain ⟨psi', phi', e1, e2, -, -, hG, hFr⟩ := C132_filters hm hsp hr hv hL hN hre h
  refine ⟨psi', phi', e1, e2, hG, fun l a1 a2 a3 => ?_⟩
  obtain ⟨hK, -, hJ, hlam, hk⟩ := other_kOk hm hr hv.top
  haveI : Fact (1 < c.lam) := ⟨hlam⟩
  obtain ⟨X, hd⟩ := S2wav.Gen.dir64_elim hK hsp hv.top (by omega) (by omega) hv.hN hN hv.h0 hv.h1 h
  obtain ⟨b1, b2, -⟩ := hd.admissible hsp hv.top (by omega) (by omega) hv.hN hN hv.h0 hv.h1 a1 a2 a3
  obtain ⟨d1, d2⟩ := abs_le.1 (hFr l a1 a2)
  unfold otherQuad
  rw [abs_le]
  split_ifs with hg
  · obtain ⟨c1, c2⟩ := abs_le.1 (b2 fun j => hk hg j l a2)
    clear hk hFr b1 b2
    norm_num at *; constructor <;> linarith
  · obtain ⟨c1, c2⟩ := abs_le.1 b1
    clear hk hFr b1 b2
    norm_num at *; constructor <;> linarith

theorem other_jax {m mx : Libm} {lg : F64 → F64} (hm : m.Ok) (hsp : Special mx lg) (hr : OtherRange m c.lam c.L J) (hv : c.Core jm J) (hL : c.L ≤ 2 ^ 23)
    (hN : c.N ≤ 31)
    (h : filters_directional_jax32 m mx lg jm c.L c.N c.J_min c.lam c.spin = .ok (psi.map C64.ofC, phi.map F64.fin)) (l : ℤ) (a1 : 0 ≤ l) (a2 : l < c.L)
    (a3 : |c.spin| ≤ l) :
    |frameSum c.J_min J c.L psi phi l - 1| ≤ otherQuad c + (if c.N ≤ 15 then 1 / 2 ^ 15 else 0.0011) := by
  obtain ⟨b1, b2, b3, b4, b5⟩ := C131_admissible hm hr hsp hv.top hL hv.hN hN hv.h0 hv.h1 h a1 a2 a3
  unfold otherQuad
  rw [abs_le]
  split_ifs with h1 h2 h2
  · have := b4 h2
    have := b5 h2 h1
    clear b3 b4 b5
    norm_num at *; constructor <;> linarith
  · have := b3 h1
    clear b3 b4 b5
    norm_num at *; constructor <;> linarith
  · have := b4 h2
    clear b3 b4 b5
    norm_num at *; constructor <;> linarith
  · clear b3 b4 b5
    norm_num at *; constructor <;> linarith

/-! ### wavelet.py -/

section
variable {K : Type} {E : JaxFFTO C64 P K} {pcA pcS : List K}

/-- **C132** wavelet.py in single precision with the package's NumPy filters, which are computed in double precision and converted: the coefficients of the
input come back up to a relative error of norm `1.01 (δ + κ 2^-18) + (N + J + 5) 2^-19`, and `1/900` more for `lam = 4` and `8` at the larger
band-limits; and an absolute error for underflow. -/
theorem C132_jax {pa pb : Option (List K)}
    (hpa : Jax.precompsO E jm c.L c.N c.J_min c.lam c.sampling c.nside false c.reality pa = .ok pcA)
    (hpb : Jax.precompsO E jm c.L c.N c.J_min c.lam c.sampling c.nside true c.reality pb = .ok pcS)
    (hO : Good O) (hn : JaxNear E O c1 c J pcA pcS δ κ τ) (hδ : 0 ≤ δ) (hδ1 : δ ≤ 1) (hκ : 0 ≤ κ) (hκ1 : κ ≤ 2 ^ 18) (hτ : 0 ≤ τ) (hτ1 : τ ≤ 1)
    (hv : c.Valid jm J) (hL' : c.L ≤ 2 ^ 23) (hN' : c.N ≤ 990) (hre : c.reality = true → c.N ≤ 41) (hs : |c.spin| < c.L)
    {m : Libm} {lg : F64 → F64} (hm : m.Ok) (hr : OtherRange m c.lam c.L J) (hsp : Libm.Special m lg)
    (h : filters_directional_vectorised64 m lg jm c.L c.N c.J_min c.lam c.spin = .ok (psi.map C64.ofC, phi.map F64.fin))
    (hf : E.sphForward f c.L c.spin c.nside c.sampling c.reality = .ok (flm.map C64.ofC)) (hbl : BL2 c.L c.spin flm) (hherm : c.reality = true → Herm2 flm)
    (hFb : norm2 c.L (co2 flm) ≤ 2 ^ (20 : ℤ)) :
    ∃ w s g, Jax.analysisO O E c1 jm f c.L c.N c.J_min c.lam c.spin c.sampling c.nside c.reality (some ((psi.map C64.ofC).map castC, (phi.map F64.fin).map cast)) pa = .ok (w, s) ∧
      Jax.synthesisO O E jm w s c.L c.N c.J_min c.lam c.spin c.sampling c.nside c.reality (some ((psi.map C64.ofC).map castC, (phi.map F64.fin).map cast)) pb =
        E.sphInverse (g.map C64.ofC) c.L c.spin c.nside c.sampling c.reality ∧
      g.r = c.L ∧ g.c = 2 * c.L - 1 ∧
      norm2 c.L (fun l m => co2 g l m - co2 flm l m) ≤
        (1.01 * (δ + κ * 2 ^ (-18 : ℤ)) + (c.N + J + 5) / 2 ^ 19 + otherQuad c) * norm2 c.L (co2 flm) +
          (2 * (J + 2) * (τ + κ * 2 ^ (-50 : ℤ)) + 2 ^ (-50 : ℤ)) := by
  obtain ⟨-, -, hJ, -, -⟩ := other_kOk hm hr hv.top
  obtain ⟨psi', phi', e1, e2, hG, hF⟩ := other_cast hm hsp hr hv.core hL' hN' hre h
  rw [e1, e2]
  have hN0 : (1 : ℝ) ≤ c.N := by exact_mod_cast hv.hN
  have hJ0 : (0 : ℝ) ≤ (J : ℝ) := by have := hv.h0; have := hv.h1; exact_mod_cast (by omega : 0 ≤ J)
  refine jax_gain hpa hpb hO hn hδ hδ1 hκ hκ1 hτ hτ1 hv hL' (by omega) (by omega) (hG true) ?_ hF hf hbl hherm hFb hs ?_
  · have := otherQuad_le c
    norm_num at *; linarith
  · generalize otherQuad c = a
    norm_num
    linarith

/-- **C132** wavelet.py in single precision with the package's JAX filters, also in single precision: the relative error is
`1.01 (δ + κ 2^-18) + (N + J + 26) 2^-19` for up to 15 directions, `0.0012` more than that for up to 31; and `1/900` more at the larger band-limits. -/
theorem C132_jax_jax {pa pb : Option (List K)}
    (hpa : Jax.precompsO E jm c.L c.N c.J_min c.lam c.sampling c.nside false c.reality pa = .ok pcA)
    (hpb : Jax.precompsO E jm c.L c.N c.J_min c.lam c.sampling c.nside true c.reality pb = .ok pcS)
    (hO : Good O) (hn : JaxNear E O c1 c J pcA pcS δ κ τ) (hδ : 0 ≤ δ) (hδ1 : δ ≤ 1) (hκ : 0 ≤ κ) (hκ1 : κ ≤ 2 ^ 18) (hτ : 0 ≤ τ) (hτ1 : τ ≤ 1)
    (hv : c.Valid jm J) (hL' : c.L ≤ 2 ^ 23) (hN' : c.N ≤ 31) (hre : c.reality = true → c.N ≤ 15) (hs : |c.spin| < c.L)
    {m mx : Libm} {lg : F64 → F64} (hm : m.Ok) (hr : OtherRange m c.lam c.L J) (hsp : Special mx lg)
    (h : filters_directional_jax32 m mx lg jm c.L c.N c.J_min c.lam c.spin = .ok (psi.map C64.ofC, phi.map F64.fin))
    (hf : E.sphForward f c.L c.spin c.nside c.sampling c.reality = .ok (flm.map C64.ofC)) (hbl : BL2 c.L c.spin flm) (hherm : c.reality = true → Herm2 flm)
    (hFb : norm2 c.L (co2 flm) ≤ 2 ^ (20 : ℤ)) :
    ∃ w s g, Jax.analysisO O E c1 jm f c.L c.N c.J_min c.lam c.spin c.sampling c.nside c.reality (some (psi.map C64.ofC, phi.map F64.fin)) pa = .ok (w, s) ∧
      Jax.synthesisO O E jm w s c.L c.N c.J_min c.lam c.spin c.sampling c.nside c.reality (some (psi.map C64.ofC, phi.map F64.fin)) pb =
        E.sphInverse (g.map C64.ofC) c.L c.spin c.nside c.sampling c.reality ∧
      g.r = c.L ∧ g.c = 2 * c.L - 1 ∧
      norm2 c.L (fun l m => co2 g l m - co2 flm l m) ≤
        (1.01 * (δ + κ * 2 ^ (-18 : ℤ)) + (c.N + J + 26) / 2 ^ 19 + (if c.N ≤ 15 then 0 else 0.0012) + otherQuad c) * norm2 c.L (co2 flm) +
          (2 * (J + 2) * (τ + κ * 2 ^ (-50 : ℤ)) + 2 ^ (-50 : ℤ)) := by
  obtain ⟨-, -, hJ, -, -⟩ := other_kOk hm hr hv.top
  have hN0 : (1 : ℝ) ≤ c.N := by exact_mod_cast hv.hN
  have hJ0 : (0 : ℝ) ≤ (J : ℝ) := by have := hv.h0; have := hv.h1; exact_mod_cast (by omega : 0 ≤ J)
  refine jax_gain hpa hpb hO hn hδ hδ1 hκ hκ1 hτ hτ1 hv hL' (by omega) (by omega) (C131_filters hm hr hsp hv.core hL' hN' hre h true) ?_
    (other_jax hm hsp hr hv.core hL' hN' h) hf hbl hherm hFb hs ?_
  · have := otherQuad_le c
    split_ifs <;> norm_num at * <;> linarith
  · split_ifs <;> norm_num <;> linarith

end

/-! ### wavelet_precompute.py -/

section
variable {KW KS : Type} {E : PreFFTO C64 P KW KS} {pcA pcS : Option KS × Option KS × List KW}

/-- **C132** the same for wavelet_precompute.py with the NumPy filters -/
theorem C132_pre {k0A k0S : KS} (hk : pcA.1 = some k0A) (hk' : pcS.1 = some k0S)
    (hO : Good O) (hn : PreNear E O c1 c J pcA pcS δ κ τ) (hδ : 0 ≤ δ) (hδ1 : δ ≤ 1) (hκ : 0 ≤ κ) (hκ1 : κ ≤ 2 ^ 18) (hτ : 0 ≤ τ) (hτ1 : τ ≤ 1)
    (hv : c.Valid jm J) (hL' : c.L ≤ 2 ^ 23) (hN' : c.N ≤ 990) (hre : c.reality = true → c.N ≤ 41) (hs : |c.spin| < c.L)
    {m : Libm} {lg : F64 → F64} (hm : m.Ok) (hr : OtherRange m c.lam c.L J) (hsp : Libm.Special m lg)
    (h : filters_directional_vectorised64 m lg jm c.L c.N c.J_min c.lam c.spin = .ok (psi.map C64.ofC, phi.map F64.fin))
    (hf : E.sphForward f k0A c.L c.sampling c.reality c.spin c.nside = .ok (flm.map C64.ofC)) (hbl : BL2 c.L c.spin flm) (hherm : c.reality = true → Herm2 flm)
    (hFb : norm2 c.L (co2 flm) ≤ 2 ^ (20 : ℤ)) :
    ∃ w s g, Pre.analysisO O E c1 jm f c.L c.N c.J_min c.lam c.spin c.sampling c.nside c.reality (some ((psi.map C64.ofC).map castC, (phi.map F64.fin).map cast)) (some pcA) = .ok (w, s) ∧
      Pre.synthesisO O E jm w s c.L c.N c.J_min c.lam c.spin c.sampling c.nside c.reality (some ((psi.map C64.ofC).map castC, (phi.map F64.fin).map cast)) (some pcS) =
        E.sphInverse (g.map C64.ofC) k0S c.L c.sampling c.reality c.spin c.nside ∧
      g.r = c.L ∧ g.c = 2 * c.L - 1 ∧
      norm2 c.L (fun l m => co2 g l m - co2 flm l m) ≤
        (1.01 * (δ + κ * 2 ^ (-18 : ℤ)) + (c.N + J + 5) / 2 ^ 19 + otherQuad c) * norm2 c.L (co2 flm) +
          (2 * (J + 2) * (τ + κ * 2 ^ (-50 : ℤ)) + 2 ^ (-50 : ℤ)) := by
  obtain ⟨-, -, hJ, -, -⟩ := other_kOk hm hr hv.top
  obtain ⟨psi', phi', e1, e2, hG, hF⟩ := other_cast hm hsp hr hv.core hL' hN' hre h
  rw [e1, e2]
  have hN0 : (1 : ℝ) ≤ c.N := by exact_mod_cast hv.hN
  have hJ0 : (0 : ℝ) ≤ (J : ℝ) := by have := hv.h0; have := hv.h1; exact_mod_cast (by omega : 0 ≤ J)
  refine pre_gain hk hk' hO hn hδ hδ1 hκ hκ1 hτ hτ1 hv hL' (by omega) (by omega) (hG true) ?_ hF hf hbl hherm hFb hs ?_
  · have := otherQuad_le c
    norm_num at *; linarith
  · generalize otherQuad c = a
    norm_num
    linarith

/-- **C132** the same for wavelet_precompute.py with the JAX filters -/
theorem C132_pre_jax {k0A k0S : KS} (hk : pcA.1 = some k0A) (hk' : pcS.1 = some k0S)
    (hO : Good O) (hn : PreNear E O c1 c J pcA pcS δ κ τ) (hδ : 0 ≤ δ) (hδ1 : δ ≤ 1) (hκ : 0 ≤ κ) (hκ1 : κ ≤ 2 ^ 18) (hτ : 0 ≤ τ) (hτ1 : τ ≤ 1)
    (hv : c.Valid jm J) (hL' : c.L ≤ 2 ^ 23) (hN' : c.N ≤ 31) (hre : c.reality = true → c.N ≤ 15) (hs : |c.spin| < c.L)
    {m mx : Libm} {lg : F64 → F64} (hm : m.Ok) (hr : OtherRange m c.lam c.L J) (hsp : Special mx lg)
    (h : filters_directional_jax32 m mx lg jm c.L c.N c.J_min c.lam c.spin = .ok (psi.map C64.ofC, phi.map F64.fin))
    (hf : E.sphForward f k0A c.L c.sampling c.reality c.spin c.nside = .ok (flm.map C64.ofC)) (hbl : BL2 c.L c.spin flm) (hherm : c.reality = true → Herm2 flm)
    (hFb : norm2 c.L (co2 flm) ≤ 2 ^ (20 : ℤ)) :
    ∃ w s g, Pre.analysisO O E c1 jm f c.L c.N c.J_min c.lam c.spin c.sampling c.nside c.reality (some (psi.map C64.ofC, phi.map F64.fin)) (some pcA) = .ok (w, s) ∧
      Pre.synthesisO O E jm w s c.L c.N c.J_min c.lam c.spin c.sampling c.nside c.reality (some (psi.map C64.ofC, phi.map F64.fin)) (some pcS) =
        E.sphInverse (g.map C64.ofC) k0S c.L c.sampling c.reality c.spin c.nside ∧
      g.r = c.L ∧ g.c = 2 * c.L - 1 ∧
      norm2 c.L (fun l m => co2 g l m - co2 flm l m) ≤
        (1.01 * (δ + κ * 2 ^ (-18 : ℤ)) + (c.N + J + 26) / 2 ^ 19 + (if c.N ≤ 15 then 0 else 0.0012) + otherQuad c) * norm2 c.L (co2 flm) +
          (2 * (J + 2) * (τ + κ * 2 ^ (-50 : ℤ)) + 2 ^ (-50 : ℤ)) := by
  obtain ⟨-, -, hJ, -, -⟩ := other_kOk hm hr hv.top
  have hN0 : (1 : ℝ) ≤ c.N := by exact_mod_cast hv.hN
  have hJ0 : (0 : ℝ) ≤ (J : ℝ) := by have := hv.h0; have := hv.h1; exact_mod_cast (by omega : 0 ≤ J)
  refine pre_gain hk hk' hO hn hδ hδ1 hκ hκ1 hτ hτ1 hv hL' (by omega) (by omega) (C131_filters hm hr hsp hv.core hL' hN' hre h true) ?_
    (other_jax hm hsp hr hv.core hL' hN' h) hf hbl hherm hFb hs ?_
  · have := otherQuad_le c
    split_ifs <;> norm_num at * <;> linarith
  · split_ifs <;> norm_num <;> linarith

end

end

/-! ### The hypotheses are met -/

theorem toyJ4_near32 : JaxNear toyJ ieee (of (Real.sqrt (1 / (4 * Real.pi)))) toyCfg4 2 [(), ()] [(), ()] 0 1 0 := by
  have hw := toyO_pipe toyCfg4 2 true 0
  refine PipeNear.of_wide ⟨fun j t u h0 h1 => ?_, ?_⟩
  · have : listGet [(), ()] (j - toyCfg4.J_min) = .ok () := by
      have h0 : 1 ≤ j := h0
      have : j = 1 ∨ j = 2 := by omega
      rcases this with rfl | rfl <;> rfl
    simp only [this, Py.bind_ok]
    exact hw.wav j t u h0 h1
  · intro a u hr hc ha hu hh
    obtain ⟨p, a', h1, h2, h3⟩ := hw.scal a u hr hc ha hu hh
    exact ⟨p, a', (if_neg toyCfg4_Ls).trans h1, h2, h3⟩

theorem toyP4_near32 : PreNear toyP ieee (of (Real.sqrt (1 / (4 * Real.pi)))) toyCfg4 2 (some (), some (), [()]) (some (), some (), [()]) 0 1 0 := by
  have hw := toyO_pipe toyCfg4 2 true 0
  refine PipeNear.of_wide ⟨fun j t u h0 h1 => ?_, ?_⟩
  · have : listGet [()] (j - toyCfg4.J_min + (if j < 2 then 0 else -1)) = .ok () := by
      have h0 : 1 ≤ j := h0
      have : j = 1 ∨ j = 2 := by omega
      rcases this with rfl | rfl <;> rfl
    simp only [this, Py.bind_ok]
    exact hw.wav j t u h0 h1
  · intro a u hr hc ha hu hh
    obtain ⟨p, a', h1, h2, h3⟩ := hw.scal a u hr hc ha hu hh
    exact ⟨p, a', (if_neg toyCfg4_Ls).trans h1, h2, h3⟩

/-- a round trip of `Y_{5,2}` in IEEE single precision with both backends, `L = 16`, `N = 3`, `J_min = 1`, `lam = 4`: with NumPy's filters converted to single
precision (wavelet.py; recursion coefficients given to `analysis`, computed by `synthesis`), and with the JAX filters in single precision
(wavelet_precompute.py) -/
example : ∃ (psi : Arr3 ℂ) (phi : Arr1 ℝ) (psi' : Arr3 ℂ) (phi' : Arr1 ℝ),
    filters_directional_vectorised64 Libm.exact lgExact j_max 16 3 1 4 0 = .ok (psi.map C64.ofC, phi.map F64.fin) ∧
    filters_directional_jax32 Libm.exact exact32 lgExact32 j_max 16 3 1 4 0 = .ok (psi'.map C64.ofC, phi'.map F64.fin) ∧
    (∃ w s g, Jax.analysisO ieee toyJ (of (Real.sqrt (1 / (4 * Real.pi)))) j_max (.inl (toyFlm.map C64.ofC))
        16 3 1 4 0 "mw" none false (some ((psi.map C64.ofC).map castC, (phi.map F64.fin).map cast)) (some [(), ()]) = .ok (w, s) ∧
      Jax.synthesisO ieee toyJ j_max w s 16 3 1 4 0 "mw" none false (some ((psi.map C64.ofC).map castC, (phi.map F64.fin).map cast)) none =
        .ok (.inl (g.map C64.ofC)) ∧
      norm2 16 (fun l m => co2 g l m - if l = 5 ∧ m = 2 then 1 else 0) ≤ 1 / 2 ^ 14) ∧
    (∃ w s g, Pre.analysisO ieee toyP (of (Real.sqrt (1 / (4 * Real.pi)))) j_max (.inl (toyFlm.map C64.ofC))
        16 3 1 4 0 "mw" none false (some (psi'.map C64.ofC, phi'.map F64.fin)) (some (some (), some (), [()])) = .ok (w, s) ∧
      Pre.synthesisO ieee toyP j_max w s 16 3 1 4 0 "mw" none false (some (psi'.map C64.ofC, phi'.map F64.fin)) (some (some (), some (), [()])) =
        .ok (.inl (g.map C64.ofC)) ∧
      norm2 16 (fun l m => co2 g l m - if l = 5 ∧ m = 2 then 1 else 0) ≤ 1 / 2 ^ 13) := by
  obtain ⟨psi, phi, h⟩ := toy4_filters
  obtain ⟨psi', phi', h', -⟩ := C131_directional (N := 3) (J_min := 1) Libm.exact_ok (toyCfg4_range _) exact32_special toyCfg4_top (by norm_num [toyCfg4]) (by norm_num) (by norm_num)
    (by norm_num) (by norm_num) 0
  have eq : otherQuad toyCfg4 = 0 := if_pos (Or.inr (Or.inl ⟨rfl, by norm_num [toyCfg4]⟩))
  have e1 : norm2 toyCfg4.L (co2 toyFlm) = 1 := toyFlm_norm
  have hg : Jax.precompsO toyJ j_max toyCfg4.L toyCfg4.N toyCfg4.J_min toyCfg4.lam toyCfg4.sampling toyCfg4.nside true toyCfg4.reality none = .ok [(), ()] := by
    have hJ : j_max toyCfg4.L toyCfg4.lam = .ok 2 := toyCfg4_top.hJ
    rw [Jax.precompsO, hJ]
    rfl
  have hb : norm2 toyCfg4.L (co2 toyFlm) ≤ 2 ^ (20 : ℤ) := by rw [e1]; norm_num
  refine ⟨psi, phi, psi', phi', h, h', ?_, ?_⟩
  · obtain ⟨w, s, g, h1, h2, -, -, h5⟩ := C132_jax (E := toyJ) (f := (.inl (toyFlm.map C64.ofC) : Arr2 C64 ⊕ Arr3 C64)) (flm := toyFlm) (pa := some [(), ()]) rfl hg
      C115_ieee (toyJ4_near32) le_rfl zero_le_one zero_le_one (by norm_num) le_rfl zero_le_one toyCfg4_valid (by norm_num [toyCfg4]) (by norm_num [toyCfg4])
      (by simp [toyCfg4]) (by norm_num [toyCfg4]) Libm.exact_ok (toyCfg4_range _) lgExact_special h toyFlm_forward toyFlm_bl (by simp [toyCfg4]) hb
    refine ⟨w, s, g, h1, h2, ?_⟩
    simp only [← toyFlm_co]
    rw [e1, eq] at h5
    refine h5.trans ?_
    have e3 : (toyCfg4.N : ℝ) = 3 := by norm_num [toyCfg4]
    rw [e3]
    norm_num
  · obtain ⟨w, s, g, h1, h2, -, -, h5⟩ := C132_pre_jax (E := toyP) (k0A := ()) (k0S := ()) (f := (.inl (toyFlm.map C64.ofC) : Arr2 C64 ⊕ Arr3 C64)) (flm := toyFlm) rfl rfl
      C115_ieee (toyP4_near32) le_rfl zero_le_one zero_le_one (by norm_num) le_rfl zero_le_one toyCfg4_valid (by norm_num [toyCfg4]) (by norm_num [toyCfg4])
      (by simp [toyCfg4]) (by norm_num [toyCfg4]) Libm.exact_ok (toyCfg4_range _) exact32_special h' toyFlm_forward toyFlm_bl (by simp [toyCfg4]) hb
    refine ⟨w, s, g, h1, h2, ?_⟩
    simp only [← toyFlm_co]
    rw [e1, eq, if_pos (by norm_num [toyCfg4])] at h5
    refine h5.trans ?_
    have e3 : (toyCfg4.N : ℝ) = 3 := by norm_num [toyCfg4]
    rw [e3]
    norm_num

end S2wav.Single
