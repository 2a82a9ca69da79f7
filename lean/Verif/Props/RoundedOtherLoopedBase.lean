import Verif.Props.RoundedLoopedBase
import Verif.Props.RoundedOtherLooped
import Verif.Props.RoundedOtherPipeline

/-! # C133: the looped transforms of base.py in double precision with `lam = 3`, `4` and `8`

C112 for the other dilation parameters that stay finite: `analysis_looped` and `synthesis_looped` of `s2wav/transforms/base.py` with the looped
filters of C130, which they compute themselves. -/

namespace S2wav
open Classical

section
variable {O : Ops C64 F64} {sg : ℤ → C64 → C64} {jm : JMax} {c : Cfg} {J : ℤ} {mr : Bool} {flm : Arr2 ℂ} {P : Type} {E : BaseFFTO C64 P} {δ κ τ : ℝ} {f : P}

/-- **C133** `analysis_looped` and then `synthesis_looped` in double precision, with or without multiresolution, for `lam = 3`, `4` and `8`: nothing is
raised, and the coefficients of the input come back, up to a relative error of norm: `1.01 (δ + κ 2^-47)` plus `0.0011` (`lam = 3`; `lam = 4`,
`L ≤ 1025`; `lam = 8`, `L ≤ 513`) or `0.0021`. For real signals only the orders `m ≥ 0`, the only ones an inverse transform with `reality` reads,
are claimed, as in C112. -/
theorem C133_error {m : Libm} {lg : F64 → F64} (hm : m.Ok) (hr : OtherRange m c.lam c.L J) (hsp : Libm.Special m lg)
    (hO : O.Good) (hsg : ∀ k z, sg k (.ofC z) = .ofC ((-1 : ℂ) ^ k * z)) (hn : E.Near c J mr δ κ τ) (hsh : E.LoopedShaped jm c J mr)
    (hδ : 0 ≤ δ) (hδ1 : δ ≤ 1) (hκ : 0 ≤ κ) (hκ1 : κ ≤ 2 ^ 20) (hτ : 0 ≤ τ) (hτ1 : τ ≤ 1)
    (hv : c.Valid jm J) (hN' : c.N ≤ 990) (hre : c.reality = true → c.N ≤ 41) (hs : |c.spin| < c.L)
    (hf : E.sphForward f c.L c.spin c.sampling c.nside c.reality = .ok (flm.map C64.ofC)) (hbl : BL2 c.L c.spin flm) (hherm : c.reality = true → Herm2 flm)
    (hfb : ∀ l m, ‖co2 flm l m‖ ≤ 2 ^ (300 : ℤ)) :
    ∃ w s g, Base.analysis_loopedO O sg E jm (filters_directional64 m lg jm c.L c.N c.J_min c.lam c.spin) f
        c.L c.N c.J_min c.lam c.spin c.sampling c.nside c.reality mr = .ok (w, s) ∧
      Base.synthesis_loopedO O sg E jm (filters_directional64 m lg jm c.L c.N c.J_min c.lam c.spin) w s
        c.L c.N c.J_min c.lam c.spin c.sampling c.nside c.reality mr = E.sphInverse (g.map C64.ofC) c.L c.spin c.sampling c.nside c.reality 0 ∧
      g.r = c.L ∧ g.c = 2 * c.L - 1 ∧
      norm2 c.L (fun l m => if c.reality = true ∧ m < 0 then 0 else co2 g l m - co2 flm l m) ≤
        (1.01 * (δ + κ * 2 ^ (-47 : ℤ)) + (if c.lam = 3 ∨ c.lam = 4 ∧ c.L ≤ 1025 ∨ c.lam = 8 ∧ c.L ≤ 513 then 0.0011 else 0.0021)) * norm2 c.L (co2 flm) +
        (2 * (J + 2) * τ + 2 ^ (-550 : ℤ)) := by
  have hT := hv.top
  obtain ⟨hK, hL, hJ, hlam, hk⟩ := other_kOk hm hr hT
  haveI : Fact (1 < c.lam) := ⟨hlam⟩
  obtain ⟨psi, -, phi, X, p, h, -, hd⟩ := Gen.loopDir64_exists hK hsp hT (by omega) (by omega) hv.hN hN' hv.h0 hv.h1 c.spin
  have hG := Gen.loopDir64_filters hsp hT.hL rfl hv.hN hv.h0 hv.h1 hre hd mr
  have hN0 : (0 : ℝ) ≤ c.N := by have := hv.hN; exact_mod_cast (by omega : 0 ≤ c.N)
  have hJ0 : (0 : ℝ) ≤ (J : ℝ) := by have := hv.h0; have := hv.h1; exact_mod_cast (by omega : 0 ≤ J)
  have hN1 : (c.N : ℝ) ≤ 990 := by exact_mod_cast hN'
  have hJ1 : (J : ℝ) + 1 ≤ 499 := by have : (J : ℝ) ≤ 498 := by exact_mod_cast hJ
                                     linarith
  have hNJ := mul_le_mul hN1 hJ1 (by positivity) (by positivity)
  set ρ : ℝ := if c.lam = 3 ∨ c.lam = 4 ∧ c.L ≤ 1025 ∨ c.lam = 8 ∧ c.L ≤ 513 then 0.001 + 1 / 2 ^ 27 else 0.002 + 1 / 2 ^ 27 with hρ
  have hρ0 : 0 ≤ ρ := by rw [hρ]; split_ifs <;> norm_num
  have hρ1 : ρ ≤ 1 / 200 := by rw [hρ]; split_ifs <;> norm_num
  have hFρ : ∀ l, 0 ≤ l → l < c.L → |c.spin| ≤ l → |frameSum c.J_min J c.L psi phi l - 1| ≤ ρ := by
    intro l a0 a1 a2
    obtain ⟨b1, b2, -, b4⟩ := C130_admissible hm hr hsp hT hv.hN hN' hv.h0 hv.h1 h a0 a1 a2
    rw [abs_le, hρ]
    split_ifs with c1
    · have := b4 c1
      clear b4 hk
      norm_num at b1 this ⊢
      constructor <;> linarith
    · clear b4 hk
      norm_num at b1 b2 ⊢
      constructor <;> linarith
  have he : ((c.N : ℝ) * (J + 1) + 4) / 2 ^ 49 ≤ 1 / 400 := by
    rw [div_le_iff₀ (by positivity)]
    norm_num at hNJ ⊢
    linarith
  rw [h]
  obtain ⟨w, s, g, g', h1, h2, h3, h4, h5, h6⟩ := looped_core hO hsg hn hsh hδ hδ1 hκ hκ1 hτ hτ1 hv (by omega) (by omega) (by omega) hG
    (frame_bound hG hρ0 hFρ) (by linarith) hf hbl.zero_spin hherm hfb
  refine ⟨w, s, g, h1, h2, h3, h4, norm2_mask ?_ h5⟩
  refine (gain_core hv.top.hL (by omega) hρ0 hρ1 hFρ hbl (by positivity) he (by positivity) h6).trans (add_le_add (mul_le_mul_of_nonneg_right ?_ (norm2_nonneg _ _)) le_rfl)
  rw [add_assoc]
  refine add_le_add le_rfl ?_
  have hx : 0 ≤ (c.N : ℝ) * (J + 1) := by positivity
  rw [hρ]
  clear * - hx hNJ
  generalize (c.N : ℝ) * (J + 1) = x at *
  split_ifs <;> norm_num at hNJ ⊢ <;> linarith

end

/-! ### The hypotheses are met -/

theorem toyB4_loopedShaped (mr : Bool) : toyB.LoopedShaped j_max toyCfg4 2 mr where
  wav := (toyB4_shaped mr).wav
  scal := (toyB4_shaped mr).scal
  alloc := by
    have hJ : j_max toyCfg4.L toyCfg4.lam = .ok 2 := toyCfg4_top.hJ
    unfold Base.construct_fO
    rw [hJ]
    exact ⟨_, rfl⟩

/-- a round trip of `Y_{5,2}` in double precision, `L = 16`, `N = 3`, `J_min = 1`, `lam = 4`, with and without multiresolution -/
example (mr : Bool) : ∃ w s g, Base.analysis_loopedO Ops.ieee C64.sign toyB j_max (filters_directional64 Libm.exact lgExact j_max 16 3 1 4 0)
      (.inl (toyFlm.map C64.ofC)) 16 3 1 4 0 "mw" none false mr = .ok (w, s) ∧
    Base.synthesis_loopedO Ops.ieee C64.sign toyB j_max (filters_directional64 Libm.exact lgExact j_max 16 3 1 4 0) w s 16 3 1 4 0 "mw" none false mr =
      .ok (.inl (g.map C64.ofC)) ∧
    norm2 16 (fun l m => co2 g l m - if l = 5 ∧ m = 2 then 1 else 0) ≤ 0.0012 := by
  obtain ⟨w, s, g, h1, h2, h3, h4, h5⟩ := C133_error (E := toyB) (f := (.inl (toyFlm.map C64.ofC) : Arr2 C64 ⊕ Arr3 C64)) (flm := toyFlm) Libm.exact_ok
    (toyCfg4_range _) lgExact_special C105_ieee C112_signs (toyB_near toyCfg4 2 mr) (toyB4_loopedShaped mr)
    le_rfl zero_le_one zero_le_one (by norm_num) le_rfl zero_le_one toyCfg4_valid (by norm_num [toyCfg4]) (by simp [toyCfg4])
    (by norm_num [toyCfg4]) toyFlm_forward toyFlm_bl (by simp [toyCfg4]) toyFlm_le
  refine ⟨w, s, g, h1, h2.trans (if_pos ⟨h3, h4⟩), ?_⟩
  have e1 : norm2 toyCfg4.L (co2 toyFlm) = 1 := toyFlm_norm
  have e2 : ∀ l m, (if toyCfg4.reality = true ∧ m < 0 then 0 else co2 g l m - co2 toyFlm l m) = co2 g l m - co2 toyFlm l m := fun l m =>
    if_neg (by simp [toyCfg4])
  simp only [← toyFlm_co]
  rw [e1, if_pos (Or.inr (Or.inl ⟨rfl, by norm_num [toyCfg4]⟩))] at h5
  simp only [e2] at h5
  refine h5.trans ?_
  have h6 := p2_mono (show (-550 : ℤ) ≤ -60 by norm_num)
  clear h5
  generalize (2 : ℝ) ^ (-550 : ℤ) = P at *
  norm_num at h6 ⊢
  linarith

end S2wav
