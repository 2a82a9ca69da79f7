import Verif.Props.RoundedBase
import Verif.Props.RoundedOtherJax

/-! # C126: the whole transforms in double precision with `lam = 3`, `4` and `8`

C107, C109 and C110 follow the rounding errors of an analysis and a synthesis with `lam = 2` filters.  Here the filters are those
of the other dilation parameters that stay finite in double precision (C119, C121, C125), for all five implementations. -/

namespace S2wav
open Classical

/-- the filters are what `filters_directional_vectorised` or `filters_directional_jax` of `s2wav/filters.py` returns in double precision,
in one of these ranges (at most 63 directions for the latter, which raises above) -/
def OtherFilt (jm : JMax) (c : Cfg) (J : ℤ) (psi : Arr3 ℂ) (phi : Arr1 ℝ) : Prop :=
  ∃ (m mx : Libm) (lg : F64 → F64), m.Ok ∧ OtherRange m c.lam c.L J ∧
    (Libm.Special m lg ∧ filters_directional_vectorised64 m lg jm c.L c.N c.J_min c.lam c.spin = .ok (psi.map C64.ofC, phi.map F64.fin) ∨
      Libm.Special mx lg ∧ c.N ≤ 63 ∧ filters_directional_jax64 m mx lg jm c.L c.N c.J_min c.lam c.spin = .ok (psi.map C64.ofC, phi.map F64.fin))

/-- the relative error that s2wav's own arithmetic adds to a round trip -/
noncomputable def otherErr (c : Cfg) : ℝ :=
  if c.lam = 3 ∨ c.lam = 4 ∧ c.L ≤ 1025 ∨ c.lam = 8 ∧ c.L ≤ 513 then 1 / 2 ^ 28 else 0.0012

section
variable {O : Ops C64 F64} {jm : JMax} {c : Cfg} {J : ℤ} {psi : Arr3 ℂ} {phi : Arr1 ℝ} {flm : Arr2 ℂ} {P : Type} {c1 : F64} {δ κ τ : ℝ} {f : P}

theorem pipe_other {O' : Ops C64 F64} {mr : Bool} {wI : ℤ → Arr3 C64 → Py P} {wF : ℤ → P → Py (Arr3 C64)} {sI : Arr2 C64 → Py P} {sF : P → Py (Arr2 C64)}
    (hO : O.Good) (hO' : O'.Good) (hn : PipeNear c J mr wI wF sI sF δ κ τ) (hδ : 0 ≤ δ) (hδ1 : δ ≤ 1) (hκ : 0 ≤ κ) (hκ1 : κ ≤ 2 ^ 20) (hτ : 0 ≤ τ) (hτ1 : τ ≤ 1)
    (hv : c.Valid jm J) (hN' : c.N ≤ 990) (hre : c.reality = true → c.N ≤ 41) (hs : |c.spin| < c.L)
    (hF : OtherFilt jm c J psi phi) (hbl : BL2 c.L c.spin flm) (hherm : c.reality = true → Herm2 flm) (hfb : ∀ l m, ‖co2 flm l m‖ ≤ 2 ^ (300 : ℤ)) :
    (∀ multires, c.Filters J multires psi phi) ∧ ∃ p ps g, PipeRun O O' mr c J wI wF sI sF psi phi flm p ps g ∧
      norm2 c.L (fun l m => co2 g l m - co2 flm l m) ≤ (1.01 * (δ + κ * 2 ^ (-47 : ℤ)) + otherErr c) * norm2 c.L (co2 flm) +
        (2 * (J + 2) * τ + 2 ^ (-550 : ℤ)) := by
  obtain ⟨m, mx, lg, hm, hr, hF⟩ := hF
  obtain ⟨hK, hL', hJ, hl, hk⟩ := other_kOk hm hr hv.top
  haveI : Fact (1 < c.lam) := ⟨hl⟩
  obtain ⟨m', X, hsp, hd⟩ : ∃ m' X, Libm.Special m' lg ∧ Gen.Dir64 c.lam m' lg c.L c.N J c.J_min c.spin psi phi X := by
    rcases hF with ⟨hsp, h⟩ | ⟨hsp, hN2, h⟩
    · obtain ⟨X, hd⟩ := Gen.dir64_elim hK hsp hv.top (by omega) (by omega) hv.hN hN' hv.h0 hv.h1 h
      exact ⟨m, X, hsp, hd⟩
    · obtain ⟨X, hd⟩ := Gen.dir64_jax_elim hK hsp hv.top (by omega) (by omega) hv.hN hN2 hv.h0 hv.h1 h
      exact ⟨mx, X, hsp, hd⟩
  have hG := Gen.dir64_filters hsp hv.top.hL rfl hv.hN hv.h0 hv.h1 hre rfl hd
  have hA := fun l a b d => hd.admissible hsp hv.top (by omega) (by omega) hv.hN hN' hv.h0 hv.h1 (l := l) a b d
  have hN1 : (c.N : ℝ) ≤ 990 := by exact_mod_cast hN'
  have hJ1 : (J : ℝ) ≤ 498 := by exact_mod_cast hJ
  have key : ∀ ρ : ℝ, ρ ≤ 1 / 200 → (∀ l, 0 ≤ l → l < c.L → |c.spin| ≤ l → |frameSum c.J_min J c.L psi phi l - 1| ≤ ρ) →
      1.01 * (c.N + J + 4) / 2 ^ 49 + ρ ≤ otherErr c → ∃ p ps g, PipeRun O O' mr c J wI wF sI sF psi phi flm p ps g ∧
      norm2 c.L (fun l m => co2 g l m - co2 flm l m) ≤ (1.01 * (δ + κ * 2 ^ (-47 : ℤ)) + otherErr c) * norm2 c.L (co2 flm) +
        (2 * (J + 2) * τ + 2 ^ (-550 : ℤ)) := by
    intro ρ hρ hF he
    obtain ⟨p, ps, g, h1, h5⟩ := pipe_gain hO hO' hn hδ hδ1 hκ hκ1 hτ hτ1 hv (by omega) (by omega) (by omega) (hG mr) hρ hF hbl hherm hfb hs
    refine ⟨p, ps, g, h1, h5.trans (add_le_add (mul_le_mul_of_nonneg_right ?_ (norm2_nonneg _ _)) le_rfl)⟩
    rw [add_assoc]
    exact add_le_add le_rfl he
  refine ⟨hG, ?_⟩
  by_cases hc : c.lam = 3 ∨ c.lam = 4 ∧ c.L ≤ 1025 ∨ c.lam = 8 ∧ c.L ≤ 513
  · refine key (1 / 2 ^ 29) (by norm_num) (fun l a b d => (hA l a b d).2.1 fun j => hk hc j l b) ?_
    rw [otherErr, if_pos hc]
    norm_num
    linarith
  · refine key (1 / 900) (by norm_num) (fun l a b d => (hA l a b d).1) ?_
    rw [otherErr, if_neg hc]
    norm_num
    linarith

/-- **C126** wavelet_c.py: analysis and then synthesis in double precision, with the package's own filters for `lam = 3`, `4` or `8`, returns
the coefficients of the input up to a relative error of norm: what s2fft's transforms contribute (`δ`, `κ`), and `2^-28` (`lam = 3`;
`lam = 4`, `L ≤ 1025`; `lam = 8`, `L ≤ 513`) or 0.0012 (up to `L = 2^48`). -/
theorem C126_c {E : CFFTO C64 P} {ix : ℕ} (hO : O.Good) (hn : E.Near O c1 c J ix δ κ τ) (hδ : 0 ≤ δ) (hδ1 : δ ≤ 1) (hκ : 0 ≤ κ) (hκ1 : κ ≤ 2 ^ 20) (hτ : 0 ≤ τ) (hτ1 : τ ≤ 1)
    (hv : c.Valid jm J) (hN' : c.N ≤ 990) (hre : c.reality = true → c.N ≤ 41) (hs : |c.spin| < c.L)
    (hF : OtherFilt jm c J psi phi)
    (hf : E.sphForward f c.L c.spin c.reality ix = .ok (flm.map C64.ofC)) (hbl : BL2 c.L c.spin flm) (hherm : c.reality = true → Herm2 flm)
    (hfb : ∀ l m, ‖co2 flm l m‖ ≤ 2 ^ (300 : ℤ)) :
    ∃ w s g, analysisO O E c1 jm f c.L c.N c.J_min c.lam c.spin c.sampling c.reality (some (psi.map C64.ofC, phi.map F64.fin)) = .ok (w, s) ∧
      synthesisO O E jm w s c.L c.N c.J_min c.lam c.spin c.sampling c.reality (some (psi.map C64.ofC, phi.map F64.fin)) =
        E.sphInverse (g.map C64.ofC) c.L c.spin c.reality ix ∧
      g.r = c.L ∧ g.c = 2 * c.L - 1 ∧
      norm2 c.L (fun l m => co2 g l m - co2 flm l m) ≤ (1.01 * (δ + κ * 2 ^ (-47 : ℤ)) + otherErr c) * norm2 c.L (co2 flm) +
        (2 * (J + 2) * τ + 2 ^ (-550 : ℤ)) := by
  obtain ⟨-, p, ps, g, hr, h⟩ := pipe_other hO hO hn.pipe hδ hδ1 hκ hκ1 hτ hτ1 hv hN' hre hs hF hbl hherm hfb
  exact ⟨_, _, g, (c_run hn.idx hv.top.hJ hf hr).1, (c_run hn.idx hv.top.hJ hf hr).2, hr.r, hr.c, h⟩

/-- **C126** the same with wavelet.py (JAX) -/
theorem C126_jax {K : Type} {E : JaxFFTO C64 P K} {pcA pcS : List K} {pa pb : Option (List K)}
    (hpa : Jax.precompsO E jm c.L c.N c.J_min c.lam c.sampling c.nside false c.reality pa = .ok pcA)
    (hpb : Jax.precompsO E jm c.L c.N c.J_min c.lam c.sampling c.nside true c.reality pb = .ok pcS)
    (hO : O.Good) (hn : E.Near O c1 c J pcA pcS δ κ τ) (hδ : 0 ≤ δ) (hδ1 : δ ≤ 1) (hκ : 0 ≤ κ) (hκ1 : κ ≤ 2 ^ 20) (hτ : 0 ≤ τ) (hτ1 : τ ≤ 1)
    (hv : c.Valid jm J) (hN' : c.N ≤ 990) (hre : c.reality = true → c.N ≤ 41) (hs : |c.spin| < c.L)
    (hF : OtherFilt jm c J psi phi)
    (hf : E.sphForward f c.L c.spin c.nside c.sampling c.reality = .ok (flm.map C64.ofC)) (hbl : BL2 c.L c.spin flm) (hherm : c.reality = true → Herm2 flm)
    (hfb : ∀ l m, ‖co2 flm l m‖ ≤ 2 ^ (300 : ℤ)) :
    ∃ w s g, Jax.analysisO O E c1 jm f c.L c.N c.J_min c.lam c.spin c.sampling c.nside c.reality (some (psi.map C64.ofC, phi.map F64.fin)) pa = .ok (w, s) ∧
      Jax.synthesisO O E jm w s c.L c.N c.J_min c.lam c.spin c.sampling c.nside c.reality (some (psi.map C64.ofC, phi.map F64.fin)) pb = E.sphInverse (g.map C64.ofC) c.L c.spin c.nside c.sampling c.reality ∧
      g.r = c.L ∧ g.c = 2 * c.L - 1 ∧
      norm2 c.L (fun l m => co2 g l m - co2 flm l m) ≤ (1.01 * (δ + κ * 2 ^ (-47 : ℤ)) + otherErr c) * norm2 c.L (co2 flm) +
        (2 * (J + 2) * τ + 2 ^ (-550 : ℤ)) := by
  obtain ⟨hG, p, ps, g, hr, h⟩ := pipe_other hO hO hn hδ hδ1 hκ hκ1 hτ hτ1 hv hN' hre hs hF hbl hherm hfb
  obtain ⟨h1, h2⟩ := jax_run hv (hG true) hbl.zero_spin hpa hpb hf hr
  exact ⟨_, _, g, h1, h2, hr.r, hr.c, h⟩

section
variable {KW KS : Type} {E : PreFFTO C64 P KW KS} {pcA pcS : Option KS × Option KS × List KW}

/-- **C126** the same with wavelet_precompute.py -/
theorem C126_pre {k0A k0S : KS} (hk : pcA.1 = some k0A) (hk' : pcS.1 = some k0S)
    (hO : O.Good) (hn : E.Near O c1 c J pcA pcS δ κ τ) (hδ : 0 ≤ δ) (hδ1 : δ ≤ 1) (hκ : 0 ≤ κ) (hκ1 : κ ≤ 2 ^ 20) (hτ : 0 ≤ τ) (hτ1 : τ ≤ 1)
    (hv : c.Valid jm J) (hN' : c.N ≤ 990) (hre : c.reality = true → c.N ≤ 41) (hs : |c.spin| < c.L)
    (hF : OtherFilt jm c J psi phi)
    (hf : E.sphForward f k0A c.L c.sampling c.reality c.spin c.nside = .ok (flm.map C64.ofC)) (hbl : BL2 c.L c.spin flm) (hherm : c.reality = true → Herm2 flm)
    (hfb : ∀ l m, ‖co2 flm l m‖ ≤ 2 ^ (300 : ℤ)) :
    ∃ w s g, Pre.analysisO O E c1 jm f c.L c.N c.J_min c.lam c.spin c.sampling c.nside c.reality (some (psi.map C64.ofC, phi.map F64.fin)) (some pcA) = .ok (w, s) ∧
      Pre.synthesisO O E jm w s c.L c.N c.J_min c.lam c.spin c.sampling c.nside c.reality (some (psi.map C64.ofC, phi.map F64.fin)) (some pcS) = E.sphInverse (g.map C64.ofC) k0S c.L c.sampling c.reality c.spin c.nside ∧
      g.r = c.L ∧ g.c = 2 * c.L - 1 ∧
      norm2 c.L (fun l m => co2 g l m - co2 flm l m) ≤ (1.01 * (δ + κ * 2 ^ (-47 : ℤ)) + otherErr c) * norm2 c.L (co2 flm) +
        (2 * (J + 2) * τ + 2 ^ (-550 : ℤ)) := by
  obtain ⟨hG, p, ps, g, hr, h⟩ := pipe_other hO hO hn hδ hδ1 hκ hκ1 hτ hτ1 hv hN' hre hs hF hbl hherm hfb
  obtain ⟨h1, h2⟩ := pre_run hv (hG true) hbl.zero_spin hk hk' hf hr
  exact ⟨_, _, g, h1, h2, hr.r, hr.c, h⟩

/-- **C126** the same with wavelet_precompute_torch.py -/
theorem C126_torch {k0A k0S : KS} (hk : pcA.1 = some k0A) (hk' : pcS.1 = some k0S)
    (hO : O.Good) (hn : E.Near O c1 c J pcA pcS δ κ τ) (hδ : 0 ≤ δ) (hδ1 : δ ≤ 1) (hκ : 0 ≤ κ) (hκ1 : κ ≤ 2 ^ 20) (hτ : 0 ≤ τ) (hτ1 : τ ≤ 1)
    (hv : c.Valid jm J) (hN' : c.N ≤ 990) (hre : c.reality = true → c.N ≤ 41) (hs : |c.spin| < c.L)
    (hF : OtherFilt jm c J psi phi)
    (hf : E.sphForward f k0A c.L c.sampling c.reality c.spin c.nside = .ok (flm.map C64.ofC)) (hbl : BL2 c.L c.spin flm) (hherm : c.reality = true → Herm2 flm)
    (hfb : ∀ l m, ‖co2 flm l m‖ ≤ 2 ^ (300 : ℤ)) :
    ∃ w s g, Torch.analysisO O E c1 jm f c.L c.N c.J_min c.lam c.spin c.sampling c.nside c.reality (some (psi.map C64.ofC, phi.map F64.fin)) (some pcA) = .ok (w, s) ∧
      Torch.synthesisO O E jm w s c.L c.N c.J_min c.lam c.spin c.sampling c.nside c.reality (some (psi.map C64.ofC, phi.map F64.fin)) (some pcS) = E.sphInverse (g.map C64.ofC) k0S c.L c.sampling c.reality c.spin c.nside ∧
      g.r = c.L ∧ g.c = 2 * c.L - 1 ∧
      norm2 c.L (fun l m => co2 g l m - co2 flm l m) ≤ (1.01 * (δ + κ * 2 ^ (-47 : ℤ)) + otherErr c) * norm2 c.L (co2 flm) +
        (2 * (J + 2) * τ + 2 ^ (-550 : ℤ)) := by
  obtain ⟨hG, p, ps, g, hr, h⟩ := pipe_other hO hO hn hδ hδ1 hκ hκ1 hτ hτ1 hv hN' hre hs hF hbl hherm hfb
  obtain ⟨h1, h2⟩ := torch_run hv (hG true) hbl.zero_spin hk hk' hf hr
  exact ⟨_, _, g, h1, h2, hr.r, hr.c, h⟩

end

/-- **C126** the same with base.py, with or without multiresolution; base.py computes the filters itself -/
theorem C126_base {E : BaseFFTO C64 P} {mr : Bool} {m : Libm} {lg : F64 → F64} (hm : m.Ok) (hsp : Libm.Special m lg) (hr' : OtherRange m c.lam c.L J)
    (hO : O.Good) (hn : E.Near c J mr δ κ τ) (hsh : E.Shaped jm c J mr) (hδ : 0 ≤ δ) (hδ1 : δ ≤ 1) (hκ : 0 ≤ κ) (hκ1 : κ ≤ 2 ^ 20) (hτ : 0 ≤ τ) (hτ1 : τ ≤ 1)
    (hv : c.Valid jm J) (hN' : c.N ≤ 990) (hre : c.reality = true → c.N ≤ 41) (hs : |c.spin| < c.L)
    (hf : E.sphForward f c.L c.spin c.sampling c.nside c.reality = .ok (flm.map C64.ofC)) (hbl : BL2 c.L c.spin flm) (hherm : c.reality = true → Herm2 flm)
    (hfb : ∀ l m, ‖co2 flm l m‖ ≤ 2 ^ (300 : ℤ)) :
    ∃ w s g, Base.analysisO O E jm (filters_directional_vectorised64 m lg jm c.L c.N c.J_min c.lam c.spin) f
        c.L c.N c.J_min c.lam c.spin c.sampling c.nside c.reality mr false = .ok (w, s) ∧
      Base.analysisO O E jm (filters_directional_vectorised64 m lg jm c.L c.N c.J_min c.lam c.spin) f
        c.L c.N c.J_min c.lam c.spin c.sampling c.nside c.reality mr true = .ok (w.map E.abs, s) ∧
      Base.synthesisO O E jm (filters_directional_vectorised64 m lg jm c.L c.N c.J_min c.lam c.spin) w s
        c.L c.N c.J_min c.lam c.spin c.sampling c.nside c.reality mr = E.sphInverse (g.map C64.ofC) c.L c.spin c.sampling c.nside c.reality 0 ∧
      g.r = c.L ∧ g.c = 2 * c.L - 1 ∧
      norm2 c.L (fun l m => co2 g l m - co2 flm l m) ≤ (1.01 * (δ + κ * 2 ^ (-47 : ℤ)) + otherErr c) * norm2 c.L (co2 flm) +
        (2 * (J + 2) * τ + 2 ^ (-550 : ℤ)) := by
  obtain ⟨hK, hL', hJ, hl, -⟩ := other_kOk hm hr' hv.top
  haveI : Fact (1 < c.lam) := ⟨hl⟩
  obtain ⟨psi, phi, hflt, -⟩ := Gen.directional hK hsp hv.top (by omega) (by omega) hv.hN hN' hv.h0 hv.h1 c.spin
  obtain ⟨hG, p, ps, g, hr, h⟩ := pipe_other (mr := mr) (set_good hO) hO hn hδ hδ1 hκ hκ1 hτ hτ1 hv hN' hre hs
    ⟨m, m, lg, hm, hr', Or.inl ⟨hsp, hflt⟩⟩ hbl hherm hfb
  obtain ⟨h1, h2⟩ := base_run hv (hG mr) hbl.zero_spin hsh hf hr
  rw [hflt]
  refine ⟨_, _, g, h1 false, (h1 true).trans ?_, h2, hr.r, hr.c, h⟩
  rw [List.map_map]
  rfl

end

/-! ### The hypotheses are met -/

/-- `L = 16`, `N = 3`, `J_min = 1`, `lam = 4` -/
def toyCfg4 : Cfg := ⟨16, 3, 1, 4, 0, "mw", none, false⟩

theorem toyCfg4_top : TopScale j_max 16 4 2 := by
  have hJ : j_max 16 4 = .ok 2 := by
    have h := j_max_eq (L := 16) (lam := 4) (by norm_num) (by norm_num)
    rw [h]
    have : Real.log ((16 : ℤ) : ℝ) / Real.log 4 = 2 := by
      rw [div_eq_iff (Real.log_pos (by norm_num)).ne']
      have : ((16 : ℤ) : ℝ) = 4 ^ 2 := by norm_num
      rw [this, Real.log_pow]; norm_num
    rw [this]; norm_num
  exact TopScale.of_j_max (L := 16) (lam := 4) (by norm_num) (by norm_num) hJ

theorem toyCfg4_valid : toyCfg4.Valid j_max 2 :=
  ⟨toyCfg4_top, by norm_num [toyCfg4], by norm_num [toyCfg4], by norm_num [toyCfg4], by norm_num [toyCfg4]⟩

theorem toyCfg4_range (m : Libm) : OtherRange m toyCfg4.lam toyCfg4.L 2 := Or.inr (Or.inl ⟨rfl, by norm_num [toyCfg4], by norm_num⟩)

theorem toyCfg4_Ls : toyCfg4.Ls true ≠ 1 := by
  show scal_bandlimit 16 1 4 true ≠ 1
  rw [scal_bandlimit, if_pos rfl, zpow_one, show (4 : ℝ) = ((4 : ℤ) : ℝ) by norm_num, Int.ceil_intCast]
  decide

theorem toyCfg4_near : toyO.Near Ops.ieee (.of (Real.sqrt (1 / (4 * Real.pi)))) toyCfg4 2 0 0 1 0 := by
  have hl : "mw".toLower = "mw" := by
    apply String.toList_inj.1
    rw [String.toLower, String.toList_map]
    decide
  exact toyO_near Ops.ieee _ (by show C.sshtIndex "mw".toLower = _; rw [hl]; rfl) toyCfg4_Ls

theorem toyJ4_near : toyJ.Near Ops.ieee (.of (Real.sqrt (1 / (4 * Real.pi)))) toyCfg4 2 [(), ()] [(), ()] 0 1 0 := by
  refine ⟨fun j t u h0 h1 => ?_, toyCfg4_near.scal⟩
  have : listGet [(), ()] (j - toyCfg4.J_min) = .ok () := by
    have h0 : 1 ≤ j := h0
    have : j = 1 ∨ j = 2 := by omega
    rcases this with rfl | rfl <;> rfl
  simp only [this, Py.bind_ok]
  exact toyCfg4_near.wav j t u h0 h1

theorem toyP4_near : toyP.Near Ops.ieee (.of (Real.sqrt (1 / (4 * Real.pi)))) toyCfg4 2 (some (), some (), [()]) (some (), some (), [()]) 0 1 0 := by
  refine ⟨fun j t u h0 h1 => ?_, toyCfg4_near.scal⟩
  have : listGet [()] (j - toyCfg4.J_min + (if j < 2 then 0 else -1)) = .ok () := by
    have h0 : 1 ≤ j := h0
    have : j = 1 ∨ j = 2 := by omega
    rcases this with rfl | rfl <;> rfl
  simp only [this, Py.bind_ok]
  exact toyCfg4_near.wav j t u h0 h1

theorem toyB4_shaped (mr : Bool) : toyB.Shaped j_max toyCfg4 2 mr := by
  constructor
  · intro j t p _ _ h
    by_cases hs : t.d = 2 * toyCfg4.Nj mr j - 1 ∧ t.r = toyCfg4.Lj mr j ∧ t.c = 2 * toyCfg4.Lj mr j - 1
    · have h := (if_pos hs).symm.trans h
      injection h with h
      subst h
      show Except.ok _ = Except.ok [t.d, t.r, t.c]
      rw [hs.1, hs.2.1, hs.2.2]
    · have h := (if_neg hs).symm.trans h
      cases h
  · intro a p h
    by_cases hs : a.r = toyCfg4.Ls mr ∧ a.c = 2 * toyCfg4.Ls mr - 1
    · have h := (if_pos hs).symm.trans h
      injection h with h
      subst h
      show Except.ok _ = Except.ok [a.r, a.c]
      rw [hs.1, hs.2]
    · have h := (if_neg hs).symm.trans h
      cases h
  · have hJ : j_max toyCfg4.L toyCfg4.lam = .ok 2 := toyCfg4_top.hJ
    unfold Base.construct_fO
    rw [hJ]
    exact ⟨_, rfl⟩

theorem toy4_filters : ∃ (psi : Arr3 ℂ) (phi : Arr1 ℝ),
    filters_directional_vectorised64 Libm.exact lgExact j_max 16 3 1 4 0 = .ok (psi.map C64.ofC, phi.map F64.fin) := by
  obtain ⟨psi, phi, h, -⟩ := C121_directional (N := 3) Libm.exact_ok lgExact_special toyCfg4_top (by norm_num) (by norm_num) (by norm_num) (by norm_num)
    (by norm_num : (0 : ℤ) ≤ 1) (by norm_num) 0
  exact ⟨psi, phi, h⟩

theorem toy4_bound {x : ℝ} (h : x ≤ (1.01 * (0 + 1 * 2 ^ (-47 : ℤ)) + otherErr toyCfg4) * norm2 toyCfg4.L (co2 toyFlm) +
    (2 * (((2 : ℤ) : ℝ) + 2) * 0 + 2 ^ (-550 : ℤ))) : x ≤ 1 / 2 ^ 27 := by
  have e1 : norm2 toyCfg4.L (co2 toyFlm) = 1 := toyFlm_norm
  have e2 : otherErr toyCfg4 = 1 / 2 ^ 28 := by
    rw [otherErr, if_pos (Or.inr (Or.inl ⟨rfl, by norm_num [toyCfg4]⟩))]
  rw [e1, e2] at h
  refine h.trans ?_
  have h6 := p2_mono (show (-550 : ℤ) ≤ -60 by norm_num)
  clear h
  generalize (2 : ℝ) ^ (-550 : ℤ) = P at *
  norm_num at h6 ⊢
  linarith

/-- a round trip of `Y_{5,2}` in double precision with `lam = 4`, `L = 16`, `N = 3`, `J_min = 1`, for the four implementations that take
the filters as an argument -/
example : ∃ (psi : Arr3 ℂ) (phi : Arr1 ℝ),
    filters_directional_vectorised64 Libm.exact lgExact j_max 16 3 1 4 0 = .ok (psi.map C64.ofC, phi.map F64.fin) ∧
    (∃ w s g, analysisO Ops.ieee toyO (.of (Real.sqrt (1 / (4 * Real.pi)))) j_max (.inl (toyFlm.map C64.ofC))
        16 3 1 4 0 "mw" false (some (psi.map C64.ofC, phi.map F64.fin)) = .ok (w, s) ∧
      synthesisO Ops.ieee toyO j_max w s 16 3 1 4 0 "mw" false (some (psi.map C64.ofC, phi.map F64.fin)) = .ok (.inl (g.map C64.ofC)) ∧
      norm2 16 (fun l m => co2 g l m - if l = 5 ∧ m = 2 then 1 else 0) ≤ 1 / 2 ^ 27) ∧
    (∃ w s g, Jax.analysisO Ops.ieee toyJ (.of (Real.sqrt (1 / (4 * Real.pi)))) j_max (.inl (toyFlm.map C64.ofC))
        16 3 1 4 0 "mw" none false (some (psi.map C64.ofC, phi.map F64.fin)) (some [(), ()]) = .ok (w, s) ∧
      Jax.synthesisO Ops.ieee toyJ j_max w s 16 3 1 4 0 "mw" none false (some (psi.map C64.ofC, phi.map F64.fin)) none = .ok (.inl (g.map C64.ofC)) ∧
      norm2 16 (fun l m => co2 g l m - if l = 5 ∧ m = 2 then 1 else 0) ≤ 1 / 2 ^ 27) ∧
    (∃ w s g, Pre.analysisO Ops.ieee toyP (.of (Real.sqrt (1 / (4 * Real.pi)))) j_max (.inl (toyFlm.map C64.ofC))
        16 3 1 4 0 "mw" none false (some (psi.map C64.ofC, phi.map F64.fin)) (some (some (), some (), [()])) = .ok (w, s) ∧
      Pre.synthesisO Ops.ieee toyP j_max w s 16 3 1 4 0 "mw" none false (some (psi.map C64.ofC, phi.map F64.fin)) (some (some (), some (), [()])) =
        .ok (.inl (g.map C64.ofC)) ∧
      norm2 16 (fun l m => co2 g l m - if l = 5 ∧ m = 2 then 1 else 0) ≤ 1 / 2 ^ 27) ∧
    (∃ w s g, Torch.analysisO Ops.ieee toyP (.of (Real.sqrt (1 / (4 * Real.pi)))) j_max (.inl (toyFlm.map C64.ofC))
        16 3 1 4 0 "mw" none false (some (psi.map C64.ofC, phi.map F64.fin)) (some (some (), some (), [()])) = .ok (w, s) ∧
      Torch.synthesisO Ops.ieee toyP j_max w s 16 3 1 4 0 "mw" none false (some (psi.map C64.ofC, phi.map F64.fin)) (some (some (), some (), [()])) =
        .ok (.inl (g.map C64.ofC)) ∧
      norm2 16 (fun l m => co2 g l m - if l = 5 ∧ m = 2 then 1 else 0) ≤ 1 / 2 ^ 27) := by
  obtain ⟨psi, phi, h⟩ := toy4_filters
  have hF : OtherFilt j_max toyCfg4 2 psi phi := ⟨Libm.exact, Libm.exact, lgExact, Libm.exact_ok, toyCfg4_range _, Or.inl ⟨lgExact_special, h⟩⟩
  have hg : Jax.precompsO toyJ j_max toyCfg4.L toyCfg4.N toyCfg4.J_min toyCfg4.lam toyCfg4.sampling toyCfg4.nside true toyCfg4.reality none = .ok [(), ()] := by
    have hJ : j_max toyCfg4.L toyCfg4.lam = .ok 2 := toyCfg4_top.hJ
    rw [Jax.precompsO, hJ]
    rfl
  refine ⟨psi, phi, h, ?_, ?_, ?_, ?_⟩
  · obtain ⟨w, s, g, h1, h2, -, -, h5⟩ := C126_c (E := toyO) (f := (.inl (toyFlm.map C64.ofC) : Arr2 C64 ⊕ Arr3 C64)) (flm := toyFlm) C105_ieee toyCfg4_near
      le_rfl zero_le_one zero_le_one (by norm_num) le_rfl zero_le_one toyCfg4_valid (by norm_num [toyCfg4]) (by simp [toyCfg4])
      (by norm_num [toyCfg4]) hF toyFlm_forward toyFlm_bl (by simp [toyCfg4]) toyFlm_le
    refine ⟨w, s, g, h1, h2, toy4_bound ?_⟩
    simp only [← toyFlm_co]
    exact h5
  · obtain ⟨w, s, g, h1, h2, -, -, h5⟩ := C126_jax (E := toyJ) (pa := some [(), ()]) (f := (.inl (toyFlm.map C64.ofC) : Arr2 C64 ⊕ Arr3 C64)) (flm := toyFlm) rfl hg C105_ieee toyJ4_near
      le_rfl zero_le_one zero_le_one (by norm_num) le_rfl zero_le_one toyCfg4_valid (by norm_num [toyCfg4]) (by simp [toyCfg4])
      (by norm_num [toyCfg4]) hF toyFlm_forward toyFlm_bl (by simp [toyCfg4]) toyFlm_le
    refine ⟨w, s, g, h1, h2, toy4_bound ?_⟩
    simp only [← toyFlm_co]
    exact h5
  · obtain ⟨w, s, g, h1, h2, -, -, h5⟩ := C126_pre (E := toyP) (k0A := ()) (k0S := ()) (f := (.inl (toyFlm.map C64.ofC) : Arr2 C64 ⊕ Arr3 C64)) (flm := toyFlm) rfl rfl C105_ieee toyP4_near
      le_rfl zero_le_one zero_le_one (by norm_num) le_rfl zero_le_one toyCfg4_valid (by norm_num [toyCfg4]) (by simp [toyCfg4])
      (by norm_num [toyCfg4]) hF toyFlm_forward toyFlm_bl (by simp [toyCfg4]) toyFlm_le
    refine ⟨w, s, g, h1, h2, toy4_bound ?_⟩
    simp only [← toyFlm_co]
    exact h5
  · obtain ⟨w, s, g, h1, h2, -, -, h5⟩ := C126_torch (E := toyP) (k0A := ()) (k0S := ()) (f := (.inl (toyFlm.map C64.ofC) : Arr2 C64 ⊕ Arr3 C64)) (flm := toyFlm) rfl rfl C105_ieee toyP4_near
      le_rfl zero_le_one zero_le_one (by norm_num) le_rfl zero_le_one toyCfg4_valid (by norm_num [toyCfg4]) (by simp [toyCfg4])
      (by norm_num [toyCfg4]) hF toyFlm_forward toyFlm_bl (by simp [toyCfg4]) toyFlm_le
    refine ⟨w, s, g, h1, h2, toy4_bound ?_⟩
    simp only [← toyFlm_co]
    exact h5

/-- and with base.py -/
example (mr : Bool) : ∃ w s g, Base.analysisO Ops.ieee toyB j_max (filters_directional_vectorised64 Libm.exact lgExact j_max 16 3 1 4 0)
      (.inl (toyFlm.map C64.ofC)) 16 3 1 4 0 "mw" none false mr false = .ok (w, s) ∧
    Base.synthesisO Ops.ieee toyB j_max (filters_directional_vectorised64 Libm.exact lgExact j_max 16 3 1 4 0) w s 16 3 1 4 0 "mw" none false mr =
      .ok (.inl (g.map C64.ofC)) ∧
    norm2 16 (fun l m => co2 g l m - if l = 5 ∧ m = 2 then 1 else 0) ≤ 1 / 2 ^ 27 := by
  obtain ⟨w, s, g, h1, -, h2, h3, h4, h5⟩ := C126_base (E := toyB) (f := (.inl (toyFlm.map C64.ofC) : Arr2 C64 ⊕ Arr3 C64)) (flm := toyFlm) Libm.exact_ok
    lgExact_special (toyCfg4_range _) C105_ieee (toyB_near toyCfg4 2 mr) (toyB4_shaped mr)
    le_rfl zero_le_one zero_le_one (by norm_num) le_rfl zero_le_one toyCfg4_valid (by norm_num [toyCfg4]) (by simp [toyCfg4])
    (by norm_num [toyCfg4]) toyFlm_forward toyFlm_bl (by simp [toyCfg4]) toyFlm_le
  refine ⟨w, s, g, h1, h2.trans (if_pos ⟨h3, h4⟩), toy4_bound ?_⟩
  simp only [← toyFlm_co]
  exact h5

end S2wav
