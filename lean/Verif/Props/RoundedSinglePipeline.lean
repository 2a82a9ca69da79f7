import Verif.Lemmas.SinglePipe

/-! # C117: the JAX transforms in single precision

`analysis` and `synthesis` of `s2wav/transforms/wavelet.py` and `wavelet_precompute.py` in JAX's default 32-bit mode: everything s2wav itself computes
in single precision, s2fft's transforms accurate up to a relative error `δ`. -/

namespace S2wav.Single
open Classical

/-! ### the transforms of s2fft -/

/-- what is assumed of s2fft's JAX transforms in single precision, used with the recursion coefficients `pcA` (analysis) and `pcS`
(synthesis): accurate as in `PipeNear` -/
def JaxNear {P K : Type} (E : JaxFFTO C64 P K) (O : Ops C64 F64) (c1 : F64) (c : Cfg) (J : ℤ) (pcA pcS : List K) (δ κ τ : ℝ) : Prop :=
  PipeNear c J true
    (fun j a => do
      let pc ← listGet pcA (j - c.J_min)
      E.wigInverse a (c.Lj true j) (c.Nj true j) c.nside c.sampling c.reality pc (c.L0 true j))
    (fun j p => do
      let pc ← listGet pcS (j - c.J_min)
      E.wigForward p (c.Lj true j) (c.Nj true j) c.nside c.sampling c.reality pc (c.L0 true j))
    (fun a => if c.Ls true = 1 then .ok (E.ofArr2 (a.map fun x => O.mul x (O.ofReal c1)))
      else E.sphInverse a (c.Ls true) c.spin c.nside c.sampling c.reality)
    (fun p => E.sphForward p (c.Ls true) c.spin c.nside c.sampling c.reality) δ κ τ

/-- what is assumed of s2fft's precompute transforms in single precision, used with the kernels `pcA` (analysis) and `pcS`
(synthesis): accurate as in `PipeNear` -/
def PreNear {P KW KS : Type} (E : PreFFTO C64 P KW KS) (O : Ops C64 F64) (c1 : F64) (c : Cfg) (J : ℤ) (pcA pcS : Option KS × Option KS × List KW)
    (δ κ τ : ℝ) : Prop :=
  PipeNear c J true
    (fun j a => do
      let pc ← listGet pcA.2.2 (j - c.J_min + (if j < J then 0 else -1))
      E.wigInverse a pc (c.Lj true j) (c.Nj true j) c.sampling c.reality c.nside)
    (fun j p => do
      let pc ← listGet pcS.2.2 (j - c.J_min + (if j < J then 0 else -1))
      E.wigForward p pc (c.Lj true j) (c.Nj true j) c.sampling c.reality c.nside)
    (fun a => if c.Ls true = 1 then .ok (E.ofArr2 (a.map fun x => O.mul x (O.ofReal c1)))
      else do
        let k1 ← unNone pcA.2.1
        E.sphInverse a k1 (c.Ls true) c.sampling c.reality c.spin c.nside)
    (fun p => do
      let k1 ← unNone pcS.2.1
      E.sphForward p k1 (c.Ls true) c.sampling c.reality c.spin c.nside) δ κ τ


section
variable {O : Ops C64 F64} {jm : JMax} {c : Cfg} {J : ℤ} {psi : Arr3 ℂ} {phi : Arr1 ℝ} {flm : Arr2 ℂ} {P : Type} {c1 : F64} {δ κ τ : ℝ} {f : P}

/-- the frame sum of the package's filters in single precision: NumPy filters converted (`cast`), or JAX filters -/
theorem frame_cast {m : Libm} {lg : F64 → F64} (hm : m.Ok) (hsp : Libm.Special m lg) (hv : c.Core jm J) (hlam : c.lam = 2) (hL : c.L ≤ 2 ^ 23)
    (hJ : J ≤ 1000) (hN : c.N ≤ 990) (hre : c.reality = true → c.N ≤ 41)
    (h : filters_directional_vectorised64 m lg jm c.L c.N c.J_min c.lam c.spin = .ok (psi.map C64.ofC, phi.map F64.fin)) :
    ∃ (psi' : Arr3 ℂ) (phi' : Arr1 ℝ), (psi.map C64.ofC).map castC = psi'.map C64.ofC ∧ (phi.map F64.fin).map cast = phi'.map F64.fin ∧
      (∀ mr, c.Filters J mr psi' phi') ∧ ∀ l, 0 ≤ l → l < c.L → |c.spin| ≤ l →
        |frameSum c.J_min J c.L psi' phi' l - 1| ≤ (if c.L ≤ 2049 then 0 else 0.001) + 1 / 2 ^ 21 := by
  obtain ⟨psi', phi', e1, e2, -, -, hG, hFr⟩ := C115_filters hm hsp hv hlam hL hJ hN hre h
  refine ⟨psi', phi', e1, e2, hG, fun l a1 a2 a3 => ?_⟩
  have hT := hv.top
  rw [hlam] at h hT
  obtain ⟨b1, b2, b3, -, -⟩ := C101_admissible hm hsp hT (by omega) hJ hv.hN hN hv.h0 hv.h1 h a1 a2 a3
  obtain ⟨d1, d2⟩ := abs_le.1 (hFr l a1 a2)
  rw [abs_le]
  split_ifs with hL2
  · have := b3 hL2
    norm_num at *; constructor <;> linarith
  · norm_num at *; constructor <;> linarith

theorem frame_jax {m mx : Libm} {lg : F64 → F64} (hm : m.Ok) (hsp : Special mx lg) (hv : c.Core jm J) (hlam : c.lam = 2) (hL : c.L ≤ 2 ^ 23)
    (hJ : J ≤ 1000) (hN : c.N ≤ 31)
    (h : filters_directional_jax32 m mx lg jm c.L c.N c.J_min c.lam c.spin = .ok (psi.map C64.ofC, phi.map F64.fin)) (l : ℤ) (a1 : 0 ≤ l) (a2 : l < c.L)
    (a3 : |c.spin| ≤ l) :
    |frameSum c.J_min J c.L psi phi l - 1| ≤ (if c.L ≤ 2049 then 0 else 0.001) + (if c.N ≤ 15 then 1 / 2 ^ 15 else 0.0011) := by
  have hT := hv.top
  rw [hlam] at h hT
  obtain ⟨b1, b2, b3, b4, b5⟩ := C116_admissible hm hsp hT hL hJ hv.hN hN hv.h0 hv.h1 h a1 a2 a3
  rw [abs_le]
  split_ifs with h1 h2 h2
  · have := b4 h2
    have := b5 h2 h1
    norm_num at *; constructor <;> linarith
  · have := b3 h1
    norm_num at *; constructor <;> linarith
  · have := b4 h2
    norm_num at *; constructor <;> linarith
  · norm_num at *; constructor <;> linarith

/-! ### wavelet.py -/

section
variable {K : Type} {E : JaxFFTO C64 P K} {pcA pcS : List K}

/-- **C117** `analysis` and then `synthesis` of wavelet.py in single precision, with filters whose frame sum is at most `B ≤ 2`: no exception, no infinity,
no NaN (except possibly in the final inverse transform), and the coefficients handed to the final inverse transform are those of the input times the
frame sum, up to a relative error of norm `B ((1 + e) (δ + κ 2^-18) + e)` with `e = (N + J + 4) 2^-20`, and an absolute error for underflow. -/
theorem C117_jax_round_trip {pa pb : Option (List K)}
    (hpa : Jax.precompsO E jm c.L c.N c.J_min c.lam c.sampling c.nside false c.reality pa = .ok pcA)
    (hpb : Jax.precompsO E jm c.L c.N c.J_min c.lam c.sampling c.nside true c.reality pb = .ok pcS)
    (hO : Good O) (hn : JaxNear E O c1 c J pcA pcS δ κ τ) (hδ : 0 ≤ δ) (hδ1 : δ ≤ 1) (hκ : 0 ≤ κ) (hκ1 : κ ≤ 2 ^ 18) (hτ : 0 ≤ τ) (hτ1 : τ ≤ 1)
    (hv : c.Valid jm J) (hL' : c.L ≤ 2 ^ 23) (hN' : c.N ≤ 2 ^ 10) (hJ : J < 2 ^ 10) (hG : c.Filters J true psi phi) {B : ℝ}
    (hB : ∀ l, 0 ≤ l → l < c.L → frameSum c.J_min J c.L psi phi l ≤ B) (hB2 : B ≤ 2)
    (hf : E.sphForward f c.L c.spin c.nside c.sampling c.reality = .ok (flm.map C64.ofC)) (hbl : BL2 c.L 0 flm) (hherm : c.reality = true → Herm2 flm)
    (hFb : norm2 c.L (co2 flm) ≤ 2 ^ (20 : ℤ)) :
    ∃ w s g, Jax.analysisO O E c1 jm f c.L c.N c.J_min c.lam c.spin c.sampling c.nside c.reality (some (psi.map C64.ofC, phi.map F64.fin)) pa = .ok (w, s) ∧
      Jax.synthesisO O E jm w s c.L c.N c.J_min c.lam c.spin c.sampling c.nside c.reality (some (psi.map C64.ofC, phi.map F64.fin)) pb =
        E.sphInverse (g.map C64.ofC) c.L c.spin c.nside c.sampling c.reality ∧
      g.r = c.L ∧ g.c = 2 * c.L - 1 ∧
      norm2 c.L (fun l m => co2 g l m - (frameSum c.J_min J c.L psi phi l : ℂ) * co2 flm l m) ≤
        B * ((1 + (c.N + J + 4) / 2 ^ 20) * (δ + κ * 2 ^ (-18 : ℤ)) + (c.N + J + 4) / 2 ^ 20) * norm2 c.L (co2 flm) +
          (2 * (J + 2) * (τ + κ * 2 ^ (-50 : ℤ)) + 2 ^ (-50 : ℤ)) := by
  obtain ⟨p, ps, g, hr, h⟩ := pipe_round_trip hO hO hn hδ hδ1 hκ hκ1 hτ hτ1 hv hL' hN' hJ hG hB hB2 hbl hherm hFb
  obtain ⟨h1, h2⟩ := jax_run hv hG hbl hpa hpb hf hr
  exact ⟨_, _, g, h1, h2, hr.r, hr.c, h⟩

theorem jax_gain {pa pb : Option (List K)}
    (hpa : Jax.precompsO E jm c.L c.N c.J_min c.lam c.sampling c.nside false c.reality pa = .ok pcA)
    (hpb : Jax.precompsO E jm c.L c.N c.J_min c.lam c.sampling c.nside true c.reality pb = .ok pcS)
    (hO : Good O) (hn : JaxNear E O c1 c J pcA pcS δ κ τ) (hδ : 0 ≤ δ) (hδ1 : δ ≤ 1) (hκ : 0 ≤ κ) (hκ1 : κ ≤ 2 ^ 18) (hτ : 0 ≤ τ) (hτ1 : τ ≤ 1)
    (hv : c.Valid jm J) (hL' : c.L ≤ 2 ^ 23) (hN' : c.N ≤ 2 ^ 10) (hJ : J < 2 ^ 10) (hG : c.Filters J true psi phi) {ρ : ℝ}
    (hρ : ρ ≤ 1 / 200) (hF : ∀ l, 0 ≤ l → l < c.L → |c.spin| ≤ l → |frameSum c.J_min J c.L psi phi l - 1| ≤ ρ)
    (hf : E.sphForward f c.L c.spin c.nside c.sampling c.reality = .ok (flm.map C64.ofC)) (hbl : BL2 c.L c.spin flm) (hherm : c.reality = true → Herm2 flm)
    (hFb : norm2 c.L (co2 flm) ≤ 2 ^ (20 : ℤ)) (hs : |c.spin| < c.L) {e : ℝ} (he : 1.01 * (δ + κ * 2 ^ (-18 : ℤ)) + 1.01 * (c.N + J + 4) / 2 ^ 20 + ρ ≤ e) :
    ∃ w s g, Jax.analysisO O E c1 jm f c.L c.N c.J_min c.lam c.spin c.sampling c.nside c.reality (some (psi.map C64.ofC, phi.map F64.fin)) pa = .ok (w, s) ∧
      Jax.synthesisO O E jm w s c.L c.N c.J_min c.lam c.spin c.sampling c.nside c.reality (some (psi.map C64.ofC, phi.map F64.fin)) pb =
        E.sphInverse (g.map C64.ofC) c.L c.spin c.nside c.sampling c.reality ∧
      g.r = c.L ∧ g.c = 2 * c.L - 1 ∧
      norm2 c.L (fun l m => co2 g l m - co2 flm l m) ≤ e * norm2 c.L (co2 flm) + (2 * (J + 2) * (τ + κ * 2 ^ (-50 : ℤ)) + 2 ^ (-50 : ℤ)) := by
  obtain ⟨p, ps, g, hr, h⟩ := pipe_gain hO hO hn hδ hδ1 hκ hκ1 hτ hτ1 hv hL' hN' hJ hG hρ hF hbl hherm hFb hs
  obtain ⟨h1, h2⟩ := jax_run hv hG hbl.zero_spin hpa hpb hf hr
  exact ⟨_, _, g, h1, h2, hr.r, hr.c, h.trans (add_le_add (mul_le_mul_of_nonneg_right he (norm2_nonneg _ _)) le_rfl)⟩

/-- **C117** wavelet.py in single precision with the package's NumPy filters, which are computed in double precision and converted: the coefficients of the
input come back up to a relative error of norm `1.01 (δ + κ 2^-18) + (N + J + 5) 2^-19`, and `0.001` more above `L = 2049`; and an absolute error for
underflow. -/
theorem C117_jax_error {pa pb : Option (List K)}
    (hpa : Jax.precompsO E jm c.L c.N c.J_min c.lam c.sampling c.nside false c.reality pa = .ok pcA)
    (hpb : Jax.precompsO E jm c.L c.N c.J_min c.lam c.sampling c.nside true c.reality pb = .ok pcS)
    (hO : Good O) (hn : JaxNear E O c1 c J pcA pcS δ κ τ) (hδ : 0 ≤ δ) (hδ1 : δ ≤ 1) (hκ : 0 ≤ κ) (hκ1 : κ ≤ 2 ^ 18) (hτ : 0 ≤ τ) (hτ1 : τ ≤ 1)
    (hv : c.Valid jm J) (hlam : c.lam = 2) (hL' : c.L ≤ 2 ^ 23) (hN' : c.N ≤ 990) (hJ : J ≤ 1000) (hre : c.reality = true → c.N ≤ 41) (hs : |c.spin| < c.L)
    {m : Libm} {lg : F64 → F64} (hm : m.Ok) (hsp : Libm.Special m lg)
    (h : filters_directional_vectorised64 m lg jm c.L c.N c.J_min c.lam c.spin = .ok (psi.map C64.ofC, phi.map F64.fin))
    (hf : E.sphForward f c.L c.spin c.nside c.sampling c.reality = .ok (flm.map C64.ofC)) (hbl : BL2 c.L c.spin flm) (hherm : c.reality = true → Herm2 flm)
    (hFb : norm2 c.L (co2 flm) ≤ 2 ^ (20 : ℤ)) :
    ∃ w s g, Jax.analysisO O E c1 jm f c.L c.N c.J_min c.lam c.spin c.sampling c.nside c.reality (some ((psi.map C64.ofC).map castC, (phi.map F64.fin).map cast)) pa = .ok (w, s) ∧
      Jax.synthesisO O E jm w s c.L c.N c.J_min c.lam c.spin c.sampling c.nside c.reality (some ((psi.map C64.ofC).map castC, (phi.map F64.fin).map cast)) pb =
        E.sphInverse (g.map C64.ofC) c.L c.spin c.nside c.sampling c.reality ∧
      g.r = c.L ∧ g.c = 2 * c.L - 1 ∧
      norm2 c.L (fun l m => co2 g l m - co2 flm l m) ≤
        (1.01 * (δ + κ * 2 ^ (-18 : ℤ)) + (c.N + J + 5) / 2 ^ 19 + if c.L ≤ 2049 then 0 else 0.001) * norm2 c.L (co2 flm) +
          (2 * (J + 2) * (τ + κ * 2 ^ (-50 : ℤ)) + 2 ^ (-50 : ℤ)) := by
  obtain ⟨psi', phi', e1, e2, hG, hF⟩ := frame_cast hm hsp hv.core hlam hL' hJ hN' hre h
  rw [e1, e2]
  have hN0 : (1 : ℝ) ≤ c.N := by exact_mod_cast hv.hN
  have hJ0 : (0 : ℝ) ≤ (J : ℝ) := by have := hv.h0; have := hv.h1; exact_mod_cast (by omega : 0 ≤ J)
  refine jax_gain hpa hpb hO hn hδ hδ1 hκ hκ1 hτ hτ1 hv hL' (by omega) (by omega) (hG true) ?_ hF hf hbl hherm hFb hs ?_
  · split_ifs <;> norm_num
  · generalize (if c.L ≤ 2049 then (0 : ℝ) else 0.001) = a
    norm_num
    linarith

/-- **C117** wavelet.py in single precision with the package's JAX filters, also in single precision: the relative error is
`1.01 (δ + κ 2^-18) + (N + J + 26) 2^-19` for up to 15 directions, `0.0012` more than that for up to 31; and `0.001` more above `L = 2049`. -/
theorem C117_jax_error_jax {pa pb : Option (List K)}
    (hpa : Jax.precompsO E jm c.L c.N c.J_min c.lam c.sampling c.nside false c.reality pa = .ok pcA)
    (hpb : Jax.precompsO E jm c.L c.N c.J_min c.lam c.sampling c.nside true c.reality pb = .ok pcS)
    (hO : Good O) (hn : JaxNear E O c1 c J pcA pcS δ κ τ) (hδ : 0 ≤ δ) (hδ1 : δ ≤ 1) (hκ : 0 ≤ κ) (hκ1 : κ ≤ 2 ^ 18) (hτ : 0 ≤ τ) (hτ1 : τ ≤ 1)
    (hv : c.Valid jm J) (hlam : c.lam = 2) (hL' : c.L ≤ 2 ^ 23) (hN' : c.N ≤ 31) (hJ : J ≤ 1000) (hre : c.reality = true → c.N ≤ 15) (hs : |c.spin| < c.L)
    {m mx : Libm} {lg : F64 → F64} (hm : m.Ok) (hsp : Special mx lg)
    (h : filters_directional_jax32 m mx lg jm c.L c.N c.J_min c.lam c.spin = .ok (psi.map C64.ofC, phi.map F64.fin))
    (hf : E.sphForward f c.L c.spin c.nside c.sampling c.reality = .ok (flm.map C64.ofC)) (hbl : BL2 c.L c.spin flm) (hherm : c.reality = true → Herm2 flm)
    (hFb : norm2 c.L (co2 flm) ≤ 2 ^ (20 : ℤ)) :
    ∃ w s g, Jax.analysisO O E c1 jm f c.L c.N c.J_min c.lam c.spin c.sampling c.nside c.reality (some (psi.map C64.ofC, phi.map F64.fin)) pa = .ok (w, s) ∧
      Jax.synthesisO O E jm w s c.L c.N c.J_min c.lam c.spin c.sampling c.nside c.reality (some (psi.map C64.ofC, phi.map F64.fin)) pb =
        E.sphInverse (g.map C64.ofC) c.L c.spin c.nside c.sampling c.reality ∧
      g.r = c.L ∧ g.c = 2 * c.L - 1 ∧
      norm2 c.L (fun l m => co2 g l m - co2 flm l m) ≤
        (1.01 * (δ + κ * 2 ^ (-18 : ℤ)) + (c.N + J + 26) / 2 ^ 19 + (if c.N ≤ 15 then 0 else 0.0012) + if c.L ≤ 2049 then 0 else 0.001) * norm2 c.L (co2 flm) +
          (2 * (J + 2) * (τ + κ * 2 ^ (-50 : ℤ)) + 2 ^ (-50 : ℤ)) := by
  have hN0 : (1 : ℝ) ≤ c.N := by exact_mod_cast hv.hN
  have hJ0 : (0 : ℝ) ≤ (J : ℝ) := by have := hv.h0; have := hv.h1; exact_mod_cast (by omega : 0 ≤ J)
  refine jax_gain hpa hpb hO hn hδ hδ1 hκ hκ1 hτ hτ1 hv hL' (by omega) (by omega) (C116_filters hm hsp hv.core hlam hL' hJ hN' hre h true) ?_
    (frame_jax hm hsp hv.core hlam hL' hJ hN' h) hf hbl hherm hFb hs ?_
  · split_ifs <;> norm_num
  · split_ifs <;> norm_num <;> linarith

end

/-! ### wavelet_precompute.py -/

section
variable {KW KS : Type} {E : PreFFTO C64 P KW KS} {pcA pcS : Option KS × Option KS × List KW}

/-- **C117** the same for wavelet_precompute.py. -/
theorem C117_pre_round_trip {k0A k0S : KS} (hk : pcA.1 = some k0A) (hk' : pcS.1 = some k0S)
    (hO : Good O) (hn : PreNear E O c1 c J pcA pcS δ κ τ) (hδ : 0 ≤ δ) (hδ1 : δ ≤ 1) (hκ : 0 ≤ κ) (hκ1 : κ ≤ 2 ^ 18) (hτ : 0 ≤ τ) (hτ1 : τ ≤ 1)
    (hv : c.Valid jm J) (hL' : c.L ≤ 2 ^ 23) (hN' : c.N ≤ 2 ^ 10) (hJ : J < 2 ^ 10) (hG : c.Filters J true psi phi) {B : ℝ}
    (hB : ∀ l, 0 ≤ l → l < c.L → frameSum c.J_min J c.L psi phi l ≤ B) (hB2 : B ≤ 2)
    (hf : E.sphForward f k0A c.L c.sampling c.reality c.spin c.nside = .ok (flm.map C64.ofC)) (hbl : BL2 c.L 0 flm) (hherm : c.reality = true → Herm2 flm)
    (hFb : norm2 c.L (co2 flm) ≤ 2 ^ (20 : ℤ)) :
    ∃ w s g, Pre.analysisO O E c1 jm f c.L c.N c.J_min c.lam c.spin c.sampling c.nside c.reality (some (psi.map C64.ofC, phi.map F64.fin)) (some pcA) = .ok (w, s) ∧
      Pre.synthesisO O E jm w s c.L c.N c.J_min c.lam c.spin c.sampling c.nside c.reality (some (psi.map C64.ofC, phi.map F64.fin)) (some pcS) =
        E.sphInverse (g.map C64.ofC) k0S c.L c.sampling c.reality c.spin c.nside ∧
      g.r = c.L ∧ g.c = 2 * c.L - 1 ∧
      norm2 c.L (fun l m => co2 g l m - (frameSum c.J_min J c.L psi phi l : ℂ) * co2 flm l m) ≤
        B * ((1 + (c.N + J + 4) / 2 ^ 20) * (δ + κ * 2 ^ (-18 : ℤ)) + (c.N + J + 4) / 2 ^ 20) * norm2 c.L (co2 flm) +
          (2 * (J + 2) * (τ + κ * 2 ^ (-50 : ℤ)) + 2 ^ (-50 : ℤ)) := by
  obtain ⟨p, ps, g, hr, h⟩ := pipe_round_trip hO hO hn hδ hδ1 hκ hκ1 hτ hτ1 hv hL' hN' hJ hG hB hB2 hbl hherm hFb
  obtain ⟨h1, h2⟩ := pre_run hv hG hbl hk hk' hf hr
  exact ⟨_, _, g, h1, h2, hr.r, hr.c, h⟩

theorem pre_gain {k0A k0S : KS} (hk : pcA.1 = some k0A) (hk' : pcS.1 = some k0S)
    (hO : Good O) (hn : PreNear E O c1 c J pcA pcS δ κ τ) (hδ : 0 ≤ δ) (hδ1 : δ ≤ 1) (hκ : 0 ≤ κ) (hκ1 : κ ≤ 2 ^ 18) (hτ : 0 ≤ τ) (hτ1 : τ ≤ 1)
    (hv : c.Valid jm J) (hL' : c.L ≤ 2 ^ 23) (hN' : c.N ≤ 2 ^ 10) (hJ : J < 2 ^ 10) (hG : c.Filters J true psi phi) {ρ : ℝ}
    (hρ : ρ ≤ 1 / 200) (hF : ∀ l, 0 ≤ l → l < c.L → |c.spin| ≤ l → |frameSum c.J_min J c.L psi phi l - 1| ≤ ρ)
    (hf : E.sphForward f k0A c.L c.sampling c.reality c.spin c.nside = .ok (flm.map C64.ofC)) (hbl : BL2 c.L c.spin flm) (hherm : c.reality = true → Herm2 flm)
    (hFb : norm2 c.L (co2 flm) ≤ 2 ^ (20 : ℤ)) (hs : |c.spin| < c.L) {e : ℝ} (he : 1.01 * (δ + κ * 2 ^ (-18 : ℤ)) + 1.01 * (c.N + J + 4) / 2 ^ 20 + ρ ≤ e) :
    ∃ w s g, Pre.analysisO O E c1 jm f c.L c.N c.J_min c.lam c.spin c.sampling c.nside c.reality (some (psi.map C64.ofC, phi.map F64.fin)) (some pcA) = .ok (w, s) ∧
      Pre.synthesisO O E jm w s c.L c.N c.J_min c.lam c.spin c.sampling c.nside c.reality (some (psi.map C64.ofC, phi.map F64.fin)) (some pcS) =
        E.sphInverse (g.map C64.ofC) k0S c.L c.sampling c.reality c.spin c.nside ∧
      g.r = c.L ∧ g.c = 2 * c.L - 1 ∧
      norm2 c.L (fun l m => co2 g l m - co2 flm l m) ≤ e * norm2 c.L (co2 flm) + (2 * (J + 2) * (τ + κ * 2 ^ (-50 : ℤ)) + 2 ^ (-50 : ℤ)) := by
  obtain ⟨p, ps, g, hr, h⟩ := pipe_gain hO hO hn hδ hδ1 hκ hκ1 hτ hτ1 hv hL' hN' hJ hG hρ hF hbl hherm hFb hs
  obtain ⟨h1, h2⟩ := pre_run hv hG hbl.zero_spin hk hk' hf hr
  exact ⟨_, _, g, h1, h2, hr.r, hr.c, h.trans (add_le_add (mul_le_mul_of_nonneg_right he (norm2_nonneg _ _)) le_rfl)⟩

/-- **C117** wavelet_precompute.py in single precision with the package's NumPy filters, which are computed in double precision and converted: the coefficients of the
input come back up to a relative error of norm `1.01 (δ + κ 2^-18) + (N + J + 5) 2^-19`, and `0.001` more above `L = 2049`; and an absolute error for
underflow. -/
theorem C117_pre_error {k0A k0S : KS} (hk : pcA.1 = some k0A) (hk' : pcS.1 = some k0S)
    (hO : Good O) (hn : PreNear E O c1 c J pcA pcS δ κ τ) (hδ : 0 ≤ δ) (hδ1 : δ ≤ 1) (hκ : 0 ≤ κ) (hκ1 : κ ≤ 2 ^ 18) (hτ : 0 ≤ τ) (hτ1 : τ ≤ 1)
    (hv : c.Valid jm J) (hlam : c.lam = 2) (hL' : c.L ≤ 2 ^ 23) (hN' : c.N ≤ 990) (hJ : J ≤ 1000) (hre : c.reality = true → c.N ≤ 41) (hs : |c.spin| < c.L)
    {m : Libm} {lg : F64 → F64} (hm : m.Ok) (hsp : Libm.Special m lg)
    (h : filters_directional_vectorised64 m lg jm c.L c.N c.J_min c.lam c.spin = .ok (psi.map C64.ofC, phi.map F64.fin))
    (hf : E.sphForward f k0A c.L c.sampling c.reality c.spin c.nside = .ok (flm.map C64.ofC)) (hbl : BL2 c.L c.spin flm) (hherm : c.reality = true → Herm2 flm)
    (hFb : norm2 c.L (co2 flm) ≤ 2 ^ (20 : ℤ)) :
    ∃ w s g, Pre.analysisO O E c1 jm f c.L c.N c.J_min c.lam c.spin c.sampling c.nside c.reality (some ((psi.map C64.ofC).map castC, (phi.map F64.fin).map cast)) (some pcA) = .ok (w, s) ∧
      Pre.synthesisO O E jm w s c.L c.N c.J_min c.lam c.spin c.sampling c.nside c.reality (some ((psi.map C64.ofC).map castC, (phi.map F64.fin).map cast)) (some pcS) =
        E.sphInverse (g.map C64.ofC) k0S c.L c.sampling c.reality c.spin c.nside ∧
      g.r = c.L ∧ g.c = 2 * c.L - 1 ∧
      norm2 c.L (fun l m => co2 g l m - co2 flm l m) ≤
        (1.01 * (δ + κ * 2 ^ (-18 : ℤ)) + (c.N + J + 5) / 2 ^ 19 + if c.L ≤ 2049 then 0 else 0.001) * norm2 c.L (co2 flm) +
          (2 * (J + 2) * (τ + κ * 2 ^ (-50 : ℤ)) + 2 ^ (-50 : ℤ)) := by
  obtain ⟨psi', phi', e1, e2, hG, hF⟩ := frame_cast hm hsp hv.core hlam hL' hJ hN' hre h
  rw [e1, e2]
  have hN0 : (1 : ℝ) ≤ c.N := by exact_mod_cast hv.hN
  have hJ0 : (0 : ℝ) ≤ (J : ℝ) := by have := hv.h0; have := hv.h1; exact_mod_cast (by omega : 0 ≤ J)
  refine pre_gain hk hk' hO hn hδ hδ1 hκ hκ1 hτ hτ1 hv hL' (by omega) (by omega) (hG true) ?_ hF hf hbl hherm hFb hs ?_
  · split_ifs <;> norm_num
  · generalize (if c.L ≤ 2049 then (0 : ℝ) else 0.001) = a
    norm_num
    linarith

/-- **C117** wavelet_precompute.py in single precision with the package's JAX filters, also in single precision: the relative error is
`1.01 (δ + κ 2^-18) + (N + J + 26) 2^-19` for up to 15 directions, `0.0012` more than that for up to 31; and `0.001` more above `L = 2049`. -/
theorem C117_pre_error_jax {k0A k0S : KS} (hk : pcA.1 = some k0A) (hk' : pcS.1 = some k0S)
    (hO : Good O) (hn : PreNear E O c1 c J pcA pcS δ κ τ) (hδ : 0 ≤ δ) (hδ1 : δ ≤ 1) (hκ : 0 ≤ κ) (hκ1 : κ ≤ 2 ^ 18) (hτ : 0 ≤ τ) (hτ1 : τ ≤ 1)
    (hv : c.Valid jm J) (hlam : c.lam = 2) (hL' : c.L ≤ 2 ^ 23) (hN' : c.N ≤ 31) (hJ : J ≤ 1000) (hre : c.reality = true → c.N ≤ 15) (hs : |c.spin| < c.L)
    {m mx : Libm} {lg : F64 → F64} (hm : m.Ok) (hsp : Special mx lg)
    (h : filters_directional_jax32 m mx lg jm c.L c.N c.J_min c.lam c.spin = .ok (psi.map C64.ofC, phi.map F64.fin))
    (hf : E.sphForward f k0A c.L c.sampling c.reality c.spin c.nside = .ok (flm.map C64.ofC)) (hbl : BL2 c.L c.spin flm) (hherm : c.reality = true → Herm2 flm)
    (hFb : norm2 c.L (co2 flm) ≤ 2 ^ (20 : ℤ)) :
    ∃ w s g, Pre.analysisO O E c1 jm f c.L c.N c.J_min c.lam c.spin c.sampling c.nside c.reality (some (psi.map C64.ofC, phi.map F64.fin)) (some pcA) = .ok (w, s) ∧
      Pre.synthesisO O E jm w s c.L c.N c.J_min c.lam c.spin c.sampling c.nside c.reality (some (psi.map C64.ofC, phi.map F64.fin)) (some pcS) =
        E.sphInverse (g.map C64.ofC) k0S c.L c.sampling c.reality c.spin c.nside ∧
      g.r = c.L ∧ g.c = 2 * c.L - 1 ∧
      norm2 c.L (fun l m => co2 g l m - co2 flm l m) ≤
        (1.01 * (δ + κ * 2 ^ (-18 : ℤ)) + (c.N + J + 26) / 2 ^ 19 + (if c.N ≤ 15 then 0 else 0.0012) + if c.L ≤ 2049 then 0 else 0.001) * norm2 c.L (co2 flm) +
          (2 * (J + 2) * (τ + κ * 2 ^ (-50 : ℤ)) + 2 ^ (-50 : ℤ)) := by
  have hN0 : (1 : ℝ) ≤ c.N := by exact_mod_cast hv.hN
  have hJ0 : (0 : ℝ) ≤ (J : ℝ) := by have := hv.h0; have := hv.h1; exact_mod_cast (by omega : 0 ≤ J)
  refine pre_gain hk hk' hO hn hδ hδ1 hκ hκ1 hτ hτ1 hv hL' (by omega) (by omega) (C116_filters hm hsp hv.core hlam hL' hJ hN' hre h true) ?_
    (frame_jax hm hsp hv.core hlam hL' hJ hN' h) hf hbl hherm hFb hs ?_
  · split_ifs <;> norm_num
  · split_ifs <;> norm_num <;> linarith

end

end

/-! ### Non-vacuity -/

/-- transforms that work up to `2^350` do up to `2^41` -/
theorem PipeNear.of_wide {c : Cfg} {J : ℤ} {mr : Bool} {P : Type} {wI : ℤ → Arr3 C64 → Py P} {wF : ℤ → P → Py (Arr3 C64)} {sI : Arr2 C64 → Py P}
    {sF : P → Py (Arr2 C64)} {δ κ τ : ℝ} (h : S2wav.PipeNear c J mr wI wF sI sF δ κ τ) : PipeNear c J mr wI wF sI sF δ κ τ :=
  ⟨fun j t u h0 h1 hd hr hc ht => h.wav j t u h0 h1 hd hr hc fun k l m => (ht k l m).trans (p2_mono (by norm_num)),
    fun a u hr hc ha => h.scal a u hr hc fun l m => (ha l m).trans (p2_mono (by norm_num))⟩

theorem toy_scal (O : Ops C64 F64) (c1 : F64) (a : Arr2 C64) :
    (if toyCfg.Ls true = 1 then .ok (toyO.ofArr2 (a.map fun x => O.mul x (O.ofReal c1))) else toyO.sphInverse a (toyCfg.Ls true) toyCfg.spin toyCfg.reality 0) =
      toyO.sphInverse a (toyCfg.Ls true) toyCfg.spin toyCfg.reality 0 := if_neg toyCfg_Ls

theorem toyJ_near32 (O : Ops C64 F64) (c1 : F64) : JaxNear toyJ O c1 toyCfg 4 [(), (), (), ()] [(), (), (), ()] 0 1 0 := by
  have hw := toyO_pipe toyCfg 4 true 0
  refine PipeNear.of_wide ⟨fun j t u h0 h1 => ?_, ?_⟩
  · have : listGet [(), (), (), ()] (j - toyCfg.J_min) = .ok () := by
      have h0 : 1 ≤ j := h0
      have : j = 1 ∨ j = 2 ∨ j = 3 ∨ j = 4 := by omega
      rcases this with rfl | rfl | rfl | rfl <;> rfl
    simp only [this, Py.bind_ok]
    exact hw.wav j t u h0 h1
  · intro a u hr hc ha hu hh
    obtain ⟨p, a', h1, h2, h3⟩ := hw.scal a u hr hc ha hu hh
    exact ⟨p, a', (toy_scal O c1 _).trans h1, h2, h3⟩

theorem toyP_near32 (O : Ops C64 F64) (c1 : F64) : PreNear toyP O c1 toyCfg 4 (some (), some (), [(), (), ()]) (some (), some (), [(), (), ()]) 0 1 0 := by
  have hw := toyO_pipe toyCfg 4 true 0
  refine PipeNear.of_wide ⟨fun j t u h0 h1 => ?_, ?_⟩
  · have : listGet [(), (), ()] (j - toyCfg.J_min + (if j < 4 then 0 else -1)) = .ok () := by
      have h0 : 1 ≤ j := h0
      have : j = 1 ∨ j = 2 ∨ j = 3 ∨ j = 4 := by omega
      rcases this with rfl | rfl | rfl | rfl <;> rfl
    simp only [this, Py.bind_ok]
    exact hw.wav j t u h0 h1
  · intro a u hr hc ha hu hh
    obtain ⟨p, a', h1, h2, h3⟩ := hw.scal a u hr hc ha hu hh
    exact ⟨p, a', (toy_scal O c1 _).trans h1, h2, h3⟩

/-- a round trip of `Y_{5,2}` in IEEE single precision with both backends, `L = 16`, `N = 3`, `J_min = 1`: with NumPy's filters converted to single
precision (wavelet.py; recursion coefficients given to `analysis`, computed by `synthesis`), and with the JAX filters in single precision
(wavelet_precompute.py) -/
example : ∃ (psi : Arr3 ℂ) (phi : Arr1 ℝ) (psi' : Arr3 ℂ) (phi' : Arr1 ℝ),
    filters_directional_vectorised64 Libm.exact lgExact j_max 16 3 1 2 0 = .ok (psi.map C64.ofC, phi.map F64.fin) ∧
    filters_directional_jax32 Libm.exact exact32 lgExact32 j_max 16 3 1 2 0 = .ok (psi'.map C64.ofC, phi'.map F64.fin) ∧
    (∃ w s g, Jax.analysisO ieee toyJ (of (Real.sqrt (1 / (4 * Real.pi)))) j_max (.inl (toyFlm.map C64.ofC))
        16 3 1 2 0 "mw" none false (some ((psi.map C64.ofC).map castC, (phi.map F64.fin).map cast)) (some [(), (), (), ()]) = .ok (w, s) ∧
      Jax.synthesisO ieee toyJ j_max w s 16 3 1 2 0 "mw" none false (some ((psi.map C64.ofC).map castC, (phi.map F64.fin).map cast)) none =
        .ok (.inl (g.map C64.ofC)) ∧
      norm2 16 (fun l m => co2 g l m - if l = 5 ∧ m = 2 then 1 else 0) ≤ 1 / 2 ^ 14) ∧
    (∃ w s g, Pre.analysisO ieee toyP (of (Real.sqrt (1 / (4 * Real.pi)))) j_max (.inl (toyFlm.map C64.ofC))
        16 3 1 2 0 "mw" none false (some (psi'.map C64.ofC, phi'.map F64.fin)) (some (some (), some (), [(), (), ()])) = .ok (w, s) ∧
      Pre.synthesisO ieee toyP j_max w s 16 3 1 2 0 "mw" none false (some (psi'.map C64.ofC, phi'.map F64.fin)) (some (some (), some (), [(), (), ()])) =
        .ok (.inl (g.map C64.ofC)) ∧
      norm2 16 (fun l m => co2 g l m - if l = 5 ∧ m = 2 then 1 else 0) ≤ 1 / 2 ^ 13) := by
  obtain ⟨psi, phi, h⟩ := toy_filters
  obtain ⟨psi', phi', h', -⟩ := C116_directional (N := 3) (J_min := 1) Libm.exact_ok exact32_special toyCfg_top (by norm_num) (by norm_num) (by norm_num) (by norm_num)
    (by norm_num) (by norm_num) 0
  have e1 : norm2 toyCfg.L (co2 toyFlm) = 1 := toyFlm_norm
  have hg : Jax.precompsO toyJ j_max toyCfg.L toyCfg.N toyCfg.J_min toyCfg.lam toyCfg.sampling toyCfg.nside true toyCfg.reality none = .ok [(), (), (), ()] := by
    have hJ : j_max toyCfg.L toyCfg.lam = .ok 4 := toyCfg_top.hJ
    rw [Jax.precompsO, hJ]
    rfl
  have hb : norm2 toyCfg.L (co2 toyFlm) ≤ 2 ^ (20 : ℤ) := by rw [e1]; norm_num
  refine ⟨psi, phi, psi', phi', h, h', ?_, ?_⟩
  · obtain ⟨w, s, g, h1, h2, -, -, h5⟩ := C117_jax_error (E := toyJ) (f := (.inl (toyFlm.map C64.ofC) : Arr2 C64 ⊕ Arr3 C64)) (flm := toyFlm) (pa := some [(), (), (), ()]) rfl hg
      C115_ieee (toyJ_near32 ieee _) le_rfl zero_le_one zero_le_one (by norm_num) le_rfl zero_le_one toyCfg_valid rfl (by norm_num [toyCfg]) (by norm_num [toyCfg]) (by norm_num)
      (by simp [toyCfg]) (by norm_num [toyCfg]) Libm.exact_ok lgExact_special h toyFlm_forward toyFlm_bl (by simp [toyCfg]) hb
    refine ⟨w, s, g, h1, h2, ?_⟩
    simp only [← toyFlm_co]
    rw [e1, if_pos (by norm_num [toyCfg])] at h5
    refine h5.trans ?_
    have e3 : (toyCfg.N : ℝ) = 3 := by norm_num [toyCfg]
    rw [e3]
    norm_num
  · obtain ⟨w, s, g, h1, h2, -, -, h5⟩ := C117_pre_error_jax (E := toyP) (k0A := ()) (k0S := ()) (f := (.inl (toyFlm.map C64.ofC) : Arr2 C64 ⊕ Arr3 C64)) (flm := toyFlm) rfl rfl
      C115_ieee (toyP_near32 ieee _) le_rfl zero_le_one zero_le_one (by norm_num) le_rfl zero_le_one toyCfg_valid rfl (by norm_num [toyCfg]) (by norm_num [toyCfg]) (by norm_num)
      (by simp [toyCfg]) (by norm_num [toyCfg]) Libm.exact_ok exact32_special h' toyFlm_forward toyFlm_bl (by simp [toyCfg]) hb
    refine ⟨w, s, g, h1, h2, ?_⟩
    simp only [← toyFlm_co]
    rw [e1, if_pos (by norm_num [toyCfg]), if_pos (by norm_num [toyCfg])] at h5
    refine h5.trans ?_
    have e3 : (toyCfg.N : ℝ) = 3 := by norm_num [toyCfg]
    rw [e3]
    norm_num

end S2wav.Single
