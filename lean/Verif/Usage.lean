import Verif.Spec
import Verif.Lemmas.Samples
import Verif.Model.Base
import Verif.Model.Construct
import Verif.Model.Wavelet
import Verif.Model.WaveletC
import Verif.Model.Precompute
import Verif.Model.PrecomputeTorch

/-! # The transforms as a user calls them, and what is asked of s2fft

Six pairs of routines (`Backend`), called the documented way: filters from the matching builder with `spin0 = 0`,
precomputes from `construct.generate_*_precomputes`.  `Backend.engine` collects the s2fft calls a backend makes for one
configuration; the contracts below are hypotheses about these calls, used where a theorem needs them. -/

namespace S2wav
open Classical

/-- the arguments shared by all transforms -/
structure Cfg where
  L : ℤ
  N : ℤ
  J_min : ℤ
  lam : ℝ
  spin : ℤ
  sampling : String
  nside : Option ℤ
  reality : Bool

/-- band-limit of scale `j` (`samples.LN_j`, characterised by C03-C05) -/
noncomputable def Cfg.Lj (c : Cfg) (mr : Bool) (j : ℤ) : ℤ := (LN_j c.L j c.N c.lam mr).1
/-- azimuthal band-limit of scale `j` -/
noncomputable def Cfg.Nj (c : Cfg) (mr : Bool) (j : ℤ) : ℤ := (LN_j c.L j c.N c.lam mr).2.1
/-- lowest degree of scale `j` -/
noncomputable def Cfg.L0 (c : Cfg) (mr : Bool) (j : ℤ) : ℤ := (LN_j c.L j c.N c.lam mr).2.2
/-- band-limit of the scaling function -/
noncomputable def Cfg.Ls (c : Cfg) (mr : Bool) : ℤ := scal_bandlimit c.L c.J_min c.lam mr

/-- an admissible configuration with top scale `J` -/
structure Cfg.Valid (jm : JMax) (c : Cfg) (J : ℤ) : Prop where
  top : TopScale jm c.L c.lam J
  hN : 1 ≤ c.N
  hNL : c.N ≤ c.L
  h0 : 0 ≤ c.J_min
  h1 : c.J_min < J

/-- the same without a bound on the number of directions -/
structure Cfg.Core (jm : JMax) (c : Cfg) (J : ℤ) : Prop where
  top : TopScale jm c.L c.lam J
  hN : 1 ≤ c.N
  h0 : 0 ≤ c.J_min
  h1 : c.J_min < J

theorem Cfg.Valid.core {jm : JMax} {c : Cfg} {J : ℤ} (hv : c.Valid jm J) : c.Core jm J := ⟨hv.top, hv.hN, hv.h0, hv.h1⟩

/-- filters a user may pass to the transforms: of the documented shape, zero outside the degrees and orders each scale
keeps and below the spin, and symmetric for real signals -/
structure Cfg.Filters (c : Cfg) (J : ℤ) (mr : Bool) (psi : Arr3 ℂ) (phi : Arr1 ℝ) : Prop where
  d : J < psi.d
  r : psi.r = c.L
  cols : psi.c = 2 * c.L - 1
  n : phi.n = c.L
  wav : ∀ j l n, psi.v j l (c.L - 1 + n) ≠ 0 → c.L0 mr j ≤ l ∧ l < c.Lj mr j ∧ |n| < c.Nj mr j ∧
    (c.Nj mr j - 1 - n) % 2 = 0 ∧ |n| ≤ l ∧ |c.spin| ≤ l
  scal : ∀ l, phi.v l ≠ 0 → l < c.Ls mr ∧ |c.spin| ≤ l
  sym : c.reality = true → ∀ j l n,
    psi.v j l (c.L - 1 - n) = (-1 : ℂ) ^ n * (starRingEnd ℂ) (psi.v j l (c.L - 1 + n))

/-- the harmonic transforms one backend uses: spherical harmonic forward / inverse at a band-limit, Wigner forward /
inverse at two band-limits with a lowest degree -/
structure Engine where
  sphF : Px → (L : ℤ) → Py (Arr2 ℂ)
  sphI : Arr2 ℂ → (L : ℤ) → Py Px
  wigF : Px → (L N L0 : ℤ) → Py (Arr3 ℂ)
  wigI : Arr3 ℂ → (L N L0 : ℤ) → Py Px

/-- the six families of routines -/
inductive Backend : Type 1
  /-- `base.analysis`, `base.synthesis` -/
  | base (E : BaseFFT) (mr : Bool)
  /-- `base.analysis_looped`, `base.synthesis_looped` -/
  | looped (E : BaseFFT) (mr : Bool)
  /-- `wavelet.analysis`, `wavelet.synthesis` -/
  | jax {K : Type} (E : JaxFFT K)
  /-- `wavelet_c.analysis`, `wavelet_c.synthesis` -/
  | ssht (E : CFFT)
  /-- `wavelet_precompute.analysis`, `wavelet_precompute.synthesis` -/
  | pre {KW KS : Type} (E : PreFFT KW KS)
  /-- `wavelet_precompute_torch.analysis`, `wavelet_precompute_torch.synthesis` -/
  | torch {KW KS : Type} (E : PreFFT KW KS)

/-- the precompute transforms: the kernel for each size is generated for spin 0 (construct.py:73-77) -/
noncomputable def preEngine {KW KS : Type} (E : PreFFT KW KS) (c : Cfg) : Engine where
  sphF f L := do
    let k ← E.sphKernel L 0 c.reality c.sampling c.nside true
    E.sphForward f k L c.sampling c.reality c.spin c.nside
  sphI a L := do
    let k ← E.sphKernel L 0 c.reality c.sampling c.nside false
    E.sphInverse a k L c.sampling c.reality c.spin c.nside
  wigF f L N _ := do
    let k ← E.wigKernel L N c.reality c.sampling c.nside true
    E.wigForward f k L N c.sampling c.reality c.nside
  wigI t L N _ := do
    let k ← E.wigKernel L N c.reality c.sampling c.nside false
    E.wigInverse t k L N c.sampling c.reality c.nside

noncomputable def baseEngine (E : BaseFFT) (c : Cfg) : Engine where
  sphF f L := E.sphForward f L c.spin c.sampling c.nside c.reality
  sphI a L := E.sphInverse a L c.spin c.sampling c.nside c.reality 0
  wigF f L N L0 := E.wigForward f L N L0 c.sampling c.reality c.nside
  wigI t L N L0 := E.wigInverse t L N L0 c.sampling c.reality c.nside

noncomputable def jaxEngine {K : Type} (E : JaxFFT K) (c : Cfg) : Engine where
  sphF f L := E.sphForward f L c.spin c.nside c.sampling c.reality
  sphI a L := E.sphInverse a L c.spin c.nside c.sampling c.reality
  wigF f L N L0 := do
    let k ← E.genWigner L N c.sampling c.nside true c.reality L0
    E.wigForward f L N c.nside c.sampling c.reality k L0
  wigI t L N L0 := do
    let k ← E.genWigner L N c.sampling c.nside false c.reality L0
    E.wigInverse t L N c.nside c.sampling c.reality k L0

noncomputable def cEngine (E : CFFT) (c : Cfg) : Engine where
  sphF f L := do
    let k ← C.sshtIndex c.sampling.toLower
    E.sphForward f L c.spin c.reality k
  sphI a L := do
    let k ← C.sshtIndex c.sampling.toLower
    E.sphInverse a L c.spin c.reality k
  wigF f L N L0 := E.wigForward f L N L0 c.sampling c.reality
  wigI t L N L0 := E.wigInverse t L N L0 c.sampling c.reality

namespace Backend

noncomputable def engine : Backend → Cfg → Engine
  | .base E _, c => baseEngine E c
  | .looped E _, c => baseEngine E c
  | .jax E, c => jaxEngine E c
  | .ssht E, c => cEngine E c
  | .pre E, c => preEngine E c
  | .torch E, c => preEngine E c

/-- whether the backend works at the band-limit of each scale (always, except on request in `base`) -/
def mr : Backend → Bool
  | .base _ mr => mr
  | .looped _ mr => mr
  | _ => true

/-- `base.py`: no special case for `Ls = 1`, and shape checks -/
def isBase : Backend → Bool
  | .base _ _ => true
  | .looped _ _ => true
  | _ => false

def isLooped : Backend → Bool
  | .looped _ _ => true
  | _ => false

/-- the filters of a documented call -/
noncomputable def filters (jm : JMax) : Backend → Cfg → Py (Arr3 ℂ × Arr1 ℝ)
  | .looped _ _, c => filters_directional jm c.L c.N c.J_min c.lam c.spin 0
  | _, c => filters_directional_vectorised jm c.L c.N c.J_min c.lam c.spin 0

/-- the documented analysis call -/
noncomputable def analysis (jm : JMax) (b : Backend) (c : Cfg) (f : Px) : Py (List Px × Px) :=
  match b with
  | .base E mr => Base.analysis jm E f c.L c.N c.J_min c.lam c.spin 0 c.sampling c.nside c.reality mr false
  | .looped E mr => Base.analysis_looped jm E f c.L c.N c.J_min c.lam c.spin 0 c.sampling c.nside c.reality mr
  | .jax E => do
      let flt ← filters_directional_vectorised jm c.L c.N c.J_min c.lam c.spin 0
      let pcs ← Construct.generate_wigner_precomputes jm E c.L c.N c.J_min c.lam c.sampling c.nside false c.reality
      Jax.analysis jm E f c.L c.N c.J_min c.lam c.spin c.sampling c.nside c.reality (some flt) (some pcs)
  | .ssht E => do
      let flt ← filters_directional_vectorised jm c.L c.N c.J_min c.lam c.spin 0
      C.analysis jm E f c.L c.N c.J_min c.lam c.spin c.sampling c.reality (some flt)
  | .pre E => do
      let flt ← filters_directional_vectorised jm c.L c.N c.J_min c.lam c.spin 0
      let pcs ← Construct.generate_full_precomputes jm E c.L c.N c.J_min c.lam c.sampling c.nside false c.reality false
      Pre.analysis jm E f c.L c.N c.J_min c.lam c.spin c.sampling c.nside c.reality (some flt) (some pcs)
  | .torch E => do
      let flt ← filters_directional_vectorised jm c.L c.N c.J_min c.lam c.spin 0
      let pcs ← Construct.generate_full_precomputes jm E c.L c.N c.J_min c.lam c.sampling c.nside false c.reality false
      Torch.analysis jm E f c.L c.N c.J_min c.lam c.spin c.sampling c.nside c.reality (some flt) (some pcs)

/-- the documented synthesis call -/
noncomputable def synthesis (jm : JMax) (b : Backend) (c : Cfg) (w : List Px) (s : Px) : Py Px :=
  match b with
  | .base E mr => Base.synthesis jm E w s c.L c.N c.J_min c.lam c.spin 0 c.sampling c.nside c.reality mr
  | .looped E mr => Base.synthesis_looped jm E w s c.L c.N c.J_min c.lam c.spin 0 c.sampling c.nside c.reality mr
  | .jax E => do
      let flt ← filters_directional_vectorised jm c.L c.N c.J_min c.lam c.spin 0
      let pcs ← Construct.generate_wigner_precomputes jm E c.L c.N c.J_min c.lam c.sampling c.nside true c.reality
      Jax.synthesis jm E w s c.L c.N c.J_min c.lam c.spin c.sampling c.nside c.reality (some flt) (some pcs)
  | .ssht E => do
      let flt ← filters_directional_vectorised jm c.L c.N c.J_min c.lam c.spin 0
      C.synthesis jm E w s c.L c.N c.J_min c.lam c.spin c.sampling c.reality (some flt)
  | .pre E => do
      let flt ← filters_directional_vectorised jm c.L c.N c.J_min c.lam c.spin 0
      let pcs ← Construct.generate_full_precomputes jm E c.L c.N c.J_min c.lam c.sampling c.nside true c.reality false
      Pre.synthesis jm E w s c.L c.N c.J_min c.lam c.spin c.sampling c.nside c.reality (some flt) (some pcs)
  | .torch E => do
      let flt ← filters_directional_vectorised jm c.L c.N c.J_min c.lam c.spin 0
      let pcs ← Construct.generate_full_precomputes jm E c.L c.N c.J_min c.lam c.sampling c.nside true c.reality false
      Torch.synthesis jm E w s c.L c.N c.J_min c.lam c.spin c.sampling c.nside c.reality (some flt) (some pcs)

/-- the analysis call with the filters as an argument; `base.py` has no such argument and builds its own -/
noncomputable def analysisWith (jm : JMax) (b : Backend) (c : Cfg) (flt : Arr3 ℂ × Arr1 ℝ) (f : Px) : Py (List Px × Px) :=
  match b with
  | .base E mr => Base.analysis jm E f c.L c.N c.J_min c.lam c.spin 0 c.sampling c.nside c.reality mr false
  | .looped E mr => Base.analysis_looped jm E f c.L c.N c.J_min c.lam c.spin 0 c.sampling c.nside c.reality mr
  | .jax E => do
      let pcs ← Construct.generate_wigner_precomputes jm E c.L c.N c.J_min c.lam c.sampling c.nside false c.reality
      Jax.analysis jm E f c.L c.N c.J_min c.lam c.spin c.sampling c.nside c.reality (some flt) (some pcs)
  | .ssht E => C.analysis jm E f c.L c.N c.J_min c.lam c.spin c.sampling c.reality (some flt)
  | .pre E => do
      let pcs ← Construct.generate_full_precomputes jm E c.L c.N c.J_min c.lam c.sampling c.nside false c.reality false
      Pre.analysis jm E f c.L c.N c.J_min c.lam c.spin c.sampling c.nside c.reality (some flt) (some pcs)
  | .torch E => do
      let pcs ← Construct.generate_full_precomputes jm E c.L c.N c.J_min c.lam c.sampling c.nside false c.reality false
      Torch.analysis jm E f c.L c.N c.J_min c.lam c.spin c.sampling c.nside c.reality (some flt) (some pcs)

/-- the synthesis call with the filters as an argument; `base.py` has no such argument and builds its own -/
noncomputable def synthesisWith (jm : JMax) (b : Backend) (c : Cfg) (flt : Arr3 ℂ × Arr1 ℝ) (w : List Px) (s : Px) : Py Px :=
  match b with
  | .base E mr => Base.synthesis jm E w s c.L c.N c.J_min c.lam c.spin 0 c.sampling c.nside c.reality mr
  | .looped E mr => Base.synthesis_looped jm E w s c.L c.N c.J_min c.lam c.spin 0 c.sampling c.nside c.reality mr
  | .jax E => do
      let pcs ← Construct.generate_wigner_precomputes jm E c.L c.N c.J_min c.lam c.sampling c.nside true c.reality
      Jax.synthesis jm E w s c.L c.N c.J_min c.lam c.spin c.sampling c.nside c.reality (some flt) (some pcs)
  | .ssht E => C.synthesis jm E w s c.L c.N c.J_min c.lam c.spin c.sampling c.reality (some flt)
  | .pre E => do
      let pcs ← Construct.generate_full_precomputes jm E c.L c.N c.J_min c.lam c.sampling c.nside true c.reality false
      Pre.synthesis jm E w s c.L c.N c.J_min c.lam c.spin c.sampling c.nside c.reality (some flt) (some pcs)
  | .torch E => do
      let pcs ← Construct.generate_full_precomputes jm E c.L c.N c.J_min c.lam c.sampling c.nside true c.reality false
      Torch.synthesis jm E w s c.L c.N c.J_min c.lam c.spin c.sampling c.nside c.reality (some flt) (some pcs)

theorem analysis_eq_with {jm : JMax} {b : Backend} {c : Cfg} {flt : Arr3 ℂ × Arr1 ℝ} (h : b.filters jm c = .ok flt) (f : Px) :
    b.analysis jm c f = b.analysisWith jm c flt f := by
  cases b
  case base => rfl
  case looped => rfl
  all_goals
    simp only [filters] at h
    simp only [analysis, analysisWith, h, Py.bind_ok]

theorem synthesis_eq_with {jm : JMax} {b : Backend} {c : Cfg} {flt : Arr3 ℂ × Arr1 ℝ} (h : b.filters jm c = .ok flt)
    (w : List Px) (s : Px) : b.synthesis jm c w s = b.synthesisWith jm c flt w s := by
  cases b
  case base => rfl
  case looped => rfl
  all_goals
    simp only [filters] at h
    simp only [synthesis, synthesisWith, h, Py.bind_ok]

/-- the setup steps of a call succeed: buffers can be allocated (`base.py`), the sampling is one SSHT knows (C), the
precomputes can be generated (the others) -/
def Ready (jm : JMax) : Backend → Cfg → Prop
  | .base E mr, c => ∃ al, construct_f jm E.toShapes c.L c.N c.J_min c.lam c.sampling (some (if mr then 1 else 0)) false
      = .ok al
  | .looped E mr, c => ∃ al, construct_f jm E.toShapes c.L c.N c.J_min c.lam c.sampling c.nside mr = .ok al
  | .jax E, c => ∀ forward, ∃ pcs, Construct.generate_wigner_precomputes jm E c.L c.N c.J_min c.lam c.sampling c.nside
      forward c.reality = .ok pcs
  | .ssht _, c => c.sampling.toLower ≠ "healpix" ∧ ∃ k, C.sshtIndex c.sampling.toLower = .ok k
  | .pre E, c => ∀ forward, ∃ pcs, Construct.generate_full_precomputes jm E c.L c.N c.J_min c.lam c.sampling c.nside
      forward c.reality false = .ok pcs
  | .torch E, c => ∀ forward, ∃ pcs, Construct.generate_full_precomputes jm E c.L c.N c.J_min c.lam c.sampling c.nside
      forward c.reality false = .ok pcs

/-- what is transformed in place of the scaling image: `base.py` passes the coefficients to s2fft, the others return the
constant image directly when `Ls = 1` -/
noncomputable def scalI (b : Backend) (c : Cfg) (a : Arr2 ℂ) : Py Px :=
  if b.isBase = false ∧ c.Ls b.mr = 1 then
    .ok (Px.ofArr2 (a.map fun x => x * ((Real.sqrt (1 / (4 * Real.pi)) : ℝ) : ℂ)))
  else (b.engine c).sphI a (c.Ls b.mr)

/-- the shape checks of a synthesis call (`base.py` only) -/
noncomputable def check (jm : JMax) (b : Backend) (c : Cfg) (w : List Px) (s : Px) : Py Unit :=
  match b with
  | .base E mr => wavelet_shape_check jm E.toShapes w s c.L c.N c.J_min c.lam c.sampling c.nside mr
  | .looped E mr => wavelet_shape_check jm E.toShapes w s c.L c.N c.J_min c.lam c.sampling c.nside mr
  | _ => .ok ()

/-- the scaling image passed to the forward transform: the C synthesis drops the imaginary part when `reality` -/
noncomputable def fscal (b : Backend) (c : Cfg) (s : Px) : Px :=
  match b with
  | .ssht _ => if c.reality then s.re else s
  | _ => s

end Backend

/-! ## Contracts of the s2fft calls -/

/-- the forward transforms return coefficient arrays of the documented layout: right shape, zero where `|m| > l`, and
symmetric for real signals -/
structure Engine.Std (e : Engine) (reality : Bool) : Prop where
  sph : ∀ p L a, e.sphF p L = .ok a → BL2 L 0 a ∧ (reality = true → Herm2 a)
  wig : ∀ p L N L0 t, e.wigF p L N L0 = .ok t → BL3 L N 0 t

/-- the transforms are exact on band-limited coefficients (sampling theorem) -/
structure Engine.Exact (e : Engine) (spin : ℤ) (reality : Bool) : Prop where
  sph : ∀ L a, 1 ≤ L → BL2 L spin a → (reality = true → Herm2 a) → ∃ p, e.sphI a L = .ok p ∧ e.sphF p L = .ok a
  wig : ∀ L N L0 t, 1 ≤ L → 1 ≤ N → 0 ≤ L0 → BL3 L N L0 t → (reality = true → Herm3 t) →
    ∃ p, e.wigI t L N L0 = .ok p ∧ e.wigF p L N L0 = .ok t

/-- the real inverse transform only reads the orders `m ≥ 0` -/
def Engine.NonnegOnly (e : Engine) : Prop :=
  ∀ L a a', a.r = L → a'.r = L → a.c = a'.c → (∀ l m, 0 ≤ m → co2 a l m = co2 a' l m) → e.sphI a L = e.sphI a' L

/-- a constant image of one pixel is the inverse transform at band-limit 1 (`Y_00 = sqrt(1/4π)`) -/
def Engine.Dc (e : Engine) (spin : ℤ) (reality : Bool) : Prop :=
  ∀ a, BL2 1 spin a → (reality = true → Herm2 a) →
    e.sphF (Px.ofArr2 (a.map fun x => x * ((Real.sqrt (1 / (4 * Real.pi)) : ℝ) : ℂ))) 1 = .ok a

/-- inverse transforms return images of the documented shape -/
def ShapesMatch (E : BaseFFT) (c : Cfg) : Prop :=
  (∀ a L p, (baseEngine E c).sphI a L = .ok p → E.s2 L c.sampling c.nside = .ok p.shape) ∧
  (∀ t L N L0 p, (baseEngine E c).wigI t L N L0 = .ok p → E.so3 L N c.sampling c.nside = .ok p.shape)

/-- what a round trip needs beyond exactness, by backend -/
def Backend.RoundTrip : Backend → Cfg → Prop
  | .base E _, c => ShapesMatch E c
  | .looped E _, c => ShapesMatch E c ∧ (c.reality = true → (baseEngine E c).NonnegOnly)
  | .jax E, c => (jaxEngine E c).Dc c.spin c.reality
  | .ssht E, c => (cEngine E c).Dc c.spin c.reality ∧
      (c.reality = true → ∀ a L p, (cEngine E c).sphI a L = .ok p → p.re = p)
  | .pre E, c => (preEngine E c).Dc c.spin c.reality
  | .torch E, c => (preEngine E c).Dc c.spin c.reality

/-- everything a backend needs to analyse and reconstruct: an admissible configuration, and s2fft meeting its contracts -/
structure Backend.Works (b : Backend) (jm : JMax) (c : Cfg) (J : ℤ) : Prop where
  valid : c.Valid jm J
  ready : b.Ready jm c
  std : (b.engine c).Std c.reality
  exact : (b.engine c).Exact c.spin c.reality
  trip : b.RoundTrip c

/-- `W j`, `S` are the harmonic coefficients of the wavelet maps `w` and the scaling map `s`, as seen by the forward
transforms of the backend -/
structure Backend.Coeffs (b : Backend) (c : Cfg) (J : ℤ) (w : List Px) (s : Px) (W : ℤ → Arr3 ℂ) (S : Arr2 ℂ) : Prop where
  len : (w.length : ℤ) = J + 1 - c.J_min
  wav : ∀ j, c.J_min ≤ j → j ≤ J → ∃ p, listGet w (j - c.J_min) = .ok p ∧
    (b.engine c).wigF p (c.Lj b.mr j) (c.Nj b.mr j) (c.L0 b.mr j) = .ok (W j)
  scal : (b.engine c).sphF (b.fscal c s) (c.Ls b.mr) = .ok S

/-! ## The wavelet transform in harmonic space -/

/-- wavelet coefficients of a signal with harmonic coefficients `flm`: `8π²/(2l+1) flm_lm conj(ψ_ln)` -/
noncomputable def wavCoeffs (Lj Nj : ℤ) (psi : ℤ → ℤ → ℂ) (flm : Arr2 ℂ) : Arr3 ℂ :=
  Arr3.of (2 * Nj - 1) Lj (2 * Lj - 1) fun k l i =>
    ((8 * Real.pi ^ 2 / (2 * l + 1) : ℝ) : ℂ) *
      (co2 flm l (i - (Lj - 1)) * (starRingEnd ℂ) (psi l (k - (Nj - 1))))

/-- scaling coefficients: `sqrt(4π/(2l+1)) φ_l flm_lm` -/
noncomputable def scalCoeffs (Ls : ℤ) (phi : ℤ → ℝ) (flm : Arr2 ℂ) : Arr2 ℂ :=
  Arr2.of Ls (2 * Ls - 1) fun l i =>
    ((Real.sqrt (4 * Real.pi / (2 * l + 1)) * phi l : ℝ) : ℂ) * co2 flm l (i - (Ls - 1))

/-- synthesised harmonic coefficients: `Σ_j Σ_n ψ^j_ln W^j_lmn + sqrt(4π/(2l+1)) φ_l S_lm` -/
noncomputable def synCoeffs (L J_min J : ℤ) (psi : ℤ → ℤ → ℤ → ℂ) (phi : ℤ → ℝ) (W : ℤ → Arr3 ℂ) (S : Arr2 ℂ) : Arr2 ℂ :=
  Arr2.of L (2 * L - 1) fun l i =>
    ∑ j ∈ Finset.Icc J_min J, ∑ n ∈ Finset.Ioo (-L) L, psi j l n * co3 (W j) n l (i - (L - 1)) +
      ((Real.sqrt (4 * Real.pi / (2 * l + 1)) * phi l : ℝ) : ℂ) * co2 S l (i - (L - 1))

end S2wav
