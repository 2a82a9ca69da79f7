import Verif.Py
import Mathlib.Analysis.SpecialFunctions.Gamma.Basic
import Mathlib.Analysis.SpecialFunctions.Log.Basic

/-!
# What s2wav imports from s2fft

s2fft is not part of /repo.  Its functions are *parameters* of the model; nothing is assumed about them here.
Assumptions, where a theorem needs them, are explicit hypotheses (see `Spec.lean`).
-/

namespace S2wav

/-- A pixel-space array (signal on the sphere or on SO(3)): a shape and entries. -/
structure Px where
  shape : List ℤ
  v : List ℤ → ℂ

/-- `np.zeros(shape, dtype=np.complex128)` -/
def Px.zeros (shape : List ℤ) : Py Px :=
  if shape.any (· < 0) then .error .valueError else .ok ⟨shape, fun _ => 0⟩

/-- `np.abs(f)` (stored back into a complex array) -/
noncomputable def Px.abs (f : Px) : Px := ⟨f.shape, fun i => ((‖f.v i‖ : ℝ) : ℂ)⟩

/-- `f.real` (as a complex array) -/
noncomputable def Px.re (f : Px) : Px := ⟨f.shape, fun i => ((f.v i).re : ℂ)⟩

/-- a 2-d array used as a pixel array (the `Ls == 1` edge case of the analysis transforms) -/
def Px.ofArr2 (a : Arr2 ℂ) : Px :=
  ⟨[a.r, a.c], fun i => match i with | [i, j] => a.v i j | _ => 0⟩

/-- `s2fft.sampling`: `s2_samples.f_shape(L, sampling, nside)` and `so3_samples.f_shape(L, N, sampling, nside)`
(imported at s2wav/samples.py:8). -/
structure Shapes where
  s2 : (L : ℤ) → (sampling : String) → (nside : Option ℤ) → Py (List ℤ)
  so3 : (L N : ℤ) → (sampling : String) → (nside : Option ℤ) → Py (List ℤ)

/-- `s2fft.base_transforms` (imported at s2wav/transforms/base.py:3). -/
structure BaseFFT extends Shapes where
  /-- `base.spherical.forward(f, L, spin, sampling, nside, reality)` -/
  sphForward : Px → (L spin : ℤ) → String → Option ℤ → (reality : Bool) → Py (Arr2 ℂ)
  /-- `base.spherical.inverse(flm, L, spin, sampling, nside, reality, L_lower)` (`L_lower` defaults to 0) -/
  sphInverse : Arr2 ℂ → (L spin : ℤ) → String → Option ℤ → (reality : Bool) → (L_lower : ℤ) → Py Px
  /-- `base.wigner.forward(f, L, N, L_lower, sampling, reality, nside)` -/
  wigForward : Px → (L N L_lower : ℤ) → String → (reality : Bool) → Option ℤ → Py (Arr3 ℂ)
  /-- `base.wigner.inverse(flmn, L, N, L_lower, sampling, reality, nside)` -/
  wigInverse : Arr3 ℂ → (L N L_lower : ℤ) → String → (reality : Bool) → Option ℤ → Py Px

/-- s2fft's JAX transforms with on-the-fly recursions (used in s2wav/transforms/wavelet.py and
`construct.generate_wigner_precomputes`). `K` is the type of a list of precomputed recursion coefficients. -/
structure JaxFFT (K : Type) where
  /-- `s2fft.forward_jax(f, L, spin, nside, sampling, reality)` -/
  sphForward : Px → (L spin : ℤ) → Option ℤ → String → (reality : Bool) → Py (Arr2 ℂ)
  /-- `s2fft.inverse_jax(flm, L, spin, nside, sampling, reality)` -/
  sphInverse : Arr2 ℂ → (L spin : ℤ) → Option ℤ → String → (reality : Bool) → Py Px
  /-- `s2fft.generate_precomputes_wigner_jax(L, N, sampling, nside, forward, reality, L_lower)` -/
  genWigner : (L N : ℤ) → String → Option ℤ → (forward reality : Bool) → (L_lower : ℤ) → Py K
  /-- `s2fft.wigner.forward_jax(f, L, N, nside, sampling, reality, precomps, L_lower)` -/
  wigForward : Px → (L N : ℤ) → Option ℤ → String → (reality : Bool) → K → (L_lower : ℤ) → Py (Arr3 ℂ)
  /-- `s2fft.wigner.inverse_jax(flmn, L, N, nside, sampling, reality, precomps, L_lower)` -/
  wigInverse : Arr3 ℂ → (L N : ℤ) → Option ℤ → String → (reality : Bool) → K → (L_lower : ℤ) → Py Px

/-- s2fft's SSHT (C) transforms used in s2wav/transforms/wavelet_c.py. -/
structure CFFT where
  /-- `ssht_forward(f, L, spin, reality, ssht_sampling)` -/
  sphForward : Px → (L spin : ℤ) → (reality : Bool) → (ssht_sampling : ℕ) → Py (Arr2 ℂ)
  /-- `ssht_inverse(flm, L, spin, reality, ssht_sampling)` -/
  sphInverse : Arr2 ℂ → (L spin : ℤ) → (reality : Bool) → (ssht_sampling : ℕ) → Py Px
  /-- `s2fft.wigner.forward_jax_ssht(f, L, N, L_lower, sampling, reality)` -/
  wigForward : Px → (L N L_lower : ℤ) → String → (reality : Bool) → Py (Arr3 ℂ)
  /-- `s2fft.wigner.inverse_jax_ssht(flmn, L, N, L_lower, sampling, reality)` -/
  wigInverse : Arr3 ℂ → (L N L_lower : ℤ) → String → (reality : Bool) → Py Px

/-- s2fft's precompute transforms, used in s2wav/transforms/wavelet_precompute.py (JAX) and, through the
functions with suffix `_torch`, in wavelet_precompute_torch.py. `KW`, `KS` are the types of Wigner and spherical kernels. -/
structure PreFFT (KW KS : Type) where
  /-- `wigner_kernel_jax(L, N, reality, sampling, nside, forward)` -/
  wigKernel : (L N : ℤ) → (reality : Bool) → String → Option ℤ → (forward : Bool) → Py KW
  /-- `spin_spherical_kernel_jax(L, spin, reality, sampling, nside, forward)` -/
  sphKernel : (L spin : ℤ) → (reality : Bool) → String → Option ℤ → (forward : Bool) → Py KS
  /-- `spherical.forward_transform(f, kernel, L, sampling, reality, spin, nside)` -/
  sphForward : Px → KS → (L : ℤ) → String → (reality : Bool) → (spin : ℤ) → Option ℤ → Py (Arr2 ℂ)
  /-- `spherical.inverse_transform(flm, kernel, L, sampling, reality, spin, nside)` -/
  sphInverse : Arr2 ℂ → KS → (L : ℤ) → String → (reality : Bool) → (spin : ℤ) → Option ℤ → Py Px
  /-- `wigner.forward_transform(f, kernel, L, N, sampling, reality, nside)` -/
  wigForward : Px → KW → (L N : ℤ) → String → (reality : Bool) → Option ℤ → Py (Arr3 ℂ)
  /-- `wigner.inverse_transform(flmn, kernel, L, N, sampling, reality, nside)` -/
  wigInverse : Arr3 ℂ → KW → (L N : ℤ) → String → (reality : Bool) → Option ℤ → Py Px

end S2wav
