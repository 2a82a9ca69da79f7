import Verif.Model.Base
import Verif.Model.Construct
import Verif.Model.Wavelet
import Verif.Model.WaveletC
import Verif.Model.Precompute
import Verif.Model.PrecomputeTorch

/-! # The public functions with the default values of their arguments

`s2wav/__init__.py` exports the transforms under the names below.  Lean's default arguments play the part of Python's; each
definition cites the signature it copies.  `E` stands for s2fft; `j_max` is the exact one.  Not modelled: `using_torch`
(changes only the container), `jit` and its `static_argnums`, the rejection of unknown keywords. -/

namespace S2wav.Api
open Classical

/-! ## `filters.py` -/

/-- filters.py:10 -/
noncomputable def filters_axisym (L : ℤ) (J_min : ℤ := 0) (lam : ℝ := 2) : Py (Arr2 ℝ × Arr1 ℝ) :=
  S2wav.filters_axisym j_max L J_min lam
/-- filters.py:84-92 -/
noncomputable def filters_directional (L : ℤ) (N : ℤ := 1) (J_min : ℤ := 0) (lam : ℝ := 2) (spin : ℤ := 0) (spin0 : ℤ := 0) :
    Py (Arr3 ℂ × Arr1 ℝ) := S2wav.filters_directional j_max L N J_min lam spin spin0
/-- filters.py:158 -/
noncomputable def filters_axisym_vectorised (L : ℤ) (J_min : ℤ := 0) (lam : ℝ := 2) : Py (Arr2 ℝ × Arr1 ℝ) :=
  S2wav.filters_axisym_vectorised j_max L J_min lam
/-- filters.py:195-203 -/
noncomputable def filters_directional_vectorised (L : ℤ) (N : ℤ := 1) (J_min : ℤ := 0) (lam : ℝ := 2) (spin : ℤ := 0)
    (spin0 : ℤ := 0) : Py (Arr3 ℂ × Arr1 ℝ) := S2wav.filters_directional_vectorised j_max L N J_min lam spin spin0
/-- filters.py:256 -/
noncomputable def filters_axisym_jax (L : ℤ) (J_min : ℤ := 0) (lam : ℝ := 2) : Py (Arr2 ℝ × Arr1 ℝ) :=
  S2wav.filters_axisym_jax j_max L J_min lam
/-- filters.py:294-301 -/
noncomputable def filters_directional_jax (L : ℤ) (N : ℤ := 1) (J_min : ℤ := 0) (lam : ℝ := 2) (spin : ℤ := 0)
    (spin0 : ℤ := 0) : Py (Arr3 ℂ × Arr1 ℝ) := S2wav.filters_directional_jax j_max L N J_min lam spin spin0
/-- filters.py:421 -/
noncomputable def k_lam (L : ℤ) (lam : ℝ := 2) (quad_iters : ℤ := 300) : Py (Arr2 ℝ) := S2wav.k_lam j_max L lam quad_iters
/-- filters.py:521 -/
noncomputable def k_lam_jax (L : ℤ) (lam : ℝ := 2) (quad_iters : ℤ := 300) : Py (Arr2 ℝ) := S2wav.k_lam_jax j_max L lam quad_iters

/-! ## `samples.py`; here `multiresolution` is `False` by default -/

/-- samples.py:13-20 -/
noncomputable def f_scal (E : Shapes) (L : ℤ) (J_min : ℤ := 0) (lam : ℝ := 2) (sampling : String := "mw")
    (nside : Option ℤ := none) (multiresolution : Bool := false) : Py (List ℤ) :=
  S2wav.f_scal E L J_min lam sampling nside multiresolution
/-- samples.py:51 -/
noncomputable def n_wav_scales (L : ℤ) (N : ℤ := 1) (J_min : ℤ := 0) (lam : ℝ := 2) : Py ℤ :=
  S2wav.n_wav_scales S2wav.j_max L N J_min lam
/-- samples.py:93-99 -/
noncomputable def LN_j (L : ℤ) (j : ℤ := 0) (N : ℤ := 1) (lam : ℝ := 2) (multiresolution : Bool := false) : ℤ × ℤ × ℤ :=
  S2wav.LN_j L j N lam multiresolution
/-- samples.py:133-141 -/
noncomputable def f_wav_j (E : Shapes) (L : ℤ) (j : ℤ := 0) (N : ℤ := 1) (lam : ℝ := 2) (sampling : String := "mw")
    (nside : Option ℤ := none) (multiresolution : Bool := false) : Py (List ℤ) :=
  S2wav.f_wav_j E L j N lam sampling nside multiresolution
/-- samples.py:179-188, `scattering=False` -/
noncomputable def construct_f (E : Shapes) (L : ℤ) (N : ℤ := 1) (J_min : ℤ := 0) (lam : ℝ := 2) (sampling : String := "mw")
    (nside : Option ℤ := none) (multiresolution : Bool := false) : Py (List Px) :=
  S2wav.construct_f S2wav.j_max E L N J_min lam sampling nside multiresolution
/-- samples.py:343-345 -/
noncomputable def scal_bandlimit (L : ℤ) (J_min : ℤ := 0) (lam : ℝ := 2) (multiresolution : Bool := false) : ℤ :=
  S2wav.scal_bandlimit L J_min lam multiresolution
/-- samples.py:406-408 -/
noncomputable def wav_j_bandlimit (L j : ℤ) (lam : ℝ := 2) (multiresolution : Bool := false) : ℤ :=
  S2wav.wav_j_bandlimit L j lam multiresolution
/-- samples.py:564 -/
noncomputable def j_max (L : ℤ) (lam : ℝ := 2) : Py ℤ := S2wav.j_max L lam
/-- samples.py:579-589 -/
noncomputable def wavelet_shape_check (E : Shapes) (f_w : List Px) (f_s : Px) (L : ℤ) (N : ℤ := 1) (J_min : ℤ := 0)
    (lam : ℝ := 2) (sampling : String := "mw") (nside : Option ℤ := none) (multiresolution : Bool := false) : Py Unit :=
  S2wav.wavelet_shape_check S2wav.j_max E f_w f_s L N J_min lam sampling nside multiresolution

/-! ## `transforms/construct.py` -/

section
variable {KW KS K : Type}

/-- transforms/construct.py:13-24 -/
noncomputable def generate_full_precomputes (E : PreFFT KW KS) (L N : ℤ) (J_min : ℤ := 0) (lam : ℝ := 2)
    (sampling : String := "mw") (nside : Option ℤ := none) (forward : Bool := false) (reality : Bool := false)
    (nospherical : Bool := false) : Py (Option KS × Option KS × List KW) :=
  Construct.generate_full_precomputes S2wav.j_max E L N J_min lam sampling nside forward reality nospherical
/-- transforms/construct.py:82-92 -/
noncomputable def generate_wigner_precomputes (E : JaxFFT K) (L N : ℤ) (J_min : ℤ := 0) (lam : ℝ := 2)
    (sampling : String := "mw") (nside : Option ℤ := none) (forward : Bool := false) (reality : Bool := false) : Py (List K) :=
  Construct.generate_wigner_precomputes S2wav.j_max E L N J_min lam sampling nside forward reality

/-! ## The transforms; those of `base.py` have `multiresolution=True` by default -/

/-- `s2wav.synthesis_base`, __init__.py:18, transforms/base.py:90-103 -/
noncomputable def synthesis_base (E : BaseFFT) (f_wav : List Px) (f_scal : Px) (L : ℤ) (N : ℤ := 1) (J_min : ℤ := 0) (lam : ℝ := 2)
    (spin : ℤ := 0) (spin0 : ℤ := 0) (sampling : String := "mw") (nside : Option ℤ := none) (reality : Bool := false)
    (multiresolution : Bool := true) : Py Px :=
  Base.synthesis S2wav.j_max E f_wav f_scal L N J_min lam spin spin0 sampling nside reality multiresolution
/-- `s2wav.analysis_base`, __init__.py:17, transforms/base.py:262-275 -/
noncomputable def analysis_base (E : BaseFFT) (f : Px) (L : ℤ) (N : ℤ := 1) (J_min : ℤ := 0) (lam : ℝ := 2)
    (spin : ℤ := 0) (spin0 : ℤ := 0) (sampling : String := "mw") (nside : Option ℤ := none) (reality : Bool := false)
    (multiresolution : Bool := true) (scattering : Bool := false) : Py (List Px × Px) :=
  Base.analysis S2wav.j_max E f L N J_min lam spin spin0 sampling nside reality multiresolution scattering
/-- transforms/base.py:7-20 (`N` has no default) -/
noncomputable def synthesis_looped (E : BaseFFT) (f_wav : List Px) (f_scal : Px) (L N : ℤ) (J_min : ℤ := 0) (lam : ℝ := 2)
    (spin : ℤ := 0) (spin0 : ℤ := 0) (sampling : String := "mw") (nside : Option ℤ := none) (reality : Bool := false)
    (multiresolution : Bool := true) : Py Px :=
  Base.synthesis_looped S2wav.j_max E f_wav f_scal L N J_min lam spin spin0 sampling nside reality multiresolution
/-- transforms/base.py:168-180 -/
noncomputable def analysis_looped (E : BaseFFT) (f : Px) (L : ℤ) (N : ℤ := 1) (J_min : ℤ := 0) (lam : ℝ := 2)
    (spin : ℤ := 0) (spin0 : ℤ := 0) (sampling : String := "mw") (nside : Option ℤ := none) (reality : Bool := false)
    (multiresolution : Bool := true) : Py (List Px × Px) :=
  Base.analysis_looped S2wav.j_max E f L N J_min lam spin spin0 sampling nside reality multiresolution

/-- `s2wav.synthesis`, __init__.py:9, transforms/wavelet.py:11-24 -/
noncomputable def synthesis (E : JaxFFT K) (f_wav : List Px) (f_scal : Px) (L : ℤ) (N : ℤ := 1) (J_min : ℤ := 0) (lam : ℝ := 2)
    (spin : ℤ := 0) (sampling : String := "mw") (nside : Option ℤ := none) (reality : Bool := false)
    (filters : Option (Arr3 ℂ × Arr1 ℝ) := none) (precomps : Option (List K) := none) : Py Px :=
  Jax.synthesis S2wav.j_max E f_wav f_scal L N J_min lam spin sampling nside reality filters precomps
/-- `s2wav.analysis`, __init__.py:9, transforms/wavelet.py:105-117 -/
noncomputable def analysis (E : JaxFFT K) (f : Px) (L : ℤ) (N : ℤ := 1) (J_min : ℤ := 0) (lam : ℝ := 2)
    (spin : ℤ := 0) (sampling : String := "mw") (nside : Option ℤ := none) (reality : Bool := false)
    (filters : Option (Arr3 ℂ × Arr1 ℝ) := none) (precomps : Option (List K) := none) : Py (List Px × Px) :=
  Jax.analysis S2wav.j_max E f L N J_min lam spin sampling nside reality filters precomps
/-- `s2wav.flm_to_analysis`, __init__.py:9, transforms/wavelet.py:214-226 -/
noncomputable def flm_to_analysis (E : JaxFFT K) (flm : Arr2 ℂ) (L : ℤ) (N : ℤ := 1) (J_min : ℤ := 0) (J_max : Option ℤ := none)
    (lam : ℝ := 2) (sampling : String := "mw") (nside : Option ℤ := none) (reality : Bool := false)
    (filters : Option (Arr3 ℂ) := none) (precomps : Option (List K) := none) : Py (List Px) :=
  Jax.flm_to_analysis S2wav.j_max E flm L N J_min J_max lam sampling nside reality filters precomps

/-- `s2wav.synthesis_c`, __init__.py:13, transforms/wavelet_c.py:10-21 -/
noncomputable def synthesis_c (E : CFFT) (f_wav : List Px) (f_scal : Px) (L : ℤ) (N : ℤ := 1) (J_min : ℤ := 0) (lam : ℝ := 2)
    (spin : ℤ := 0) (sampling : String := "mw") (reality : Bool := false)
    (filters : Option (Arr3 ℂ × Arr1 ℝ) := none) : Py Px :=
  C.synthesis S2wav.j_max E f_wav f_scal L N J_min lam spin sampling reality filters
/-- `s2wav.analysis_c`, __init__.py:12, transforms/wavelet_c.py:88-98 -/
noncomputable def analysis_c (E : CFFT) (f : Px) (L : ℤ) (N : ℤ := 1) (J_min : ℤ := 0) (lam : ℝ := 2)
    (spin : ℤ := 0) (sampling : String := "mw") (reality : Bool := false)
    (filters : Option (Arr3 ℂ × Arr1 ℝ) := none) : Py (List Px × Px) :=
  C.analysis S2wav.j_max E f L N J_min lam spin sampling reality filters
/-- `s2wav.flm_to_analysis_c`, __init__.py:14, transforms/wavelet_c.py:156-166 -/
noncomputable def flm_to_analysis_c (E : CFFT) (flm : Arr2 ℂ) (L : ℤ) (N : ℤ := 1) (J_min : ℤ := 0) (J_max : Option ℤ := none)
    (lam : ℝ := 2) (sampling : String := "mw") (reality : Bool := false)
    (filters : Option (Arr3 ℂ) := none) : Py (List Px) :=
  C.flm_to_analysis S2wav.j_max E flm L N J_min J_max lam sampling reality filters

/-- `s2wav.synthesis_precomp_jax`, __init__.py:22, transforms/wavelet_precompute.py:10-23 -/
noncomputable def synthesis_precomp_jax (E : PreFFT KW KS) (f_wav : List Px) (f_scal : Px) (L : ℤ) (N : ℤ := 1) (J_min : ℤ := 0)
    (lam : ℝ := 2) (spin : ℤ := 0) (sampling : String := "mw") (nside : Option ℤ := none) (reality : Bool := false)
    (filters : Option (Arr3 ℂ × Arr1 ℝ) := none) (precomps : Option (Option KS × Option KS × List KW) := none) : Py Px :=
  Pre.synthesis S2wav.j_max E f_wav f_scal L N J_min lam spin sampling nside reality filters precomps
/-- `s2wav.analysis_precomp_jax`, __init__.py:21, transforms/wavelet_precompute.py:115-127 -/
noncomputable def analysis_precomp_jax (E : PreFFT KW KS) (f : Px) (L : ℤ) (N : ℤ := 1) (J_min : ℤ := 0)
    (lam : ℝ := 2) (spin : ℤ := 0) (sampling : String := "mw") (nside : Option ℤ := none) (reality : Bool := false)
    (filters : Option (Arr3 ℂ × Arr1 ℝ) := none) (precomps : Option (Option KS × Option KS × List KW) := none) :
    Py (List Px × Px) :=
  Pre.analysis S2wav.j_max E f L N J_min lam spin sampling nside reality filters precomps
/-- `s2wav.synthesis_precomp_torch`, __init__.py:26, transforms/wavelet_precompute_torch.py:7-20 -/
noncomputable def synthesis_precomp_torch (E : PreFFT KW KS) (f_wav : List Px) (f_scal : Px) (L : ℤ) (N : ℤ := 1) (J_min : ℤ := 0)
    (lam : ℝ := 2) (spin : ℤ := 0) (sampling : String := "mw") (nside : Option ℤ := none) (reality : Bool := false)
    (filters : Option (Arr3 ℂ × Arr1 ℝ) := none) (precomps : Option (Option KS × Option KS × List KW) := none) : Py Px :=
  Torch.synthesis S2wav.j_max E f_wav f_scal L N J_min lam spin sampling nside reality filters precomps
/-- `s2wav.analysis_precomp_torch`, __init__.py:25, transforms/wavelet_precompute_torch.py:108-120 -/
noncomputable def analysis_precomp_torch (E : PreFFT KW KS) (f : Px) (L : ℤ) (N : ℤ := 1) (J_min : ℤ := 0)
    (lam : ℝ := 2) (spin : ℤ := 0) (sampling : String := "mw") (nside : Option ℤ := none) (reality : Bool := false)
    (filters : Option (Arr3 ℂ × Arr1 ℝ) := none) (precomps : Option (Option KS × Option KS × List KW) := none) :
    Py (List Px × Px) :=
  Torch.analysis S2wav.j_max E f L N J_min lam spin sampling nside reality filters precomps

end

end S2wav.Api
