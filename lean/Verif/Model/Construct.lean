import Verif.Model.Base

/-! # Model of `s2wav/transforms/construct.py`

`using_torch` only converts the containers and is not modelled. -/

namespace S2wav.Construct
open Classical

/-- transforms/construct.py:13-79 `generate_full_precomputes`; `none` stands for the empty list returned in place of a
spherical kernel when `nospherical` (line 67). -/
noncomputable def generate_full_precomputes {KW KS : Type} (jm : JMax) (E : PreFFT KW KS) (L N J_min : ℤ) (lam : ℝ)
    (sampling : String) (nside : Option ℤ) (forward reality nospherical : Bool) :
    Py (Option KS × Option KS × List KW) := do
  let J ← jm L lam
  let precomps ← (pyRange J_min J).mapM fun j => do
    let (Lj, Nj, _L0j) := LN_j L j N lam true
    E.wigKernel Lj Nj reality sampling nside forward
  let Ls := scal_bandlimit L J_min lam true
  if nospherical then .ok (none, none, precomps)
  else do
    let precompute_scaling ← E.sphKernel Ls 0 reality sampling nside forward
    let precompute_full ← E.sphKernel L 0 reality sampling nside (!forward)
    .ok (some precompute_full, some precompute_scaling, precomps)

/-- transforms/construct.py:82-132 `generate_wigner_precomputes`. -/
noncomputable def generate_wigner_precomputes {K : Type} (jm : JMax) (E : JaxFFT K) (L N J_min : ℤ) (lam : ℝ)
    (sampling : String) (nside : Option ℤ) (forward reality : Bool) : Py (List K) := do
  let J ← jm L lam
  (pyRange J_min (J + 1)).mapM fun j => do
    let (Lj, Nj, L0j) := LN_j L j N lam true
    E.genWigner Lj Nj sampling nside forward reality L0j

end S2wav.Construct
