import Verif.Model.IeeeTransforms
import Verif.Model.Base

/-! # `base.py` over any arithmetic

`analysis` and `synthesis` of `s2wav/transforms/base.py`, written over an arbitrary arithmetic `O : Ops α β` in the way
`Model/IeeeTransforms.lean` does it for `wavelet_c.py`.  These functions compute their filters themselves; here, what
`filters.filters_directional_vectorised(L, N, J_min, lam, spin, spin0)` returns or raises is a parameter.  With `Ops.exact` and the filters of the
exact model they are the programs of `Model/Base.lean` (C110). -/

namespace S2wav
open Classical

/-- `s2fft.base_transforms`, as `BaseFFT`, on coefficients `α` and images of a type `P`, together with the operations base.py
applies to images -/
structure BaseFFTO (α P : Type) [Zero α] extends Shapes where
  /-- `base.spherical.forward(f, L, spin, sampling, nside, reality)` -/
  sphForward : P → (L spin : ℤ) → String → Option ℤ → (reality : Bool) → Py (Arr2 α)
  /-- `base.spherical.inverse(flm, L, spin, sampling, nside, reality, L_lower)` -/
  sphInverse : Arr2 α → (L spin : ℤ) → String → Option ℤ → (reality : Bool) → (L_lower : ℤ) → Py P
  /-- `base.wigner.forward(f, L, N, L_lower, sampling, reality, nside)` -/
  wigForward : P → (L N L_lower : ℤ) → String → (reality : Bool) → Option ℤ → Py (Arr3 α)
  /-- `base.wigner.inverse(flmn, L, N, L_lower, sampling, reality, nside)` -/
  wigInverse : Arr3 α → (L N L_lower : ℤ) → String → (reality : Bool) → Option ℤ → Py P
  /-- `f.shape` -/
  shape : P → List ℤ
  /-- `np.zeros(shape, dtype=np.complex128)` -/
  zeros : List ℤ → Py P
  /-- `np.abs(f)` -/
  abs : P → P

namespace Base
section
variable {α β P : Type} [Zero α] [Zero β] (O : Ops α β) (E : BaseFFTO α P)

/-- samples.py:579-628 `wavelet_shape_check`. -/
noncomputable def shapeCheckO (jm : JMax) (f_w : List P) (f_s : P) (L N J_min : ℤ) (lam : ℝ)
    (sampling : String) (nside : Option ℤ) (multiresolution : Bool) : Py Unit := do
  let nj ← n_wav_scales jm L N J_min lam
  pyAssert ((f_w.length : ℤ) = nj)
  let s ← f_scal E.toShapes L J_min lam sampling nside multiresolution
  pyAssert (E.shape f_s = s)
  let J ← jm L lam
  (pyRange J_min (J + 1)).foldlM (init := ()) fun _ j => do
    let f ← listGet f_w (j - J_min)
    let s ← f_wav_j E.toShapes L j N lam sampling nside multiresolution
    pyAssert (E.shape f = s)

/-- samples.py:223-232, the `scattering=False` branch of `construct_f`. -/
noncomputable def construct_fO (jm : JMax) (L N J_min : ℤ) (lam : ℝ) (sampling : String) (nside : Option ℤ)
    (multiresolution : Bool) : Py (List P) := do
  let J ← jm L lam
  (pyRange J_min (J + 1)).mapM fun j => do
    let s ← f_wav_j E.toShapes L j N lam sampling nside multiresolution
    E.zeros s

/-- transforms/base.py:90-165 `synthesis`. -/
noncomputable def synthesisO (jm : JMax) (filters : Py (Arr3 α × Arr1 β)) (f_wav : List P) (f_scal : P) (L N J_min : ℤ)
    (lam : ℝ) (spin : ℤ) (sampling : String) (nside : Option ℤ) (reality multiresolution : Bool) : Py P := do
  shapeCheckO E jm f_wav f_scal L N J_min lam sampling nside multiresolution
  let J ← jm L lam
  let Ls := scal_bandlimit L J_min lam multiresolution
  let flm ← zeros2 L (2 * L - 1)
  let f_scal_lm ← E.sphForward f_scal Ls spin sampling nside reality
  let (wav_lm, scal_l) ← filters
  let flm ← (pyRange J_min (J + 1)).foldlM (init := flm) fun (flm : Arr2 α) (j : ℤ) => do
    let (Lj, Nj, L0j) := LN_j L j N lam multiresolution
    let fw ← listGet f_wav (j - J_min)
    let temp ← E.wigForward fw Lj Nj L0j sampling reality nside
    let w ← wav_lm.sliceAt j (mkSl wav_lm.r (some L0j) (some Lj))
      (mkSl wav_lm.c (some (L - Nj)) (some (L - 1 + Nj)) 2)
    let t := temp.slice (mkSl temp.d none none 2) (mkSl temp.r (some L0j) none) (mkSl temp.c none none)
    let e ← einsumO_ln_nlm O w t
    flm.addAtO O (mkSl flm.r (some L0j) (some Lj)) (mkSl flm.c (some (L - Lj)) (some (L - 1 + Lj))) e
  let phi ← scalPhiO O scal_l Ls
  let e ← einsumO_lm_l O f_scal_lm phi
  let flm ← flm.addAtO O (mkSl flm.r none (some Ls)) (mkSl flm.c (some (L - Ls)) (some (L - 1 + Ls))) e
  E.sphInverse flm L spin sampling nside reality 0

/-- transforms/base.py:262-339 `analysis`. Line 309 calls `construct_f(L, N, J_min, lam, sampling, multiresolution)`:
`multiresolution` lands in the `nside` slot, and the real `multiresolution` parameter keeps its default `False`. -/
noncomputable def analysisO (jm : JMax) (filters : Py (Arr3 α × Arr1 β)) (f : P) (L N J_min : ℤ)
    (lam : ℝ) (spin : ℤ) (sampling : String) (nside : Option ℤ) (reality multiresolution scattering : Bool) :
    Py (List P × P) := do
  let J ← jm L lam
  let Ls := scal_bandlimit L J_min lam multiresolution
  let _f_scal_lm : Arr2 α ← zeros2 Ls (2 * Ls - 1)
  let f_wav_lmn : List (Arr3 α) ← (pyRange J_min (J + 1)).mapM fun j =>
    let (d, r, c) := flmn_wav_j L j N lam multiresolution
    zeros3 d r c
  let f_wav ← construct_fO E jm L N J_min lam sampling (some (if multiresolution then 1 else 0)) false
  let (wav_lm, scal_l) ← filters
  let wav_lm ← einsumO_jln_l O (wav_lm.map O.conj) (arange (fun l => O.ofReal (O.c8 l)) 0 L)
  let flm ← E.sphForward f L spin sampling nside reality
  let st ← (pyRange J_min (J + 1)).foldlM (init := (f_wav_lmn, f_wav))
    fun (st : List (Arr3 α) × List P) (j : ℤ) => do
      let (f_wav_lmn, f_wav) := st
      let (Lj, Nj, L0j) := LN_j L j N lam multiresolution
      let w ← wav_lm.sliceAt j (mkSl wav_lm.r (some L0j) (some Lj))
        (mkSl wav_lm.c (some (L - Nj)) (some (L - 1 + Nj)) 2)
      let e ← einsumO_lm_ln O
        (flm.slice (mkSl flm.r (some L0j) (some Lj)) (mkSl flm.c (some (L - Lj)) (some (L - 1 + Lj)))) w
      let a ← listGet f_wav_lmn (j - J_min)
      let a ← a.assign (mkSl a.d none none 2) (mkSl a.r (some L0j) none) (mkSl a.c none none) e
      let f_wav_lmn ← listSet f_wav_lmn (j - J_min) a
      let a ← listGet f_wav_lmn (j - J_min)
      let p ← E.wigInverse a Lj Nj L0j sampling reality nside
      let f_wav ← listSet f_wav (j - J_min) p
      let f_wav ← if scattering then do
          let p ← listGet f_wav (j - J_min)
          listSet f_wav (j - J_min) (E.abs p)
        else .ok f_wav
      .ok (f_wav_lmn, f_wav)
  let phi ← scalPhiO O scal_l Ls
  let f_scal_lm ← einsumO_lm_l O (flm.slice (mkSl flm.r none (some Ls))
    (mkSl flm.c (some (L - Ls)) (some (L - 1 + Ls)))) phi
  let f_scal ← E.sphInverse f_scal_lm Ls spin sampling nside reality 0
  .ok (st.2, f_scal)

end
end Base

/-- the transforms of the exact model -/
noncomputable def BaseFFT.toO (E : BaseFFT) : BaseFFTO ℂ Px where
  toShapes := E.toShapes
  sphForward := E.sphForward
  sphInverse := E.sphInverse
  wigForward := E.wigForward
  wigInverse := E.wigInverse
  shape := Px.shape
  zeros := Px.zeros
  abs := Px.abs

end S2wav
