import Verif.Model.Filters

/-! # Model of `s2wav/transforms/base.py`

`E` stands for `s2fft.base_transforms`.  `a[i] += x` is a read followed by a write.  The accumulated arrays are
mutated in place by Python; there is no aliasing, so the model threads them as loop state. -/

namespace S2wav
open Classical

/-- `8 * np.pi**2 / (2 * np.arange(L) + 1)` -/
noncomputable def norm8 (L : ℤ) : Arr1 ℂ :=
  arange (fun l : ℤ => ((8 * Real.pi ^ 2 / (2 * l + 1) : ℝ) : ℂ)) 0 L

/-- `np.sqrt(4 * np.pi / (2 * np.arange(Ls) + 1))` -/
noncomputable def norm4 (Ls : ℤ) : Arr1 ℝ := arange (fun l : ℤ => Real.sqrt (4 * Real.pi / (2 * l + 1))) 0 Ls

/-- `scal_l[:Ls] * np.sqrt(4 * np.pi / (2 * np.arange(Ls) + 1))`, cast to complex for the following einsum -/
noncomputable def scalPhi (scal_l : Arr1 ℝ) (Ls : ℤ) : Py (Arr1 ℂ) :=
  Arr1.zip (fun x y : ℝ => ((x * y : ℝ) : ℂ)) (scal_l.slice (mkSl scal_l.n none (some Ls))) (norm4 Ls)

namespace Base

/-- transforms/base.py:7-87 `synthesis_looped`. -/
noncomputable def synthesis_looped (jm : JMax) (E : BaseFFT) (f_wav : List Px) (f_scal : Px) (L N J_min : ℤ)
    (lam : ℝ) (spin spin0 : ℤ) (sampling : String) (nside : Option ℤ) (reality multiresolution : Bool) : Py Px := do
  wavelet_shape_check jm E.toShapes f_wav f_scal L N J_min lam sampling nside multiresolution
  let J ← jm L lam
  let Ls := scal_bandlimit L J_min lam multiresolution
  let flm ← zeros2 L (2 * L - 1)
  let f_scal_lm ← E.sphForward f_scal Ls spin sampling nside reality
  let (wav_lm, scal_l) ← filters_directional jm L N J_min lam spin spin0
  let flm ← (pyRange J_min (J + 1)).foldlM (init := flm) fun (flm : Arr2 ℂ) (j : ℤ) => do
    let (Lj, Nj, L0j) := LN_j L j N lam multiresolution
    let fw ← listGet f_wav (j - J_min)
    let temp ← E.wigForward fw Lj Nj L0j sampling reality nside
    (pyRange (-Nj + 1) Nj 2).foldlM (init := flm) fun (flm : Arr2 ℂ) (n : ℤ) =>
      (pyRange (max (max |spin| |n|) L0j) Lj).foldlM (init := flm) fun (flm : Arr2 ℂ) (el : ℤ) => do
        let psi ← wav_lm.get j el (L - 1 + n)
        (pyRange (-el) (el + 1)).foldlM (init := flm) fun (flm : Arr2 ℂ) (m : ℤ) => do
          let x ← flm.get el (L - 1 + m)
          let t ← temp.get (Nj - 1 + n) el (Lj - 1 + m)
          flm.set el (L - 1 + m) (x + t * psi)
  let flm ← (pyRange |spin| Ls).foldlM (init := flm) fun (flm : Arr2 ℂ) (el : ℤ) => do
    let s ← scal_l.get el
    let phi : ℂ := ((Real.sqrt (4 * Real.pi / (2 * el + 1)) * s : ℝ) : ℂ)
    let x ← flm.get el (0 + L - 1)
    let t ← f_scal_lm.get el (Ls - 1 + 0)
    let flm ← flm.set el (0 + L - 1) (x + t * phi)
    (pyRange 1 (el + 1)).foldlM (init := flm) fun (flm : Arr2 ℂ) (m : ℤ) => do
      let x ← flm.get el (L - 1 + m)
      let t ← f_scal_lm.get el (Ls - 1 + m)
      let flm ← flm.set el (L - 1 + m) (x + t * phi)
      if reality then do
        let y ← flm.get el (-m + L - 1)
        let z ← flm.get el (m + L - 1)
        flm.set el (-m + L - 1) (y + (-1 : ℂ) ^ m * (starRingEnd ℂ) z)
      else do
        let y ← flm.get el (-m + L - 1)
        let t ← f_scal_lm.get el (Ls - 1 - m)
        flm.set el (-m + L - 1) (y + t * phi)
  E.sphInverse flm L spin sampling nside reality 0

/-- transforms/base.py:90-165 `synthesis`. -/
noncomputable def synthesis (jm : JMax) (E : BaseFFT) (f_wav : List Px) (f_scal : Px) (L N J_min : ℤ)
    (lam : ℝ) (spin spin0 : ℤ) (sampling : String) (nside : Option ℤ) (reality multiresolution : Bool) : Py Px := do
  wavelet_shape_check jm E.toShapes f_wav f_scal L N J_min lam sampling nside multiresolution
  let J ← jm L lam
  let Ls := scal_bandlimit L J_min lam multiresolution
  let flm ← zeros2 L (2 * L - 1)
  let f_scal_lm ← E.sphForward f_scal Ls spin sampling nside reality
  let (wav_lm, scal_l) ← filters_directional_vectorised jm L N J_min lam spin spin0
  let flm ← (pyRange J_min (J + 1)).foldlM (init := flm) fun (flm : Arr2 ℂ) (j : ℤ) => do
    let (Lj, Nj, L0j) := LN_j L j N lam multiresolution
    let fw ← listGet f_wav (j - J_min)
    let temp ← E.wigForward fw Lj Nj L0j sampling reality nside
    let w ← wav_lm.sliceAt j (mkSl wav_lm.r (some L0j) (some Lj))
      (mkSl wav_lm.c (some (L - Nj)) (some (L - 1 + Nj)) 2)
    let t := temp.slice (mkSl temp.d none none 2) (mkSl temp.r (some L0j) none) (mkSl temp.c none none)
    let e ← einsum_ln_nlm w t
    flm.addAt (mkSl flm.r (some L0j) (some Lj)) (mkSl flm.c (some (L - Lj)) (some (L - 1 + Lj))) e
  let phi ← scalPhi scal_l Ls
  let e ← einsum_lm_l f_scal_lm phi
  let flm ← flm.addAt (mkSl flm.r none (some Ls)) (mkSl flm.c (some (L - Ls)) (some (L - 1 + Ls))) e
  E.sphInverse flm L spin sampling nside reality 0

/-- transforms/base.py:168-259 `analysis_looped`. -/
noncomputable def analysis_looped (jm : JMax) (E : BaseFFT) (f : Px) (L N J_min : ℤ)
    (lam : ℝ) (spin spin0 : ℤ) (sampling : String) (nside : Option ℤ) (reality multiresolution : Bool) :
    Py (List Px × Px) := do
  let J ← jm L lam
  let Ls := scal_bandlimit L J_min lam multiresolution
  let f_scal_lm ← construct_flm L J_min lam multiresolution
  let f_wav_lmn ← construct_flmn jm L N J_min lam multiresolution
  let (wav_lm, scal_l) ← filters_directional jm L N J_min lam spin spin0
  let flm ← E.sphForward f L spin sampling nside reality
  let f_wav_lmn ← (pyRange J_min (J + 1)).foldlM (init := f_wav_lmn)
    fun (f_wav_lmn : List (Arr3 ℂ)) (j : ℤ) => do
      let (Lj, Nj, L0j) := LN_j L j N lam multiresolution
      (pyRange (-Nj + 1) Nj 2).foldlM (init := f_wav_lmn) fun (f_wav_lmn : List (Arr3 ℂ)) (n : ℤ) =>
        (pyRange (max (max |spin| |n|) L0j) Lj).foldlM (init := f_wav_lmn)
          fun (f_wav_lmn : List (Arr3 ℂ)) (el : ℤ) => do
            let p ← wav_lm.get j el (L - 1 + n)
            let psi := (starRingEnd ℂ) p * ((8 * Real.pi ^ 2 / (2 * el + 1) : ℝ) : ℂ)
            let a ← listGet f_wav_lmn (j - J_min)
            let x ← flm.get el (L - 1 + 0)
            let a ← a.set (Nj - 1 + n) el (Lj - 1) (x * psi)
            let f_wav_lmn ← listSet f_wav_lmn (j - J_min) a
            (pyRange 1 (el + 1)).foldlM (init := f_wav_lmn) fun (f_wav_lmn : List (Arr3 ℂ)) (m : ℤ) => do
              let a ← listGet f_wav_lmn (j - J_min)
              let x ← flm.get el (L - 1 + m)
              let a ← a.set (Nj - 1 + n) el (Lj - 1 + m) (x * psi)
              let a ← if reality then do
                  let y ← a.get (Nj - 1 + n) el (Lj - 1 + m)
                  a.set (Nj - 1 - n) el (Lj - 1 - m) ((-1 : ℂ) ^ (m + n) * (starRingEnd ℂ) y)
                else do
                  let x ← flm.get el (L - 1 - m)
                  a.set (Nj - 1 + n) el (Lj - 1 - m) (x * psi)
              listSet f_wav_lmn (j - J_min) a
  let f_scal_lm ← (pyRange |spin| Ls).foldlM (init := f_scal_lm) fun (f_scal_lm : Arr2 ℂ) (el : ℤ) => do
    let s ← scal_l.get el
    let phi : ℂ := ((Real.sqrt (4 * Real.pi / (2 * el + 1)) * s : ℝ) : ℂ)
    let x ← flm.get el (L - 1 + 0)
    let f_scal_lm ← f_scal_lm.set el (Ls - 1 + 0) (x * phi)
    (pyRange 1 (el + 1)).foldlM (init := f_scal_lm) fun (f_scal_lm : Arr2 ℂ) (m : ℤ) => do
      let x ← flm.get el (L - 1 + m)
      let f_scal_lm ← f_scal_lm.set el (Ls - 1 + m) (x * phi)
      if reality then do
        let y ← f_scal_lm.get el (Ls - 1 + m)
        f_scal_lm.set el (Ls - 1 - m) ((-1 : ℂ) ^ m * (starRingEnd ℂ) y)
      else do
        let x ← flm.get el (L - 1 - m)
        f_scal_lm.set el (Ls - 1 - m) (x * phi)
  let f_wav ← construct_f jm E.toShapes L N J_min lam sampling nside multiresolution
  let f_wav ← (pyRange J_min (J + 1)).foldlM (init := f_wav) fun (f_wav : List Px) (j : ℤ) => do
    let (Lj, Nj, L0j) := LN_j L j N lam multiresolution
    let a ← listGet f_wav_lmn (j - J_min)
    let p ← E.wigInverse a Lj Nj L0j sampling reality nside
    listSet f_wav (j - J_min) p
  let f_scal ← E.sphInverse f_scal_lm Ls spin sampling nside reality 0
  .ok (f_wav, f_scal)

/-- transforms/base.py:262-339 `analysis`. Line 309 calls `construct_f(L, N, J_min, lam, sampling, multiresolution)`:
`multiresolution` lands in the `nside` slot, and the real `multiresolution` parameter keeps its default `False`. -/
noncomputable def analysis (jm : JMax) (E : BaseFFT) (f : Px) (L N J_min : ℤ)
    (lam : ℝ) (spin spin0 : ℤ) (sampling : String) (nside : Option ℤ) (reality multiresolution scattering : Bool) :
    Py (List Px × Px) := do
  let J ← jm L lam
  let Ls := scal_bandlimit L J_min lam multiresolution
  let _f_scal_lm ← construct_flm L J_min lam multiresolution
  let f_wav_lmn ← construct_flmn jm L N J_min lam multiresolution
  let f_wav ← construct_f jm E.toShapes L N J_min lam sampling (some (if multiresolution then 1 else 0)) false
  let (wav_lm, scal_l) ← filters_directional_vectorised jm L N J_min lam spin spin0
  let wav_lm ← einsum_jln_l (wav_lm.map (starRingEnd ℂ)) (norm8 L)
  let flm ← E.sphForward f L spin sampling nside reality
  let st ← (pyRange J_min (J + 1)).foldlM (init := (f_wav_lmn, f_wav))
    fun (st : List (Arr3 ℂ) × List Px) (j : ℤ) => do
      let (f_wav_lmn, f_wav) := st
      let (Lj, Nj, L0j) := LN_j L j N lam multiresolution
      let w ← wav_lm.sliceAt j (mkSl wav_lm.r (some L0j) (some Lj))
        (mkSl wav_lm.c (some (L - Nj)) (some (L - 1 + Nj)) 2)
      let e ← einsum_lm_ln
        (flm.slice (mkSl flm.r (some L0j) (some Lj)) (mkSl flm.c (some (L - Lj)) (some (L - 1 + Lj)))) w
      let a ← listGet f_wav_lmn (j - J_min)
      let a ← a.assign (mkSl a.d none none 2) (mkSl a.r (some L0j) none) (mkSl a.c none none) e
      let f_wav_lmn ← listSet f_wav_lmn (j - J_min) a
      let a ← listGet f_wav_lmn (j - J_min)
      let p ← E.wigInverse a Lj Nj L0j sampling reality nside
      let f_wav ← listSet f_wav (j - J_min) p
      let f_wav ← if scattering then do
          let p ← listGet f_wav (j - J_min)
          listSet f_wav (j - J_min) p.abs
        else .ok f_wav
      .ok (f_wav_lmn, f_wav)
  let phi ← scalPhi scal_l Ls
  let f_scal_lm ← einsum_lm_l (flm.slice (mkSl flm.r none (some Ls))
    (mkSl flm.c (some (L - Ls)) (some (L - 1 + Ls)))) phi
  let f_scal ← E.sphInverse f_scal_lm Ls spin sampling nside reality 0
  .ok (st.2, f_scal)

end Base

end S2wav
