import Verif.Model.Construct

/-! # Model of `s2wav/transforms/wavelet_c.py` (C backend transforms) -/

namespace S2wav.C
open Classical

/-- `["mw", "mwss", "dh", "gl"].index(s)` -/
def sshtIndex (s : String) : Py ℕ :=
  match ["mw", "mwss", "dh", "gl"].idxOf? s with
  | some i => .ok i
  | none => .error .valueError

/-- transforms/wavelet_c.py:209-244 `_generate_and_apply_wavelets`. -/
noncomputable def generate_and_apply_wavelets (jm : JMax) (flm : Arr2 ℂ) (L N J_min J : ℤ) (lam : ℝ)
    (filters : Option (Arr3 ℂ)) : Py (List (Arr3 ℂ)) := do
  let f_wav_lmn ← construct_flmn_jax jm L N J_min (some J) lam true
  let wav ← unNone filters
  let wav_lm ← einsum_jln_l (wav.map (starRingEnd ℂ)) (norm8 L)
  (pyRange J_min (J + 1)).foldlM (init := f_wav_lmn) fun (f_wav_lmn : List (Arr3 ℂ)) (j : ℤ) => do
    let (Lj, Nj, L0j) := LN_j L j N lam true
    let a ← listGet f_wav_lmn (j - J_min)
    let w := wav_lm.sliceAtJax j (mkSl wav_lm.r (some L0j) (some Lj))
      (mkSl wav_lm.c (some (L - Nj)) (some (L - 1 + Nj)) 2)
    let e ← einsum_lm_ln
      (flm.slice (mkSl flm.r (some L0j) (some Lj)) (mkSl flm.c (some (L - Lj)) (some (L - 1 + Lj)))) w
    let a ← a.addAt (mkSl a.d none none 2) (mkSl a.r (some L0j) none) (mkSl a.c none none) e
    listSet f_wav_lmn (j - J_min) a

/-- transforms/wavelet_c.py:247-258 `_generate_and_apply_scaling`. -/
noncomputable def generate_and_apply_scaling (flm : Arr2 ℂ) (L J_min : ℤ) (lam : ℝ) (filters : Option (Arr1 ℝ)) :
    Py (Arr2 ℂ) := do
  let Ls := scal_bandlimit L J_min lam true
  let scal ← unNone filters
  let phi ← scalPhi scal Ls
  einsum_lm_l (flm.slice (mkSl flm.r none (some Ls)) (mkSl flm.c (some (L - Ls)) (some (L - 1 + Ls)))) phi

/-- transforms/wavelet_c.py:261-290 `_sum_over_wavelet_and_scaling`. -/
noncomputable def sum_over_wavelet_and_scaling (f_wav_lmn : List (Arr3 ℂ)) (f_scal_lm : Arr2 ℂ)
    (L N J_min J : ℤ) (lam : ℝ) (filters : Option (Arr3 ℂ × Arr1 ℝ)) : Py (Arr2 ℂ) := do
  let Ls := scal_bandlimit L J_min lam true
  let flm ← zeros2 L (2 * L - 1)
  let flm ← (pyRange J_min (J + 1)).foldlM (init := flm) fun (flm : Arr2 ℂ) (j : ℤ) => do
    let (Lj, Nj, L0j) := LN_j L j N lam true
    let temp ← listGet f_wav_lmn (j - J_min)
    let (wav, _) ← unNone filters
    let w := wav.sliceAtJax j (mkSl wav.r (some L0j) (some Lj))
      (mkSl wav.c (some (L - Nj)) (some (L - 1 + Nj)) 2)
    let t := temp.slice (mkSl temp.d none none 2) (mkSl temp.r (some L0j) none) (mkSl temp.c none none)
    let e ← einsum_ln_nlm w t
    flm.addAt (mkSl flm.r (some L0j) (some Lj)) (mkSl flm.c (some (L - Lj)) (some (L - 1 + Lj))) e
  let (_, scal) ← unNone filters
  let phi ← scalPhi scal Ls
  let e ← einsum_lm_l f_scal_lm phi
  let flm ← flm.addAt (mkSl flm.r none (some Ls)) (mkSl flm.c (some (L - Ls)) (some (L - 1 + Ls))) e
  .ok flm

/-- transforms/wavelet_c.py:10-85 `synthesis`. -/
noncomputable def synthesis (jm : JMax) (E : CFFT) (f_wav : List Px) (f_scal : Px) (L N J_min : ℤ)
    (lam : ℝ) (spin : ℤ) (sampling : String) (reality : Bool)
    (filters : Option (Arr3 ℂ × Arr1 ℝ)) : Py Px := do
  if sampling.toLower = "healpix" then .error .valueError
  else do
    let ssht_sampling ← sshtIndex sampling.toLower
    let J ← jm L lam
    let Ls := scal_bandlimit L J_min lam true
    let f_scal_lm ← E.sphForward (if reality then f_scal.re else f_scal) Ls spin reality ssht_sampling
    let f_wav_lmn ← (pyRange J_min (J + 1)).mapM fun j => do
      let (Lj, Nj, L0j) := LN_j L j N lam true
      let fw ← listGet f_wav (j - J_min)
      E.wigForward fw Lj Nj L0j sampling reality
    let flm ← sum_over_wavelet_and_scaling f_wav_lmn f_scal_lm L N J_min J lam filters
    E.sphInverse flm L spin reality ssht_sampling

/-- transforms/wavelet_c.py:88-153 `analysis`. -/
noncomputable def analysis (jm : JMax) (E : CFFT) (f : Px) (L N J_min : ℤ)
    (lam : ℝ) (spin : ℤ) (sampling : String) (reality : Bool)
    (filters : Option (Arr3 ℂ × Arr1 ℝ)) : Py (List Px × Px) := do
  if sampling.toLower = "healpix" then .error .valueError
  else do
    let ssht_sampling ← sshtIndex sampling.toLower
    let J ← jm L lam
    let Ls := scal_bandlimit L J_min lam true
    let flm ← E.sphForward f L spin reality ssht_sampling
    let (wav, scal) ← unNone filters
    let f_wav_lmn ← generate_and_apply_wavelets jm flm L N J_min J lam (some wav)
    let flm_scal ← generate_and_apply_scaling flm L J_min lam (some scal)
    let f_wav ← (pyRange J_min (J + 1)).mapM fun j => do
      let (Lj, Nj, L0j) := LN_j L j N lam true
      let a ← listGet f_wav_lmn (j - J_min)
      E.wigInverse a Lj Nj L0j sampling reality
    let f_scal ← if Ls = 1 then
        .ok (Px.ofArr2 (flm_scal.map fun x => x * ((Real.sqrt (1 / (4 * Real.pi)) : ℝ) : ℂ)))
      else E.sphInverse flm_scal Ls spin reality ssht_sampling
    .ok (f_wav, f_scal)

/-- transforms/wavelet_c.py:156-206 `flm_to_analysis`. -/
noncomputable def flm_to_analysis (jm : JMax) (E : CFFT) (flm : Arr2 ℂ) (L N J_min : ℤ)
    (J_max : Option ℤ) (lam : ℝ) (sampling : String) (reality : Bool)
    (filters : Option (Arr3 ℂ)) : Py (List Px) := do
  let J ← match J_max with | some J => .ok J | none => jm L lam
  let f_wav_lmn ← generate_and_apply_wavelets jm flm L N J_min J lam filters
  (pyRange J_min (J + 1)).mapM fun j => do
    let (Lj, Nj, L0j) := LN_j L j N lam true
    let a ← listGet f_wav_lmn (j - J_min)
    E.wigInverse a Lj Nj L0j sampling reality

end S2wav.C
