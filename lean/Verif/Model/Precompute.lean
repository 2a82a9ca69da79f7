import Verif.Model.Construct

/-! # Model of `s2wav/transforms/wavelet_precompute.py` (JAX precompute transforms)

`precomps` is the triple returned by `construct.generate_full_precomputes`; `none` is the Python default `None`.
An empty list in place of a spherical kernel (`nospherical`) is not a valid kernel: using it raises. -/

namespace S2wav.Pre
open Classical

/-- transforms/wavelet_precompute.py:9-111 `synthesis`. -/
noncomputable def synthesis {KW KS : Type} (jm : JMax) (E : PreFFT KW KS) (f_wav : List Px) (f_scal : Px)
    (L N J_min : ℤ) (lam : ℝ) (spin : ℤ) (sampling : String) (nside : Option ℤ) (reality : Bool)
    (filters : Option (Arr3 ℂ × Arr1 ℝ)) (precomps : Option (Option KS × Option KS × List KW)) : Py Px := do
  match precomps with
  | none => .error .valueError
  | some precomps => do
  let J ← jm L lam
  let Ls := scal_bandlimit L J_min lam true
  let flm ← zeros2 L (2 * L - 1)
  let k1 ← unNone precomps.2.1
  let f_scal_lm ← E.sphForward f_scal k1 Ls sampling reality spin nside
  let flm ← (pyRange J_min (J + 1)).foldlM (init := flm) fun (flm : Arr2 ℂ) (j : ℤ) => do
    let (Lj, Nj, L0j) := LN_j L j N lam true
    let fw ← listGet f_wav (j - J_min)
    let pc ← listGet precomps.2.2 (j - J_min + (if j < J then 0 else -1))
    let temp ← E.wigForward fw pc Lj Nj sampling reality nside
    let (wav, _) ← unNone filters
    let w := wav.sliceAtJax j (mkSl wav.r (some L0j) (some Lj))
      (mkSl wav.c (some (L - Nj)) (some (L - 1 + Nj)) 2)
    let t := temp.slice (mkSl temp.d none none 2) (mkSl temp.r (some L0j) none) (mkSl temp.c none none)
    let e ← einsum_ln_nlm w t
    flm.addAt (mkSl flm.r (some L0j) (some Lj)) (mkSl flm.c (some (L - Lj)) (some (L - 1 + Lj))) e
  let (_, scal) ← unNone filters
  let phi ← scalPhi scal Ls
  let e ← einsum_lm_l f_scal_lm phi
  let flm ← flm.addAt (mkSl flm.r none (some Ls)) (mkSl flm.c (some (L - Ls)) (some (L - 1 + Ls))) e
  let k0 ← unNone precomps.1
  E.sphInverse flm k0 L sampling reality spin nside

/-- transforms/wavelet_precompute.py:114-220 `analysis`. -/
noncomputable def analysis {KW KS : Type} (jm : JMax) (E : PreFFT KW KS) (f : Px)
    (L N J_min : ℤ) (lam : ℝ) (spin : ℤ) (sampling : String) (nside : Option ℤ) (reality : Bool)
    (filters : Option (Arr3 ℂ × Arr1 ℝ)) (precomps : Option (Option KS × Option KS × List KW)) :
    Py (List Px × Px) := do
  match precomps with
  | none => .error .valueError
  | some precomps => do
  let J ← jm L lam
  let Ls := scal_bandlimit L J_min lam true
  let (wav, _) ← unNone filters
  let wav_lm ← einsum_jln_l (wav.map (starRingEnd ℂ)) (norm8 L)
  let k0 ← unNone precomps.1
  let flm ← E.sphForward f k0 L sampling reality spin nside
  let f_wav_lmn ← construct_flmn_jax jm L N J_min (some J) lam true
  let st ← (pyRange J_min (J + 1)).foldlM (init := (f_wav_lmn, ([] : List Px)))
    fun (st : List (Arr3 ℂ) × List Px) (j : ℤ) => do
      let (f_wav_lmn, f_wav) := st
      let (Lj, Nj, L0j) := LN_j L j N lam true
      let a ← listGet f_wav_lmn (j - J_min)
      let w := wav_lm.sliceAtJax j (mkSl wav_lm.r (some L0j) (some Lj))
        (mkSl wav_lm.c (some (L - Nj)) (some (L - 1 + Nj)) 2)
      let e ← einsum_lm_ln
        (flm.slice (mkSl flm.r (some L0j) (some Lj)) (mkSl flm.c (some (L - Lj)) (some (L - 1 + Lj)))) w
      let a ← a.addAt (mkSl a.d none none 2) (mkSl a.r (some L0j) none) (mkSl a.c none none) e
      let f_wav_lmn ← listSet f_wav_lmn (j - J_min) a
      let a ← listGet f_wav_lmn (j - J_min)
      let pc ← listGet precomps.2.2 (j - J_min + (if j < J then 0 else -1))
      let p ← E.wigInverse a pc Lj Nj sampling reality nside
      .ok (f_wav_lmn, f_wav ++ [p])
  let (_, scal) ← unNone filters
  let phi ← scalPhi scal Ls
  let temp ← einsum_lm_l (flm.slice (mkSl flm.r none (some Ls))
    (mkSl flm.c (some (L - Ls)) (some (L - 1 + Ls)))) phi
  let f_scal ← if Ls = 1 then .ok (Px.ofArr2 (temp.map fun x => x * ((Real.sqrt (1 / (4 * Real.pi)) : ℝ) : ℂ)))
    else do
      let k1 ← unNone precomps.2.1
      E.sphInverse temp k1 Ls sampling reality spin nside
  .ok (st.2, f_scal)

/-- transforms/wavelet_precompute.py:223-320 `flm_to_analysis`. -/
noncomputable def flm_to_analysis {KW KS : Type} (jm : JMax) (E : PreFFT KW KS) (flm : Arr2 ℂ)
    (L N J_min : ℤ) (J_max : Option ℤ) (lam : ℝ) (sampling : String) (nside : Option ℤ) (reality : Bool)
    (filters : Option (Arr3 ℂ)) (precomps : Option (Option KS × Option KS × List KW)) (_precomp_shift : Bool) :
    Py (List Px) := do
  match precomps with
  | none => .error .valueError
  | some precomps => do
  let J ← match J_max with | some J => .ok J | none => jm L lam
  let wav ← unNone filters
  let wav_lm ← einsum_jln_l (wav.map (starRingEnd ℂ)) (norm8 L)
  let f_wav_lmn ← construct_flmn_jax jm L N J_min (some J) lam true
  let st ← (pyRange J_min (J + 1)).foldlM (init := (f_wav_lmn, ([] : List Px)))
    fun (st : List (Arr3 ℂ) × List Px) (j : ℤ) => do
      let (f_wav_lmn, f_wav) := st
      let (Lj, Nj, L0j) := LN_j L j N lam true
      let a ← listGet f_wav_lmn (j - J_min)
      let w := wav_lm.sliceAtJax j (mkSl wav_lm.r (some L0j) (some Lj))
        (mkSl wav_lm.c (some (L - Nj)) (some (L - 1 + Nj)) 2)
      let e ← einsum_lm_ln
        (flm.slice (mkSl flm.r (some L0j) (some Lj)) (mkSl flm.c (some (L - Lj)) (some (L - 1 + Lj)))) w
      let a ← a.addAt (mkSl a.d none none 2) (mkSl a.r (some L0j) none) (mkSl a.c none none) e
      let f_wav_lmn ← listSet f_wav_lmn (j - J_min) a
      let a ← listGet f_wav_lmn (j - J_min)
      let shift : ℤ := if j < J then 0 else -1
      let shift : ℤ := if _precomp_shift then shift else 0
      let pc ← listGet precomps.2.2 (j - J_min + shift)
      let p ← E.wigInverse a pc Lj Nj sampling reality nside
      .ok (f_wav_lmn, f_wav ++ [p])
  .ok st.2

end S2wav.Pre
