import Verif.Model.IeeeTransforms
import Verif.Model.Wavelet
import Verif.Model.Precompute
import Verif.Model.PrecomputeTorch

/-! # The other multiresolution transforms over any arithmetic

`analysis` and `synthesis` of `s2wav/transforms/wavelet.py`, `wavelet_precompute.py` and `wavelet_precompute_torch.py`, written over an arbitrary
arithmetic `O : Ops α β` in the way `Model/IeeeTransforms.lean` does it for `wavelet_c.py`.  With `Ops.exact` they are the
programs of `Model/Wavelet.lean`, `Model/Precompute.lean` and `Model/PrecomputeTorch.lean` (C109). -/

namespace S2wav
open Classical

/-- s2fft's JAX transforms, as `JaxFFT`, on coefficients `α` and images of a type `P` -/
structure JaxFFTO (α P K : Type) [Zero α] where
  /-- `s2fft.forward_jax(f, L, spin, nside, sampling, reality)` -/
  sphForward : P → (L spin : ℤ) → Option ℤ → String → (reality : Bool) → Py (Arr2 α)
  /-- `s2fft.inverse_jax(flm, L, spin, nside, sampling, reality)` -/
  sphInverse : Arr2 α → (L spin : ℤ) → Option ℤ → String → (reality : Bool) → Py P
  /-- `s2fft.generate_precomputes_wigner_jax(L, N, sampling, nside, forward, reality, L_lower)` -/
  genWigner : (L N : ℤ) → String → Option ℤ → (forward reality : Bool) → (L_lower : ℤ) → Py K
  /-- `s2fft.wigner.forward_jax(f, L, N, nside, sampling, reality, precomps, L_lower)` -/
  wigForward : P → (L N : ℤ) → Option ℤ → String → (reality : Bool) → K → (L_lower : ℤ) → Py (Arr3 α)
  /-- `s2fft.wigner.inverse_jax(flmn, L, N, nside, sampling, reality, precomps, L_lower)` -/
  wigInverse : Arr3 α → (L N : ℤ) → Option ℤ → String → (reality : Bool) → K → (L_lower : ℤ) → Py P
  /-- a 2-d array used as an image -/
  ofArr2 : Arr2 α → P

/-- s2fft's precompute transforms (JAX or PyTorch), as `PreFFT`, on coefficients `α` and images of a type `P` -/
structure PreFFTO (α P KW KS : Type) [Zero α] where
  /-- `spherical.forward_transform(f, kernel, L, sampling, reality, spin, nside)` -/
  sphForward : P → KS → (L : ℤ) → String → (reality : Bool) → (spin : ℤ) → Option ℤ → Py (Arr2 α)
  /-- `spherical.inverse_transform(flm, kernel, L, sampling, reality, spin, nside)` -/
  sphInverse : Arr2 α → KS → (L : ℤ) → String → (reality : Bool) → (spin : ℤ) → Option ℤ → Py P
  /-- `wigner.forward_transform(f, kernel, L, N, sampling, reality, nside)` -/
  wigForward : P → KW → (L N : ℤ) → String → (reality : Bool) → Option ℤ → Py (Arr3 α)
  /-- `wigner.inverse_transform(flmn, kernel, L, N, sampling, reality, nside)` -/
  wigInverse : Arr3 α → KW → (L N : ℤ) → String → (reality : Bool) → Option ℤ → Py P
  /-- a 2-d array used as an image -/
  ofArr2 : Arr2 α → P
  /-- the placeholder put into the list of images by `construct_f_torch` -/
  empty : P

namespace Jax
section
variable {α β P K : Type} [Zero α] [Zero β] (O : Ops α β) (E : JaxFFTO α P K)

/-- transforms/construct.py:82-132 `generate_wigner_precomputes`, and transforms/wavelet.py:66-69, 167-170: what is used as `precomps` -/
noncomputable def precompsO (jm : JMax) (L N J_min : ℤ) (lam : ℝ) (sampling : String) (nside : Option ℤ) (forward reality : Bool) :
    Option (List K) → Py (List K)
  | none => do
    let J ← jm L lam
    (pyRange J_min (J + 1)).mapM fun j => do
      let (Lj, Nj, L0j) := LN_j L j N lam true
      E.genWigner Lj Nj sampling nside forward reality L0j
  | some p => .ok p

/-- transforms/wavelet.py:10-101 `synthesis`. -/
noncomputable def synthesisO (jm : JMax) (f_wav : List P) (f_scal : P) (L N J_min : ℤ)
    (lam : ℝ) (spin : ℤ) (sampling : String) (nside : Option ℤ) (reality : Bool)
    (filters : Option (Arr3 α × Arr1 β)) (precomps : Option (List K)) : Py P := do
  let precomps ← precompsO E jm L N J_min lam sampling nside true reality precomps
  let J ← jm L lam
  let Ls := scal_bandlimit L J_min lam true
  let flm ← zeros2 L (2 * L - 1)
  let f_scal_lm ← E.sphForward f_scal Ls spin nside sampling reality
  let flm ← (pyRange J_min (J + 1)).foldlM (init := flm) fun (flm : Arr2 α) (j : ℤ) => do
    let (Lj, Nj, L0j) := LN_j L j N lam true
    let temp ← (do
      let fw ← listGet f_wav (j - J_min)
      let pc ← listGet precomps (j - J_min)
      E.wigForward fw Lj Nj nside sampling reality pc L0j)
    let (wav, _) ← unNone filters
    let w := wav.sliceAtJax j (mkSl wav.r (some L0j) (some Lj))
      (mkSl wav.c (some (L - Nj)) (some (L - 1 + Nj)) 2)
    let t := temp.slice (mkSl temp.d none none 2) (mkSl temp.r (some L0j) none) (mkSl temp.c none none)
    let e ← einsumO_ln_nlm O w t
    flm.addAtO O (mkSl flm.r (some L0j) (some Lj)) (mkSl flm.c (some (L - Lj)) (some (L - 1 + Lj))) e
  let (_, scal) ← unNone filters
  let phi ← scalPhiO O scal Ls
  let e ← einsumO_lm_l O f_scal_lm phi
  let flm ← flm.addAtO O (mkSl flm.r none (some Ls)) (mkSl flm.c (some (L - Ls)) (some (L - 1 + Ls))) e
  E.sphInverse flm L spin nside sampling reality

/-- transforms/wavelet.py:104-210 `analysis`; `c1` is `jnp.sqrt(1 / (4 * jnp.pi))`. -/
noncomputable def analysisO (c1 : β) (jm : JMax) (f : P) (L N J_min : ℤ)
    (lam : ℝ) (spin : ℤ) (sampling : String) (nside : Option ℤ) (reality : Bool)
    (filters : Option (Arr3 α × Arr1 β)) (precomps : Option (List K)) : Py (List P × P) := do
  let precomps ← precompsO E jm L N J_min lam sampling nside false reality precomps
  let J ← jm L lam
  let Ls := scal_bandlimit L J_min lam true
  let (wav, _) ← unNone filters
  let wav_lm ← einsumO_jln_l O (wav.map O.conj) (arange (fun l => O.ofReal (O.c8 l)) 0 L)
  let flm ← E.sphForward f L spin nside sampling reality
  let f_wav_lmn ← construct_flmnO α L N J_min J lam
  let st ← (pyRange J_min (J + 1)).foldlM (init := (f_wav_lmn, ([] : List P)))
    fun (st : List (Arr3 α) × List P) (j : ℤ) => do
      let (f_wav_lmn, f_wav) := st
      let (Lj, Nj, L0j) := LN_j L j N lam true
      let a ← listGet f_wav_lmn (j - J_min)
      let w := wav_lm.sliceAtJax j (mkSl wav_lm.r (some L0j) (some Lj))
        (mkSl wav_lm.c (some (L - Nj)) (some (L - 1 + Nj)) 2)
      let e ← einsumO_lm_ln O
        (flm.slice (mkSl flm.r (some L0j) (some Lj)) (mkSl flm.c (some (L - Lj)) (some (L - 1 + Lj)))) w
      let a ← a.addAtO O (mkSl a.d none none 2) (mkSl a.r (some L0j) none) (mkSl a.c none none) e
      let f_wav_lmn ← listSet f_wav_lmn (j - J_min) a
      let a ← listGet f_wav_lmn (j - J_min)
      let p ← (do
        let pc ← listGet precomps (j - J_min)
        E.wigInverse a Lj Nj nside sampling reality pc L0j)
      .ok (f_wav_lmn, f_wav ++ [p])
  let (_, scal) ← unNone filters
  let phi ← scalPhiO O scal Ls
  let temp ← einsumO_lm_l O (flm.slice (mkSl flm.r none (some Ls))
    (mkSl flm.c (some (L - Ls)) (some (L - 1 + Ls)))) phi
  let f_scal ← if Ls = 1 then .ok (E.ofArr2 (temp.map fun x => O.mul x (O.ofReal c1)))
    else E.sphInverse temp Ls spin nside sampling reality
  .ok (st.2, f_scal)

end
end Jax

namespace Pre
section
variable {α β P KW KS : Type} [Zero α] [Zero β] (O : Ops α β) (E : PreFFTO α P KW KS)

/-- transforms/wavelet_precompute.py:9-111 `synthesis`. -/
noncomputable def synthesisO (jm : JMax) (f_wav : List P) (f_scal : P)
    (L N J_min : ℤ) (lam : ℝ) (spin : ℤ) (sampling : String) (nside : Option ℤ) (reality : Bool)
    (filters : Option (Arr3 α × Arr1 β)) (precomps : Option (Option KS × Option KS × List KW)) : Py P := do
  match precomps with
  | none => .error .valueError
  | some precomps => do
  let J ← jm L lam
  let Ls := scal_bandlimit L J_min lam true
  let flm ← zeros2 L (2 * L - 1)
  let k1 ← unNone precomps.2.1
  let f_scal_lm ← E.sphForward f_scal k1 Ls sampling reality spin nside
  let flm ← (pyRange J_min (J + 1)).foldlM (init := flm) fun (flm : Arr2 α) (j : ℤ) => do
    let (Lj, Nj, L0j) := LN_j L j N lam true
    let temp ← (do
      let fw ← listGet f_wav (j - J_min)
      let pc ← listGet precomps.2.2 (j - J_min + (if j < J then 0 else -1))
      E.wigForward fw pc Lj Nj sampling reality nside)
    let (wav, _) ← unNone filters
    let w := wav.sliceAtJax j (mkSl wav.r (some L0j) (some Lj))
      (mkSl wav.c (some (L - Nj)) (some (L - 1 + Nj)) 2)
    let t := temp.slice (mkSl temp.d none none 2) (mkSl temp.r (some L0j) none) (mkSl temp.c none none)
    let e ← einsumO_ln_nlm O w t
    flm.addAtO O (mkSl flm.r (some L0j) (some Lj)) (mkSl flm.c (some (L - Lj)) (some (L - 1 + Lj))) e
  let (_, scal) ← unNone filters
  let phi ← scalPhiO O scal Ls
  let e ← einsumO_lm_l O f_scal_lm phi
  let flm ← flm.addAtO O (mkSl flm.r none (some Ls)) (mkSl flm.c (some (L - Ls)) (some (L - 1 + Ls))) e
  let k0 ← unNone precomps.1
  E.sphInverse flm k0 L sampling reality spin nside

/-- transforms/wavelet_precompute.py:114-220 `analysis`; `c1` is `jnp.sqrt(1 / (4 * jnp.pi))`. -/
noncomputable def analysisO (c1 : β) (jm : JMax) (f : P)
    (L N J_min : ℤ) (lam : ℝ) (spin : ℤ) (sampling : String) (nside : Option ℤ) (reality : Bool)
    (filters : Option (Arr3 α × Arr1 β)) (precomps : Option (Option KS × Option KS × List KW)) :
    Py (List P × P) := do
  match precomps with
  | none => .error .valueError
  | some precomps => do
  let J ← jm L lam
  let Ls := scal_bandlimit L J_min lam true
  let (wav, _) ← unNone filters
  let wav_lm ← einsumO_jln_l O (wav.map O.conj) (arange (fun l => O.ofReal (O.c8 l)) 0 L)
  let k0 ← unNone precomps.1
  let flm ← E.sphForward f k0 L sampling reality spin nside
  let f_wav_lmn ← construct_flmnO α L N J_min J lam
  let st ← (pyRange J_min (J + 1)).foldlM (init := (f_wav_lmn, ([] : List P)))
    fun (st : List (Arr3 α) × List P) (j : ℤ) => do
      let (f_wav_lmn, f_wav) := st
      let (Lj, Nj, L0j) := LN_j L j N lam true
      let a ← listGet f_wav_lmn (j - J_min)
      let w := wav_lm.sliceAtJax j (mkSl wav_lm.r (some L0j) (some Lj))
        (mkSl wav_lm.c (some (L - Nj)) (some (L - 1 + Nj)) 2)
      let e ← einsumO_lm_ln O
        (flm.slice (mkSl flm.r (some L0j) (some Lj)) (mkSl flm.c (some (L - Lj)) (some (L - 1 + Lj)))) w
      let a ← a.addAtO O (mkSl a.d none none 2) (mkSl a.r (some L0j) none) (mkSl a.c none none) e
      let f_wav_lmn ← listSet f_wav_lmn (j - J_min) a
      let a ← listGet f_wav_lmn (j - J_min)
      let p ← (do
        let pc ← listGet precomps.2.2 (j - J_min + (if j < J then 0 else -1))
        E.wigInverse a pc Lj Nj sampling reality nside)
      .ok (f_wav_lmn, f_wav ++ [p])
  let (_, scal) ← unNone filters
  let phi ← scalPhiO O scal Ls
  let temp ← einsumO_lm_l O (flm.slice (mkSl flm.r none (some Ls))
    (mkSl flm.c (some (L - Ls)) (some (L - 1 + Ls)))) phi
  let f_scal ← if Ls = 1 then .ok (E.ofArr2 (temp.map fun x => O.mul x (O.ofReal c1)))
    else do
      let k1 ← unNone precomps.2.1
      E.sphInverse temp k1 Ls sampling reality spin nside
  .ok (st.2, f_scal)

end
end Pre

namespace Torch
section
variable {α β P KW KS : Type} [Zero α] [Zero β] (O : Ops α β) (E : PreFFTO α P KW KS)

/-- transforms/wavelet_precompute_torch.py:7-105 `synthesis`. -/
noncomputable def synthesisO (jm : JMax) (f_wav : List P) (f_scal : P)
    (L N J_min : ℤ) (lam : ℝ) (spin : ℤ) (sampling : String) (nside : Option ℤ) (reality : Bool)
    (filters : Option (Arr3 α × Arr1 β)) (precomps : Option (Option KS × Option KS × List KW)) : Py P := do
  match precomps with
  | none => .error .valueError
  | some precomps => do
  let J ← jm L lam
  let Ls := scal_bandlimit L J_min lam true
  let flm ← zeros2 L (2 * L - 1)
  let k1 ← unNone precomps.2.1
  let f_scal_lm ← E.sphForward f_scal k1 Ls sampling reality spin nside
  let flm ← (pyRange J_min (J + 1)).foldlM (init := flm) fun (flm : Arr2 α) (j : ℤ) => do
    let (Lj, Nj, L0j) := LN_j L j N lam true
    let temp ← (do
      let fw ← listGet f_wav (j - J_min)
      let pc ← listGet precomps.2.2 (j - J_min + (if j < J then 0 else -1))
      E.wigForward fw pc Lj Nj sampling reality nside)
    let (wav, _) ← unNone filters
    let w ← wav.sliceAt j (mkSl wav.r (some L0j) (some Lj))
      (mkSl wav.c (some (L - Nj)) (some (L - 1 + Nj)) 2)
    let t := temp.slice (mkSl temp.d none none 2) (mkSl temp.r (some L0j) none) (mkSl temp.c none none)
    let e ← einsumO_ln_nlm O w t
    flm.addAtO O (mkSl flm.r (some L0j) (some Lj)) (mkSl flm.c (some (L - Lj)) (some (L - 1 + Lj))) e
  let (_, scal) ← unNone filters
  let phi ← scalPhiO O scal Ls
  let e ← einsumO_lm_l O f_scal_lm phi
  let flm ← flm.addAtO O (mkSl flm.r none (some Ls)) (mkSl flm.c (some (L - Ls)) (some (L - 1 + Ls))) e
  let k0 ← unNone precomps.1
  E.sphInverse flm k0 L sampling reality spin nside

/-- transforms/wavelet_precompute_torch.py:108-211 `analysis`; `c1` is `np.sqrt(1 / (4 * np.pi))`. -/
noncomputable def analysisO (c1 : β) (jm : JMax) (f : P)
    (L N J_min : ℤ) (lam : ℝ) (spin : ℤ) (sampling : String) (nside : Option ℤ) (reality : Bool)
    (filters : Option (Arr3 α × Arr1 β)) (precomps : Option (Option KS × Option KS × List KW)) :
    Py (List P × P) := do
  match precomps with
  | none => .error .valueError
  | some precomps => do
  let J ← jm L lam
  let Ls := scal_bandlimit L J_min lam true
  let f_wav_lmn ← construct_flmnO α L N J_min J lam
  let f_wav0 ← construct_f_torch jm L J_min (some J) lam
  let (wav, _) ← unNone filters
  let wav_lm ← einsumO_jln_l O (wav.map O.conj) (arange (fun l => O.ofReal (O.c8 l)) 0 L)
  let k0 ← unNone precomps.1
  let flm ← E.sphForward f k0 L sampling reality spin nside
  let st ← (pyRange J_min (J + 1)).foldlM (init := (f_wav_lmn, f_wav0.map fun _ => E.empty))
    fun (st : List (Arr3 α) × List P) (j : ℤ) => do
      let (f_wav_lmn, f_wav) := st
      let (Lj, Nj, L0j) := LN_j L j N lam true
      let a ← listGet f_wav_lmn (j - J_min)
      let w ← wav_lm.sliceAt j (mkSl wav_lm.r (some L0j) (some Lj))
        (mkSl wav_lm.c (some (L - Nj)) (some (L - 1 + Nj)) 2)
      let e ← einsumO_lm_ln O
        (flm.slice (mkSl flm.r (some L0j) (some Lj)) (mkSl flm.c (some (L - Lj)) (some (L - 1 + Lj)))) w
      let a ← a.addAtO O (mkSl a.d none none 2) (mkSl a.r (some L0j) none) (mkSl a.c none none) e
      let f_wav_lmn ← listSet f_wav_lmn (j - J_min) a
      let a ← listGet f_wav_lmn (j - J_min)
      let p ← (do
        let pc ← listGet precomps.2.2 (j - J_min + (if j < J then 0 else -1))
        E.wigInverse a pc Lj Nj sampling reality nside)
      let f_wav ← listSet f_wav (j - J_min) p
      .ok (f_wav_lmn, f_wav)
  let (_, scal) ← unNone filters
  let phi ← scalPhiO O scal Ls
  let temp ← einsumO_lm_l O (flm.slice (mkSl flm.r none (some Ls))
    (mkSl flm.c (some (L - Ls)) (some (L - 1 + Ls)))) phi
  let f_scal ← if Ls = 1 then .ok (E.ofArr2 (temp.map fun x => O.mul x (O.ofReal c1)))
    else do
      let k1 ← unNone precomps.2.1
      E.sphInverse temp k1 Ls sampling reality spin nside
  .ok (st.2, f_scal)

end
end Torch

/-- the transforms of the exact model -/
noncomputable def JaxFFT.toO {K : Type} (E : JaxFFT K) : JaxFFTO ℂ Px K where
  sphForward := E.sphForward
  sphInverse := E.sphInverse
  genWigner := E.genWigner
  wigForward := E.wigForward
  wigInverse := E.wigInverse
  ofArr2 := Px.ofArr2

/-- the transforms of the exact model -/
noncomputable def PreFFT.toO {KW KS : Type} (E : PreFFT KW KS) : PreFFTO ℂ Px KW KS where
  sphForward := E.sphForward
  sphInverse := E.sphInverse
  wigForward := E.wigForward
  wigInverse := E.wigInverse
  ofArr2 := Px.ofArr2
  empty := ⟨[0], fun _ => 0⟩

end S2wav
