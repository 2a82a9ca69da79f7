import Verif.Model.IeeeBackends

/-! # `flm_to_analysis` over any arithmetic

The four functions `flm_to_analysis` of `s2wav/transforms`, written over an arbitrary arithmetic `O : Ops α β` as the transforms of
`Model/IeeeTransforms.lean` and `Model/IeeeBackends.lean`. -/

namespace S2wav
open Classical

/-- `J_max if J_max is not None else samples.j_max(L, lam)` -/
def topScaleO (jm : JMax) (J_max : Option ℤ) (L : ℤ) (lam : ℝ) : Py ℤ :=
  match J_max with | some J => .ok J | none => jm L lam

/-- transforms/wavelet_c.py:156-206 `flm_to_analysis`. -/
noncomputable def flm_to_analysisO {α β P : Type} [Zero α] (O : Ops α β) (E : CFFTO α P) (jm : JMax) (flm : Arr2 α) (L N J_min : ℤ)
    (J_max : Option ℤ) (lam : ℝ) (sampling : String) (reality : Bool) (filters : Option (Arr3 α)) : Py (List P) := do
  let J ← topScaleO jm J_max L lam
  let f_wav_lmn ← generate_and_apply_waveletsO O flm L N J_min J lam filters
  (pyRange J_min (J + 1)).mapM fun j => do
    let (Lj, Nj, L0j) := LN_j L j N lam true
    let a ← listGet f_wav_lmn (j - J_min)
    E.wigInverse a Lj Nj L0j sampling reality

/-- transforms/wavelet.py:213-305 `flm_to_analysis`. -/
noncomputable def Jax.flm_to_analysisO {α β P K : Type} [Zero α] (O : Ops α β) (E : JaxFFTO α P K) (jm : JMax) (flm : Arr2 α) (L N J_min : ℤ)
    (J_max : Option ℤ) (lam : ℝ) (sampling : String) (nside : Option ℤ) (reality : Bool)
    (filters : Option (Arr3 α)) (precomps : Option (List K)) : Py (List P) := do
  let precomps ← precompsO E jm L N J_min lam sampling nside false reality precomps
  let J ← topScaleO jm J_max L lam
  let wav ← unNone filters
  let wav_lm ← einsumO_jln_l O (wav.map O.conj) (arange (fun l => O.ofReal (O.c8 l)) 0 L)
  let f_wav_lmn ← construct_flmnO α L N J_min J lam
  let st ← (pyRange J_min (J + 1)).foldlM (init := (f_wav_lmn, ([] : List P)))
    fun (st : List (Arr3 α) × List P) (j : ℤ) => do
      let (f_wav_lmn, f_wav) := st
      let (Lj, Nj, L0j) := LN_j L j N lam true
      let a ← listGet f_wav_lmn (j - J_min)
      let w := wav_lm.sliceAtJax j (mkSl wav_lm.r (some L0j) (some Lj))
        (mkSl wav_lm.c (some (L - Nj)) (some (L - 1 + Nj)) 2)
      let e ← einsumO_lm_ln O
        (flm.slice (mkSl flm.r (some L0j) (some Lj)) (mkSl flm.c (some (L - Lj)) (some (L - 1 + Lj)))) w
      let a ← a.addAtO O (mkSl a.d none none 2) (mkSl a.r (some L0j) none) (mkSl a.c none none) e
      let f_wav_lmn ← listSet f_wav_lmn (j - J_min) a
      let a ← listGet f_wav_lmn (j - J_min)
      let p ← (do
        let pc ← listGet precomps (j - J_min)
        E.wigInverse a Lj Nj nside sampling reality pc L0j)
      .ok (f_wav_lmn, f_wav ++ [p])
  .ok st.2

/-- transforms/wavelet_precompute.py:223-320 `flm_to_analysis`. -/
noncomputable def Pre.flm_to_analysisO {α β P KW KS : Type} [Zero α] (O : Ops α β) (E : PreFFTO α P KW KS) (jm : JMax) (flm : Arr2 α)
    (L N J_min : ℤ) (J_max : Option ℤ) (lam : ℝ) (sampling : String) (nside : Option ℤ) (reality : Bool)
    (filters : Option (Arr3 α)) (precomps : Option (Option KS × Option KS × List KW)) (_precomp_shift : Bool) :
    Py (List P) := do
  match precomps with
  | none => .error .valueError
  | some precomps => do
  let J ← topScaleO jm J_max L lam
  let wav ← unNone filters
  let wav_lm ← einsumO_jln_l O (wav.map O.conj) (arange (fun l => O.ofReal (O.c8 l)) 0 L)
  let f_wav_lmn ← construct_flmnO α L N J_min J lam
  let st ← (pyRange J_min (J + 1)).foldlM (init := (f_wav_lmn, ([] : List P)))
    fun (st : List (Arr3 α) × List P) (j : ℤ) => do
      let (f_wav_lmn, f_wav) := st
      let (Lj, Nj, L0j) := LN_j L j N lam true
      let a ← listGet f_wav_lmn (j - J_min)
      let w := wav_lm.sliceAtJax j (mkSl wav_lm.r (some L0j) (some Lj))
        (mkSl wav_lm.c (some (L - Nj)) (some (L - 1 + Nj)) 2)
      let e ← einsumO_lm_ln O
        (flm.slice (mkSl flm.r (some L0j) (some Lj)) (mkSl flm.c (some (L - Lj)) (some (L - 1 + Lj)))) w
      let a ← a.addAtO O (mkSl a.d none none 2) (mkSl a.r (some L0j) none) (mkSl a.c none none) e
      let f_wav_lmn ← listSet f_wav_lmn (j - J_min) a
      let a ← listGet f_wav_lmn (j - J_min)
      let p ← (do
        let pc ← listGet precomps.2.2 (j - J_min + (if _precomp_shift then (if j < J then 0 else -1) else 0))
        E.wigInverse a pc Lj Nj sampling reality nside)
      .ok (f_wav_lmn, f_wav ++ [p])
  .ok st.2

/-- transforms/wavelet_precompute_torch.py:214-297 `flm_to_analysis`. -/
noncomputable def Torch.flm_to_analysisO {α β P KW KS : Type} [Zero α] (O : Ops α β) (E : PreFFTO α P KW KS) (jm : JMax) (flm : Arr2 α)
    (L N J_min : ℤ) (J_max : Option ℤ) (lam : ℝ) (sampling : String) (nside : Option ℤ) (reality : Bool)
    (filters : Option (Arr3 α)) (precomps : Option (Option KS × Option KS × List KW)) :
    Py (List P) := do
  match precomps with
  | none => .error .valueError
  | some precomps => do
  let J ← topScaleO jm J_max L lam
  let f_wav_lmn ← construct_flmnO α L N J_min J lam
  let f_wav0 ← construct_f_torch jm L J_min (some J) lam
  let wav ← unNone filters
  let wav_lm ← einsumO_jln_l O (wav.map O.conj) (arange (fun l => O.ofReal (O.c8 l)) 0 L)
  let st ← (pyRange J_min (J + 1)).foldlM (init := (f_wav_lmn, f_wav0.map fun _ => E.empty))
    fun (st : List (Arr3 α) × List P) (j : ℤ) => do
      let (f_wav_lmn, f_wav) := st
      let (Lj, Nj, L0j) := LN_j L j N lam true
      let a ← listGet f_wav_lmn (j - J_min)
      let w ← wav_lm.sliceAt j (mkSl wav_lm.r (some L0j) (some Lj))
        (mkSl wav_lm.c (some (L - Nj)) (some (L - 1 + Nj)) 2)
      let e ← einsumO_lm_ln O
        (flm.slice (mkSl flm.r (some L0j) (some Lj)) (mkSl flm.c (some (L - Lj)) (some (L - 1 + Lj)))) w
      let a ← a.addAtO O (mkSl a.d none none 2) (mkSl a.r (some L0j) none) (mkSl a.c none none) e
      let f_wav_lmn ← listSet f_wav_lmn (j - J_min) a
      let a ← listGet f_wav_lmn (j - J_min)
      let p ← (do
        let pc ← listGet precomps.2.2 (j - J_min + (if j < J then 0 else -1))
        E.wigInverse a pc Lj Nj sampling reality nside)
      let f_wav ← listSet f_wav (j - J_min) p
      .ok (f_wav_lmn, f_wav)
  .ok st.2

end S2wav
