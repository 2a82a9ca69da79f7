import Verif.Model.IeeeBase

/-! # The looped transforms of `base.py` over any arithmetic

`analysis_looped` and `synthesis_looped` of `s2wav/transforms/base.py` over an arbitrary arithmetic `O : Ops α β`, as
`Model/IeeeBase.lean` does it for the vectorised functions.  What `filters.filters_directional(L, N, J_min, lam, spin, spin0)` returns or
raises is a parameter, and so is `sg k x`, which stands for `(-1)**k * x`.  With `Ops.exact` and the filters of the
exact model they are the programs of `Model/Base.lean` (C112). -/

namespace S2wav
open Classical

namespace Base
section
variable {α β P : Type} [Zero α] [Zero β] (O : Ops α β) (sg : ℤ → α → α) (E : BaseFFTO α P)

/-- transforms/base.py:7-87 `synthesis_looped`. -/
noncomputable def synthesis_loopedO (jm : JMax) (filters : Py (Arr3 α × Arr1 β)) (f_wav : List P) (f_scal : P) (L N J_min : ℤ)
    (lam : ℝ) (spin : ℤ) (sampling : String) (nside : Option ℤ) (reality multiresolution : Bool) : Py P := do
  shapeCheckO E jm f_wav f_scal L N J_min lam sampling nside multiresolution
  let J ← jm L lam
  let Ls := scal_bandlimit L J_min lam multiresolution
  let flm ← zeros2 L (2 * L - 1)
  let f_scal_lm ← E.sphForward f_scal Ls spin sampling nside reality
  let (wav_lm, scal_l) ← filters
  let flm ← (pyRange J_min (J + 1)).foldlM (init := flm) fun (flm : Arr2 α) (j : ℤ) => do
    let (Lj, Nj, L0j) := LN_j L j N lam multiresolution
    let fw ← listGet f_wav (j - J_min)
    let temp ← E.wigForward fw Lj Nj L0j sampling reality nside
    (pyRange (-Nj + 1) Nj 2).foldlM (init := flm) fun (flm : Arr2 α) (n : ℤ) =>
      (pyRange (max (max |spin| |n|) L0j) Lj).foldlM (init := flm) fun (flm : Arr2 α) (el : ℤ) => do
        let psi ← wav_lm.get j el (L - 1 + n)
        (pyRange (-el) (el + 1)).foldlM (init := flm) fun (flm : Arr2 α) (m : ℤ) => do
          let x ← flm.get el (L - 1 + m)
          let t ← temp.get (Nj - 1 + n) el (Lj - 1 + m)
          flm.set el (L - 1 + m) (O.add x (O.mul t psi))
  let flm ← (pyRange |spin| Ls).foldlM (init := flm) fun (flm : Arr2 α) (el : ℤ) => do
    let s ← scal_l.get el
    let phi := O.ofReal (O.rmul (O.c4 el) s)
    let x ← flm.get el (0 + L - 1)
    let t ← f_scal_lm.get el (Ls - 1 + 0)
    let flm ← flm.set el (0 + L - 1) (O.add x (O.mul t phi))
    (pyRange 1 (el + 1)).foldlM (init := flm) fun (flm : Arr2 α) (m : ℤ) => do
      let x ← flm.get el (L - 1 + m)
      let t ← f_scal_lm.get el (Ls - 1 + m)
      let flm ← flm.set el (L - 1 + m) (O.add x (O.mul t phi))
      if reality then do
        let y ← flm.get el (-m + L - 1)
        let z ← flm.get el (m + L - 1)
        flm.set el (-m + L - 1) (O.add y (sg m (O.conj z)))
      else do
        let y ← flm.get el (-m + L - 1)
        let t ← f_scal_lm.get el (Ls - 1 - m)
        flm.set el (-m + L - 1) (O.add y (O.mul t phi))
  E.sphInverse flm L spin sampling nside reality 0

/-- transforms/base.py:168-259 `analysis_looped`. -/
noncomputable def analysis_loopedO (jm : JMax) (filters : Py (Arr3 α × Arr1 β)) (f : P) (L N J_min : ℤ)
    (lam : ℝ) (spin : ℤ) (sampling : String) (nside : Option ℤ) (reality multiresolution : Bool) :
    Py (List P × P) := do
  let J ← jm L lam
  let Ls := scal_bandlimit L J_min lam multiresolution
  let f_scal_lm : Arr2 α ← zeros2 Ls (2 * Ls - 1)
  let f_wav_lmn : List (Arr3 α) ← (pyRange J_min (J + 1)).mapM fun j =>
    let (d, r, c) := flmn_wav_j L j N lam multiresolution
    zeros3 d r c
  let (wav_lm, scal_l) ← filters
  let flm ← E.sphForward f L spin sampling nside reality
  let f_wav_lmn ← (pyRange J_min (J + 1)).foldlM (init := f_wav_lmn)
    fun (f_wav_lmn : List (Arr3 α)) (j : ℤ) => do
      let (Lj, Nj, L0j) := LN_j L j N lam multiresolution
      (pyRange (-Nj + 1) Nj 2).foldlM (init := f_wav_lmn) fun (f_wav_lmn : List (Arr3 α)) (n : ℤ) =>
        (pyRange (max (max |spin| |n|) L0j) Lj).foldlM (init := f_wav_lmn)
          fun (f_wav_lmn : List (Arr3 α)) (el : ℤ) => do
            let p ← wav_lm.get j el (L - 1 + n)
            let psi := O.mul (O.conj p) (O.ofReal (O.c8 el))
            let a ← listGet f_wav_lmn (j - J_min)
            let x ← flm.get el (L - 1 + 0)
            let a ← a.set (Nj - 1 + n) el (Lj - 1) (O.mul x psi)
            let f_wav_lmn ← listSet f_wav_lmn (j - J_min) a
            (pyRange 1 (el + 1)).foldlM (init := f_wav_lmn) fun (f_wav_lmn : List (Arr3 α)) (m : ℤ) => do
              let a ← listGet f_wav_lmn (j - J_min)
              let x ← flm.get el (L - 1 + m)
              let a ← a.set (Nj - 1 + n) el (Lj - 1 + m) (O.mul x psi)
              let a ← if reality then do
                  let y ← a.get (Nj - 1 + n) el (Lj - 1 + m)
                  a.set (Nj - 1 - n) el (Lj - 1 - m) (sg (m + n) (O.conj y))
                else do
                  let x ← flm.get el (L - 1 - m)
                  a.set (Nj - 1 + n) el (Lj - 1 - m) (O.mul x psi)
              listSet f_wav_lmn (j - J_min) a
  let f_scal_lm ← (pyRange |spin| Ls).foldlM (init := f_scal_lm) fun (f_scal_lm : Arr2 α) (el : ℤ) => do
    let s ← scal_l.get el
    let phi := O.ofReal (O.rmul (O.c4 el) s)
    let x ← flm.get el (L - 1 + 0)
    let f_scal_lm ← f_scal_lm.set el (Ls - 1 + 0) (O.mul x phi)
    (pyRange 1 (el + 1)).foldlM (init := f_scal_lm) fun (f_scal_lm : Arr2 α) (m : ℤ) => do
      let x ← flm.get el (L - 1 + m)
      let f_scal_lm ← f_scal_lm.set el (Ls - 1 + m) (O.mul x phi)
      if reality then do
        let y ← f_scal_lm.get el (Ls - 1 + m)
        f_scal_lm.set el (Ls - 1 - m) (sg m (O.conj y))
      else do
        let x ← flm.get el (L - 1 - m)
        f_scal_lm.set el (Ls - 1 - m) (O.mul x phi)
  let f_wav ← construct_fO E jm L N J_min lam sampling nside multiresolution
  let f_wav ← (pyRange J_min (J + 1)).foldlM (init := f_wav) fun (f_wav : List P) (j : ℤ) => do
    let (Lj, Nj, L0j) := LN_j L j N lam multiresolution
    let a ← listGet f_wav_lmn (j - J_min)
    let p ← E.wigInverse a Lj Nj L0j sampling reality nside
    listSet f_wav (j - J_min) p
  let f_scal ← E.sphInverse f_scal_lm Ls spin sampling nside reality 0
  .ok (f_wav, f_scal)

end
end Base

/-- `(-1)**k * x` in double precision: for even `k` the number, for odd `k` the number with both signs changed (multiplying by the complex number
`-1 + 0j` gives the same, C112_sign) -/
def C64.sign (k : ℤ) (x : C64) : C64 := if k % 2 = 0 then x else ⟨x.re.neg, x.im.neg⟩

end S2wav
