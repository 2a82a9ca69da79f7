import Verif.Model.IeeeFilters

/-! # The `spin0` option of the looped filters, in double precision -/

namespace S2wav
open Classical

/-- filters.py:632-652 `_spin_normalization`, in double precision: `factor` is a Python float multiplied by Python ints, so that
`1.0 / factor` raises on zero. (An int beyond the range of doubles, for which the product would raise, is not modelled.) -/
noncomputable def spin_normalization64 (el spin : ℤ) : Py F64 := do
  let factor ← (pyRange (-|spin| + 1) (|spin| + 1)).foldlM (init := F64.fin 1) fun (factor : F64) (s : ℤ) =>
    .ok (factor.mul (.ofInt (el + s)))
  if spin > 0 then .ok factor.sqrt
  else do
    let x ← F64.pdiv (.fin 1) factor
    .ok x.sqrt

/-- filters.py:84-155 `filters_directional` with the option `spin0`, in double precision. `(-1) ** spin0` is exact; the product of a
complex entry by a float is the complex product by that float with zero imaginary part. -/
noncomputable def filters_directional_spin64 (m : Libm) (lg : F64 → F64) (jm : JMax) (L N J_min : ℤ) (lam : ℝ) (spin spin0 : ℤ) :
    Py (Arr3 C64 × Arr1 F64) := do
  let J ← jm L lam
  let el_min := max |spin| |spin0|
  let phi ← zeros1 L
  let psi ← zeros3 (J + 1) L (2 * L - 1)
  let (kappa, kappa0) ← filters_axisym64 m jm L J_min lam
  let s_elm ← tiling_direction64 m lg L N
  let phi ← (pyRange el_min L).foldlM (init := phi) fun (phi : Arr1 F64) (el : ℤ) => do
    let k0 ← kappa0.get el
    if k0 ≠ 0 then do
      let phi ← phi.set el ((((F64.ofInt (2 * el + 1)).div ((F64.fin 4).mul pi64)).sqrt).mul k0)
      if spin0 ≠ 0 then do
        let sn ← spin_normalization64 el spin0
        let x ← phi.get el
        phi.set el (x.mul (sn.mul (.fin ((-1 : ℝ) ^ spin0))))
      else .ok phi
    else .ok phi
  let psi ← (pyRange J_min (J + 1)).foldlM (init := psi) fun (psi : Arr3 C64) (j : ℤ) =>
    (pyRange el_min L).foldlM (init := psi) fun (psi : Arr3 C64) (el : ℤ) => do
      let kj ← kappa.get j el
      if kj ≠ 0 then
        (pyRange (-el) (el + 1)).foldlM (init := psi) fun (psi : Arr3 C64) (n : ℤ) => do
          let s ← s_elm.get el (L - 1 + n)
          if s ≠ 0 then do
            let psi ← psi.set j el (L - 1 + n) ((C64.ofReal
              ((((F64.ofInt (2 * el + 1)).div (((F64.fin 8).mul pi64).mul pi64)).sqrt).mul kj)).mul s)
            if spin0 ≠ 0 then do
              let sn ← spin_normalization64 el spin0
              let x ← psi.get j el (L - 1 + n)
              psi.set j el (L - 1 + n) (x.mul (C64.ofReal (sn.mul (.fin ((-1 : ℝ) ^ spin0)))))
            else .ok psi
          else .ok psi
      else .ok psi
  .ok (psi, phi)

end S2wav
