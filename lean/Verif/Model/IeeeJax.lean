import Verif.Model.IeeeFilters

/-! # The JAX filters of `s2wav/filters.py` in double precision

`k_lam_jax`, `filters_axisym_jax`, `binomial_coefficient_jax`, `tiling_direction_jax` and `filters_directional_jax`, with JAX's 64-bit
mode on (tests/test_filters.py:3 and the notebooks switch it on, the package does not).  `k_lam_jax` runs while the function is traced, on Python floats, so
it uses the C library `m`; the binomial coefficients are computed by XLA, whose `exp` (in `mx`) and `gammaln` (`lg`) may be others.  The
operations are taken in the order they are written. -/

namespace S2wav
open Classical

/-- a Python int as operand of a JAX operation: it must fit into an `int64`, otherwise `OverflowError` -/
def jaxInt (n : ℤ) : Py ℤ := if -2 ^ 63 ≤ n ∧ n < 2 ^ 63 then .ok n else .error .overflow

section
variable (m mx : Libm) (lg : F64 → F64)

/-- filters.py:520-578 `k_lam_jax`, in double precision. It calls `part_scaling_fn` (lines 564, 575), not its JAX version. -/
noncomputable def k_lam_jax64 (jm : JMax) (L : ℤ) (lam : ℝ) (quad_iters : ℤ) : Py (Arr2 F64) := do
  let J ← jm L lam
  let inv ← F64.pdiv (.fin 1) (.fin lam)
  let normalisation ← part_scaling_fn64 m inv (.fin 1) quad_iters (.fin lam)
  let k ← zeros2 (J + 2) L
  (pyRange 0 (J + 2)).foldlM (init := k) fun (k : Arr2 F64) (j : ℤ) =>
    (pyRange 0 L).foldlM (init := k) fun (k : Arr2 F64) (l : ℤ) => do
      let lo ← m.pyPow (.fin lam) (j - 1)
      if F64.intLt l lo then k.set j l (.fin 1)
      else do
        let hi ← m.pyPow (.fin lam) j
        if F64.intGt l hi then k.set j l (.fin 0)
        else do
          let a ← F64.pdiv (.ofInt l) hi
          let p ← part_scaling_fn64 m a (.fin 1) quad_iters (.fin lam)
          k.set j l (p.div normalisation)

/-- filters.py:254-290 `filters_axisym_jax`, in double precision. -/
noncomputable def filters_axisym_jax64 (jm : JMax) (L J_min : ℤ) (lam : ℝ) : Py (Arr2 F64 × Arr1 F64) := do
  let J ← jm L lam
  if J_min ≥ J ∨ J_min < 0 then .error .valueError
  else do
    let k ← k_lam_jax64 m jm L lam 300
    let d ← Arr2.zip F64.sub k.rollUp k
    let diff := d.slice (mkSl d.r none (some (-1))) (mkSl d.c none none)
    let z ← zeros2 (J + 1) L
    let diff ← Arr2.zip (fun x z : F64 => if x.isNeg then z else x) diff z
    let psi := diff.map F64.sqrt
    let row ← k.row J_min
    let phi := row.map F64.sqrt
    .ok (psi, phi)

/-- samples.py:647-660 `binomial_coefficient_jax` for an int `n` and a float `k`, in double precision. -/
noncomputable def binomial_coefficient_jax64 (n : ℤ) (k : F64) : F64 :=
  ((F64.fin (1 / 2)).add (mx.npExp (((lg (.ofInt (n + 1))).sub (lg (k.add (.fin 1)))).sub
    (lg (((F64.ofInt n).sub k).add (.fin 1)))))).floor

/-- filters.py:668-715 `tiling_direction_jax`, in double precision. The denominator `2**gamma` is a Python int (for a negative `gamma`,
that is `N ≤ 0`, a float, with which no entry survives the mask). -/
noncomputable def tiling_direction_jax64 (L N : ℤ) : Py (Arr2 C64) := do
  let nu : C64 := ⟨.ofInt (N % 2), .ofInt ((N % 2 - 1) ^ 2)⟩
  let s_elm ← zeros2 L (2 * L - 1)
  (pyRange 1 L).foldlM (init := s_elm) fun (s_elm : Arr2 C64) (el : ℤ) => do
    let gamma := min (N - 1) (el - 1 + (N + el) % 2)
    let den ← jaxInt (2 ^ gamma.toNat)
    let val : Arr1 C64 := Arr1.of (2 * el + 1) fun i =>
      let n := -el + i
      if n < N ∧ n > -N ∧ (N + n) % 2 = 1 then
        nu.mul (.ofReal ((binomial_coefficient_jax64 mx lg gamma ((F64.ofInt (gamma - n)).div (.fin 2))).div (.ofInt den)).sqrt)
      else 0
    s_elm.setRow el (mkSl s_elm.c (some (L - 1 - el)) (some (L + el))) val

/-- filters.py:293-348 `filters_directional_jax` with `spin0 = 0` (any other value raises before any of this, C16), in double
precision. -/
noncomputable def filters_directional_jax64 (jm : JMax) (L N J_min : ℤ) (lam : ℝ) (spin : ℤ) :
    Py (Arr3 C64 × Arr1 F64) := do
  let el_min := |spin|
  let (kappa, kappa0) ← filters_axisym_jax64 m jm L J_min lam
  let s_elm ← tiling_direction_jax64 mx lg L N
  let kappa0 ← Arr1.zip F64.mul kappa0
    (arange (fun l : ℤ => ((F64.ofInt (2 * l + 1)).div ((F64.fin 4).mul pi64)).sqrt) 0 L)
  let norm := arange (fun l : ℤ => (((F64.ofInt (2 * l + 1)).div (.fin 8)).sqrt).div pi64) 0 L
  if kappa.c ≠ norm.n then .error .valueError
  else do
    let kappa := Arr2.of kappa.r kappa.c fun j l => (kappa.v j l).mul (norm.v l)
    let l ← bdim kappa.c s_elm.r
    let kappa := Arr3.of kappa.r l s_elm.c fun i k n => (C64.ofReal (kappa.v i (bix kappa.c k))).mul (s_elm.v (bix s_elm.r k) n)
    let kappa0 := kappa0.fill (mkSl kappa0.n none (some el_min)) 0
    let kappa := kappa.fill (mkSl kappa.d none none) (mkSl kappa.r none (some el_min)) (mkSl kappa.c none none) 0
    .ok (kappa, kappa0)

end
end S2wav
