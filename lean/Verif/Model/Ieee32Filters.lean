import Verif.Model.Ieee32
import Verif.Model.IeeeJax

/-! # The JAX filters of `s2wav/filters.py` in single precision

`k_lam_jax`, `filters_axisym_jax`, `binomial_coefficient_jax`, `tiling_direction_jax` and `filters_directional_jax` as they run when JAX's
64-bit mode is left off.  `k_lam_jax` integrates on Python floats, that is in double precision with the C library `m`, and converts each
value when it is stored.  Everything after that is single precision; XLA's single precision `exp` (in `mx`) and `gammaln` (`lg`) are
arguments.  The operations are taken in the order they are written.  (`dtype=np.complex128` in filters.py:698 is reduced to `complex64`
by JAX, with a warning only.) -/

namespace S2wav.Single
open Classical

/-- a Python int as operand of a JAX operation in 32-bit mode: it must fit into an `int32`, otherwise `OverflowError` -/
def jaxInt (n : ℤ) : Py ℤ := if -2 ^ 31 ≤ n ∧ n < 2 ^ 31 then .ok n else .error .overflow

/-- `jnp.floor` -/
noncomputable def floor : F64 → F64 := F64.floor

/-- conversion of an `int32` to a `float32` -/
noncomputable def ofInt (n : ℤ) : F64 := of n

section
variable (m mx : Libm) (lg : F64 → F64)

/-- filters.py:520-578 `k_lam_jax`, with a `float32` array. -/
noncomputable def k_lam_jax32 (jm : JMax) (L : ℤ) (lam : ℝ) (quad_iters : ℤ) : Py (Arr2 F64) := do
  let J ← jm L lam
  let inv ← F64.pdiv (.fin 1) (.fin lam)
  let normalisation ← part_scaling_fn64 m inv (.fin 1) quad_iters (.fin lam)
  let k ← zeros2 (J + 2) L
  (pyRange 0 (J + 2)).foldlM (init := k) fun (k : Arr2 F64) (j : ℤ) =>
    (pyRange 0 L).foldlM (init := k) fun (k : Arr2 F64) (l : ℤ) => do
      let lo ← m.pyPow (.fin lam) (j - 1)
      if F64.intLt l lo then k.set j l (cast (.fin 1))
      else do
        let hi ← m.pyPow (.fin lam) j
        if F64.intGt l hi then k.set j l (cast (.fin 0))
        else do
          let a ← F64.pdiv (.ofInt l) hi
          let p ← part_scaling_fn64 m a (.fin 1) quad_iters (.fin lam)
          k.set j l (cast (p.div normalisation))

/-- filters.py:254-290 `filters_axisym_jax`, in single precision. -/
noncomputable def filters_axisym_jax32 (jm : JMax) (L J_min : ℤ) (lam : ℝ) : Py (Arr2 F64 × Arr1 F64) := do
  let J ← jm L lam
  if J_min ≥ J ∨ J_min < 0 then .error .valueError
  else do
    let k ← k_lam_jax32 m jm L lam 300
    let d ← Arr2.zip sub k.rollUp k
    let diff := d.slice (mkSl d.r none (some (-1))) (mkSl d.c none none)
    let z ← zeros2 (J + 1) L
    let diff ← Arr2.zip (fun x z : F64 => if x.isNeg then z else x) diff z
    let psi := diff.map sqrt
    let row ← k.row J_min
    let phi := row.map sqrt
    .ok (psi, phi)

/-- samples.py:647-660 `binomial_coefficient_jax` for an int `n` and a `float32` `k`. -/
noncomputable def binomial_coefficient_jax32 (n : ℤ) (k : F64) : F64 :=
  floor (add (.fin (1 / 2)) (mx.npExp (sub (sub (lg (ofInt (n + 1))) (lg (add k (.fin 1))))
    (lg (add (sub (ofInt n) k) (.fin 1))))))

/-- filters.py:668-715 `tiling_direction_jax`, in single precision. The denominator `2**gamma` is a Python int (for a negative `gamma`,
that is `N ≤ 0`, a float, with which no entry survives the mask). -/
noncomputable def tiling_direction_jax32 (L N : ℤ) : Py (Arr2 C64) := do
  let nu : C64 := ⟨ofInt (N % 2), ofInt ((N % 2 - 1) ^ 2)⟩
  let s_elm ← zeros2 L (2 * L - 1)
  (pyRange 1 L).foldlM (init := s_elm) fun (s_elm : Arr2 C64) (el : ℤ) => do
    let gamma := min (N - 1) (el - 1 + (N + el) % 2)
    let den ← jaxInt (2 ^ gamma.toNat)
    let val : Arr1 C64 := Arr1.of (2 * el + 1) fun i =>
      let n := -el + i
      if n < N ∧ n > -N ∧ (N + n) % 2 = 1 then
        cmul nu (.ofReal (sqrt (div (binomial_coefficient_jax32 mx lg gamma (div (ofInt (gamma - n)) (.fin 2))) (ofInt den))))
      else 0
    s_elm.setRow el (mkSl s_elm.c (some (L - 1 - el)) (some (L + el))) val

/-- filters.py:293-348 `filters_directional_jax` with `spin0 = 0` (any other value raises before any of this, C16), in single
precision. The Python floats `4.0 * jnp.pi` and `np.pi` are converted when they meet an array. -/
noncomputable def filters_directional_jax32 (jm : JMax) (L N J_min : ℤ) (lam : ℝ) (spin : ℤ) :
    Py (Arr3 C64 × Arr1 F64) := do
  let el_min := |spin|
  let (kappa, kappa0) ← filters_axisym_jax32 m jm L J_min lam
  let s_elm ← tiling_direction_jax32 mx lg L N
  let kappa0 ← Arr1.zip mul kappa0
    (arange (fun l : ℤ => sqrt (div (ofInt (2 * l + 1)) (cast ((F64.fin 4).mul pi64)))) 0 L)
  let norm := arange (fun l : ℤ => div (sqrt (div (ofInt (2 * l + 1)) (.fin 8))) (cast pi64)) 0 L
  if kappa.c ≠ norm.n then .error .valueError
  else do
    let kappa := Arr2.of kappa.r kappa.c fun j l => mul (kappa.v j l) (norm.v l)
    let l ← bdim kappa.c s_elm.r
    let kappa := Arr3.of kappa.r l s_elm.c fun i k n => cmul (C64.ofReal (kappa.v i (bix kappa.c k))) (s_elm.v (bix s_elm.r k) n)
    let kappa0 := kappa0.fill (mkSl kappa0.n none (some el_min)) 0
    let kappa := kappa.fill (mkSl kappa.d none none) (mkSl kappa.r none (some el_min)) (mkSl kappa.c none none) 0
    .ok (kappa, kappa0)

/-- What is assumed of XLA's single precision `exp` and `gammaln` where binomial coefficients are computed: an accuracy of `2^-19`, that
is some 16 units in the last place (absolute for the small values of `gammaln`), on the range used for up to 31 directions. -/
structure Special : Prop where
  exp_acc : ∀ x, |x| ≤ 22 → ∃ y, mx.exp x = .fin y ∧ |y - Real.exp x| ≤ 1 / 2 ^ 19 * Real.exp x
  lg_acc : ∀ n : ℕ, n ≤ 30 → ∃ y, lg (.fin ((n + 1 : ℕ) : ℝ)) = .fin y ∧
    |y - Real.log (n.factorial : ℝ)| ≤ 1 / 2 ^ 19 * (1 + Real.log (n.factorial : ℝ))

end
end S2wav.Single
