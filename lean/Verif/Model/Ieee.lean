import Verif.Model.Filters
import Mathlib.Data.Int.Log

/-! # Double precision arithmetic, and the quadrature of `s2wav/filters.py` carried out in it

Everywhere else in this model a Python `float` is a real number.  Here the operations `+ - * /` of `tiling_integrand`,
`part_scaling_fn` and `k_lam` are those of IEEE 754 binary64: the exact result rounded to the nearest double, ties to the
even significand, overflowing to infinity.  The sign of zero is not represented.  `np.exp` and Python's `**` come from the
C library and are parameters (`Libm`), about which only the documented accuracy is assumed (`Libm.Ok`). -/

namespace S2wav
open Classical

/-- nearest integer, ties to even -/
noncomputable def rne (x : ℝ) : ℤ :=
  if x - ⌊x⌋ < 1 / 2 then ⌊x⌋
  else if 1 / 2 < x - ⌊x⌋ then ⌊x⌋ + 1
  else if ⌊x⌋ % 2 = 0 then ⌊x⌋ else ⌊x⌋ + 1

/-- spacing of the doubles around `x` (53 significant bits, least exponent -1022), the exponent range being unbounded above -/
noncomputable def ulp (x : ℝ) : ℝ := (2 : ℝ) ^ (max (Int.log 2 |x|) (-1022) - 52)

/-- the double nearest to `x`, ties to even, the exponent range being unbounded above -/
noncomputable def rnd (x : ℝ) : ℝ := rne (x / ulp x) * ulp x

/-- a double: a finite value, plus or minus infinity, or NaN -/
inductive F64
  | fin (x : ℝ) | inf | ninf | nan

namespace F64

/-- `np.zeros` fills with `0.0` -/
instance : Zero F64 := ⟨fin 0⟩

/-- rounding of a real number, with overflow -/
noncomputable def of (x : ℝ) : F64 :=
  if (2 : ℝ) ^ (1024 : ℤ) ≤ rnd x then inf else if rnd x ≤ -(2 : ℝ) ^ (1024 : ℤ) then ninf else fin (rnd x)

/-- `-x` -/
def neg : F64 → F64
  | fin x => fin (-x) | inf => ninf | ninf => inf | nan => nan

/-- `x + y` -/
noncomputable def add : F64 → F64 → F64
  | fin x, fin y => of (x + y)
  | nan, _ => nan | _, nan => nan
  | inf, ninf => nan | ninf, inf => nan
  | inf, _ => inf | _, inf => inf
  | ninf, _ => ninf | _, ninf => ninf

/-- `x - y` -/
noncomputable def sub (x y : F64) : F64 := x.add y.neg

/-- an infinity with the sign of `x`, or NaN for zero -/
noncomputable def infOf (x : ℝ) : F64 := if 0 < x then inf else if x < 0 then ninf else nan

/-- `x * y` -/
noncomputable def mul : F64 → F64 → F64
  | fin x, fin y => of (x * y)
  | nan, _ => nan | _, nan => nan
  | inf, fin y => infOf y | fin x, inf => infOf x
  | ninf, fin y => infOf (-y) | fin x, ninf => infOf (-x)
  | inf, inf => inf | ninf, ninf => inf
  | inf, ninf => ninf | ninf, inf => ninf

/-- `x / y` for NumPy scalars: no exception; zeros are taken as `+0.0` -/
noncomputable def div : F64 → F64 → F64
  | fin x, fin y => if y = 0 then infOf x else of (x / y)
  | nan, _ => nan | _, nan => nan
  | fin _, _ => fin 0
  | inf, fin y => if 0 ≤ y then inf else ninf
  | ninf, fin y => if 0 ≤ y then ninf else inf
  | _, _ => nan

/-- `x / y` for Python floats: a zero denominator raises `ZeroDivisionError` -/
noncomputable def pdiv (x y : F64) : Py F64 := if y = fin 0 then .error .zeroDivision else .ok (x.div y)

/-- conversion of a Python int to a float -/
noncomputable def ofInt (n : ℤ) : F64 := of n

/-- comparison `n < x` of a Python int with a float (exact in Python; false for NaN) -/
def intLt (n : ℤ) : F64 → Prop
  | fin x => (n : ℝ) < x | inf => True | ninf => False | nan => False

/-- comparison `n > x` of a Python int with a float -/
def intGt (n : ℤ) : F64 → Prop
  | fin x => (n : ℝ) > x | inf => False | ninf => True | nan => False

/-- Python's `x == y` on floats -/
def eq : F64 → F64 → Prop
  | fin x, fin y => x = y | inf, inf => True | ninf, ninf => True | _, _ => False

/-- the value is a finite number -/
def Finite (x : F64) : Prop := ∃ r, x = fin r

end F64

/-- the C library functions used: `exp x` for a finite double `x`, and `pow x n` -/
structure Libm where
  exp : ℝ → F64
  pow : ℝ → ℤ → F64

/-- `np.exp` -/
def Libm.npExp (m : Libm) : F64 → F64
  | .fin x => m.exp x | .inf => .inf | .ninf => .fin 0 | .nan => .nan

/-- Python's `x ** n` for a float `x` and an integral exponent: an overflow raises `OverflowError`. (Infinite or NaN `x` are
only ever squared.) -/
noncomputable def Libm.pyPow (m : Libm) : F64 → ℤ → Py F64
  | .fin x, n => match m.pow x n with
    | .inf => .error .overflow | .ninf => .error .overflow | r => .ok r
  | x, _ => .ok (x.mul x)

/-- the numbers representable as (possibly very large) doubles -/
def Rep (x : ℝ) : Prop := ∃ m e : ℤ, |m| ≤ 2 ^ 53 ∧ -1074 ≤ e ∧ x = m * (2 : ℝ) ^ e

/-- What is assumed of the C library: `exp` never fails, overflows above 710, stays below 1 on negative arguments and is
accurate to a few units in the last place; a power which is a double is returned exactly, a square to one unit in the last
place. -/
structure Libm.Ok (m : Libm) : Prop where
  exp_range : ∀ x, (∃ y, m.exp x = .fin y ∧ 0 ≤ y) ∨ m.exp x = .inf
  exp_big : ∀ x, 710 ≤ x → m.exp x = .inf
  exp_acc : ∀ x, x ≤ 0 → ∃ y, m.exp x = .fin y ∧ 0 ≤ y ∧ y ≤ 1 ∧
    |y - Real.exp x| ≤ (2 : ℝ) ^ (-50 : ℤ) * Real.exp x + (2 : ℝ) ^ (-1022 : ℤ)
  pow_exact : ∀ x n, x ≠ 0 → Rep (x ^ n) → |x ^ n| < (2 : ℝ) ^ (1024 : ℤ) → m.pow x n = .fin (x ^ n)
  pow_two : ∀ x, |x| ≤ 2 → ∃ y, m.pow x 2 = .fin y ∧ |y - x ^ 2| ≤ (2 : ℝ) ^ (-52 : ℤ) * x ^ 2 + (2 : ℝ) ^ (-1022 : ℤ)

section
variable (m : Libm)

/-- filters.py:351-376 `tiling_integrand`, in double precision. `t` and `lam` are Python floats, so that `/` raises on zero
and `**` raises on overflow; `np.exp` returns a NumPy scalar, for which the last division does not raise. -/
noncomputable def tiling_integrand64 (t lam : F64) : Py F64 := do
  let inv ← F64.pdiv (.fin 1) lam
  let q ← F64.pdiv ((F64.fin 2).mul lam) (lam.sub (.fin 1))
  let s_arg := ((t.sub inv).mul q).sub (.fin 1)
  let p ← m.pyPow s_arg 2
  let e ← F64.pdiv (.fin (-2)) ((F64.fin 1).sub p)
  .ok ((m.npExp e).div t)

/-- filters.py:379-418 `part_scaling_fn`, in double precision. -/
noncomputable def part_scaling_fn64 (a b : F64) (n : ℤ) (lam : F64) : Py F64 := do
  let h ← F64.pdiv (b.sub a) (.ofInt n)
  if a.eq b then .ok (.fin 0)
  else
    (pyRange 0 n).foldlM (init := F64.fin 0) fun (sum : F64) (i : ℤ) => do
      let inv ← F64.pdiv (.fin 1) lam
      let x := a.add ((F64.ofInt i).mul h)
      let y := a.add ((F64.ofInt (i + 1)).mul h)
      if ¬ (x.eq inv ∨ x.eq (.fin 1)) ∧ ¬ (y.eq inv ∨ y.eq (.fin 1)) then do
        let f1 ← tiling_integrand64 m x lam
        let f2 ← tiling_integrand64 m y lam
        .ok (sum.add (((f1.add f2).mul h).div (.fin 2)))
      else .ok sum

/-- filters.py:421-477 `k_lam`, in double precision, `lam` being a Python float (an int `lam` as in the tests goes through the same
roundings, since Python divides ints exactly before rounding); `J` comes from `samples.j_max` (`jm`). The quotient by `normalisation`
is a NumPy division. -/
noncomputable def k_lam64 (jm : JMax) (L : ℤ) (lam : ℝ) (quad_iters : ℤ) : Py (Arr2 F64) := do
  let J ← jm L lam
  let inv ← F64.pdiv (.fin 1) (.fin lam)
  let normalisation ← part_scaling_fn64 m inv (.fin 1) quad_iters (.fin lam)
  let k ← zeros2 (J + 2) L
  (pyRange 0 (J + 2)).foldlM (init := k) fun (k : Arr2 F64) (j : ℤ) =>
    (pyRange 0 L).foldlM (init := k) fun (k : Arr2 F64) (l : ℤ) => do
      let lo ← m.pyPow (.fin lam) (j - 1)
      if F64.intLt l lo then k.set j l (.fin 1)
      else do
        let hi ← m.pyPow (.fin lam) j
        if F64.intGt l hi then k.set j l (.fin 0)
        else do
          let a ← F64.pdiv (.ofInt l) hi
          let p ← part_scaling_fn64 m a (.fin 1) quad_iters (.fin lam)
          k.set j l (p.div normalisation)

end
end S2wav
