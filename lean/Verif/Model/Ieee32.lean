import Verif.Model.IeeeTransforms

/-! # Single precision arithmetic

JAX computes in 32 bits unless its 64-bit mode is switched on, and the package does not switch it on (tests/*.py:3 and the notebooks
do).  The harmonic-space steps of `transforms/wavelet.py`, `wavelet_c.py` and `wavelet_precompute.py` then run in IEEE 754 binary32.
(`base.py` is NumPy and `wavelet_precompute_torch.py` asks for `float64`, so these stay in double precision.)

The values are again numbers, infinities and NaN (type `F64`, of which only the name speaks of 64 bits); the operations round to 24
significant bits, and to infinity from `2^128` on. -/

namespace S2wav.Single
open Classical

/-- spacing of the single precision numbers around `x` (24 significant bits, least exponent -126), the exponent range being unbounded
above -/
noncomputable def ulp (x : ℝ) : ℝ := (2 : ℝ) ^ (max (Int.log 2 |x|) (-126) - 23)

/-- the single precision number nearest to `x`, ties to even, the exponent range being unbounded above -/
noncomputable def rnd (x : ℝ) : ℝ := rne (x / ulp x) * ulp x

/-- rounding of a real number, with overflow -/
noncomputable def of (x : ℝ) : F64 :=
  if (2 : ℝ) ^ (128 : ℤ) ≤ rnd x then .inf else if rnd x ≤ -(2 : ℝ) ^ (128 : ℤ) then .ninf else .fin (rnd x)

/-- conversion of a `float64` to `float32` -/
noncomputable def cast : F64 → F64
  | .fin x => of x | x => x

/-- conversion of a `complex128` to `complex64` -/
noncomputable def castC (z : C64) : C64 := ⟨cast z.re, cast z.im⟩

/-- `x + y` -/
noncomputable def add : F64 → F64 → F64
  | .fin x, .fin y => of (x + y)
  | x, y => x.add y

/-- `x - y` -/
noncomputable def sub (x y : F64) : F64 := add x y.neg

/-- `x * y` -/
noncomputable def mul : F64 → F64 → F64
  | .fin x, .fin y => of (x * y)
  | x, y => x.mul y

/-- `x / y` -/
noncomputable def div : F64 → F64 → F64
  | .fin x, .fin y => if y = 0 then .infOf x else of (x / y)
  | x, y => x.div y

/-- `jnp.sqrt` -/
noncomputable def sqrt : F64 → F64
  | .fin x => if x < 0 then .nan else of (Real.sqrt x)
  | x => x.sqrt

/-- product of two `complex64` -/
noncomputable def cmul (x y : C64) : C64 :=
  ⟨sub (mul x.re y.re) (mul x.im y.im), add (mul x.re y.im) (mul x.im y.re)⟩

/-- sum of two `complex64` -/
noncomputable def cadd (x y : C64) : C64 := ⟨add x.re y.re, add x.im y.im⟩

/-- single precision without reordering or fusing, as `Ops.ieee`. The Python floats `8 * jnp.pi**2` and `4 * jnp.pi` are computed in double
precision and converted when they meet an array. -/
noncomputable def ieee : Ops C64 F64 where
  conj x := ⟨x.re, x.im.neg⟩
  mul := cmul
  add := cadd
  dot ps := ps.foldl (fun s p => cadd s (cmul p.1 p.2)) 0
  ofReal := C64.ofReal
  rmul := mul
  c8 l := div (cast ((F64.fin 8).mul (pi64.mul pi64))) (of ((2 * l + 1 : ℤ) : ℝ))
  c4 l := sqrt (div (cast ((F64.fin 4).mul pi64)) (of ((2 * l + 1 : ℤ) : ℝ)))

/-- unit of relative accuracy: eight times the rounding unit `2^-24` of single precision -/
noncomputable def uu : ℝ := (2 : ℝ) ^ (-21 : ℤ)

/-- unit of absolute accuracy, met only where the result underflows (XLA may flush numbers below `2^-126` to zero) -/
noncomputable def eta : ℝ := (2 : ℝ) ^ (-120 : ℤ)

/-- What is assumed of an arithmetic in single precision, as long as nothing is close to the overflow threshold: as `Ops.Good`, with the
rounding unit of single precision. -/
structure Good (O : Ops C64 F64) : Prop where
  conj : ∀ z : ℂ, O.conj (.ofC z) = .ofC ((starRingEnd ℂ) z)
  ofReal : ∀ x : ℝ, O.ofReal (.fin x) = .ofC (x : ℂ)
  mul : ∀ x y : ℂ, ‖x‖ ≤ (2 : ℝ) ^ (45 : ℤ) → ‖y‖ ≤ (2 : ℝ) ^ (45 : ℤ) →
    ∃ z, O.mul (.ofC x) (.ofC y) = .ofC z ∧ ‖z - x * y‖ ≤ uu * (‖x‖ * ‖y‖) + eta
  add : ∀ x y : ℂ, ‖x‖ ≤ (2 : ℝ) ^ (110 : ℤ) → ‖y‖ ≤ (2 : ℝ) ^ (110 : ℤ) →
    ∃ z, O.add (.ofC x) (.ofC y) = .ofC z ∧ ‖z - (x + y)‖ ≤ uu * ‖x + y‖ + eta
  dot : ∀ ps : List (ℂ × ℂ), ps.length ≤ 2 ^ 16 →
    (∀ p ∈ ps, ‖p.1‖ ≤ (2 : ℝ) ^ (45 : ℤ) ∧ ‖p.2‖ ≤ (2 : ℝ) ^ (45 : ℤ)) →
    ∃ z, O.dot (ps.map fun p => (.ofC p.1, .ofC p.2)) = .ofC z ∧
      ‖z - (ps.map fun p => p.1 * p.2).sum‖ + (ps.map fun p => ‖p.1‖ * ‖p.2‖).sum ≤
        (1 + uu) ^ (ps.length + 1) * ((ps.map fun p => ‖p.1‖ * ‖p.2‖).sum + 2 * ps.length * eta)
  rmul : ∀ x y : ℝ, |x| ≤ (2 : ℝ) ^ (45 : ℤ) → |y| ≤ (2 : ℝ) ^ (45 : ℤ) →
    ∃ z, O.rmul (.fin x) (.fin y) = .fin z ∧ |z - x * y| ≤ uu * (|x| * |y|) + eta
  c8 : ∀ l : ℤ, 0 ≤ l → l < 2 ^ 23 →
    ∃ c, O.c8 l = .fin c ∧ |c - 8 * Real.pi ^ 2 / (2 * l + 1)| ≤ 2 * uu * (8 * Real.pi ^ 2 / (2 * l + 1))
  c4 : ∀ l : ℤ, 0 ≤ l → l < 2 ^ 23 →
    ∃ c, O.c4 l = .fin c ∧ |c - Real.sqrt (4 * Real.pi / (2 * l + 1))| ≤ uu * Real.sqrt (4 * Real.pi / (2 * l + 1))

end S2wav.Single
