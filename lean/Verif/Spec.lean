import Verif.Py
import Mathlib.Data.Real.Basic
import Mathlib.Data.Complex.Basic
import Mathlib.Analysis.SpecialFunctions.Exp
import Mathlib.Data.Int.Interval

/-! # Specification vocabulary

Small definitions, independent of the model, in which the property theorems are phrased. -/

namespace S2wav

/-- `J` is the least non-negative integer with `L ≤ lam^J`. -/
def IsTopScale (L : ℤ) (lam : ℝ) (J : ℤ) : Prop :=
  0 ≤ J ∧ (L : ℝ) ≤ lam ^ J ∧ ∀ J' : ℤ, 0 ≤ J' → (L : ℝ) ≤ lam ^ J' → J ≤ J'

/-- the degrees `0 ≤ l < B` are exactly the degrees `0 ≤ l < L` below the real cut-off `x` -/
def IsBandLimit (L : ℤ) (x : ℝ) (B : ℤ) : Prop :=
  1 ≤ B ∧ B ≤ L ∧ ∀ l : ℤ, l < B ↔ l < L ∧ (l : ℝ) < x

/-- no entry of the generating-function array exceeds one -/
def NoOvershoot (k : Arr2 ℝ) : Prop := ∀ j l, k.v j l ≤ 1

/-- the largest entry of column `l` between rows `lo` and `hi` -/
def IsColMax (k : Arr2 ℝ) (lo hi l : ℤ) (x : ℝ) : Prop :=
  (∃ j, lo ≤ j ∧ j ≤ hi ∧ k.v j l = x) ∧ ∀ j, lo ≤ j → j ≤ hi → k.v j l ≤ x

/-! The published filters. -/

/-- the tiling integrand: a smooth bump on `(1/lam, 1)` divided by its argument -/
noncomputable def bump (lam x : ℝ) : ℝ := Real.exp (-2 / (1 - ((2 * x - (1 + 1 / lam)) / (1 - 1 / lam)) ^ 2)) / x

/-- panels `lo, ..., hi - 1` of the trapezium rule with nodes `a + i h` -/
noncomputable def trapezium (f : ℝ → ℝ) (a h : ℝ) (lo hi : ℤ) : ℝ :=
  ∑ i ∈ Finset.Ico lo hi, (f (a + i * h) + f (a + (i + 1) * h)) / 2 * h

/-- the largest integer `≤ min(N-1, l)` of the parity of `N - 1` -/
def dirDegree (N l : ℤ) : ℤ := min (N - 1) (l - (N - 1 - l) % 2)

/-! Harmonic coefficients.  s2fft stores degree `l`, order `m` at `a[l, L-1+m]` and the Wigner coefficient of degree
`l` and orders `m`, `n` at `t[N-1+n, l, L-1+m]`. -/

/-- the coefficient of degree `l` and order `m` of an array with `L` rows -/
def co2 (a : Arr2 ℂ) (l m : ℤ) : ℂ := a.v l (a.r - 1 + m)

/-- the Wigner coefficient of degree `l` and orders `m`, `n` of an array with `2N-1` planes of `L` rows -/
def co3 (t : Arr3 ℂ) (n l m : ℤ) : ℂ := t.v ((t.d - 1) / 2 + n) l (t.r - 1 + m)

/-- harmonic coefficients of a signal of spin `s`, band-limited at `L` -/
structure BL2 (L s : ℤ) (a : Arr2 ℂ) : Prop where
  r : a.r = L
  c : a.c = 2 * L - 1
  zero : ∀ l m, l < |m| ∨ l < |s| → co2 a l m = 0

/-- the symmetry of the harmonic coefficients of a real signal -/
def Herm2 (a : Arr2 ℂ) : Prop := ∀ l m, co2 a l (-m) = (-1 : ℂ) ^ m * (starRingEnd ℂ) (co2 a l m)

/-- Wigner coefficients of a function on SO(3) with band-limits `L`, `N` and no degrees below `L0` -/
structure BL3 (L N L0 : ℤ) (t : Arr3 ℂ) : Prop where
  d : t.d = 2 * N - 1
  r : t.r = L
  c : t.c = 2 * L - 1
  zero : ∀ n l m, l < |n| ∨ l < |m| ∨ l < L0 → co3 t n l m = 0

/-- the symmetry of the Wigner coefficients of a real function -/
def Herm3 (t : Arr3 ℂ) : Prop :=
  ∀ n l m, co3 t (-n) l (-m) = (-1 : ℂ) ^ (n + m) * (starRingEnd ℂ) (co3 t n l m)

end S2wav
