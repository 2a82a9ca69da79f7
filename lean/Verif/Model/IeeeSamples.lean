import Verif.Model.Ieee

/-! # The scale bookkeeping of `s2wav/samples.py` in double precision

`np.log` is the parameter `lf` (its value at a positive finite double), about which only the accuracy is assumed (`LogOk`);
`lam ** j` is `Libm.pyPow`. -/

namespace S2wav
open Classical

/-- `np.log`: `-inf` at zero, NaN on negative numbers -/
noncomputable def npLog (lf : ℝ → F64) : F64 → F64
  | .fin x => if 0 < x then lf x else if x = 0 then .ninf else .nan
  | .inf => .inf | .ninf => .nan | .nan => .nan

/-- what is assumed of `np.log`: four units in the last place, on positive finite doubles -/
def LogOk (lf : ℝ → F64) : Prop :=
  ∀ x, 0 < x → Rep x → x < (2 : ℝ) ^ (1024 : ℤ) → ∃ y, lf x = .fin y ∧ |y - Real.log x| ≤ |Real.log x| / 2 ^ 50

/-- `math.ceil` / `int(np.ceil(..))` of a double: `ValueError` for NaN, `OverflowError` for an infinity -/
noncomputable def F64.ceil : F64 → Py ℤ
  | .fin x => .ok ⌈x⌉ | .nan => .error .valueError | _ => .error .overflow

/-- samples.py:564-576 `j_max` in double precision: `int(np.ceil(np.log(L) / np.log(lam)))`. -/
noncomputable def j_max64 (lf : ℝ → F64) : JMax := fun L lam =>
  ((npLog lf (.ofInt L)).div (npLog lf (.fin lam))).ceil

section
variable (m : Libm)

/-- samples.py:343-366 `scal_bandlimit` in double precision, `lam` being a Python float. -/
noncomputable def scal_bandlimit64 (L J_min : ℤ) (lam : ℝ) (multiresolution : Bool) : Py ℤ :=
  if multiresolution then do
    let p ← m.pyPow (.fin lam) J_min
    let c ← p.ceil
    .ok (min c L)
  else .ok L

/-- samples.py:74-90 `L0_j` in double precision. -/
noncomputable def L0_j64 (j : ℤ) (lam : ℝ) : Py ℤ :=
  if j ≠ 0 then do
    let p ← m.pyPow (.fin lam) (j - 1)
    p.ceil
  else .ok 0

/-- samples.py:406-431 `wav_j_bandlimit` in double precision. -/
noncomputable def wav_j_bandlimit64 (L j : ℤ) (lam : ℝ) (multiresolution : Bool) : Py ℤ :=
  let j := if j = 0 then j + 1 else j
  if multiresolution then do
    let p ← m.pyPow (.fin lam) (j + 1)
    let c ← p.ceil
    .ok (min c L)
  else .ok L

/-- samples.py:93-130 `LN_j` in double precision. -/
noncomputable def LN_j64 (L j N : ℤ) (lam : ℝ) (multiresolution : Bool) : Py (ℤ × ℤ × ℤ) := do
  let j := if j = 0 then j + 1 else j
  let Lj ← wav_j_bandlimit64 m L j lam multiresolution
  let L0j ← if multiresolution then L0_j64 m j lam else .ok 0
  let Nj := if multiresolution then min N Lj + (min N Lj + N) % 2 else N
  .ok (Lj, Nj, L0j)

end
end S2wav
