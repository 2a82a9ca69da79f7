import Verif.Model.Ieee

/-! # The filters of `s2wav/filters.py` in double precision

`filters_axisym`, `filters_axisym_vectorised`, `binomial_coefficient`, `tiling_direction`, `filters_directional_vectorised` and
`filters_directional` executed in IEEE double precision.  `np.sqrt` is correctly rounded, as IEEE 754 asks.  SciPy's `loggamma` is a parameter (`lg`). -/

namespace S2wav
open Classical

namespace F64

/-- `np.sqrt` -/
noncomputable def sqrt : F64 → F64
  | fin x => if x < 0 then nan else of (Real.sqrt x)
  | inf => inf | ninf => nan | nan => nan

/-- `x < 0` (false for NaN) -/
def isNeg : F64 → Prop
  | fin x => x < 0 | ninf => True | inf => False | nan => False

/-- `np.floor` -/
noncomputable def floor : F64 → F64
  | fin x => fin ⌊x⌋ | x => x

/-- conversion of a Python int to a float where an overflow raises -/
noncomputable def ofIntPy (n : ℤ) : Py F64 :=
  match ofInt n with
  | fin x => .ok (fin x) | _ => .error .overflow

end F64

/-- a `complex128` -/
structure C64 where
  re : F64
  im : F64

namespace C64

instance : Zero C64 := ⟨⟨0, 0⟩⟩

/-- conversion of a `float64` -/
def ofReal (x : F64) : C64 := ⟨x, 0⟩

/-- product, by the usual formula -/
noncomputable def mul (x y : C64) : C64 := ⟨(x.re.mul y.re).sub (x.im.mul y.im), (x.re.mul y.im).add (x.im.mul y.re)⟩

/-- the complex number with finite parts -/
def ofC (z : ℂ) : C64 := ⟨.fin z.re, .fin z.im⟩

end C64

section
variable (m : Libm) (lg : F64 → F64)

/-- filters.py:10-81 `filters_axisym`, in double precision. -/
noncomputable def filters_axisym64 (jm : JMax) (L J_min : ℤ) (lam : ℝ) : Py (Arr2 F64 × Arr1 F64) := do
  let J ← jm L lam
  if J_min ≥ J ∨ J_min < 0 then .error .valueError
  else do
    let k ← k_lam64 m jm L lam 300
    let psi ← zeros2 (J + 1) L
    let phi ← zeros1 L
    let phi ← (pyRange 0 L).foldlM (init := phi) fun (phi : Arr1 F64) (l : ℤ) => do
      let x ← k.get J_min l
      phi.set l x.sqrt
    let st ← (pyRange J_min (J + 1)).foldlM (init := (psi, (none : Option F64), (0 : F64))) fun st j =>
      (pyRange 0 L).foldlM (init := st) fun (psi, temp, previoustemp) l => do
        let x ← k.get (j + 1) l
        let y ← k.get j l
        let diff := x.sub y
        if diff.isNeg then do
          let psi ← psi.set j l previoustemp
          match temp with
          | none => .error .unboundLocal
          | some t => .ok (psi, some t, t)
        else do
          let psi ← psi.set j l diff.sqrt
          .ok (psi, some diff.sqrt, diff.sqrt)
    .ok (st.1, phi)

/-- filters.py:158-192 `filters_axisym_vectorised`, in double precision. -/
noncomputable def filters_axisym_vectorised64 (jm : JMax) (L J_min : ℤ) (lam : ℝ) : Py (Arr2 F64 × Arr1 F64) := do
  let J ← jm L lam
  if J_min ≥ J ∨ J_min < 0 then .error .valueError
  else do
    let k ← k_lam64 m jm L lam 300
    let d ← Arr2.zip F64.sub k.rollUp k
    let diff := d.slice (mkSl d.r none (some (-1))) (mkSl d.c none none)
    let diff := diff.map fun x => if x.isNeg then 0 else x
    let psi := diff.map F64.sqrt
    let row ← k.row J_min
    let phi := row.map F64.sqrt
    .ok (psi, phi)

/-- samples.py:631-644 `binomial_coefficient` for an int `n` and a float `k`, in double precision. -/
noncomputable def binomial_coefficient64 (n : ℤ) (k : F64) : F64 :=
  ((F64.fin (1 / 2)).add (m.npExp (((lg (.ofInt (n + 1))).sub (lg (k.add (.fin 1)))).sub
    (lg (((F64.ofInt n).sub k).add (.fin 1)))))).floor

/-- filters.py:581-629 `tiling_direction`, in double precision. -/
noncomputable def tiling_direction64 (L N : ℤ) : Py (Arr2 C64) := do
  let nu : C64 := if N % 2 ≠ 0 then ⟨.fin 1, .fin 0⟩ else ⟨.fin 0, .fin 1⟩
  let s_elm ← zeros2 L (2 * L - 1)
  (pyRange 1 L).foldlM (init := s_elm) fun (s_elm : Arr2 C64) (el : ℤ) =>
    let gamma := if (N + el) % 2 ≠ 0 then min (N - 1) el else min (N - 1) (el - 1)
    (pyRange (-el) (el + 1)).foldlM (init := s_elm) fun (s_elm : Arr2 C64) (n : ℤ) =>
      if |n| < N ∧ (N + n) % 2 ≠ 0 then do
        let k ← F64.pdiv (.ofInt (gamma - n)) (.fin 2)
        let den ← F64.ofIntPy (2 ^ gamma.toNat)
        s_elm.set el (L - 1 + n) (nu.mul (.ofReal ((binomial_coefficient64 m lg gamma k).div den).sqrt))
      else s_elm.set el (L - 1 + n) 0

/-- `np.pi`: the double nearest to π -/
noncomputable def pi64 : F64 := .of Real.pi

/-- filters.py:195-251 `filters_directional_vectorised` with `spin0 = 0` (any other value raises before any of this, C16), in
double precision. The integers `2 * np.arange(L) + 1` are converted to double before they are divided. -/
noncomputable def filters_directional_vectorised64 (jm : JMax) (L N J_min : ℤ) (lam : ℝ) (spin : ℤ) :
    Py (Arr3 C64 × Arr1 F64) := do
  let el_min := |spin|
  let (kappa, kappa0) ← filters_axisym_vectorised64 m jm L J_min lam
  let s_elm ← tiling_direction64 m lg L N
  let kappa0 ← Arr1.zip F64.mul kappa0
    (arange (fun l : ℤ => ((F64.ofInt (2 * l + 1)).div ((F64.fin 4).mul pi64)).sqrt) 0 L)
  let norm := arange (fun l : ℤ => (((F64.ofInt (2 * l + 1)).div (.fin 8)).sqrt).div pi64) 0 L
  if kappa.c ≠ norm.n then .error .valueError
  else do
    let kappa := Arr2.of kappa.r kappa.c fun j l => (kappa.v j l).mul (norm.v l)
    let l ← bdim kappa.c s_elm.r
    let kappa := Arr3.of kappa.r l s_elm.c fun i k n => (C64.ofReal (kappa.v i (bix kappa.c k))).mul (s_elm.v (bix s_elm.r k) n)
    let kappa0 := kappa0.fill (mkSl kappa0.n none (some el_min)) 0
    let kappa := kappa.fill (mkSl kappa.d none none) (mkSl kappa.r none (some el_min)) (mkSl kappa.c none none) 0
    .ok (kappa, kappa0)

/-- filters.py:84-155 `filters_directional` with `spin0 = 0`, in double precision. An entry that compares unequal to zero (a NaN
does) is multiplied out, the others stay at the zero of `np.zeros`. -/
noncomputable def filters_directional64 (jm : JMax) (L N J_min : ℤ) (lam : ℝ) (spin : ℤ) : Py (Arr3 C64 × Arr1 F64) := do
  let J ← jm L lam
  let el_min := |spin|
  let phi ← zeros1 L
  let psi ← zeros3 (J + 1) L (2 * L - 1)
  let (kappa, kappa0) ← filters_axisym64 m jm L J_min lam
  let s_elm ← tiling_direction64 m lg L N
  let phi ← (pyRange el_min L).foldlM (init := phi) fun (phi : Arr1 F64) (el : ℤ) => do
    let k0 ← kappa0.get el
    if k0 ≠ 0 then phi.set el ((((F64.ofInt (2 * el + 1)).div ((F64.fin 4).mul pi64)).sqrt).mul k0)
    else .ok phi
  let psi ← (pyRange J_min (J + 1)).foldlM (init := psi) fun (psi : Arr3 C64) (j : ℤ) =>
    (pyRange el_min L).foldlM (init := psi) fun (psi : Arr3 C64) (el : ℤ) => do
      let kj ← kappa.get j el
      if kj ≠ 0 then
        (pyRange (-el) (el + 1)).foldlM (init := psi) fun (psi : Arr3 C64) (n : ℤ) => do
          let s ← s_elm.get el (L - 1 + n)
          if s ≠ 0 then
            psi.set j el (L - 1 + n) ((C64.ofReal
              ((((F64.ofInt (2 * el + 1)).div (((F64.fin 8).mul pi64).mul pi64)).sqrt).mul kj)).mul s)
          else .ok psi
      else .ok psi
  .ok (psi, phi)

/-- What is assumed of `exp` and SciPy's `loggamma` where binomial coefficients are computed: accuracy of a few units in the
last place (absolute for the small values of `loggamma`), on the range that is used for up to 990 directions. -/
structure Libm.Special : Prop where
  exp_acc : ∀ x, |x| ≤ 692 → ∃ y, m.exp x = .fin y ∧ |y - Real.exp x| ≤ (2 : ℝ) ^ (-50 : ℤ) * Real.exp x
  lg_acc : ∀ n : ℕ, n ≤ 990 → ∃ y, lg (.fin ((n + 1 : ℕ) : ℝ)) = .fin y ∧
    |y - Real.log (n.factorial : ℝ)| ≤ (2 : ℝ) ^ (-50 : ℤ) * (1 + Real.log (n.factorial : ℝ))

end
end S2wav
