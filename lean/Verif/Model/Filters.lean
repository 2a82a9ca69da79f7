import Verif.Model.Samples
import Mathlib.Analysis.SpecialFunctions.Pow.Real
import Mathlib.Analysis.Real.Pi.Bounds

/-! # Model of `s2wav/filters.py`

Exact real/complex arithmetic; a floating point NaN/inf or a division by zero is an error value.
`jm` is the implementation of `samples.j_max` (see `Samples.lean`). -/

namespace S2wav
open Classical

/-- `np.sqrt` of a scalar: NaN on negative arguments. -/
noncomputable def npSqrt (x : ℝ) : Py ℝ := if x < 0 then .error .nan else .ok (Real.sqrt x)

/-- `np.sqrt` of an array -/
noncomputable def npSqrt1 (a : Arr1 ℝ) : Py (Arr1 ℝ) :=
  if ∃ i, a.v i < 0 then .error .nan else .ok (a.map Real.sqrt)

/-- `np.sqrt` of an array -/
noncomputable def npSqrt2 (a : Arr2 ℝ) : Py (Arr2 ℝ) :=
  if ∃ i j, a.v i j < 0 then .error .nan else .ok (a.map Real.sqrt)

/-- division, raising on a zero denominator -/
noncomputable def pyDiv (x y : ℝ) : Py ℝ := if y = 0 then .error .zeroDivision else .ok (x / y)

/-- filters.py:351-376 `tiling_integrand`. -/
noncomputable def tiling_integrand (t lam : ℝ) : Py ℝ := do
  let inv ← pyDiv 1 lam
  let q ← pyDiv (2 * lam) (lam - 1)
  let s_arg := (t - inv) * q - 1
  let e ← pyDiv (-2) (1 - s_arg ^ 2)
  pyDiv (Real.exp e) t

/-- filters.py:379-418 `part_scaling_fn`: the trapezium rule with the panels touching `1/lam` or `1` skipped. -/
noncomputable def part_scaling_fn (a b : ℝ) (n : ℤ) (lam : ℝ) : Py ℝ := do
  let h ← pyDiv (b - a) n
  if a = b then .ok 0
  else
    (pyRange 0 n).foldlM (init := (0 : ℝ)) fun (sum : ℝ) (i : ℤ) => do
      let inv ← pyDiv 1 lam
      if ¬ (a + i * h = inv ∨ a + i * h = 1) ∧ ¬ (a + (i + 1) * h = inv ∨ a + (i + 1) * h = 1) then do
        let f1 ← tiling_integrand (a + i * h) lam
        let f2 ← tiling_integrand (a + (i + 1) * h) lam
        .ok (sum + (f1 + f2) * h / 2)
      else .ok sum

/-- filters.py:421-477 `k_lam`. -/
noncomputable def k_lam (jm : JMax) (L : ℤ) (lam : ℝ) (quad_iters : ℤ) : Py (Arr2 ℝ) := do
  let J ← jm L lam
  let inv ← pyDiv 1 lam
  let normalisation ← part_scaling_fn inv 1 quad_iters lam
  let k ← zeros2 (J + 2) L
  (pyRange 0 (J + 2)).foldlM (init := k) fun (k : Arr2 ℝ) (j : ℤ) =>
    (pyRange 0 L).foldlM (init := k) fun (k : Arr2 ℝ) (l : ℤ) =>
      if (l : ℝ) < lam ^ (j - 1) then k.set j l 1
      else if (l : ℝ) > lam ^ j then k.set j l 0
      else do
        let p ← part_scaling_fn (l / lam ^ j) 1 quad_iters lam
        let x ← pyDiv p normalisation
        k.set j l x

/-- filters.py:520-578 `k_lam_jax`. It calls the same `part_scaling_fn` (lines 564, 575); `k.at[j, l].set(x)` is a
functional update. -/
noncomputable def k_lam_jax (jm : JMax) (L : ℤ) (lam : ℝ) (quad_iters : ℤ) : Py (Arr2 ℝ) := do
  let J ← jm L lam
  let inv ← pyDiv 1 lam
  let normalisation ← part_scaling_fn inv 1 quad_iters lam
  let k ← zeros2 (J + 2) L
  (pyRange 0 (J + 2)).foldlM (init := k) fun (k : Arr2 ℝ) (j : ℤ) =>
    (pyRange 0 L).foldlM (init := k) fun (k : Arr2 ℝ) (l : ℤ) =>
      if (l : ℝ) < lam ^ (j - 1) then k.set j l 1
      else if (l : ℝ) > lam ^ j then k.set j l 0
      else do
        let p ← part_scaling_fn (l / lam ^ j) 1 quad_iters lam
        let x ← pyDiv p normalisation
        k.set j l x

/-- filters.py:480-517 `_part_scaling_fn_jax` (defined but never called in the package). `jnp.where` evaluates both
branches; the NaNs of the unselected branch are discarded, so the unselected value is not computed here. -/
noncomputable def part_scaling_fn_jax (a b : ℝ) (n : ℤ) (lam : ℝ) : Py ℝ := do
  let h ← pyDiv (b - a) n
  let inv ← pyDiv 1 lam
  let x : ℤ → ℝ := fun i => a + i * h
  (pyRange 0 n).foldlM (init := (0 : ℝ)) fun (sum : ℝ) (i : ℤ) =>
    if x i = inv ∨ x i = 1 ∨ x (i + 1) = inv ∨ x (i + 1) = 1 then .ok (sum + 0 * h / 2)
    else do
      let f1 ← tiling_integrand (x i) lam
      let f2 ← tiling_integrand (x (i + 1)) lam
      .ok (sum + (f1 + f2) * h / 2)

/-- filters.py:10-81 `filters_axisym`. `temp` is unbound before its first assignment (line 77). -/
noncomputable def filters_axisym (jm : JMax) (L J_min : ℤ) (lam : ℝ) : Py (Arr2 ℝ × Arr1 ℝ) := do
  let J ← jm L lam
  if J_min ≥ J ∨ J_min < 0 then .error .valueError
  else do
    let k ← k_lam jm L lam 300
    let psi ← zeros2 (J + 1) L
    let phi ← zeros1 L
    let phi ← (pyRange 0 L).foldlM (init := phi) fun (phi : Arr1 ℝ) (l : ℤ) => do
      let x ← k.get J_min l
      let r ← npSqrt x
      phi.set l r
    let st ← (pyRange J_min (J + 1)).foldlM (init := (psi, (none : Option ℝ), (0 : ℝ))) fun st j =>
      (pyRange 0 L).foldlM (init := st) fun (psi, temp, previoustemp) l => do
        let x ← k.get (j + 1) l
        let y ← k.get j l
        let diff := x - y
        if diff < 0 then do
          let psi ← psi.set j l previoustemp
          match temp with
          | none => .error .unboundLocal
          | some t => .ok (psi, some t, t)
        else do
          let t ← npSqrt diff
          let psi ← psi.set j l t
          .ok (psi, some t, t)
    .ok (st.1, phi)

/-- filters.py:158-192 `filters_axisym_vectorised`. -/
noncomputable def filters_axisym_vectorised (jm : JMax) (L J_min : ℤ) (lam : ℝ) : Py (Arr2 ℝ × Arr1 ℝ) := do
  let J ← jm L lam
  if J_min ≥ J ∨ J_min < 0 then .error .valueError
  else do
    let k ← k_lam jm L lam 300
    let d ← Arr2.zip (fun x y : ℝ => x - y) k.rollUp k
    let diff := d.slice (mkSl d.r none (some (-1))) (mkSl d.c none none)
    let diff := diff.map fun x => if x < 0 then 0 else x
    let psi ← npSqrt2 diff
    let row ← k.row J_min
    let phi ← npSqrt1 row
    .ok (psi, phi)

/-- filters.py:255-290 `filters_axisym_jax`. -/
noncomputable def filters_axisym_jax (jm : JMax) (L J_min : ℤ) (lam : ℝ) : Py (Arr2 ℝ × Arr1 ℝ) := do
  let J ← jm L lam
  if J_min ≥ J ∨ J_min < 0 then .error .valueError
  else do
    let k ← k_lam_jax jm L lam 300
    let d ← Arr2.zip (fun x y : ℝ => x - y) k.rollUp k
    let diff := d.slice (mkSl d.r none (some (-1))) (mkSl d.c none none)
    let z ← zeros2 (J + 1) L
    let diff ← Arr2.zip (fun x z : ℝ => if x < 0 then z else x) diff z
    let psi ← npSqrt2 diff
    let row ← k.row J_min
    let phi ← npSqrt1 row
    .ok (psi, phi)

/-- filters.py:581-629 `tiling_direction`. -/
noncomputable def tiling_direction (L N : ℤ) : Py (Arr2 ℂ) := do
  let nu : ℂ := if N % 2 ≠ 0 then 1 else Complex.I
  let s_elm ← zeros2 L (2 * L - 1)
  (pyRange 1 L).foldlM (init := s_elm) fun (s_elm : Arr2 ℂ) (el : ℤ) =>
    let gamma := if (N + el) % 2 ≠ 0 then min (N - 1) el else min (N - 1) (el - 1)
    (pyRange (-el) (el + 1)).foldlM (init := s_elm) fun (s_elm : Arr2 ℂ) (m : ℤ) =>
      if |m| < N ∧ (N + m) % 2 ≠ 0 then do
        let b ← binomial_coefficient gamma ((gamma - m) / 2)
        let r ← npSqrt (b / (2 : ℝ) ^ gamma)
        s_elm.set el (L - 1 + m) (nu * (r : ℂ))
      else s_elm.set el (L - 1 + m) 0

/-- filters.py:668-715 `tiling_direction_jax`. -/
noncomputable def tiling_direction_jax (L N : ℤ) : Py (Arr2 ℂ) := do
  let nu : ℂ := ((N % 2 - 1) ^ 2 : ℤ) * Complex.I + (N % 2 : ℤ)
  let s_elm ← zeros2 L (2 * L - 1)
  (pyRange 1 L).foldlM (init := s_elm) fun (s_elm : Arr2 ℂ) (el : ℤ) => do
    let gamma := min (N - 1) (el - 1 + (N + el) % 2)
    let ms : Arr1 ℝ := arange (fun i : ℤ => (i : ℝ)) (-el) (el + 1)
    let q : Arr1 ℝ := Arr1.of ms.n fun i =>
      binomial_coefficient_jax gamma ((gamma - ms.v i) / 2) / (2 : ℝ) ^ gamma
    let r ← npSqrt1 q
    let val : Arr1 ℂ := Arr1.of ms.n fun i =>
      let m := -el + i
      if m < N ∧ m > -N ∧ (N + m) % 2 = 1 then nu * (r.v i : ℂ) else 0
    s_elm.setRow el (mkSl s_elm.c (some (L - 1 - el)) (some (L + el))) val

/-- filters.py:632-652 `_spin_normalization`. -/
noncomputable def spin_normalization (el spin : ℤ) : Py ℝ := do
  let factor ← (pyRange (-|spin| + 1) (|spin| + 1)).foldlM (init := (1 : ℝ)) fun (factor : ℝ) (s : ℤ) =>
    .ok (factor * ((el + s : ℤ) : ℝ))
  if spin > 0 then npSqrt factor
  else do
    let x ← pyDiv 1 factor
    npSqrt x

/-- filters.py:655-665 `_spin_normalization_vectorised`; `el.reshape(len, 1).dot(factor)` then `prod(axis=1)`. -/
noncomputable def spin_normalization_vectorised (el : Arr1 ℝ) (spin : ℤ) : Py (Arr1 ℝ) := do
  let factor ← (arange (fun i : ℤ => (i : ℝ)) (-|spin| + 1) (|spin| + 1)).reshapeRow (2 * |spin| + 1)
  npSqrt1 (Arr1.of el.n fun l =>
    (∏ k ∈ Finset.Ico 0 factor.n, el.v l * factor.v k) ^ (SignType.sign spin : ℤ))

/-- filters.py:718-729 `_spin_normalization_jax`. -/
noncomputable def spin_normalization_jax (el : Arr1 ℝ) (spin : ℤ) : Py (Arr1 ℝ) := do
  let factor ← (arange (fun i : ℤ => (i : ℝ)) (-|spin| + 1) (|spin| + 1)).reshapeRow (2 * |spin| + 1)
  npSqrt1 (Arr1.of el.n fun l =>
    (∏ k ∈ Finset.Ico 0 factor.n, el.v l * factor.v k) ^ (SignType.sign spin : ℤ))

/-- filters.py:84-155 `filters_directional` (`using_torch` only converts the container, lines 151-153). -/
noncomputable def filters_directional (jm : JMax) (L N J_min : ℤ) (lam : ℝ) (spin spin0 : ℤ) :
    Py (Arr3 ℂ × Arr1 ℝ) := do
  let J ← jm L lam
  let el_min := max |spin| |spin0|
  let phi ← zeros1 L
  let psi ← zeros3 (J + 1) L (2 * L - 1)
  let (kappa, kappa0) ← filters_axisym jm L J_min lam
  let s_elm ← tiling_direction L N
  let phi ← (pyRange el_min L).foldlM (init := phi) fun (phi : Arr1 ℝ) (el : ℤ) => do
    let k0 ← kappa0.get el
    if k0 ≠ 0 then do
      let phi ← phi.set el (Real.sqrt ((2 * el + 1) / (4 * Real.pi)) * k0)
      if spin0 ≠ 0 then do
        let sn ← spin_normalization el spin0
        let x ← phi.get el
        phi.set el (x * (sn * (-1 : ℝ) ^ spin0))
      else .ok phi
    else .ok phi
  let psi ← (pyRange J_min (J + 1)).foldlM (init := psi) fun (psi : Arr3 ℂ) (j : ℤ) =>
    (pyRange el_min L).foldlM (init := psi) fun (psi : Arr3 ℂ) (el : ℤ) => do
      let kj ← kappa.get j el
      if kj ≠ 0 then
        (pyRange (-el) (el + 1)).foldlM (init := psi) fun (psi : Arr3 ℂ) (m : ℤ) => do
          let s ← s_elm.get el (L - 1 + m)
          if s ≠ 0 then do
            let psi ← psi.set j el (L - 1 + m)
              ((Real.sqrt ((2 * el + 1) / (8 * Real.pi * Real.pi)) : ℂ) * (kj : ℂ) * s)
            if spin0 ≠ 0 then do
              let sn ← spin_normalization el spin0
              let x ← psi.get j el (L - 1 + m)
              psi.set j el (L - 1 + m) (x * ((sn * (-1 : ℝ) ^ spin0 : ℝ) : ℂ))
            else .ok psi
          else .ok psi
      else .ok psi
  .ok (psi, phi)

/-- filters.py:195-252 `filters_directional_vectorised`. -/
noncomputable def filters_directional_vectorised (jm : JMax) (L N J_min : ℤ) (lam : ℝ) (spin spin0 : ℤ) :
    Py (Arr3 ℂ × Arr1 ℝ) := do
  let el_min := max |spin| |spin0|
  let spin_norms ← if spin0 ≠ 0 then do
      let sn ← spin_normalization_vectorised (arange (fun i : ℤ => (i : ℝ)) 0 L) spin0
      .ok (sn.map fun x => (-1 : ℝ) ^ spin0 * x)
    else .ok (Arr1.of 1 fun _ => 1)
  let (kappa, kappa0) ← filters_axisym_vectorised jm L J_min lam
  let s_elm ← tiling_direction L N
  let kappa0 ← Arr1.zip (fun x y : ℝ => x * y) kappa0
    (arange (fun l : ℤ => Real.sqrt ((2 * l + 1) / (4 * Real.pi))) 0 L)
  let kappa0 ← if spin0 ≠ 0 then Arr1.zip (fun x y : ℝ => x * y) kappa0 spin_norms else .ok kappa0
  let kappa ← kappa.mulRow (arange (fun l : ℤ => Real.sqrt ((2 * l + 1) / 8) / Real.pi) 0 L)
  let kappa ← einsum_ij_jk (kappa.map fun x : ℝ => (x : ℂ)) s_elm
  let kappa ← if spin0 ≠ 0 then einsum_jln_l kappa (spin_norms.map fun x : ℝ => (x : ℂ)) else .ok kappa
  let kappa0 := kappa0.fill (mkSl kappa0.n none (some el_min)) 0
  let kappa := kappa.fill (mkSl kappa.d none none) (mkSl kappa.r none (some el_min)) (mkSl kappa.c none none) 0
  .ok (kappa, kappa0)

/-- filters.py:293-348 `filters_directional_jax`. -/
noncomputable def filters_directional_jax (jm : JMax) (L N J_min : ℤ) (lam : ℝ) (spin spin0 : ℤ) :
    Py (Arr3 ℂ × Arr1 ℝ) := do
  let el_min := max |spin| |spin0|
  let spin_norms ← if spin0 ≠ 0 then do
      let sn ← spin_normalization_jax (arange (fun i : ℤ => (i : ℝ)) 0 L) spin0
      .ok (sn.map fun x => (-1 : ℝ) ^ spin0 * x)
    else .ok (Arr1.of 1 fun _ => 1)
  let (kappa, kappa0) ← filters_axisym_jax jm L J_min lam
  let s_elm ← tiling_direction_jax L N
  let kappa0 ← Arr1.zip (fun x y : ℝ => x * y) kappa0
    (arange (fun l : ℤ => Real.sqrt ((2 * l + 1) / (4 * Real.pi))) 0 L)
  let kappa0 ← if spin0 ≠ 0 then Arr1.zip (fun x y : ℝ => x * y) kappa0 spin_norms else .ok kappa0
  let kappa ← kappa.mulRow (arange (fun l : ℤ => Real.sqrt ((2 * l + 1) / 8) / Real.pi) 0 L)
  let kappa ← einsum_ij_jk (kappa.map fun x : ℝ => (x : ℂ)) s_elm
  let kappa ← if spin0 ≠ 0 then einsum_jln_l kappa (spin_norms.map fun x : ℝ => (x : ℂ)) else .ok kappa
  let kappa0 := kappa0.fill (mkSl kappa0.n none (some el_min)) 0
  let kappa := kappa.fill (mkSl kappa.d none none) (mkSl kappa.r none (some el_min)) (mkSl kappa.c none none) 0
  .ok (kappa, kappa0)

end S2wav
