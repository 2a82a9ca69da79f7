import Verif.Model.S2fft

/-! # Model of `s2wav/samples.py`

Functions that call `j_max` take the implementation of `j_max` as a parameter `jm`, so that theorems can also speak
about an inaccurately rounded `j_max`; the Python function is the instance `jm := j_max`.  Otherwise the argument order
follows the Python signatures.  `lam ** j` is `lam ^ (j : ℤ)` on `ℝ`, `math.ceil` is `⌈·⌉`. -/

namespace S2wav
open Classical

/-- samples.py:564-576 `j_max`: `int(np.ceil(np.log(L) / np.log(lam)))` in exact arithmetic. The error branches are
what NumPy's `-inf`/`nan`/`inf` intermediate values lead to in `int(np.ceil(..))`. -/
noncomputable def j_max (L : ℤ) (lam : ℝ) : Py ℤ :=
  if L < 0 ∨ lam < 0 then .error .valueError          -- log of a negative: nan -> int(nan)
  else if lam = 0 then if L = 0 then .error .valueError else .ok 0
  else if L = 0 then .error .overflow                 -- -inf / x = ±inf -> int(±inf)
  else if lam = 1 then if L = 1 then .error .valueError else .error .overflow
  else .ok ⌈Real.log L / Real.log lam⌉

/-- the type of (an implementation of) `j_max` -/
abbrev JMax := ℤ → ℝ → Py ℤ

/-- samples.py:343-366 `scal_bandlimit`. -/
noncomputable def scal_bandlimit (L J_min : ℤ) (lam : ℝ) (multiresolution : Bool) : ℤ :=
  if multiresolution then min ⌈lam ^ J_min⌉ L else L

/-- samples.py:13-48 `f_scal`. The band-limit formula is duplicated in the source (lines 44-47), and so it is here. -/
noncomputable def f_scal (E : Shapes) (L J_min : ℤ) (lam : ℝ) (sampling : String) (nside : Option ℤ)
    (multiresolution : Bool) : Py (List ℤ) :=
  let L_s := if multiresolution then min ⌈lam ^ J_min⌉ L else L
  E.s2 L_s sampling nside

/-- samples.py:51-71 `n_wav_scales`. -/
noncomputable def n_wav_scales (jm : JMax) (L _N J_min : ℤ) (lam : ℝ) : Py ℤ := do
  let J ← jm L lam
  .ok (J - J_min + 1)

/-- samples.py:74-90 `L0_j`. -/
noncomputable def L0_j (j : ℤ) (lam : ℝ) : ℤ := if j ≠ 0 then ⌈lam ^ (j - 1)⌉ else 0

/-- samples.py:406-431 `wav_j_bandlimit`. -/
noncomputable def wav_j_bandlimit (L j : ℤ) (lam : ℝ) (multiresolution : Bool) : ℤ :=
  let j := if j = 0 then j + 1 else j
  if multiresolution then min ⌈lam ^ (j + 1)⌉ L else L

/-- samples.py:93-130 `LN_j`, returning `(Lj, Nj, L0j)`. -/
noncomputable def LN_j (L j N : ℤ) (lam : ℝ) (multiresolution : Bool) : ℤ × ℤ × ℤ :=
  let j := if j = 0 then j + 1 else j
  let Lj := wav_j_bandlimit L j lam multiresolution
  let L0j := if multiresolution then L0_j j lam else 0
  let Nj := if multiresolution then min N Lj + (min N Lj + N) % 2 else N
  (Lj, Nj, L0j)

/-- samples.py:133-176 `f_wav_j`. -/
noncomputable def f_wav_j (E : Shapes) (L j N : ℤ) (lam : ℝ) (sampling : String) (nside : Option ℤ)
    (multiresolution : Bool) : Py (List ℤ) :=
  let (Lj, Nj, _) := LN_j L j N lam multiresolution
  E.so3 Lj Nj sampling nside

/-- samples.py:369-403 `flmn_wav_j`. -/
noncomputable def flmn_wav_j (L j N : ℤ) (lam : ℝ) (multiresolution : Bool) : ℤ × ℤ × ℤ :=
  let (Lj, Nj, _) := LN_j L j N lam multiresolution
  (2 * Nj - 1, Lj, 2 * Lj - 1)

/-- samples.py:223-232, the `scattering=False` branch of `construct_f`. The append loop is a `mapM`. -/
noncomputable def construct_f (jm : JMax) (E : Shapes) (L N J_min : ℤ) (lam : ℝ) (sampling : String) (nside : Option ℤ)
    (multiresolution : Bool) : Py (List Px) := do
  let J ← jm L lam
  (pyRange J_min (J + 1)).mapM fun j => do
    let s ← f_wav_j E L j N lam sampling nside multiresolution
    Px.zeros s

/-- samples.py:217-222, the `scattering=True` branch of `construct_f`. -/
noncomputable def construct_f_scattering (jm : JMax) (E : Shapes) (L N _J_min : ℤ) (lam : ℝ) (sampling : String)
    (nside : Option ℤ) (multiresolution : Bool) : Py Px := do
  let J ← jm L lam
  let s ← f_wav_j E L (J - 1) N lam sampling nside multiresolution
  Px.zeros s

/-- samples.py:235-262 `construct_f_jax` (a list of empty lists; the elements are modelled as `()`). -/
noncomputable def construct_f_jax (jm : JMax) (L J_min : ℤ) (J_max : Option ℤ) (lam : ℝ) : Py (List Unit) := do
  let J ← match J_max with | some J => .ok J | none => jm L lam
  .ok ((pyRange J_min (J + 1)).map fun _ => ())

/-- samples.py:265-291 `construct_f_torch`. -/
noncomputable def construct_f_torch (jm : JMax) (L J_min : ℤ) (J_max : Option ℤ) (lam : ℝ) : Py (List Unit) := do
  let J ← match J_max with | some J => .ok J | none => jm L lam
  .ok ((pyRange J_min (J + 1)).map fun _ => ())

/-- samples.py:294-315 `construct_flm`. -/
noncomputable def construct_flm (L J_min : ℤ) (lam : ℝ) (multiresolution : Bool) : Py (Arr2 ℂ) :=
  let L_s := scal_bandlimit L J_min lam multiresolution
  zeros2 L_s (2 * L_s - 1)

/-- samples.py:318-340 `construct_flm_jax`. -/
noncomputable def construct_flm_jax (L J_min : ℤ) (lam : ℝ) (multiresolution : Bool) : Py (Arr2 ℂ) :=
  let L_s := scal_bandlimit L J_min lam multiresolution
  zeros2 L_s (2 * L_s - 1)

/-- `np.zeros(flmn_wav_j(..))` -/
noncomputable def zerosWavJ (L j N : ℤ) (lam : ℝ) (multiresolution : Bool) : Py (Arr3 ℂ) :=
  let (d, r, c) := flmn_wav_j L j N lam multiresolution
  zeros3 d r c

/-- samples.py:469-478, the `scattering=False` branch of `construct_flmn`. -/
noncomputable def construct_flmn (jm : JMax) (L N J_min : ℤ) (lam : ℝ) (multiresolution : Bool) : Py (List (Arr3 ℂ)) := do
  let J ← jm L lam
  (pyRange J_min (J + 1)).mapM fun j => zerosWavJ L j N lam multiresolution

/-- samples.py:464-468, the `scattering=True` branch of `construct_flmn`. -/
noncomputable def construct_flmn_scattering (jm : JMax) (L N _J_min : ℤ) (lam : ℝ) (multiresolution : Bool) :
    Py (Arr3 ℂ) := do
  let J ← jm L lam
  zerosWavJ L (J - 1) N lam multiresolution

/-- samples.py:481-520 `construct_flmn_jax`. -/
noncomputable def construct_flmn_jax (jm : JMax) (L N J_min : ℤ) (J_max : Option ℤ) (lam : ℝ) (multiresolution : Bool) :
    Py (List (Arr3 ℂ)) := do
  let J ← match J_max with | some J => .ok J | none => jm L lam
  (pyRange J_min (J + 1)).mapM fun j => zerosWavJ L j N lam multiresolution

/-- samples.py:523-561 `construct_flmn_torch`. -/
noncomputable def construct_flmn_torch (jm : JMax) (L N J_min : ℤ) (J_max : Option ℤ) (lam : ℝ) (multiresolution : Bool) :
    Py (List (Arr3 ℂ)) := do
  let J ← match J_max with | some J => .ok J | none => jm L lam
  (pyRange J_min (J + 1)).mapM fun j => zerosWavJ L j N lam multiresolution

/-- Python `assert`. -/
def pyAssert (p : Prop) [Decidable p] : Py Unit := if p then .ok () else .error .assertion

/-- samples.py:579-628 `wavelet_shape_check`. -/
noncomputable def wavelet_shape_check (jm : JMax) (E : Shapes) (f_w : List Px) (f_s : Px) (L N J_min : ℤ) (lam : ℝ)
    (sampling : String) (nside : Option ℤ) (multiresolution : Bool) : Py Unit := do
  let nj ← n_wav_scales jm L N J_min lam
  pyAssert ((f_w.length : ℤ) = nj)
  let s ← f_scal E L J_min lam sampling nside multiresolution
  pyAssert (f_s.shape = s)
  let J ← jm L lam
  (pyRange J_min (J + 1)).foldlM (init := ()) fun _ j => do
    let f ← listGet f_w (j - J_min)
    let s ← f_wav_j E L j N lam sampling nside multiresolution
    pyAssert (f.shape = s)

/-- samples.py:631-644 `binomial_coefficient`: `np.floor(0.5 + np.exp(loggamma(n+1) - loggamma(k+1) - loggamma(n-k+1)))`.
scipy's real `loggamma` is NaN on negative arguments and `+inf` at 0, where `exp(-inf) = 0`. -/
noncomputable def binomial_coefficient (n k : ℝ) : Py ℝ :=
  if n + 1 ≤ 0 ∨ k + 1 < 0 ∨ n - k + 1 < 0 then .error .nan
  else if k + 1 = 0 ∨ n - k + 1 = 0 then .ok 0
  else .ok ((⌊(1 / 2 : ℝ) + Real.exp (Real.log (Real.Gamma (n + 1)) - Real.log (Real.Gamma (k + 1))
      - Real.log (Real.Gamma (n - k + 1)))⌋ : ℤ) : ℝ)

/-- samples.py:647-660 `binomial_coefficient_jax`, with `gammaln x = log |Γ(x)|`, `+inf` at the poles of Γ
(where the result is `floor(0.5 + exp(-inf)) = 0`). -/
noncomputable def binomial_coefficient_jax (n k : ℝ) : ℝ :=
  if (∃ p : ℕ, k + 1 = -(p : ℝ)) ∨ (∃ p : ℕ, n - k + 1 = -(p : ℝ)) then 0
  else ((⌊(1 / 2 : ℝ) + Real.exp (Real.log |Real.Gamma (n + 1)| - Real.log |Real.Gamma (k + 1)|
      - Real.log |Real.Gamma (n - k + 1)|)⌋ : ℤ) : ℝ)

end S2wav
