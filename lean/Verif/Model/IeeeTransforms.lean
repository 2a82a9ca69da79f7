import Verif.Model.WaveletC
import Verif.Model.IeeeFilters

/-! # The harmonic-space steps of the transforms over any arithmetic

The three private functions of `s2wav/transforms/wavelet_c.py` (209-290) hold all the arithmetic the C back end does itself: the
products of harmonic coefficients with filters, and their sums.  `transforms/wavelet.py` and the precompute transforms contain
the same expressions.  Here these functions are written once more, over an arbitrary arithmetic `O : Ops α β` of complex numbers `α` and
real numbers `β`: `Ops.exact` is exact arithmetic (and gives the functions of `Model/WaveletC.lean` back, C105), `Ops.ieee` is
IEEE double precision.  XLA may reorder sums and fuse multiplications with additions, so what is assumed of an arithmetic in
double precision is only its accuracy (`Ops.Good`). -/

namespace S2wav
open Classical

/-- the arithmetic used by the harmonic-space steps, on complex numbers `α` and real numbers `β` -/
structure Ops (α β : Type) where
  /-- `jnp.conj` -/
  conj : α → α
  /-- product -/
  mul : α → α → α
  /-- sum of two -/
  add : α → α → α
  /-- sum of products, as computed by a contracting `jnp.einsum` -/
  dot : List (α × α) → α
  /-- conversion of `float64` to `complex128` -/
  ofReal : β → α
  /-- product of real numbers -/
  rmul : β → β → β
  /-- `8 * jnp.pi**2 / (2 * l + 1)` -/
  c8 : ℤ → β
  /-- `jnp.sqrt(4 * jnp.pi / (2 * l + 1))` -/
  c4 : ℤ → β

section
variable {α β : Type} [Zero α] [Zero β] (O : Ops α β)

/-- `a.at[s, t].add(w)`, as `Arr2.addAt` -/
def Arr2.addAtO (a : Arr2 α) (s t : Sl) (w : Arr2 α) : Py (Arr2 α) :=
  if bcast w.r s.len ∧ bcast w.c t.len then
    .ok (Arr2.of a.r a.c fun i j =>
      if s.mem i ∧ t.mem j then O.add (a.v i j) (w.v (bix w.r (s.pos i)) (bix w.c (t.pos j))) else a.v i j)
  else .error .valueError

/-- `a.at[s, t, u].add(w)`, as `Arr3.addAt` -/
def Arr3.addAtO (a : Arr3 α) (s t u : Sl) (w : Arr3 α) : Py (Arr3 α) :=
  if bcast w.d s.len ∧ bcast w.r t.len ∧ bcast w.c u.len then
    .ok (Arr3.of a.d a.r a.c fun k i j =>
      if s.mem k ∧ t.mem i ∧ u.mem j then
        O.add (a.v k i j) (w.v (bix w.d (s.pos k)) (bix w.r (t.pos i)) (bix w.c (u.pos j))) else a.v k i j)
  else .error .valueError

/-- `einsum("ln,nlm->lm", A, B)` -/
def einsumO_ln_nlm (A : Arr2 α) (B : Arr3 α) : Py (Arr2 α) := do
  let l ← bdim A.r B.r
  let n ← bdim A.c B.d
  .ok (Arr2.of l B.c fun i m =>
    O.dot ((pyRange 0 n).map fun k => (A.v (bix A.r i) (bix A.c k), B.v (bix B.d k) (bix B.r i) m)))

/-- `einsum("lm,ln->nlm", A, B)` -/
def einsumO_lm_ln (A B : Arr2 α) : Py (Arr3 α) := do
  let l ← bdim A.r B.r
  .ok (Arr3.of B.c l A.c fun n i m => O.mul (A.v (bix A.r i) m) (B.v (bix B.r i) n))

/-- `einsum("lm,l->lm", A, b)` -/
def einsumO_lm_l (A : Arr2 α) (b : Arr1 α) : Py (Arr2 α) := do
  let l ← bdim A.r b.n
  .ok (Arr2.of l A.c fun i m => O.mul (A.v (bix A.r i) m) (b.v (bix b.n i)))

/-- `einsum("jln,l->jln", A, b)` -/
def einsumO_jln_l (A : Arr3 α) (b : Arr1 α) : Py (Arr3 α) := do
  let l ← bdim A.r b.n
  .ok (Arr3.of A.d l A.c fun j i n => O.mul (A.v j (bix A.r i) n) (b.v (bix b.n i)))

/-- samples.py:481-520 `construct_flmn_jax`, with multiresolution -/
noncomputable def construct_flmnO (α : Type) [Zero α] (L N J_min J : ℤ) (lam : ℝ) : Py (List (Arr3 α)) :=
  (pyRange J_min (J + 1)).mapM fun j =>
    let (d, r, c) := flmn_wav_j L j N lam true
    zeros3 d r c

/-- `scal_l[:Ls] * jnp.sqrt(4 * jnp.pi / (2 * jnp.arange(Ls) + 1))`, cast to complex for the following einsum -/
def scalPhiO (scal_l : Arr1 β) (Ls : ℤ) : Py (Arr1 α) :=
  Arr1.zip (fun x y => O.ofReal (O.rmul x y)) (scal_l.slice (mkSl scal_l.n none (some Ls))) (arange O.c4 0 Ls)

/-- transforms/wavelet_c.py:209-244 `_generate_and_apply_wavelets`. -/
noncomputable def generate_and_apply_waveletsO (flm : Arr2 α) (L N J_min J : ℤ) (lam : ℝ)
    (filters : Option (Arr3 α)) : Py (List (Arr3 α)) := do
  let f_wav_lmn ← construct_flmnO α L N J_min J lam
  let wav ← unNone filters
  let wav_lm ← einsumO_jln_l O (wav.map O.conj) (arange (fun l => O.ofReal (O.c8 l)) 0 L)
  (pyRange J_min (J + 1)).foldlM (init := f_wav_lmn) fun (f_wav_lmn : List (Arr3 α)) (j : ℤ) => do
    let (Lj, Nj, L0j) := LN_j L j N lam true
    let a ← listGet f_wav_lmn (j - J_min)
    let w := wav_lm.sliceAtJax j (mkSl wav_lm.r (some L0j) (some Lj))
      (mkSl wav_lm.c (some (L - Nj)) (some (L - 1 + Nj)) 2)
    let e ← einsumO_lm_ln O
      (flm.slice (mkSl flm.r (some L0j) (some Lj)) (mkSl flm.c (some (L - Lj)) (some (L - 1 + Lj)))) w
    let a ← a.addAtO O (mkSl a.d none none 2) (mkSl a.r (some L0j) none) (mkSl a.c none none) e
    listSet f_wav_lmn (j - J_min) a

/-- transforms/wavelet_c.py:247-258 `_generate_and_apply_scaling`. -/
noncomputable def generate_and_apply_scalingO (flm : Arr2 α) (L J_min : ℤ) (lam : ℝ) (filters : Option (Arr1 β)) :
    Py (Arr2 α) := do
  let Ls := scal_bandlimit L J_min lam true
  let scal ← unNone filters
  let phi ← scalPhiO O scal Ls
  einsumO_lm_l O (flm.slice (mkSl flm.r none (some Ls)) (mkSl flm.c (some (L - Ls)) (some (L - 1 + Ls)))) phi

/-- transforms/wavelet_c.py:261-290 `_sum_over_wavelet_and_scaling`. -/
noncomputable def sum_over_wavelet_and_scalingO (f_wav_lmn : List (Arr3 α)) (f_scal_lm : Arr2 α)
    (L N J_min J : ℤ) (lam : ℝ) (filters : Option (Arr3 α × Arr1 β)) : Py (Arr2 α) := do
  let Ls := scal_bandlimit L J_min lam true
  let flm ← zeros2 L (2 * L - 1)
  let flm ← (pyRange J_min (J + 1)).foldlM (init := flm) fun (flm : Arr2 α) (j : ℤ) => do
    let (Lj, Nj, L0j) := LN_j L j N lam true
    let temp ← listGet f_wav_lmn (j - J_min)
    let (wav, _) ← unNone filters
    let w := wav.sliceAtJax j (mkSl wav.r (some L0j) (some Lj))
      (mkSl wav.c (some (L - Nj)) (some (L - 1 + Nj)) 2)
    let t := temp.slice (mkSl temp.d none none 2) (mkSl temp.r (some L0j) none) (mkSl temp.c none none)
    let e ← einsumO_ln_nlm O w t
    flm.addAtO O (mkSl flm.r (some L0j) (some Lj)) (mkSl flm.c (some (L - Lj)) (some (L - 1 + Lj))) e
  let (_, scal) ← unNone filters
  let phi ← scalPhiO O scal Ls
  let e ← einsumO_lm_l O f_scal_lm phi
  let flm ← flm.addAtO O (mkSl flm.r none (some Ls)) (mkSl flm.c (some (L - Ls)) (some (L - 1 + Ls))) e
  .ok flm

end

/-! ### the transforms -/

/-- s2fft's SSHT (C) transforms used in s2wav/transforms/wavelet_c.py, as `CFFT`, on coefficients `α` and images of a type `P`,
together with the two operations wavelet_c.py applies to images -/
structure CFFTO (α P : Type) [Zero α] where
  /-- `ssht_forward(f, L, spin, reality, ssht_sampling)` -/
  sphForward : P → (L spin : ℤ) → (reality : Bool) → (ssht_sampling : ℕ) → Py (Arr2 α)
  /-- `ssht_inverse(flm, L, spin, reality, ssht_sampling)` -/
  sphInverse : Arr2 α → (L spin : ℤ) → (reality : Bool) → (ssht_sampling : ℕ) → Py P
  /-- `s2fft.wigner.forward_jax_ssht(f, L, N, L_lower, sampling, reality)` -/
  wigForward : P → (L N L_lower : ℤ) → String → (reality : Bool) → Py (Arr3 α)
  /-- `s2fft.wigner.inverse_jax_ssht(flmn, L, N, L_lower, sampling, reality)` -/
  wigInverse : Arr3 α → (L N L_lower : ℤ) → String → (reality : Bool) → Py P
  /-- `f.real` -/
  re : P → P
  /-- a 2-d array used as an image -/
  ofArr2 : Arr2 α → P

section
variable {α β P : Type} [Zero α] [Zero β] (O : Ops α β) (E : CFFTO α P)

/-- transforms/wavelet_c.py:10-85 `synthesis`. -/
noncomputable def synthesisO (jm : JMax) (f_wav : List P) (f_scal : P) (L N J_min : ℤ)
    (lam : ℝ) (spin : ℤ) (sampling : String) (reality : Bool)
    (filters : Option (Arr3 α × Arr1 β)) : Py P := do
  if sampling.toLower = "healpix" then .error .valueError
  else do
    let ssht_sampling ← C.sshtIndex sampling.toLower
    let J ← jm L lam
    let Ls := scal_bandlimit L J_min lam true
    let f_scal_lm ← E.sphForward (if reality then E.re f_scal else f_scal) Ls spin reality ssht_sampling
    let f_wav_lmn ← (pyRange J_min (J + 1)).mapM fun j => do
      let (Lj, Nj, L0j) := LN_j L j N lam true
      let fw ← listGet f_wav (j - J_min)
      E.wigForward fw Lj Nj L0j sampling reality
    let flm ← sum_over_wavelet_and_scalingO O f_wav_lmn f_scal_lm L N J_min J lam filters
    E.sphInverse flm L spin reality ssht_sampling

/-- transforms/wavelet_c.py:145-149: the scaling map, `c1` is `jnp.sqrt(1 / (4 * jnp.pi))` -/
noncomputable def scalMapO (c1 : β) (flm_scal : Arr2 α) (Ls spin : ℤ) (reality : Bool) (ssht_sampling : ℕ) : Py P :=
  if Ls = 1 then .ok (E.ofArr2 (flm_scal.map fun x => O.mul x (O.ofReal c1)))
  else E.sphInverse flm_scal Ls spin reality ssht_sampling

/-- transforms/wavelet_c.py:88-153 `analysis`. -/
noncomputable def analysisO (c1 : β) (jm : JMax) (f : P) (L N J_min : ℤ)
    (lam : ℝ) (spin : ℤ) (sampling : String) (reality : Bool)
    (filters : Option (Arr3 α × Arr1 β)) : Py (List P × P) := do
  if sampling.toLower = "healpix" then .error .valueError
  else do
    let ssht_sampling ← C.sshtIndex sampling.toLower
    let J ← jm L lam
    let Ls := scal_bandlimit L J_min lam true
    let flm ← E.sphForward f L spin reality ssht_sampling
    let (wav, scal) ← unNone filters
    let f_wav_lmn ← generate_and_apply_waveletsO O flm L N J_min J lam (some wav)
    let flm_scal ← generate_and_apply_scalingO O flm L J_min lam (some scal)
    let f_wav ← (pyRange J_min (J + 1)).mapM fun j => do
      let (Lj, Nj, L0j) := LN_j L j N lam true
      let a ← listGet f_wav_lmn (j - J_min)
      E.wigInverse a Lj Nj L0j sampling reality
    let f_scal ← scalMapO O E c1 flm_scal Ls spin reality ssht_sampling
    .ok (f_wav, f_scal)

end

/-- the transforms of the exact model -/
noncomputable def CFFT.toO (E : CFFT) : CFFTO ℂ Px where
  sphForward := E.sphForward
  sphInverse := E.sphInverse
  wigForward := E.wigForward
  wigInverse := E.wigInverse
  re := Px.re
  ofArr2 := Px.ofArr2

/-- exact arithmetic -/
noncomputable def Ops.exact : Ops ℂ ℝ where
  conj := starRingEnd ℂ
  mul x y := x * y
  add x y := x + y
  dot ps := (ps.map fun p => p.1 * p.2).sum
  ofReal x := (x : ℂ)
  rmul x y := x * y
  c8 l := 8 * Real.pi ^ 2 / (2 * l + 1)
  c4 l := Real.sqrt (4 * Real.pi / (2 * l + 1))

/-- sum of two `complex128` -/
noncomputable def C64.add (x y : C64) : C64 := ⟨x.re.add y.re, x.im.add y.im⟩

/-- double precision without reordering or fusing: products by the usual formula, sums from left to right starting from zero.
The square of `np.pi` is correctly rounded. -/
noncomputable def Ops.ieee : Ops C64 F64 where
  conj x := ⟨x.re, x.im.neg⟩
  mul := C64.mul
  add := C64.add
  dot ps := ps.foldl (fun s p => s.add (p.1.mul p.2)) 0
  ofReal := C64.ofReal
  rmul := F64.mul
  c8 l := ((F64.fin 8).mul (pi64.mul pi64)).div (.ofInt (2 * l + 1))
  c4 l := (((F64.fin 4).mul pi64).div (.ofInt (2 * l + 1))).sqrt

/-- unit of relative accuracy: eight times the rounding unit `2^-53` of doubles -/
noncomputable def uu : ℝ := (2 : ℝ) ^ (-50 : ℤ)

/-- unit of absolute accuracy, met only where the result underflows -/
noncomputable def eta : ℝ := (2 : ℝ) ^ (-1000 : ℤ)

/-- What is assumed of an arithmetic in double precision, as long as nothing is close to the overflow threshold: products and sums are accurate
to eight rounding units, sums of products have the error bound that holds for any order of summation (with or without fused
multiply-add), the constants are accurate to sixteen and eight rounding units. -/
structure Ops.Good (O : Ops C64 F64) : Prop where
  conj : ∀ z : ℂ, O.conj (.ofC z) = .ofC ((starRingEnd ℂ) z)
  ofReal : ∀ x : ℝ, O.ofReal (.fin x) = .ofC (x : ℂ)
  mul : ∀ x y : ℂ, ‖x‖ ≤ (2 : ℝ) ^ (400 : ℤ) → ‖y‖ ≤ (2 : ℝ) ^ (400 : ℤ) →
    ∃ z, O.mul (.ofC x) (.ofC y) = .ofC z ∧ ‖z - x * y‖ ≤ uu * (‖x‖ * ‖y‖) + eta
  add : ∀ x y : ℂ, ‖x‖ ≤ (2 : ℝ) ^ (900 : ℤ) → ‖y‖ ≤ (2 : ℝ) ^ (900 : ℤ) →
    ∃ z, O.add (.ofC x) (.ofC y) = .ofC z ∧ ‖z - (x + y)‖ ≤ uu * ‖x + y‖ + eta
  dot : ∀ ps : List (ℂ × ℂ), ps.length ≤ 2 ^ 20 →
    (∀ p ∈ ps, ‖p.1‖ ≤ (2 : ℝ) ^ (400 : ℤ) ∧ ‖p.2‖ ≤ (2 : ℝ) ^ (400 : ℤ)) →
    ∃ z, O.dot (ps.map fun p => (.ofC p.1, .ofC p.2)) = .ofC z ∧
      ‖z - (ps.map fun p => p.1 * p.2).sum‖ + (ps.map fun p => ‖p.1‖ * ‖p.2‖).sum ≤
        (1 + uu) ^ (ps.length + 1) * ((ps.map fun p => ‖p.1‖ * ‖p.2‖).sum + 2 * ps.length * eta)
  rmul : ∀ x y : ℝ, |x| ≤ (2 : ℝ) ^ (400 : ℤ) → |y| ≤ (2 : ℝ) ^ (400 : ℤ) →
    ∃ z, O.rmul (.fin x) (.fin y) = .fin z ∧ |z - x * y| ≤ uu * (|x| * |y|) + eta
  c8 : ∀ l : ℤ, 0 ≤ l → l < 2 ^ 52 →
    ∃ c, O.c8 l = .fin c ∧ |c - 8 * Real.pi ^ 2 / (2 * l + 1)| ≤ 2 * uu * (8 * Real.pi ^ 2 / (2 * l + 1))
  c4 : ∀ l : ℤ, 0 ≤ l → l < 2 ^ 52 →
    ∃ c, O.c4 l = .fin c ∧ |c - Real.sqrt (4 * Real.pi / (2 * l + 1))| ≤ uu * Real.sqrt (4 * Real.pi / (2 * l + 1))

end S2wav
