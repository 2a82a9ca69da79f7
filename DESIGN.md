# Design: a Lean 4 model of s2wav

## What is modelled

| Lean module (under `lean/Verif/`) | models |
|---|---|
| `Py.lean` | Python/NumPy fragment: exceptions, `range`, index wrap-around, slices, 1/2/3-d arrays, slice assignment, `einsum` with size-1 broadcasting |
| `Model/Samples.lean` | `s2wav/samples.py` |
| `Model/Filters.lean` | `s2wav/filters.py` |
| `Model/Construct.lean` | `s2wav/transforms/construct.py` |
| `Model/Base.lean` | `s2wav/transforms/base.py` |
| `Model/S2fft.lean` | the s2fft entry points each backend calls, as structures of functions (parameters) |
| `Model/Wavelet.lean`, `WaveletC.lean`, `Precompute.lean`, `PrecomputeTorch.lean` | the JAX, C, precompute-JAX and precompute-torch transforms |
| `Model/Api.lean` | the public functions under the names of `s2wav/__init__.py`, with the default values of their arguments |
| `Model/Ieee.lean` | IEEE double precision, and `tiling_integrand`, `part_scaling_fn`, `k_lam` executed in it |
| `Model/IeeeFilters.lean` | the filters executed in double precision (axisymmetric and directional, looped and vectorised) |
| `Spec.lean` | the small independent specification the theorems are stated with |
| `Usage.lean` | the six backends as a user calls them (`Backend`), the s2fft calls they make (`Engine`), the contracts asked of these calls, and the wavelet transform in harmonic space |
| `Toy.lean` | concrete s2fft stand-ins meeting every contract (non-vacuity) |
| `Lemmas/*` | helper lemmas: closed forms of every model function |
| `Props/*` | the property theorems (C01 ...), each with a non-vacuity example |

The model is *shallow*: each Python function is a Lean function in the exception monad `Py = Except PyErr`,
loops are `foldlM` over `pyRange`, array reads and writes go through index checks that wrap negative
indices and raise `indexError`, slices follow CPython's clamping rules, `einsum` follows NumPy's size-1
broadcasting.  A division by zero, `sqrt` of a negative number or log-gamma outside its domain is an
exception value in the model, so theorems of the form `f args = .ok r` include "no NaN, no ZeroDivision".

## Trusted base

* Lean's kernel; axioms at most `propext`, `Classical.choice`, `Quot.sound` (listed per theorem by `vcheck`).
* Exact arithmetic: Python `float`/`complex128` are modelled by `ℝ`/`ℂ`; rounding is *not* modelled, except in
  `Model/Ieee.lean`, `Model/IeeeFilters.lean`, `Model/IeeeSamples.lean`, `Model/IeeeTransforms.lean`, `Model/IeeeJax.lean`, `Model/IeeeBackends.lean`, `Model/IeeeBase.lean`, `Model/IeeeLooped.lean`, `Model/IeeeFlm.lean`, `Model/IeeeSpin.lean`, `Model/Ieee32.lean` and `Model/Ieee32Filters.lean` (C98 - C136, C138, C139; C137 is exact).  Python ints are `ℤ`.
* In `Model/Ieee.lean` `+ - * /` round the exact result to nearest, ties to even, with overflow to infinity and NaN; the sign of
  zero is not represented (a quotient by zero takes the zero as `+0.0`, or raises for Python floats).  `np.exp` and `**` are
  parameters, `np.sqrt` is correctly rounded; `Libm.Ok` lists what is assumed of them (accuracy of `exp`, overflow of `exp` from 710 on, `**` exact where the power is
  a double, squares to one unit in the last place), and `Libm.exact_ok` shows that correctly rounded functions meet it.  `Libm.Special` lists what is assumed
  where binomial coefficients are computed (`exp` to `2^-50` for arguments up to 692, SciPy's `loggamma` to `2^-50` at the integers up
  to 991); `lgExact_special` shows that correctly rounded functions meet it.  `LogOk` asks `np.log` to be accurate to `2^-50`, which the
  correctly rounded logarithm is (`logExact_ok`).
* The s2fft transforms are parameters of the model (`Model/S2fft.lean`).  What a theorem needs of them is an explicit
  hypothesis:
  * `Std` - forward transforms return arrays of the documented layout, zero for `|m| > l`;
  * `Exact` - inverse followed by forward is the identity on band-limited coefficients (sampling theorem);
  * `NonnegOnly` - the real inverse transform reads only `m >= 0`;
  * `Dc` - a one-pixel constant image transforms to the monopole at band-limit 1;
  * `ShapesMatch` - images have the shapes of `s2fft.sampling`;
  * `Near` - inverse followed by forward changes coefficients by at most a fraction `d` in energy (C69 only, in place of `Exact`:
    HEALPix grids, rounding inside the transforms);
  * a missing (`None`) kernel makes a precompute transform raise (built into the model, used by C70);
  * `Linear`, `Agree` - linear transforms, two engines computing the same transforms.
  `Works` bundles them; `Toy.lean` has instances of all of them, used in the examples next to the theorems.
* `Ready`: the set-up steps (allocation, precomputes) succeed.
* `j_max` is a parameter `jm` of every function that calls it.  Theorems about `j_max` itself (C01) use the exact
  logarithm; the others hold for every top scale `J` with `L - 1 < lam^J`, so a rounded `j_max` is covered, too large or too small (C39).
* `jit`, dtype promotion, devices, autodiff, performance are not modelled.
* That the Lean definitions say what the Python says (each carries the file and lines).  For the Python/NumPy primitives of `Py.lean`,
  `Props/Fragment` proves that each one has its documented meaning (which positions a range, index or slice selects, what a write
  changes, which shapes broadcast, the contraction formulas), stated without their definitions.

## Proof methods

Closed forms of loops by a Hoare rule for `range` loops (induction on the range); telescoping sums;
binomial theorem; `omega` for index and slice arithmetic; program equivalences by reducing both programs
to one closed form.  For the transforms, C47 and C48 (`Lemmas/`) reduce all twelve routines to one formula each;
C21-C30, C36-C39, C41, C45, C49-C53, C61 follow from the formulas.

* C06, C07, C09: closed form of `k_lam`, positivity of the quadrature, telescoping. The exact-arithmetic
  statement "sum = 1" is *false in general* because the 300-panel trapezium rule can overshoot (numerically by about 1e-21
  for lam = 2 next to the support edge); the unconditional theorem is "sum = column maximum of `k_lam`", and "= 1" is
  proved under the hypothesis `NoOvershoot` that `k_lam` does not exceed 1; C62 proves it for `lam = 2, ..., 10` up to a limit (`L <= 2049` for `lam = 2`), and C63 disproves it above.
* C58-C61 bound the overshoot: in the variable `t` of the bump the 1/x weight becomes `1/(c + t)` with `c > 1`.  The second
  derivative of `c exp(-2/(1-t^2))/(c+t)` is at most 15/2 in absolute value for every `c > 1` (`Lemmas/QuadTwo`), so Mathlib's error
  bound of the trapezium rule applies to every panel the code does not skip, and the skipped ones are negligible.  Rational bounds
  of the integral give `k_lam <= 1 + 90/q^2` for all `lam > 1`, and `k_lam < 1` beyond the first eighth of a band (`Lemmas/Overshoot`).
* C62, C63: for an integer `lam` and `L <= lam^a + 1` every abscissa of a transition band is a fraction `i/lam^a`; C59 excludes all
  but the first eighth of them, and for these the trapezium sums are bounded in exact integer arithmetic (scale `2^100`, `exp(-x)` as
  the reciprocal of the 256th power of a Taylor polynomial, `Lemmas/Dyadic`) and compared by the kernel (`decide +kernel`,
  `Lemmas/IntTable`, `Lemmas/Table2` ... `Table10`, about six minutes of one core).  The first fraction beyond the limit overshoots
  (2049/4096 for `lam = 2`), so the limits are exact.
* C54-C57 give the values of every filter function, so that the model cannot drift from the documented formulas.
* C32, C34, C43 use an s2fft stand-in (`labelled`) whose kernels carry the parameters they were made for and whose
  transforms raise on a mismatch.

* C98: for `lam = 2` the abscissae of the trapezium rule carry a relative error of a few 2^-53; the bump is Lipschitz, all values
  near the edges are tiny, and `s_arg` cannot pass 1 by rounding (`Lemmas/QuadFloat` ... `QuadFloat4`).  C99: the roundings that go wrong are
  evaluated exactly (`Lemmas/FloatCert`), and an overflow or exception in the last panel spoils the sum (`Lemmas/FloatBad`).

* C105: XLA may reorder sums and fuse operations, so only the accuracy of one operation is assumed (`Ops.Good`; `C105_ieee` proves it for IEEE
  doubles).  Errors are followed by a relative/absolute calculus (`Lemmas/HarmErr`), and Cauchy-Schwarz with the frame sum bounds the round trip.

Floating-point accuracy of the transforms inside s2fft, autodiff gradients, jit caching and performance are not covered.

## Properties and theorems

`MANIFEST.json` lists for every property the exact theorem names; by file: `Props/Samples` C01 C03-C05 C42, `Props/Filters`
C06-C20 C39, `Props/Formulas` C54-C57, `Props/Domain` C01 (errors) C64 C65, `Props/Overshoot` C58-C60, `Props/Dyadic` C62 C63, `Props/Transforms` C24 C25 C47 C48, `Props/Equiv` C02 C16 C21-C23 C26 C41 C45 C46, `Props/Linear` C27 C28,
`Props/Harmonic` C29 C30 C36-C39 C49-C53 C61, `Props/Use` C31-C35 C43 C44 C70, `Props/Wrap` C40, `Props/Top` C66,
`Props/Custom` C67 C68 (filters given by the caller; filters with rounding errors), `Props/Stability` C69 (inexact transforms),
`Props/Gradient` C71 (inner products, gradients of least-squares misfits; automatic differentiation itself is not modelled),
`Props/Steer` C72 (steerability), `Props/Real` C73 (synthesis of real maps), `Props/Nested` C74-C78
(different band-limits, lowest scales, signs of the spin; invariances of scattering),
`Props/Minimal` C79 C80 (synthesis as pseudo-inverse, energy of each scale),
`Props/Sphere` C81 C82 (signals as functions on the sphere),
`Props/Energy` C83 (integrals), `Props/Rotate` C84 C85 (rotations),
`Props/Pixel` C86 C87 (real maps, bounds on pixels), `Props/Synth` C88 (synthesis as an integral),
`Props/RealImage` C89 (real images under reality=True), `Props/Moments` C90 C91 (adjoint, means), `Props/Field` C92 (isotropic random
signals: `Isotropic` asks that the coefficients be uncorrelated, with variance C_l; no Gaussianity, no zero mean),
`Props/Many` C93 (any number of directions, all backends),
`Props/Orient` C94 (orientations of the maps), `Props/Weight` C95 (synthesis of weighted maps),
`Props/Storage` C96 (size of the maps),
`Props/Defaults`, `Props/DefaultsForward` C97 (calls with default arguments; arguments given by name),
`Props/Rounding` C98 C99 (the generating function in double precision), `Props/RoundedFilters` C100 (the axisymmetric filters in
double precision), `Props/RoundedDirectional` C101 C102 (the directional filters in double precision, and round trips with them),
`Props/RoundedSamples` `Props/RoundedErrors` `Props/RoundedFew` C103 C104 (`j_max` and the band-limits in double precision),
`Props/RoundedTransforms` C105 (the harmonic-space steps of the transforms in double precision),
`Props/RoundedLooped` C106 (the looped directional filters in double precision),
`Props/RoundedPipeline` C107 (analysis and synthesis of wavelet_c.py in double precision, with s2fft accurate up to a stated error),
`Props/RoundedJax` C108 (the JAX filters in double precision; model `Model/IeeeJax`, which assumes that a Python int beyond
int64 as operand of a JAX array raises `OverflowError`), `Props/RoundedBackends` C109 (analysis and synthesis of wavelet.py,
wavelet_precompute.py and wavelet_precompute_torch.py in double precision; model `Model/IeeeBackends`), `Props/RoundedBase` C110
(analysis and synthesis of base.py in double precision, with and without multiresolution; model `Model/IeeeBase`), `Props/Ieee754` C111 (the
arithmetic of `Model/Ieee` compared with an independent description of binary64: nearest double, ties to even, overflow, infinities, NaN),
`Props/RoundedLoopedBase` C112 (`analysis_looped` and `synthesis_looped` of base.py in double precision; model `Model/IeeeLooped`, loops in
`Lemmas/LoopedO`, error bounds in `Lemmas/LoopedErr`), `Props/RoundedFlm` C113 (the four `flm_to_analysis` in any arithmetic; model `Model/IeeeFlm`), `Props/RoundedSpin` C114 (`spin0` in double precision; model `Model/IeeeSpin`, lemmas `Lemmas/FloatSpin`, `Lemmas/FloatSpinLoop`), `Props/Ieee754Single`, `Props/Ieee754SingleOps` and
`Props/RoundedSingle` C115 (the harmonic steps in single precision, JAX's default; model `Model/Ieee32`, where a single precision number is a double
that happens to be one, and each operation rounds once; lemmas `Lemmas/Ieee32`, `Lemmas/Single*`), `Props/RoundedSingleJax` C116 (the JAX filters in
single precision, model `Model/Ieee32Filters`: `k_lam_jax` works on Python floats and is rounded when stored, the rest runs in float32, a Python int
beyond int32 raises `OverflowError`; `Single.Special` lists what is assumed of XLA's `exp` and `gammaln`, and `exact32_special` shows that correctly
rounded functions meet it), `Props/RoundedSinglePipeline` C117 (whole JAX transforms in single precision, s2fft's accuracy assumed as in C107/C109;
lemmas `Lemmas/SinglePipe`), `Props/RoundedThree` C118 (`lam = 3` in double precision: accurate up to `L = 794`, which is the exact threshold of C99;
lemmas `Lemmas/FloatThree`, whose table `last_table` covers the finitely many lower limits, `Lemmas/QuadThree`, `Lemmas/QuadThree2`), `Props/RoundedThreeFilters` C119 (the filters and the round trip with `lam = 3` in double precision), `Props/RoundedReturn` (the calls with infinities and NaN return without exception), `Props/RoundedFour` C120 and
`Props/RoundedFourFilters` C121 (`lam = 4` in double precision; lemmas `Lemmas/QuadFour`, `Lemmas/QuadFour2`),
`Props/RoundingOther` C122 (`lam = 6, 7, 9, 10`) and `Props/RoundedEight` C123 (`lam = 8`; lemmas `Lemmas/QuadEight`, `Lemmas/QuadEight2`),
`Props/RoundedPoison` C124 (what infinite and NaN filters do to an analysis), `Props/RoundedEightFilters` C125 (the filters with
`lam = 8`).  C119, C121 and C125 share `Lemmas/FloatFilters`, which goes from accurate `k_lam` to the filters for any `lam`.
`Props/RoundedOtherPipeline` C126 (the whole transforms with `lam = 3`, `4` and `8`),
`Props/RoundedOtherJax` C127 (the JAX filters with these `lam`),
`Props/RoundedPoisonOther` and `Props/RoundedSevenReturn` C128 (C124 for `lam = 6`, `7` and `10`),
`Props/RoundedOverflow` C129 (band-limits with very large `lam`),
`Props/RoundedOtherLooped` C130 (the looped filters with `lam = 3`, `4` and `8`),
`Props/RoundedOtherSingle` C131 (the JAX filters in single precision with `lam = 3`, `4` and `8`),
`Props/RoundedOtherSinglePipeline` C132 (the JAX transforms in single precision with these `lam`),
`Props/RoundedOtherLoopedBase` C133 (the looped transforms with these `lam`), `Props/RoundedOtherSpin` C134 (`spin0` with these `lam`), `Props/RoundedSpinOverflow` C135 (overflow for a positive `spin0`; loops compared in `Lemmas/FloatSpinRel`), `Props/RoundedSpinLooped` C136 (looped round trip with a negative `spin0`), `Props/SpinTrip` C137 (the same in exact arithmetic, any `spin0`), `Props/RoundedGuard` C138 (the check of `J_min`; `lam` at most 1), `Props/RoundedPow` C139 (the band-limits for any `lam`).

### Transforms on the sphere

Most theorems take s2fft as a parameter (`Engine`) with contracts. `Sphere/Wigner`, `Sphere/Harmonics`, `Sphere/Engine`
show that these contracts hold for the transforms s2fft implements: `wignerd` is Wigner's explicit formula, `sY`/`wD` are
the spin spherical harmonics and Wigner functions built from it, inverse transforms sum the series at the nodes, forward
transforms return the coefficients (any left inverse; existence is proved from linear independence on the grid, so the
quadrature weights of s2fft are not modelled). Grids: `mw` (θ = π(2t+1)/(2L-1)), `mwss` (θ = πt/L), `dh` (θ = π(2t+1)/(4L)),
`gl` (the θ with P_L(cos θ) = 0, all L of them; `Sphere/Legendre`).
`healpix` is not covered (its transforms are not exact). That s2fft's numerics equal these is trusted.

`Sphere/Ortho` proves ∫ d^l_mn d^l'_mn sin β dβ = 2/(2l+1) δ from Wigner's formula (Rodrigues, Jacobi polynomials);
`Sphere/Integral` defines `sphInt`, `rotInt` (iterated integrals with measure sin θ dθ dφ and sin β dβ dα dγ) and inner products
of series. `Sphere/Rotation` proves that Wigner's functions represent the 2×2 unitary matrices `euler α β γ`; `Rotated s g F F'`
says, on values of functions, that `F'` is `F` of spin `s` rotated by `g`, and `rotated_iff` that for spin 0 this is
`F'(R x) = F(x)` with `R = R_z(α) R_y(β) R_z(γ)` acting on vectors in space.

## What the repository's tests check, and the theorems

| test in `/repo/tests` | asserted on samples | proved for all inputs |
|---|---|---|
| `test_filters: axisym_admissibility, directional_admissibility` | sums over scales are 1 to 1e-14 | C09, C11 (under `NoOvershoot`); C60 (bounds without condition), C62/C63 (exact range where the sum is 1) |
| `test_filters: directional_tiling` | unit energy in each row | C10 |
| `test_filters: *_vectorised, *_torch, *_jax` | equal to the looped filters | C13, C14, C15, C65 |
| `test_filters: filter_exceptions` | `ValueError` for a bad `J_min` | C12, C64 |
| `test_gradients` | gradients agree with finite differences | C71, C90 (adjoint and gradient formulas; autodiff itself is not modelled) |
| `test_wavelets, test_wavelets_base: *synthesis*, *analysis*` | equal to values of the C code s2let | C47, C48 (formulas), C82, C88 (as convolutions and integrals); C21, C22, C26 (all implementations equal) |
| `*round_trip` | synthesis after analysis is the identity | C24, C25, C62, C81, C89 |
| `test_flm_to_analysis` | equal to `analysis` | C33 |

## Where the code does not do what one would expect

Each is a theorem with a concrete witness; the code was left as is.

* C16: with `spin0 != 0` the vectorised and JAX builders raise `ValueError` (a reshape of 2|s| elements into 2|s|+1), so `base.analysis` and
  `base.synthesis` raise too; the looped builder works.
* C34: the precompute `flm_to_analysis` with `J_max < j_max` takes the kernel of another scale unless `_precomp_shift=False`.
* C40, C93: with `N > L` a slice can wrap, and `base.analysis` silently returns zero coefficients; C93 gives the exact condition for
  reconstruction.
* C43: precomputed spherical kernels are always those of spin 0.
* C59, C63: admissibility holds exactly only up to a limit; above it the trapezium rule gives `k_lam > 1` and the sum exceeds 1.
* C66: the top scale can be identically zero (`L = 2**n + 1`, `lam = 2`).
* C70: precomputes built without spherical kernels make the transform raise.
* C103: `j_max(125, 5.0)` is 4 instead of 3, and `j_max(64, 64 ** (1/3))` is 3 instead of 4; the transforms stay exact with either.
* C139: with `lam = 2 ** (1/3)` the band-limits at `J_min = 3` and `j = 2` come out as 2 instead of 3 in double precision; the computed
  filters agree with the smaller value.
* C97: the README's `s2wav.analysis(f, L, N)` never returns (no filters). Helpers of `samples.py` default to `multiresolution=False`, the
  transforms to `True`, so with defaults `wavelet_shape_check` rejects what `analysis_base` returns.
* C99: in double precision `k_lam` gives NaN for `lam = 5` and every `L >= 2`, infinities or NaN for `lam = 3` and `L >= 795` (exactly these, C118; the wavelet of scale 6 is then infinite at degree 794, C119), and raises
  `ZeroDivisionError` for `lam = 10` and `L >= 12`: the last abscissa of the quadrature is rounded past 1, or `s_arg` to 1.  (C62 is
  about exact arithmetic.)
* C122, C123: the same happens for `lam = 6` (`L >= 228`), `lam = 7` (`L >= 9`), `lam = 10` (`L >= 3`), and `lam = 9` raises for `L >= 27`. From `L = 795`
  to 2^48 the only integers from 2 to 10 that give finite numbers are 2, 4 and 8.
* C124: with `lam = 5`, or `lam = 3` and `L >= 795`, the analysis of every signal, the zero signal included, has infinite or NaN
  coefficients; no exception is raised on the way.
* C114: in double precision `_spin_normalization` overflows for large spins: `filters_directional(..., spin0=-60)` silently returns zero filters at
  degree 1000, and `spin0=60` gives an infinite factor there.
* C108, C116: `filters_directional_jax` raises `OverflowError` (a Python int `2**gamma` that does not fit the integer type of JAX) for 64 or more
  directions at `L > 64`, and in JAX's default 32-bit mode already for 32 or more directions at `L > 32`; the NumPy routines return filters there.
* The README's `s2wav.analysis(..., use_c_backend=True)` is not an argument of any transform (the C transforms are `analysis_c`,
  `synthesis_c`); a call raises `TypeError`. Keyword binding is not modelled, so this has no theorem.

## Wrong programs (`seeded/LOG.jsonl`)

Each line is one edit of one definition of the model, built in a scratch copy.

- `killed` means that the build failed. `failed` lists the declarations where it failed, and
  `claims_depending_on_failed` the claims whose proofs use one of them. It shows that the existing proof no longer goes
  through. It does not by itself show that the theorem is false for the edited definition.
- `claim` is the claim the edit breaks. Where the claim first predicted was not among those that failed, `claim` was
  corrected after the run and `claim_predicted` keeps the prediction.
- `survived` means that every proof still goes through, so no theorem constrained that part of the definition at the
  time. `first_attempt: survived` marks edits that are caught only since a theorem was added or strengthened;
  `theorems_tightened` names it.
- Entries were run against the model as it was at the time, so later theorems are not listed in older entries.
