{"id": "C01", "title": "j_max is the tight top scale", "statement": "samples.j_max(L, lam) returns the least J >= 0 with lam**J >= L; in particular lam**(J-1) < L <= lam**J whenever L >= 2.", "quantifier": "every integer L >= 1 and every real lam > 1 (exact arithmetic)", "why_tests_cant": "there are infinitely many (L, lam); tests try L=8,16 and lam=2,3 only", "anchors": ["s2wav/samples.py:j_max"]}
{"id": "C02", "title": "number of scales is consistent everywhere", "statement": "For the same (L, N, J_min, lam), n_wav_scales equals the length of every list produced by construct_f, construct_f_jax, construct_f_torch, construct_flmn, construct_flmn_jax and construct_flmn_torch (default J_max), and of the wavelet list returned by every analysis routine.", "quantifier": "every L >= 1, N >= 1, lam > 1 and J_min with J_min <= j_max+1", "why_tests_cant": "list lengths depend on a real logarithm; the agreement must hold for all parameter combinations", "anchors": ["s2wav/samples.py:n_wav_scales", "s2wav/samples.py:construct_f", "s2wav/samples.py:construct_f_jax", "s2wav/samples.py:construct_f_torch", "s2wav/samples.py:construct_flmn", "s2wav/samples.py:construct_flmn_jax", "s2wav/samples.py:construct_flmn_torch"]}
{"id": "C03", "title": "multiresolution band-limits are nested and saturate", "statement": "With multiresolution, the band-limit of scale j never exceeds L, is at least 1, is non-decreasing in j, equals L for the two top scales j_max-1 and j_max, and scale 0 is treated like scale 1. Without multiresolution it is always L.", "quantifier": "every L >= 1, lam > 1 and all scales j", "why_tests_cant": "quantifies over all pairs of scales and a real parameter", "anchors": ["s2wav/samples.py:wav_j_bandlimit", "s2wav/samples.py:LN_j", "s2wav/samples.py:flmn_wav_j"]}
{"id": "C04", "title": "per-scale directional limit keeps parity and loses no orientation", "statement": "LN_j returns Nj with Nj congruent to N mod 2, min(N,Lj) <= Nj <= min(N, Lj+1) and Nj >= 1; without multiresolution it returns (L, N, 0). L0_j is the smallest degree reaching lam^(j-1), 0 for scale 0, and non-decreasing.", "quantifier": "every L >= 1, N >= 1, lam > 1 and j >= 0, both values of multiresolution", "why_tests_cant": "parity correction interacts with every combination of N and Lj; tests use N in {2,3}", "anchors": ["s2wav/samples.py:LN_j", "s2wav/samples.py:L0_j"]}
{"id": "C05", "title": "scaling band-limit is consistent across helpers", "statement": "f_scal, construct_flm, construct_flm_jax and scal_bandlimit all use the same band-limit Ls = min(ceil(lam**J_min), L) (or L), 1 <= Ls <= L, and it is non-decreasing in J_min.", "quantifier": "every L >= 1, lam > 1, J_min", "why_tests_cant": "same formula is duplicated in several functions, must agree for all inputs", "anchors": ["s2wav/samples.py:f_scal", "s2wav/samples.py:scal_bandlimit", "s2wav/samples.py:construct_flm", "s2wav/samples.py:construct_flm_jax"]}
{"id": "C06", "title": "generating function k_lam is well defined", "statement": "k_lam never divides by zero, returns an array of shape (j_max+2, L) whose entries are >= 0, equal 1 when l < lam**(j-1), equal 0 when l >= lam**j, equal 1 at l = lam**(j-1); k_lam_jax returns the same array.", "quantifier": "every L >= 1, every lam > 1, every quad_iters >= 3", "why_tests_cant": "the integrand has poles exactly at the quadrature end points; the skip logic must avoid them for every lam, l, j", "anchors": ["s2wav/filters.py:k_lam", "s2wav/filters.py:k_lam_jax", "s2wav/filters.py:part_scaling_fn", "s2wav/filters.py:tiling_integrand"]}
{"id": "C07", "title": "axisymmetric wavelets have compact support", "statement": "psi[j,l] of filters_axisym(_vectorised/_jax) vanishes unless lam**(j-1) < l < lam**(j+1); phi[l] vanishes for l >= lam**J_min and is 1 for l < lam**(J_min-1) or l=0; consequently at most two consecutive scales overlap any degree l.", "quantifier": "every L, lam > 1, valid J_min, every scale j and degree l", "why_tests_cant": "support edges depend on real powers of lam", "anchors": ["s2wav/filters.py:filters_axisym", "s2wav/filters.py:filters_axisym_vectorised", "s2wav/filters.py:filters_axisym_jax"]}
{"id": "C08", "title": "multiresolution truncation loses nothing", "statement": "Every directional filter coefficient psi[j,l,n] that falls outside L0j <= l < Lj, |n| < Nj, or has n of the wrong parity (so that the multiresolution transforms never read it) is exactly zero, and phi[l]=0 for l >= Ls.", "quantifier": "every L, N >= 1, lam > 1, valid J_min, spin, every j >= J_min, l, n", "why_tests_cant": "correctness of storing scales at reduced resolution is a statement about all filter entries not stored", "anchors": ["s2wav/samples.py:LN_j", "s2wav/samples.py:L0_j", "s2wav/samples.py:scal_bandlimit", "s2wav/filters.py:filters_directional", "s2wav/filters.py:filters_directional_vectorised"]}
{"id": "C09", "title": "axisymmetric admissibility", "statement": "phi[l]**2 + sum_{j=J_min}^{j_max} psi[j,l]**2 = 1 for every degree l (up to quadrature overshoot: in exact arithmetic the sum is exactly max(1, max_j k_lam[j,l]) for the vectorised filters and 1 whenever k_lam does not exceed 1).", "quantifier": "every L >= 2, lam > 1, valid J_min, every l < L", "why_tests_cant": "resolution of the identity must hold at every degree for all parameters; tests check two L and two lam", "anchors": ["s2wav/filters.py:filters_axisym", "s2wav/filters.py:filters_axisym_vectorised", "s2wav/filters.py:filters_axisym_jax", "s2wav/filters.py:k_lam"]}
{"id": "C10", "title": "directional tiling has unit energy", "statement": "sum_m |s_elm[l,m]|**2 = 1 for every 1 <= l < L, and row l = 0 is zero, for tiling_direction and tiling_direction_jax.", "quantifier": "every L >= 1, N >= 1, every degree l", "why_tests_cant": "needs the binomial theorem with the parity-adjusted gamma for all l, N", "anchors": ["s2wav/filters.py:tiling_direction", "s2wav/filters.py:tiling_direction_jax"]}
{"id": "C11", "title": "directional admissibility", "statement": "4pi/(2l+1) |phi[l]|**2 + 8pi^2/(2l+1) sum_{j,n} |psi[j,l,n]|**2 equals 1 for every l >= |spin| when spin0 = 0 (same quadrature proviso as C09), and the square of the spin normalisation when spin0 != 0 in the looped filters; it is 0 below max(|spin|,|spin0|).", "quantifier": "every L >= 2, N >= 1, lam > 1, valid J_min, spin, spin0, l", "why_tests_cant": "combines infinitely many parameters; tests only spin=0 and N in {2,3}", "anchors": ["s2wav/filters.py:filters_directional", "s2wav/filters.py:filters_directional_vectorised", "s2wav/filters.py:filters_directional_jax"]}
{"id": "C12", "title": "J_min validation is exact", "statement": "filters_axisym, filters_axisym_vectorised, filters_axisym_jax and the directional builders raise ValueError exactly when J_min < 0 or J_min >= j_max(L, lam); otherwise (spin0 = 0) they return arrays of shape (j_max+1, L[,2L-1]) and (L,) and no other exception, division by zero, or NaN can occur.", "quantifier": "every L >= 1, lam > 1, J_min, N >= 1, spin", "why_tests_cant": "totality claim over all parameters", "anchors": ["s2wav/filters.py:filters_axisym", "s2wav/filters.py:filters_axisym_vectorised", "s2wav/filters.py:filters_axisym_jax", "s2wav/filters.py:filters_directional", "s2wav/filters.py:filters_directional_vectorised", "s2wav/filters.py:filters_directional_jax"]}
{"id": "C13", "title": "vectorised axisymmetric filters equal the looped ones on used scales", "statement": "For every j >= J_min and l, filters_axisym and filters_axisym_vectorised return the same psi[j,l] and phi[l] whenever k_lam does not overshoot 1. Rows j < J_min are zero in the looped version but in general not in the vectorised version.", "quantifier": "every L, lam > 1, valid J_min, j, l", "why_tests_cant": "tests only compare at J_min=0", "anchors": ["s2wav/filters.py:filters_axisym", "s2wav/filters.py:filters_axisym_vectorised"]}
{"id": "C14", "title": "JAX axisymmetric and directional filters equal the vectorised ones", "statement": "filters_axisym_jax = filters_axisym_vectorised and filters_directional_jax = filters_directional_vectorised, including which calls raise.", "quantifier": "every L, N >= 1, lam > 1, J_min, spin, spin0", "why_tests_cant": "equality of two programs for all inputs", "anchors": ["s2wav/filters.py:filters_axisym_jax", "s2wav/filters.py:filters_directional_jax", "s2wav/filters.py:tiling_direction_jax"]}
{"id": "C15", "title": "vectorised directional filters equal the looped ones on used scales", "statement": "For spin0 = 0, filters_directional and filters_directional_vectorised agree for every j >= J_min whenever k_lam does not overshoot 1; rows j < J_min of the looped filters are zero.", "quantifier": "every L, N >= 1, lam > 1, valid J_min, spin, j, l, n", "why_tests_cant": "equality of two programs for all inputs", "anchors": ["s2wav/filters.py:filters_directional", "s2wav/filters.py:filters_directional_vectorised"]}
{"id": "C16", "title": "spin-lowered filters: vectorised builders are unusable", "statement": "For every spin0 != 0 filters_directional_vectorised and filters_directional_jax raise ValueError (reshape of 2|s| elements into 2|s|+1) although filters_directional succeeds; hence base.analysis and base.synthesis raise for every spin0 != 0. (The agreement one would rely on is false.)", "quantifier": "every spin0 != 0, all other parameters", "why_tests_cant": "a universally failing configuration never covered by tests; universal over spin0", "anchors": ["s2wav/filters.py:_spin_normalization_vectorised", "s2wav/filters.py:_spin_normalization_jax", "s2wav/filters.py:filters_directional_vectorised"]}
{"id": "C17", "title": "spin normalisation is the factorial ratio", "statement": "_spin_normalization(l, s) = sqrt((l+s)!/(l-s)!) for every |s| <= l, positive and with product 1 for s and -s.", "quantifier": "every l >= 0 and |s| <= l", "why_tests_cant": "closed form for all l, s", "anchors": ["s2wav/filters.py:_spin_normalization"]}
{"id": "C18", "title": "binomial coefficient is exact", "statement": "binomial_coefficient(n,k) equals the integer binomial coefficient for 0 <= k <= n (exact-arithmetic log-gamma), and tiling_direction only ever calls it in that range with an integral k (so never hits a NaN of log-gamma). Outside that range it is 0 for k = -1 and k = n+1 and NaN otherwise; the JAX version is 0 for every k < 0 or k > n (n >= 0).", "quantifier": "every n, k; every L, N, l, m in the tiling loop", "why_tests_cant": "all-integers claim", "anchors": ["s2wav/samples.py:binomial_coefficient", "s2wav/samples.py:binomial_coefficient_jax", "s2wav/filters.py:tiling_direction"]}
{"id": "C19", "title": "wavelets are real-valued and even in the reality sense", "statement": "psi[j,l,-n] = (-1)**n conj(psi[j,l,n]) and each s_elm is purely real (N odd) or purely imaginary (N even), vanishing unless n has the parity of N-1 and |n| <= min(N-1,l).", "quantifier": "every L, N >= 1, j, l, n", "why_tests_cant": "symmetry over all entries and parameters", "anchors": ["s2wav/filters.py:tiling_direction", "s2wav/filters.py:filters_directional"]}
{"id": "C20", "title": "filters vanish below the spin", "statement": "psi[j,l,n]=0 and phi[l]=0 for l < max(|spin|,|spin0|); psi[j,0,n]=0 always (monopole is carried only by scaling coefficients).", "quantifier": "every parameter choice", "why_tests_cant": "universal over spin and parameters", "anchors": ["s2wav/filters.py:filters_directional", "s2wav/filters.py:filters_directional_vectorised", "s2wav/filters.py:filters_directional_jax"]}
{"id": "C21", "title": "base vectorised analysis equals looped analysis", "statement": "base.analysis and base.analysis_looped return the same coefficients (complex signals, any spin, spin0 = 0, N <= L, either multiresolution setting, no overshoot).", "quantifier": "every signal, L, N <= L, lam, J_min, spin, sampling", "why_tests_cant": "equality of two programs on all signals", "anchors": ["s2wav/transforms/base.py:analysis", "s2wav/transforms/base.py:analysis_looped"]}
{"id": "C22", "title": "base vectorised synthesis equals looped synthesis", "statement": "base.synthesis and base.synthesis_looped return the same signal on the same wavelet coefficients whenever k_lam does not overshoot 1 (reality False; and reality True although the looped version double-counts at m<0, because the real inverse transform reads only m >= 0).", "quantifier": "every coefficient set, L, N <= L, lam, J_min, spin", "why_tests_cant": "equality of two programs on all inputs", "anchors": ["s2wav/transforms/base.py:synthesis", "s2wav/transforms/base.py:synthesis_looped"]}
{"id": "C23", "title": "reality flag does not change results for real signals", "statement": "For a real signal (Hermitian flm), every analysis routine returns the same wavelet and scaling maps with reality=True and reality=False, given that the real and complex s2fft transforms agree on Hermitian coefficients.", "quantifier": "every Hermitian-symmetric signal and parameters", "why_tests_cant": "equality on all real signals", "anchors": ["s2wav/transforms/base.py:analysis_looped"]}
{"id": "C24", "title": "exact reconstruction, NumPy transforms", "statement": "synthesis(analysis(f)) = f for every band-limited f whenever k_lam does not overshoot 1: base.analysis/base.synthesis and the looped pair, both multiresolution settings, any spin with spin0=0, given exact underlying s2fft transforms; in general (vectorised filters) each degree l is multiplied by exactly max(1, max_j k_lam[j,l]).", "quantifier": "every band-limited signal, L >= 2, 1 <= N <= L, lam > 1, valid J_min, spin, sampling with exact s2fft transforms", "why_tests_cant": "reconstruction for all signals and parameters", "anchors": ["s2wav/transforms/base.py:analysis", "s2wav/transforms/base.py:synthesis", "s2wav/transforms/base.py:analysis_looped", "s2wav/transforms/base.py:synthesis_looped"]}
{"id": "C25", "title": "exact reconstruction, JAX / C / precompute transforms", "statement": "The same holds for wavelet.analysis/synthesis, wavelet_c, wavelet_precompute and wavelet_precompute_torch with filters from filters_directional_vectorised and matching precomputes.", "quantifier": "every band-limited signal and parameters", "why_tests_cant": "reconstruction for all signals and parameters", "anchors": ["s2wav/transforms/wavelet.py:analysis", "s2wav/transforms/wavelet.py:synthesis", "s2wav/transforms/wavelet_c.py:analysis", "s2wav/transforms/wavelet_c.py:synthesis", "s2wav/transforms/wavelet_precompute.py:analysis", "s2wav/transforms/wavelet_precompute.py:synthesis", "s2wav/transforms/wavelet_precompute_torch.py:analysis", "s2wav/transforms/wavelet_precompute_torch.py:synthesis"]}
{"id": "C26", "title": "all backends compute the same coefficients", "statement": "Given agreeing s2fft transforms, wavelet.analysis, wavelet_c.analysis, wavelet_precompute.analysis and wavelet_precompute_torch.analysis return the same wavelet coefficients as base.analysis(multiresolution=True), and the same scaling coefficients when Ls > 1.", "quantifier": "every signal and parameters", "why_tests_cant": "program equivalence", "anchors": ["s2wav/transforms/base.py:analysis", "s2wav/transforms/wavelet.py:analysis", "s2wav/transforms/wavelet_c.py:analysis", "s2wav/transforms/wavelet_c.py:_generate_and_apply_wavelets", "s2wav/transforms/wavelet_c.py:_generate_and_apply_scaling", "s2wav/transforms/wavelet_precompute.py:analysis", "s2wav/transforms/wavelet_precompute_torch.py:analysis"]}
{"id": "C27", "title": "analysis is linear", "statement": "analysis(a f + b g) has harmonic coefficients a analysis(f) + b analysis(g).", "quantifier": "every pair of signals and scalars", "why_tests_cant": "universal over signals", "anchors": ["s2wav/transforms/base.py:analysis", "s2wav/transforms/wavelet.py:analysis"]}
{"id": "C28", "title": "synthesis is linear", "statement": "synthesis of a linear combination of coefficients is the linear combination of the syntheses.", "quantifier": "every pair of coefficient sets and scalars", "why_tests_cant": "universal over coefficients", "anchors": ["s2wav/transforms/base.py:synthesis"]}
{"id": "C29", "title": "energy conservation (tight frame)", "statement": "sum |flm|^2 = sum |scaling lm|^2 + sum_j sum (2l+1)/(8 pi^2) |wavelet lmn|^2 for the coefficients produced by analysis whenever k_lam does not overshoot 1 (weighted degree-wise by max(1, max_j k_lam) in general).", "quantifier": "every signal and parameters", "why_tests_cant": "universal over signals", "anchors": ["s2wav/transforms/base.py:analysis"]}
{"id": "C30", "title": "synthesis is the adjoint of analysis", "statement": "<analysis(f), w> = <f, synthesis(w)> for the weighted Wigner inner product, which is what makes gradients of one expressible through the other.", "quantifier": "every signal f and coefficient set w", "why_tests_cant": "universal over pairs", "anchors": ["s2wav/transforms/base.py:analysis", "s2wav/transforms/base.py:synthesis"]}
{"id": "C31", "title": "analysis output is accepted by synthesis; malformed input is rejected", "statement": "The arrays returned by base.analysis always pass wavelet_shape_check of base.synthesis with the same parameters, and if the number of scales, the scaling shape or any scale's shape is wrong, base.synthesis raises AssertionError before computing anything.", "quantifier": "every parameters; every malformed coefficient list", "why_tests_cant": "universal over shapes", "anchors": ["s2wav/samples.py:wavelet_shape_check", "s2wav/transforms/base.py:synthesis", "s2wav/transforms/base.py:analysis"]}
{"id": "C32", "title": "full precompute kernels are matched to scales", "statement": "In the precompute transforms every scale j reads the kernel generated for exactly its own (Lj, Nj) and for the right direction, although the kernel of scale j_max is not generated (shared with j_max-1).", "quantifier": "every L >= 2, N >= 1, lam > 1, valid J_min, j", "why_tests_cant": "index shift correct for all parameters", "anchors": ["s2wav/transforms/construct.py:generate_full_precomputes", "s2wav/transforms/wavelet_precompute.py:analysis", "s2wav/transforms/wavelet_precompute.py:synthesis", "s2wav/transforms/wavelet_precompute_torch.py:analysis", "s2wav/transforms/wavelet_precompute_torch.py:synthesis"]}
{"id": "C33", "title": "flm_to_analysis agrees with analysis and J_max truncates", "statement": "flm_to_analysis applied to the harmonic transform of f returns the wavelet part of analysis(f); with J_max it returns the first J_max-J_min+1 scales of the full result (JAX, C).", "quantifier": "every signal, parameters and J_min <= J_max <= j_max", "why_tests_cant": "program equivalence", "anchors": ["s2wav/transforms/wavelet.py:flm_to_analysis", "s2wav/transforms/wavelet_c.py:flm_to_analysis"]}
{"id": "C34", "title": "precompute flm_to_analysis with J_max < j_max picks the wrong kernel", "statement": "With _precomp_shift=False the precompute version uses the right kernel for every J_max < j_max; with the default (and always in torch) the top scale uses the kernel of the previous scale - wrong whenever Lj differs - and for J_max = J_min it silently wraps to the last kernel.", "quantifier": "every parameters with J_max < j_max", "why_tests_cant": "index arithmetic for all parameters, negative-index wrap-around", "anchors": ["s2wav/transforms/wavelet_precompute.py:flm_to_analysis", "s2wav/transforms/wavelet_precompute_torch.py:flm_to_analysis"]}
{"id": "C35", "title": "required arguments and samplings are validated", "statement": "Precompute transforms raise ValueError when precomps is None; the C transforms raise ValueError for healpix in any letter case and for unknown sampling names and accept mw, mwss, dh, gl; the SSHT library is called only with the number of the sampling asked for (mw 0, mwss 1, dh 2, gl 3); analysis, synthesis and flm_to_analysis without filters always fail.", "quantifier": "every other argument", "why_tests_cant": "universal over remaining arguments", "anchors": ["s2wav/transforms/wavelet_precompute.py:analysis", "s2wav/transforms/wavelet_precompute.py:synthesis", "s2wav/transforms/wavelet_precompute.py:flm_to_analysis", "s2wav/transforms/wavelet_precompute_torch.py:analysis", "s2wav/transforms/wavelet_c.py:analysis", "s2wav/transforms/wavelet_c.py:synthesis", "s2wav/transforms/wavelet.py:analysis"]}
{"id": "C36", "title": "rotation equivariance", "statement": "Analysis acts independently of m: for any degree-wise linear action D on the azimuthal index (in particular rotations), the wavelet coefficients of D f are D applied to the wavelet coefficients of f.", "quantifier": "every signal and every degree-wise action", "why_tests_cant": "universal over rotations and signals", "anchors": ["s2wav/transforms/base.py:analysis"]}
{"id": "C37", "title": "scale locality", "statement": "Changing flm at a single degree l affects only wavelet scales j with lam**(j-1) < l < lam**(j+1) (at most two) and the scaling coefficients only if l < lam**J_min.", "quantifier": "every pair of signals and degree", "why_tests_cant": "universal over signals", "anchors": ["s2wav/transforms/base.py:analysis"]}
{"id": "C38", "title": "multiresolution and full-resolution agree", "statement": "base.analysis with multiresolution True/False contain the same non-zero harmonic coefficients, and multiresolution never needs more samples.", "quantifier": "every signal and parameters", "why_tests_cant": "universal", "anchors": ["s2wav/transforms/base.py:analysis", "s2wav/samples.py:LN_j", "s2wav/samples.py:f_wav_j"]}
{"id": "C39", "title": "inexact j_max is harmless", "statement": "Every top scale J with L - 1 < lam**J does: if rounding makes j_max too large, or too small because L is just above a power of lam, the filters stay admissible, the rows common to both estimates and phi are unchanged, and the extra scales carry no information (filters and all coefficients zero).", "quantifier": "every L, lam > 1, any two top scales J <= J' with L - 1 < lam**J, all vectorised backends", "why_tests_cant": "floating rounding of log ratio differs per input (e.g. log(125)/log(5))", "anchors": ["s2wav/samples.py:j_max", "s2wav/filters.py:k_lam", "s2wav/filters.py:filters_axisym_vectorised"]}
{"id": "C40", "title": "N > L is silently wrong in the vectorised transforms", "statement": "With multiresolution the number of directions Nj of a scale exceeds L exactly if its band-limit is L, N > L and N-L is odd; without it Nj = N. At such scales (N <= L+2 without multiresolution) the slice L-Nj wraps to the end in base.analysis, so every wavelet coefficient is zero for every signal although no error is raised, while analysis_looped stays correct; for N >= L+3 without multiresolution base.analysis never succeeds; for 1 <= N <= L no wrap occurs.", "quantifier": "every signal, L, lam, J_min", "why_tests_cant": "negative slice start wraps silently", "anchors": ["s2wav/transforms/base.py:analysis", "s2wav/transforms/base.py:synthesis"]}
{"id": "C41", "title": "scattering output is the modulus", "statement": "base.analysis with scattering=True returns exactly the modulus (real, non-negative) of the wavelet coefficients returned with scattering=False, and the same scaling coefficients.", "quantifier": "every signal and parameters", "why_tests_cant": "universal over signals", "anchors": ["s2wav/transforms/base.py:analysis"]}
{"id": "C42", "title": "scattering buffers fit the largest scale", "statement": "construct_f / construct_flmn with scattering=True allocate a buffer of the shape used by the top scales j_max-1 and j_max, which is at least that of every other scale.", "quantifier": "every L >= 2, N, lam", "why_tests_cant": "universal", "anchors": ["s2wav/samples.py:construct_f", "s2wav/samples.py:construct_flmn"]}
{"id": "C43", "title": "precompute kernels ignore spin", "statement": "generate_full_precomputes always builds spin-0 spherical kernels, so the precompute transforms never use a kernel for the requested spin when spin != 0.", "quantifier": "every spin != 0 and parameters", "why_tests_cant": "universal negative", "anchors": ["s2wav/transforms/construct.py:generate_full_precomputes", "s2wav/transforms/wavelet_precompute.py:analysis", "s2wav/transforms/wavelet_precompute.py:synthesis"]}
{"id": "C44", "title": "Ls = 1 edge case shape", "statement": "When Ls = 1 (J_min = 0) the JAX/C/torch analysis returns scaling coefficients of shape (1,1), which equals the documented f_scal shape exactly for samplings whose L=1 grid is 1x1 (mw, gl), and not for mwss or dh.", "quantifier": "every L, N, lam with J_min=0", "why_tests_cant": "universal", "anchors": ["s2wav/transforms/wavelet.py:analysis", "s2wav/samples.py:f_scal"]}
{"id": "C45", "title": "swapped positional argument in base.analysis is harmless", "statement": "base.analysis passes multiresolution in the nside position of construct_f; the pre-allocated arrays are all overwritten, so results do not depend on it (as long as the allocation itself does not raise).", "quantifier": "every signal and parameters", "why_tests_cant": "universal", "anchors": ["s2wav/transforms/base.py:analysis", "s2wav/samples.py:construct_f"]}
{"id": "C46", "title": "default precomputes equal explicit ones", "statement": "wavelet.analysis/synthesis/flm_to_analysis with precomps=None equal the same call with precomps=generate_wigner_precomputes(..., forward=False/True).", "quantifier": "every signal and parameters", "why_tests_cant": "universal", "anchors": ["s2wav/transforms/wavelet.py:analysis", "s2wav/transforms/wavelet.py:synthesis", "s2wav/transforms/wavelet.py:flm_to_analysis", "s2wav/transforms/construct.py:generate_wigner_precomputes"]}
{"id": "C47", "title": "analysis formula", "statement": "Every analysis routine returns, for each scale j, the inverse Wigner transform of 8*pi^2/(2l+1) flm conj(psi^j_ln), and the inverse harmonic transform of sqrt(4*pi/(2l+1)) phi_l flm; nothing of these formulas is lost by the truncation to (Lj, Nj, L0j) or Ls.", "quantifier": "every signal, six backends, all valid parameters", "why_tests_cant": "universal over signals and parameters; tests sample a few random signals", "anchors": ["s2wav/transforms/base.py:analysis", "s2wav/transforms/base.py:analysis_looped", "s2wav/transforms/wavelet.py:analysis", "s2wav/transforms/wavelet_c.py:analysis", "s2wav/transforms/wavelet_precompute.py:analysis", "s2wav/transforms/wavelet_precompute_torch.py:analysis"]}
{"id": "C48", "title": "synthesis formula", "statement": "Once its shape checks pass, every synthesis routine returns the inverse harmonic transform of sum_j sum_n psi^j_ln W^j_lmn + sqrt(4*pi/(2l+1)) phi_l S_lm, where W^j and S are the forward transforms of its inputs.", "quantifier": "every coefficient list, six backends, all valid parameters", "why_tests_cant": "universal over signals and parameters; tests sample a few random signals", "anchors": ["s2wav/transforms/base.py:synthesis", "s2wav/transforms/base.py:synthesis_looped", "s2wav/transforms/wavelet.py:synthesis", "s2wav/transforms/wavelet_c.py:synthesis", "s2wav/transforms/wavelet_precompute.py:synthesis", "s2wav/transforms/wavelet_precompute_torch.py:synthesis"]}
{"id": "C49", "title": "analysis after synthesis is a projection", "statement": "Synthesising arbitrary coefficients, analysing the result and synthesising again gives the same signal as the first synthesis whenever k_lam does not overshoot 1 (with reality=True the forward transforms of the maps must be Hermitian).", "quantifier": "every coefficient list, six backends, all valid parameters", "why_tests_cant": "universal over signals and parameters; tests sample a few random signals", "anchors": ["s2wav/transforms/base.py:synthesis", "s2wav/transforms/base.py:analysis"]}
{"id": "C50", "title": "analysis is injective", "statement": "Two signals with equal wavelet and scaling maps have equal harmonic coefficients at all degrees l >= |spin|.", "quantifier": "every pair of signals, six backends, all valid parameters", "why_tests_cant": "universal over signals and parameters; tests sample a few random signals", "anchors": ["s2wav/transforms/base.py:analysis", "s2wav/filters.py:filters_directional_vectorised"]}
{"id": "C51", "title": "constant signals have zero wavelet coefficients", "statement": "If only degree 0 of a signal is non-zero, every wavelet coefficient is zero.", "quantifier": "every such signal, six backends, all valid parameters", "why_tests_cant": "universal over signals and parameters; tests sample a few random signals", "anchors": ["s2wav/transforms/base.py:analysis", "s2wav/filters.py:tiling_direction"]}
{"id": "C52", "title": "real signals have real coefficients", "statement": "If flm has the symmetry of a real signal, the Wigner coefficients of every wavelet map and the coefficients of the scaling map have the symmetry of real functions.", "quantifier": "every such signal, six backends, all valid parameters", "why_tests_cant": "universal over signals and parameters; tests sample a few random signals", "anchors": ["s2wav/transforms/base.py:analysis", "s2wav/filters.py:tiling_direction"]}
{"id": "C53", "title": "support of wavelet coefficients", "statement": "The wavelet coefficient (n,l,m) at scale j vanishes unless |n| < N, |n| <= l, n and N-1 have the same parity, and lam^(j-1) < l < lam^(j+1); with N = 1 only n = 0 occurs.", "quantifier": "every signal, six backends, all valid parameters, all n, l, m", "why_tests_cant": "universal over signals and parameters; tests sample a few random signals", "anchors": ["s2wav/transforms/base.py:analysis", "s2wav/filters.py:tiling_direction", "s2wav/filters.py:filters_directional_vectorised"]}
{"id": "C54", "title": "values of k_lam", "statement": "Inside the transition band lam^(j-1) < l < lam^j the entry k_lam[j,l] is the quotient of two trapezium sums (q panels) of the bump function exp(-2/(1-t^2))/x, t = (x-1/lam)*2lam/(lam-1)-1, over [l/lam^j, 1] and [1/lam, 1], where panels touching an end point of [1/lam, 1] are left out; k_lam_jax returns the same values.", "quantifier": "every L >= 1, lam > 1, q >= 3, all j, l", "why_tests_cant": "tests compare backends with each other or against stored data for two parameter sets; the closed formula is never checked", "anchors": ["s2wav/filters.py:k_lam", "s2wav/filters.py:k_lam_jax", "s2wav/filters.py:part_scaling_fn", "s2wav/filters.py:tiling_integrand"]}
{"id": "C55", "title": "values of the axisymmetric filters", "statement": "phi[l] = sqrt(k_lam[J_min,l]) and psi[j,l] = sqrt(k_lam[j+1,l]-k_lam[j,l]) for the vectorised and JAX builders (0 where the difference is negative); the looped builder agrees where the difference is non-negative and repeats psi[j,l-1] where it is negative.", "quantifier": "every L >= 1, lam > 1, valid J_min, all j >= J_min, l", "why_tests_cant": "exact values for all parameters; negative differences do not occur in the tested cases", "anchors": ["s2wav/filters.py:filters_axisym", "s2wav/filters.py:filters_axisym_vectorised", "s2wav/filters.py:filters_axisym_jax"]}
{"id": "C56", "title": "values of the directional component", "statement": "tiling_direction[l,m] equals nu * sqrt(2^-gamma binom(gamma, (gamma-m)/2)), gamma the largest integer <= min(N-1,l) of the parity of N-1, nu = 1 for odd N and i for even N, for l >= 1, |m| <= gamma and m of the parity of N-1; it is zero otherwise.", "quantifier": "every L >= 1, 1 <= N, all l, m", "why_tests_cant": "closed formula for all L, N; tests compare two implementations", "anchors": ["s2wav/filters.py:tiling_direction", "s2wav/samples.py:binomial_coefficient"]}
{"id": "C57", "title": "values of the directional filters", "statement": "psi[j,l,L-1+m] = sqrt((2l+1)/(8 pi^2)) * kappa(j,l) * tiling[l,m] * spin factor and phi[l] = sqrt((2l+1)/(4 pi)) * sqrt(k_lam) * spin factor, zero below max(|spin|,|spin0|), with spin factor (-1)^spin0 sqrt((l+spin0)!/(l-spin0)!).", "quantifier": "every L >= 1, N >= 1, lam > 1, valid J_min, spin, spin0, all j, l, m", "why_tests_cant": "closed formula for all parameters", "anchors": ["s2wav/filters.py:filters_directional", "s2wav/filters.py:filters_directional_vectorised", "s2wav/filters.py:filters_directional_jax"]}
{"id": "C58", "title": "accuracy of the quadrature", "statement": "With q >= 300 panels every transition-band entry of k_lam is within 90/q^2 of the exact quotient of integrals of the bump function, and no entry exceeds 1 + 90/q^2.", "quantifier": "every L >= 1, lam > 1, q >= 300, all j, l", "why_tests_cant": "error bound of a numerical rule uniformly in real lam; tests fix q = 300 and compare implementations with the same quadrature", "anchors": ["s2wav/filters.py:k_lam", "s2wav/filters.py:k_lam_jax", "s2wav/filters.py:part_scaling_fn"]}
{"id": "C59", "title": "where the generating function can exceed 1", "statement": "k_lam[j,l] > 1 is possible only for lam^(j-1) < l < lam^(j-1) + (lam^j - lam^(j-1))/8; if no degree falls in such an interval the admissibility sum is exactly 1.", "quantifier": "every L >= 1, lam > 1, q >= 300, all j, l", "why_tests_cant": "the excess is below double precision rounding in tests; location holds for all real lam", "anchors": ["s2wav/filters.py:k_lam", "s2wav/filters.py:part_scaling_fn"]}
{"id": "C60", "title": "frame bounds of the filters", "statement": "phi[l]^2 + sum_j psi[j,l]^2 (resp. its directional counterpart divided by the squared spin normalisation) lies in [1, 1.001] for the vectorised and JAX builders and in [1, 1.002] for the looped builder, with no condition on k_lam.", "quantifier": "every L >= 1, N >= 1, lam > 1, valid J_min, spin, spin0, every l", "why_tests_cant": "uniform bound over all real lam and all degrees", "anchors": ["s2wav/filters.py:filters_axisym", "s2wav/filters.py:filters_axisym_vectorised", "s2wav/filters.py:filters_axisym_jax", "s2wav/filters.py:filters_directional", "s2wav/filters.py:filters_directional_vectorised", "s2wav/filters.py:filters_directional_jax"]}
{"id": "C61", "title": "frame inequality and round-trip error without conditions", "statement": "For every band-limited signal the energy of the wavelet and scaling coefficients lies between the energy of the signal and 1.001 times it (1.002 looped), and synthesis(analysis(f)) changes each harmonic coefficient by at most 0.1% (0.2% looped) without changing its phase.", "quantifier": "every band-limited signal, six backends, all valid parameters", "why_tests_cant": "universal over signals and all real lam", "anchors": ["s2wav/transforms/base.py:analysis", "s2wav/transforms/base.py:synthesis", "s2wav/filters.py:filters_directional_vectorised"]}
{"id": "C62", "title": "exact admissibility, reconstruction and tight frame for lam = 2, ..., 10 up to a limit (L = 2049 for lam = 2)", "statement": "For lam = 2,3,...,10 and 1 <= L <= 2049, 2188, 1025, 626, 220, 344, 513, 730, 1001 respectively no entry of k_lam exceeds 1, hence phi[l]^2 + sum_j psi[j,l]^2 = 1 exactly for all builders, synthesis(analysis(f)) = f for all six pairs of routines, the transform is a tight frame, and the looped and vectorised NumPy routines are the same functions.", "quantifier": "every integer lam from 2 to 10, every L up to the limit, every N, J_min, spin, signal, backend", "why_tests_cant": "exact real arithmetic; the margins are about 1e-20, invisible in double precision", "anchors": ["s2wav/filters.py:k_lam", "s2wav/filters.py:part_scaling_fn", "s2wav/filters.py:filters_axisym", "s2wav/filters.py:filters_directional_vectorised", "s2wav/transforms/base.py:analysis", "s2wav/transforms/base.py:synthesis"]}
{"id": "C63", "title": "failure of exact admissibility for lam = 2, ..., 10 above the limit (L = 2049 for lam = 2)", "statement": "For lam = 2,3,...,10 and every L above the limit M of C62, k_lam[a, M] > 1 (a = 12 for lam = 2); for every J_min <= a the sum phi^2 + sum psi^2 at degree M exceeds 1 for all builders, and with every backend there is a band-limited signal that synthesis(analysis(.)) does not return.", "quantifier": "every integer lam from 2 to 10, every L above the limit, every N, J_min <= a, |spin| <= M, backend", "why_tests_cant": "the excess is about 1e-21; shows that the bound of C62 is sharp in exact arithmetic", "anchors": ["s2wav/filters.py:k_lam", "s2wav/filters.py:part_scaling_fn"]}
{"id": "C64", "title": "exact domain of the filter builders", "statement": "filters_axisym, filters_axisym_vectorised, filters_axisym_jax return a value if and only if lam > 1, J_min >= 0 and lam ** J_min < L; the directional builders likewise (N >= 1), the vectorised and JAX ones only for spin0 = 0. All other calls raise.", "quantifier": "all integers L, J_min, spin, spin0, all real lam, every N >= 1", "why_tests_cant": "all real lam including lam <= 1, negative and zero band-limits", "anchors": ["s2wav/filters.py:filters_axisym", "s2wav/filters.py:filters_axisym_vectorised", "s2wav/filters.py:filters_axisym_jax", "s2wav/filters.py:filters_directional", "s2wav/filters.py:filters_directional_vectorised", "s2wav/filters.py:filters_directional_jax", "s2wav/samples.py:j_max"]}
{"id": "C65", "title": "the JAX quadrature is the NumPy quadrature", "statement": "_part_scaling_fn_jax(a, b, n, lam) = part_scaling_fn(a, b, n, lam) for all a != b and lam != 0, and also for a = b = 1, lam > 1, n >= 1, i.e. on every call k_lam makes.", "quantifier": "all real a, b, lam, all integers n", "why_tests_cant": "the function is never called by the package or its tests", "anchors": ["s2wav/filters.py:_part_scaling_fn_jax", "s2wav/filters.py:part_scaling_fn"]}
{"id": "C66", "title": "empty top scale", "statement": "If L - 1 <= lam**(j_max-1) (for example L = 2**n + 1 with lam = 2) the wavelet of the top scale is identically zero for every builder, so all its coefficients are zero for every signal while its map has the size of the one below; if L - 1 lies beyond the first eighth of the last transition band the top wavelet is non-zero at degree L - 1.", "quantifier": "every L >= 1, lam > 1, valid J_min, N, spin, every signal, six backends", "why_tests_cant": "tests use powers of two, never 2**n + 1", "anchors": ["s2wav/samples.py:j_max", "s2wav/filters.py:filters_axisym", "s2wav/filters.py:filters_directional_vectorised"]}
{"id": "C67", "title": "user-supplied filters", "statement": "The JAX, C, precompute and torch transforms called with arbitrary filters of the documented shape read only the degrees L0 <= l < L_j, orders |n| < N_j of one parity, and degrees l < L_s of the scaling filter. With filters supported there, synthesis after analysis multiplies degree l by the frame sum of the supplied filters; every band-limited signal is reconstructed exactly if and only if this sum is 1 for every |spin| <= l < L.", "quantifier": "every valid configuration, all filter values, every signal, four backends", "why_tests_cant": "tests only use the filters the package builds", "anchors": ["s2wav/transforms/wavelet.py:analysis", "s2wav/transforms/wavelet.py:synthesis", "s2wav/transforms/wavelet_c.py:analysis", "s2wav/transforms/wavelet_c.py:synthesis", "s2wav/transforms/wavelet_precompute.py:analysis", "s2wav/transforms/wavelet_precompute.py:synthesis", "s2wav/transforms/wavelet_precompute_torch.py:analysis", "s2wav/transforms/wavelet_precompute_torch.py:synthesis"]}
{"id": "C68", "title": "filters computed with rounding errors", "statement": "If the filters used differ from the exactly computed ones by at most e in the weighted norm of each degree, their frame sum lies in [1 - 2e, 1.001(1+e) + e + e^2] and the round trip recovers each harmonic coefficient up to a relative error of 0.001 + 2.001e + e^2.", "quantifier": "every valid configuration, every e > 0, all perturbed filters, every signal, four backends", "why_tests_cant": "tests see one set of rounded values per configuration", "anchors": ["s2wav/filters.py:filters_directional_vectorised", "s2wav/transforms/wavelet.py:analysis", "s2wav/transforms/wavelet.py:synthesis"]}
{"id": "C69", "title": "round trip with inexact spherical and Wigner transforms", "statement": "If the underlying inverse-then-forward transforms reproduce coefficients only up to a relative error d in energy (HEALPix, rounding), then synthesis(analysis(f)) is the inverse transform of coefficients whose relative error is at most 1.001 d + 0.001 (1.002 d + 0.002 looped), and at most d when k_lam does not overshoot 1; for arbitrary filters supported where the transforms read, they differ from (frame sum) * flm by at most B d, B a bound of the frame sum.", "quantifier": "every valid configuration, all six pairs of routines, every d >= 0, every engine within d, every signal", "why_tests_cant": "tests compare one engine on random signals at a few band-limits with an ad-hoc tolerance", "anchors": ["s2wav/transforms/base.py:analysis", "s2wav/transforms/base.py:synthesis", "s2wav/transforms/wavelet.py:analysis", "s2wav/transforms/wavelet.py:synthesis", "s2wav/transforms/wavelet_c.py:analysis", "s2wav/transforms/wavelet_c.py:synthesis", "s2wav/transforms/wavelet_precompute.py:analysis", "s2wav/transforms/wavelet_precompute.py:synthesis", "s2wav/transforms/wavelet_precompute_torch.py:analysis", "s2wav/transforms/wavelet_precompute_torch.py:synthesis"]}
{"id": "C70", "title": "precomputes without spherical kernels", "statement": "generate_full_precomputes(nospherical=True) returns exactly the Wigner kernels of the default call and no spherical kernels; flm_to_analysis (JAX and torch) gives the same maps with them, and analysis and synthesis never succeed with them.", "quantifier": "all parameters, all signals, filters and top scales", "why_tests_cant": "tests never call analysis or synthesis with such precomputes", "anchors": ["s2wav/transforms/construct.py:generate_full_precomputes", "s2wav/transforms/wavelet_precompute.py:flm_to_analysis", "s2wav/transforms/wavelet_precompute.py:analysis", "s2wav/transforms/wavelet_precompute.py:synthesis", "s2wav/transforms/wavelet_precompute_torch.py:flm_to_analysis", "s2wav/transforms/wavelet_precompute_torch.py:analysis", "s2wav/transforms/wavelet_precompute_torch.py:synthesis"]}
{"id": "C71", "title": "inner products and gradients of least-squares misfits", "statement": "Analysis preserves inner products of signals (degree by degree, up to the frame weight G_l, which is 1 without overshoot). The squared misfit |analysis(f) - target|^2 is exactly quadratic along every line f + t g, with gradient 2 (synthesis(analysis(f)) - synthesis(target)); the squared misfit |synthesis(w) - data|^2 has gradient 2 analysis(synthesis(w) - data). Stated on harmonic coefficients, with the weighted Wigner inner product.", "quantifier": "every valid configuration, all six pairs of routines, all signals, targets, directions and step sizes", "why_tests_cant": "the gradient tests compare automatic and finite differences at a few random points for one configuration", "anchors": ["s2wav/transforms/base.py:analysis", "s2wav/transforms/base.py:synthesis", "s2wav/transforms/wavelet.py:analysis", "s2wav/transforms/wavelet.py:synthesis", "s2wav/transforms/wavelet_c.py:analysis", "s2wav/transforms/wavelet_c.py:synthesis", "s2wav/transforms/wavelet_precompute.py:analysis", "s2wav/transforms/wavelet_precompute.py:synthesis", "s2wav/transforms/wavelet_precompute_torch.py:analysis", "s2wav/transforms/wavelet_precompute_torch.py:synthesis"]}
{"id": "C72", "title": "steerability and directional auto-correlation", "statement": "Every wavelet rotated by an arbitrary angle is the combination of its N rotations by multiples of pi/N with explicit coefficients depending on the angle only, and the same holds for the wavelet coefficients returned by analysis; fewer than N rotations never suffice (at a degree >= N-1). The correlation of the directional component of degree l with its rotation by delta is cos(delta)^gamma, gamma the largest integer <= min(N-1, l) of the parity of N-1, and the energy of degree l of each wavelet is multiplied by the same factor.", "quantifier": "all L, N, lam, J_min, spin, degrees, scales and angles; all builders and all six pairs of routines", "why_tests_cant": "continuous family of angles; tests compare builders with each other only", "anchors": ["s2wav/filters.py:tiling_direction", "s2wav/filters.py:tiling_direction_jax", "s2wav/filters.py:filters_directional", "s2wav/filters.py:filters_directional_vectorised", "s2wav/filters.py:filters_directional_jax", "s2wav/transforms/base.py:analysis", "s2wav/transforms/wavelet.py:analysis", "s2wav/transforms/wavelet_c.py:analysis", "s2wav/transforms/wavelet_precompute.py:analysis", "s2wav/transforms/wavelet_precompute_torch.py:analysis"]}
{"id": "C73", "title": "synthesis of real maps and the reality flag", "statement": "Maps whose coefficients have the Hermitian symmetry (real maps) are synthesised into coefficients with the Hermitian symmetry (a real signal), and synthesis with reality=True and reality=False returns the same result on them, including the same error when the shapes are wrong.", "quantifier": "every valid configuration, all six pairs of routines, all real maps", "why_tests_cant": "tests use random signals at few band-limits and never compare the two values of the flag on synthesis", "anchors": ["s2wav/transforms/base.py:synthesis", "s2wav/transforms/wavelet.py:synthesis", "s2wav/transforms/wavelet_c.py:synthesis", "s2wav/transforms/wavelet_precompute.py:synthesis", "s2wav/transforms/wavelet_precompute_torch.py:synthesis", "s2wav/transforms/base.py:synthesis_looped"]}
{"id": "C74", "title": "filters at different band-limits, lowest scales and spins", "statement": "The wavelet of scale j at degree l and order n is the same number for every L, J_min and spin for which the arrays contain it (|spin| <= l < L), and also when j_max is rounded differently; the scaling function depends on J_min and lam only. The filters for spin and -spin are the same arrays, and the same calls raise.", "quantifier": "the three directional builders, all L, L', N, J_min, J_min', lam > 1, spins, spin0", "why_tests_cant": "tests build filters for one configuration at a time and compare builders, never configurations", "anchors": ["s2wav/filters.py:filters_directional", "s2wav/filters.py:filters_directional_vectorised", "s2wav/filters.py:filters_directional_jax"]}
{"id": "C75", "title": "changing the lowest scale", "statement": "Without overshoot the energy of the scaling function at lowest scale J_min' is that of the scaling function at J_min <= J_min' plus that of the wavelets of the scales in between, at every degree. Analysis with a different J_min returns the same wavelet maps at every common scale, and its scaling map carries the coarser scaling map and the dropped wavelet maps, combined as in synthesis.", "quantifier": "all L, N, J_min, J_min', lam, spin; the three builders; all six pairs of routines; all signals", "why_tests_cant": "infinitely many pairs of configurations; tests check round trips per configuration, which hold for inconsistent decompositions too", "anchors": ["s2wav/filters.py:filters_directional", "s2wav/filters.py:filters_directional_vectorised", "s2wav/filters.py:filters_directional_jax", "s2wav/transforms/base.py:analysis", "s2wav/transforms/base.py:analysis_looped", "s2wav/transforms/wavelet.py:analysis", "s2wav/transforms/wavelet_c.py:analysis", "s2wav/transforms/wavelet_precompute.py:analysis", "s2wav/transforms/wavelet_precompute_torch.py:analysis"]}
{"id": "C76", "title": "zero padding to a higher band-limit", "statement": "A signal of band-limit L analysed with band-limit L' >= L (its coefficients padded with zeros) has the same wavelet coefficients at the common scales, zero coefficients at the additional scales, and the same scaling coefficients.", "quantifier": "all L <= L', every valid configuration, all six pairs of routines, all signals", "why_tests_cant": "needs pairs of band-limits and all signals", "anchors": ["s2wav/transforms/base.py:analysis", "s2wav/transforms/base.py:analysis_looped", "s2wav/transforms/wavelet.py:analysis", "s2wav/transforms/wavelet_c.py:analysis", "s2wav/transforms/wavelet_precompute.py:analysis", "s2wav/transforms/wavelet_precompute_torch.py:analysis"]}
{"id": "C77", "title": "conjugate signals and the sign of the spin", "statement": "The conjugate of a signal of spin s is a signal of spin -s; its wavelet coefficients are those of the conjugated wavelet maps times (-1)^s, and its scaling coefficients are those of the conjugated scaling map.", "quantifier": "every valid configuration, all six pairs of routines, all signals and spins", "why_tests_cant": "negative spins are not exercised by the tests", "anchors": ["s2wav/transforms/base.py:analysis", "s2wav/transforms/base.py:analysis_looped", "s2wav/transforms/wavelet.py:analysis", "s2wav/transforms/wavelet_c.py:analysis", "s2wav/transforms/wavelet_precompute.py:analysis", "s2wav/transforms/wavelet_precompute_torch.py:analysis"]}
{"id": "C78", "title": "invariances of scattering", "statement": "base.analysis with scattering=True is positively homogeneous (a factor a multiplies the moduli by |a|, so a sign or a phase changes nothing) and at every pixel the moduli of two signals differ by at most the modulus of the wavelet map of their difference.", "quantifier": "every valid configuration, all signals and factors (real factors when reality is set)", "why_tests_cant": "no test uses scattering=True", "anchors": ["s2wav/transforms/base.py:analysis"]}
{"id": "C79", "title": "synthesis is the pseudo-inverse of analysis", "statement": "Without overshoot the analysis of a synthesised signal is the orthogonal projection of the maps it was synthesised from (energies add up at every degree and order). Hence synthesis never increases the energy, and among all maps that are synthesised to a signal its analysis has the least energy, with equality only for the analysis itself.", "quantifier": "every valid configuration, all six pairs of routines, all maps of the right shapes (real ones when reality is set)", "why_tests_cant": "quantifies over all redundant sets of maps; tests only synthesise maps that come from analysis", "anchors": ["s2wav/transforms/base.py:analysis", "s2wav/transforms/base.py:analysis_looped", "s2wav/transforms/wavelet.py:analysis", "s2wav/transforms/wavelet_c.py:analysis", "s2wav/transforms/wavelet_precompute.py:analysis", "s2wav/transforms/wavelet_precompute_torch.py:analysis", "s2wav/transforms/base.py:synthesis", "s2wav/transforms/base.py:synthesis_looped", "s2wav/transforms/wavelet.py:synthesis", "s2wav/transforms/wavelet_c.py:synthesis", "s2wav/transforms/wavelet_precompute.py:synthesis", "s2wav/transforms/wavelet_precompute_torch.py:synthesis"]}
{"id": "C80", "title": "energy of each scale", "statement": "The energy of the wavelet map of scale j is the sum over degrees of the power spectrum of the signal times the energy of the filter, and likewise for the scaling map; it does not depend on the phases or on how the power is distributed over the orders m.", "quantifier": "every valid configuration, all six analysis routines, all signals and scales", "why_tests_cant": "universal over signals; tests compare maps with stored output of another library", "anchors": ["s2wav/transforms/base.py:analysis", "s2wav/transforms/base.py:analysis_looped", "s2wav/transforms/wavelet.py:analysis", "s2wav/transforms/wavelet_c.py:analysis", "s2wav/transforms/wavelet_precompute.py:analysis", "s2wav/transforms/wavelet_precompute_torch.py:analysis"]}
{"id": "C81", "title": "reconstruction on the sphere, without assumptions on s2fft", "statement": "With s2fft's transforms instantiated by the textbook spin spherical harmonic and Wigner transforms (Wigner's formula for d^l_mn, samples on the mw, mwss, dh or Gauss-Legendre nodes, inverse on the span of the harmonics), analysis of the samples of any band-limited signal succeeds and synthesis returns the samples of the signal with degree l multiplied by the frame sum; without overshoot these are the samples one started from.", "quantifier": "every valid configuration, spin (0 for real signals) and band-limited signal; mw and gl sampling for all six pairs of routines, mwss and dh for those of base.py", "why_tests_cant": "tests are run on random coefficients at a few band-limits", "anchors": ["s2wav/transforms/base.py:analysis", "s2wav/transforms/base.py:analysis_looped", "s2wav/transforms/wavelet.py:analysis", "s2wav/transforms/wavelet_c.py:analysis", "s2wav/transforms/wavelet_precompute.py:analysis", "s2wav/transforms/wavelet_precompute_torch.py:analysis", "s2wav/transforms/base.py:synthesis", "s2wav/transforms/base.py:synthesis_looped", "s2wav/transforms/wavelet.py:synthesis", "s2wav/transforms/wavelet_c.py:synthesis", "s2wav/transforms/wavelet_precompute.py:synthesis", "s2wav/transforms/wavelet_precompute_torch.py:synthesis"]}
{"id": "C82", "title": "maps are samples of directional convolutions", "statement": "On the sphere the wavelet map of scale j holds the samples, on the grid of its own band-limit, of the directional convolution of the signal with wavelet j, and the scaling map holds the samples of the signal smoothed by the scaling function.", "quantifier": "every valid configuration, all six analysis routines, every band-limited signal, every scale and every pixel", "why_tests_cant": "tests compare with the stored output of another library for a few signals", "anchors": ["s2wav/transforms/base.py:analysis", "s2wav/transforms/base.py:analysis_looped", "s2wav/transforms/wavelet.py:analysis", "s2wav/transforms/wavelet_c.py:analysis", "s2wav/transforms/wavelet_precompute.py:analysis", "s2wav/transforms/wavelet_precompute_torch.py:analysis"]}
{"id": "C83", "title": "energy and inner products as integrals", "statement": "The maps analysis returns are the samples of band-limited functions on the rotation group and the sphere. The integral of the product of a signal and the conjugate of another equals the sum of those of the corresponding map functions (scaling over the sphere, wavelets over the rotation group), with degree l weighted by the frame sum; without overshoot the energies add up to the energy of the signal.", "quantifier": "every valid configuration, spin, pair of band-limited signals, all six analysis routines", "why_tests_cant": "integrals over the sphere and over rotations are not computed by the tests", "anchors": ["s2wav/transforms/base.py:analysis", "s2wav/transforms/base.py:analysis_looped", "s2wav/transforms/wavelet.py:analysis", "s2wav/transforms/wavelet_c.py:analysis", "s2wav/transforms/wavelet_precompute.py:analysis", "s2wav/transforms/wavelet_precompute_torch.py:analysis"]}
{"id": "C84", "title": "map pixels are integrals against rotated wavelets", "statement": "Pixel (y,t,x) of the wavelet map of scale j is the integral over the sphere of the signal times the conjugate of the wavelet of scale j rotated by the Euler angles of the pixel; pixel (t,x) of the scaling map is the integral against the scaling function moved to that direction. Rotation is defined on functions of the direction, not on coefficients.", "quantifier": "every valid configuration, band-limited signal, scale and pixel, all six analysis routines", "why_tests_cant": "the tests never evaluate a wavelet as a function on the sphere", "anchors": ["s2wav/transforms/base.py:analysis", "s2wav/transforms/base.py:analysis_looped", "s2wav/transforms/wavelet.py:analysis", "s2wav/transforms/wavelet_c.py:analysis", "s2wav/transforms/wavelet_precompute.py:analysis", "s2wav/transforms/wavelet_precompute_torch.py:analysis"]}
{"id": "C85", "title": "rotating the signal rotates the maps", "statement": "If a band-limited signal is rotated by any Euler angles, the wavelet and scaling maps of the rotated signal are samples of the functions sampled by the maps of the original, rotated by the same angles.", "quantifier": "every valid configuration, band-limited signal and rotation, all six analysis routines", "why_tests_cant": "there are infinitely many rotations and general ones do not map the grid to itself", "anchors": ["s2wav/transforms/base.py:analysis", "s2wav/transforms/base.py:analysis_looped", "s2wav/transforms/wavelet.py:analysis", "s2wav/transforms/wavelet_c.py:analysis", "s2wav/transforms/wavelet_precompute.py:analysis", "s2wav/transforms/wavelet_precompute_torch.py:analysis"]}
{"id": "C86", "title": "real signals have real maps", "statement": "For spin 0 the wavelets are real functions on the sphere, at every orientation, and the wavelet and scaling maps of a real-valued signal are samples of real-valued band-limited functions, whether or not the reality flag is set.", "quantifier": "every valid configuration, every real-valued band-limited signal, every scale and pixel, all six analysis routines", "why_tests_cant": "tests take real signals from symmetrised coefficients and look at a few of them", "anchors": ["s2wav/transforms/base.py:analysis", "s2wav/transforms/base.py:analysis_looped", "s2wav/transforms/wavelet.py:analysis", "s2wav/transforms/wavelet_c.py:analysis", "s2wav/transforms/wavelet_precompute.py:analysis", "s2wav/transforms/wavelet_precompute_torch.py:analysis"]}
{"id": "C87", "title": "bound on every pixel of the maps", "statement": "The squared modulus of any pixel of a wavelet map is at most the energy of the signal times the energy of the wavelet, which is at most 501/500 Lj^2/(8 pi^2); for the scaling map with the energy of the scaling function, at most 501/500 Ls^2/(4 pi).", "quantifier": "every valid configuration, band-limited signal, scale and pixel, all six analysis routines", "why_tests_cant": "a supremum over all signals", "anchors": ["s2wav/transforms/base.py:analysis", "s2wav/transforms/base.py:analysis_looped", "s2wav/transforms/wavelet.py:analysis", "s2wav/transforms/wavelet_c.py:analysis", "s2wav/transforms/wavelet_precompute.py:analysis", "s2wav/transforms/wavelet_precompute_torch.py:analysis"]}
{"id": "C88", "title": "synthesis integrates the maps against rotated wavelets", "statement": "Given maps that sample functions W_j on the rotation group and S on the sphere, of the band-limits of the maps, synthesis succeeds and returns the samples of sum_j of the integral over rotations of W_j times wavelet j so rotated, plus the integral over the sphere of S times the scaling function moved to each direction. The maps need not come from an analysis.", "quantifier": "every valid configuration, every family of band-limited functions (with Hermitian coefficients for reality=True), all six synthesis routines", "why_tests_cant": "tests synthesise only maps that come from an analysis", "anchors": ["s2wav/transforms/base.py:synthesis", "s2wav/transforms/base.py:synthesis_looped", "s2wav/transforms/wavelet.py:synthesis", "s2wav/transforms/wavelet_c.py:synthesis", "s2wav/transforms/wavelet_precompute.py:synthesis", "s2wav/transforms/wavelet_precompute_torch.py:synthesis"]}
{"id": "C89", "title": "reality=True on any real image", "statement": "With reality=True and spin 0 it is enough that the pixels are real: analysis of any real image that samples a band-limited function returns real maps, those of the transform without the flag; synthesis of real maps returns a real image; and the round trip returns the image. Nothing is asked of the symmetry of the harmonic coefficients.", "quantifier": "every valid configuration, every real image that samples a band-limited function, all real maps that sample band-limited functions, all six pairs of routines", "why_tests_cant": "tests build real signals from symmetrised coefficients at one seed", "anchors": ["s2wav/transforms/base.py:analysis", "s2wav/transforms/base.py:analysis_looped", "s2wav/transforms/wavelet.py:analysis", "s2wav/transforms/wavelet_c.py:analysis", "s2wav/transforms/wavelet_precompute.py:analysis", "s2wav/transforms/wavelet_precompute_torch.py:analysis", "s2wav/transforms/base.py:synthesis", "s2wav/transforms/base.py:synthesis_looped", "s2wav/transforms/wavelet.py:synthesis", "s2wav/transforms/wavelet_c.py:synthesis", "s2wav/transforms/wavelet_precompute.py:synthesis", "s2wav/transforms/wavelet_precompute_torch.py:synthesis"]}
{"id": "C90", "title": "synthesis is the adjoint of analysis for integrals on the sphere", "statement": "For any maps W_j, S and any signal f with maps W'_j, S': sum_j of the integral over rotations of W_j conj(W'_j), plus the integral over the sphere of S conj(S'), is the integral over the sphere of the synthesised signal times conj(f). Analysis after synthesis carries maps over by the inner products of the rotated wavelets and scaling functions with each other.", "quantifier": "every valid configuration, signal and family of band-limited maps, all six pairs of routines", "why_tests_cant": "a bilinear identity between integrals; tests only compare a round trip", "anchors": ["s2wav/transforms/base.py:analysis", "s2wav/transforms/base.py:analysis_looped", "s2wav/transforms/wavelet.py:analysis", "s2wav/transforms/wavelet_c.py:analysis", "s2wav/transforms/wavelet_precompute.py:analysis", "s2wav/transforms/wavelet_precompute_torch.py:analysis", "s2wav/transforms/base.py:synthesis", "s2wav/transforms/base.py:synthesis_looped", "s2wav/transforms/wavelet.py:synthesis", "s2wav/transforms/wavelet_c.py:synthesis", "s2wav/transforms/wavelet_precompute.py:synthesis", "s2wav/transforms/wavelet_precompute_torch.py:synthesis"]}
{"id": "C91", "title": "means of the wavelets and of the maps", "statement": "For spin 0 each wavelet integrates to 0 over the sphere and the scaling function to 1. The wavelet maps of any signal integrate to 0 over rotations, and (spin 0) the scaling map has the integral of the signal.", "quantifier": "every valid configuration and band-limited signal, every scale, all six analysis routines", "why_tests_cant": "tests never integrate a map", "anchors": ["s2wav/filters.py:filters_directional", "s2wav/filters.py:filters_directional_vectorised", "s2wav/transforms/base.py:analysis", "s2wav/transforms/base.py:analysis_looped", "s2wav/transforms/wavelet.py:analysis", "s2wav/transforms/wavelet_c.py:analysis", "s2wav/transforms/wavelet_precompute.py:analysis", "s2wav/transforms/wavelet_precompute_torch.py:analysis"]}
{"id": "C92", "title": "maps of isotropic random signals", "statement": "For a random signal whose coefficients are uncorrelated with power spectrum C_l, every pixel of a wavelet map has second moment sum_l C_l sum_n |psi^j_ln|^2 and every pixel of the scaling map sum_l C_l phi_l^2, the same at all positions and orientations; pixels of scales that are not neighbours, and of the scaling map and any wavelet map but the first, are uncorrelated.", "quantifier": "every valid configuration, probability space, random signal with uncorrelated coefficients, pixel and pair of pixels, all six analysis routines", "why_tests_cant": "an expectation over all signals", "anchors": ["s2wav/transforms/base.py:analysis", "s2wav/transforms/base.py:analysis_looped", "s2wav/transforms/wavelet.py:analysis", "s2wav/transforms/wavelet_c.py:analysis", "s2wav/transforms/wavelet_precompute.py:analysis", "s2wav/transforms/wavelet_precompute_torch.py:analysis"]}
{"id": "C93", "title": "any number of directions: which scales are processed, and when reconstruction is exact", "statement": "For any N >= 1 a vectorised routine processes the scales with at most L directions and silently ignores the others: analysis returns zero coefficients there and synthesis drops them. It reconstructs every band-limited signal exactly when N <= L or, with multiresolution, N - L is even; otherwise degree L-1 is lost without an error. The looped pair reconstructs for every N. With multiresolution and N >= L every call only depends on the parity of N. Without multiresolution and N >= L + 3, base.analysis and base.synthesis always fail.", "quantifier": "every L >= 2, N >= 1, J_min, lam, spin, reality, multiresolution, signal and maps, all six pairs of routines", "why_tests_cant": "tests use N <= L; the failure is silent", "anchors": ["s2wav/transforms/base.py:analysis", "s2wav/transforms/base.py:analysis_looped", "s2wav/transforms/wavelet.py:analysis", "s2wav/transforms/wavelet_c.py:analysis", "s2wav/transforms/wavelet_precompute.py:analysis", "s2wav/transforms/wavelet_precompute_torch.py:analysis", "s2wav/transforms/base.py:synthesis", "s2wav/transforms/base.py:synthesis_looped", "s2wav/transforms/wavelet.py:synthesis", "s2wav/transforms/wavelet_c.py:synthesis", "s2wav/transforms/wavelet_precompute.py:synthesis", "s2wav/transforms/wavelet_precompute_torch.py:synthesis", "s2wav/samples.py:LN_j", "s2wav/filters.py:tiling_direction"]}
{"id": "C94", "title": "wavelet maps are steerable in their orientation", "statement": "The wavelet map of scale j of any signal holds the samples of a function T of the Euler angles with T(a,b,g) = sum over N_j orientations pi k/N_j of z(g - pi k/N_j) T(a,b,pi k/N_j), and T(a,b,g+pi) = (-1)^(N_j-1) T(a,b,g): N_j orientations determine all. On the pixels, the Fourier transform over the 2N_j-1 orientations has only the N_j frequencies of the parity of N_j-1; for even N_j the mean over orientations is zero at every position.", "quantifier": "every L >= 2, 1 <= N <= L, J_min, lam, spin, reality, sampling mw/mwss/dh/gl, all six analyses, every band-limited signal, every position and angle", "why_tests_cant": "no test evaluates a map away from its samples or relates its orientations", "anchors": ["s2wav/transforms/base.py:analysis", "s2wav/transforms/base.py:analysis_looped", "s2wav/transforms/wavelet.py:analysis", "s2wav/transforms/wavelet_c.py:analysis", "s2wav/transforms/wavelet_precompute.py:analysis", "s2wav/transforms/wavelet_precompute_torch.py:analysis", "s2wav/filters.py:tiling_direction"]}
{"id": "C95", "title": "synthesis of weighted maps: coarse-to-fine and single-scale reconstruction", "statement": "If the map of scale j is multiplied by t_j and the scaling map by u, synthesis returns the signal with degree l multiplied by u E_phi(l) + sum_j t_j E_j(l), with E the energies of the filters. With the maps above scale i set to zero all degrees l <= lam^i are kept (exactly without overshoot, within 0.2% in general), degrees l >= lam^(i+1) are removed, others are multiplied by a number in [0, 1.002] that grows with i; signals without degrees above lam^i are reconstructed from the coarse maps alone. A single scale keeps only lam^(i-1) < l < lam^(i+1). Any map at one scale synthesises to a signal with zero maps at scales two or more apart.", "quantifier": "every L >= 2, 1 <= N <= L, J_min, lam, spin, reality, sampling mw/mwss/dh/gl, all six pairs of routines, every band-limited signal, all weights, every scale", "why_tests_cant": "tests only synthesise the unmodified output of analysis", "anchors": ["s2wav/transforms/base.py:analysis", "s2wav/transforms/base.py:analysis_looped", "s2wav/transforms/wavelet.py:analysis", "s2wav/transforms/wavelet_c.py:analysis", "s2wav/transforms/wavelet_precompute.py:analysis", "s2wav/transforms/wavelet_precompute_torch.py:analysis", "s2wav/transforms/base.py:synthesis", "s2wav/transforms/base.py:synthesis_looped", "s2wav/transforms/wavelet.py:synthesis", "s2wav/transforms/wavelet_c.py:synthesis", "s2wav/transforms/wavelet_precompute.py:synthesis", "s2wav/transforms/wavelet_precompute_torch.py:synthesis"]}
{"id": "C96", "title": "size of the multiresolution maps", "statement": "With multiresolution the squares of the band-limits of all scales add up to at most (3 + 4 lam^2/(lam^2-1)) L^2 (without the factor 4 for integer lam), and the wavelet maps on the mw grid have at most (2N-1)(6 + 8 lam^2/(lam^2-1)) L^2 pixels, however many scales there are; at full resolution they have exactly (J+1-J_min)(2N-1)L(2L-1).", "quantifier": "every L >= 1, lam > 1, N >= 1, J_min >= 0 (pixels: every valid configuration on mw, all six analyses)", "why_tests_cant": "a bound over all band-limits and scale parameters", "anchors": ["s2wav/samples.py:LN_j", "s2wav/samples.py:wav_j_bandlimit", "s2wav/samples.py:j_max", "s2wav/transforms/base.py:analysis", "s2wav/transforms/base.py:analysis_looped", "s2wav/transforms/wavelet.py:analysis", "s2wav/transforms/wavelet_c.py:analysis", "s2wav/transforms/wavelet_precompute.py:analysis", "s2wav/transforms/wavelet_precompute_torch.py:analysis"]}
{"id": "C97", "title": "the documented calls with default arguments", "statement": "With all other arguments left at their defaults, the calls of the four notebooks - analysis_base(f,L,N) and synthesis_base, analysis/synthesis (also analysis_c/synthesis_c) with filters=filters_directional_vectorised(L,N), analysis_precomp_jax/_torch with generate_full_precomputes(L,N,forward=False) and synthesis with forward=True - succeed and return the image f at every sample; without N they are axisymmetric with one orientation per scale. The README's analysis(f,L,N) and synthesis(f_wav,f_scal,L,N) never return, because filters has no usable default. The helpers of samples.py default to multiresolution=False but the transforms to True: the output of analysis_base(f,L,N) fails wavelet_shape_check(f_wav,f_scal,L,N); with multiresolution=True n_wav_scales, f_scal, f_wav_j give the number and shapes of the maps. Without optional arguments the filters are the axisymmetric ones at order 0, built from k_lam(L), and every transform uses N = 1, J_min = 0, lam = 2, spin = 0, spin0 = 0, mw sampling and reality=False. Every argument given by name reaches the routine in its own place.", "quantifier": "every 2 <= L <= 2049 (no upper bound for shapes and errors), 1 <= N <= L, every signal of band-limit L sampled on the mw grid", "why_tests_cant": "tests pass every argument explicitly, at a few sizes, and never call the helpers with their own defaults on the output of a transform", "anchors": ["s2wav/transforms/base.py:analysis", "s2wav/transforms/base.py:analysis_looped", "s2wav/transforms/wavelet.py:analysis", "s2wav/transforms/wavelet_c.py:analysis", "s2wav/transforms/wavelet_precompute.py:analysis", "s2wav/transforms/wavelet_precompute_torch.py:analysis", "s2wav/transforms/base.py:synthesis", "s2wav/transforms/base.py:synthesis_looped", "s2wav/transforms/wavelet.py:synthesis", "s2wav/transforms/wavelet_c.py:synthesis", "s2wav/transforms/wavelet_precompute.py:synthesis", "s2wav/transforms/wavelet_precompute_torch.py:synthesis", "s2wav/__init__.py:1", "s2wav/samples.py:wavelet_shape_check", "s2wav/samples.py:f_scal", "s2wav/samples.py:f_wav_j", "s2wav/samples.py:n_wav_scales", "s2wav/transforms/construct.py:generate_full_precomputes", "s2wav/filters.py:filters_directional_vectorised"]}
{"id": "C98", "title": "k_lam in double precision, default lam", "statement": "Executed in IEEE double precision with lam=2.0 and 300 panels, k_lam raises no exception and returns an array of the same shape as in exact arithmetic, in which every entry is a finite number >= 0 within 2^-33 of the exact-arithmetic entry, and exactly 1 (0) below (above) the transition band of its scale.", "quantifier": "every band-limit 1 <= L <= 2^53, every scale and degree, every C library whose exp is accurate to 2^-50 (relative, for arguments <= 0) and whose pow is accurate to one unit in the last place on squares and exact on exact powers", "why_tests_cant": "tests compare implementations that share the same rounding errors, at a few band-limits; they cannot bound the error for all L", "anchors": ["s2wav/filters.py:k_lam", "s2wav/filters.py:part_scaling_fn", "s2wav/filters.py:tiling_integrand"]}
{"id": "C99", "title": "k_lam in double precision fails for lam = 3, 5, 10", "statement": "Executed in IEEE double precision with 300 panels, no call of k_lam with lam=5.0 and L>=2, lam=3.0 and L>=795, or lam=10.0 and L>=12 returns an array of finite numbers: for lam=5 k[1,1] is NaN (the normalisation overflows, an abscissa being 1.0000000000000002), for lam=3 k[7,794] is infinite or NaN, for lam=10 the entry (2,11) raises ZeroDivisionError. In exact arithmetic the same calls return numbers in [0,1]. At L = 2 the call with lam = 5 does return, so the NaN comes without an exception.", "quantifier": "every band-limit above the stated ones, every top scale large enough for L, every C library as in C98 (for arguments above 710 exp overflows)", "why_tests_cant": "the tests use lam = 2 and 3 with L <= 16 only; the failure depends on one rounding at one abscissa", "anchors": ["s2wav/filters.py:k_lam", "s2wav/filters.py:part_scaling_fn", "s2wav/filters.py:tiling_integrand"]}
{"id": "C100", "title": "axisymmetric filters in double precision, default lam", "statement": "Executed in IEEE double precision with lam=2.0, filters_axisym_vectorised and filters_axisym raise no exception (but for J_min out of range) and return finite non-negative entries whose squares are within 2^-31 of the exact-arithmetic ones, with exact support; at every degree the squares add up to at least 1 - 2^-48 and at most 1.001 + 2^-32 (1.002 + 2^-29 for the looped routine), at most 1 + 2^-32 if L <= 2049, at most 1 + 2^-48 if L <= 17; up to L = 17 both routines return the same bits from row J_min on.", "quantifier": "every 1 <= L <= 2^53, every valid J_min, every degree, every C library as in C98", "why_tests_cant": "the admissibility test runs at L = 8 and 16; it says nothing of larger band-limits, where rounding and the trapezium rule push entries of k_lam above 1", "anchors": ["s2wav/filters.py:filters_axisym", "s2wav/filters.py:filters_axisym_vectorised", "s2wav/filters.py:k_lam"]}
{"id": "C101", "title": "directional filters in double precision, default lam", "statement": "Executed in IEEE double precision with lam=2.0, binomial_coefficient is exact for n <= 40 and within a relative 2^-34 for n <= 990; filters_directional_vectorised returns finite entries of the documented shape, exactly zero outside the bands, below the spin and for orders of the wrong parity, with the phase of the exact filters and normalised squared moduli within 2^-30 of theirs; the frame sum at every degree from the spin on is at least 1 - 2^-32 (1 - 2^-44 if N <= 41) and at most 1.001 + 2^-31, 1 + 2^-31 if L <= 2049, 1 + 2^-44 if L <= 17 and N <= 41; the filters qualify for the transforms (symmetric for real signals if N <= 41).", "quantifier": "every 1 <= L <= 2^53, 1 <= N <= 990, every valid J_min, every spin, every degree and order, every C library and loggamma of the stated accuracy", "why_tests_cant": "the tests build directional filters for N <= 3 and L <= 16 with one C library; loss of accuracy in exp(loggamma) grows with N", "anchors": ["s2wav/samples.py:binomial_coefficient", "s2wav/filters.py:tiling_direction", "s2wav/filters.py:filters_directional_vectorised"]}
{"id": "C102", "title": "round trip with filters computed in double precision", "statement": "With the directional filters of C101 passed to the JAX, C, precompute or torch transforms, analysis followed by synthesis multiplies every harmonic coefficient of a band-limited signal by a factor within 2^-31 of 1 if L <= 2049, within 2^-44 if L <= 17 and N <= 41, and within 0.001 + 2^-31 always; with transforms inverting each other only up to a relative error delta in norm, the error is at most (1 + r) delta + r with these r.", "quantifier": "every configuration with lam = 2, L <= 2^53, N <= 990 (N <= 41 for real signals), every band-limited signal, every such backend", "why_tests_cant": "round-trip tests run a few sizes to 14 digits; the deviation for larger L is systematic and below their reach", "anchors": ["s2wav/filters.py:filters_directional_vectorised", "s2wav/transforms/wavelet.py:analysis", "s2wav/transforms/wavelet.py:synthesis"]}
{"id": "C103", "title": "j_max in double precision", "statement": "Computed in IEEE double precision with a logarithm accurate to four units in the last place, j_max(L, lam) raises no exception and returns J >= 0 with lam^(J-1) < L + 3/4 and L - 1/2 <= lam^J, hence a top scale for which all results about the transforms hold; for an integer lam it is the exact value, or one more, the latter only if L is a power of lam (j_max(125, 5.0) is 4 instead of 3 with a correctly rounded logarithm); for every double lam >= 2 it is off by at most one, and it can be one too small, harmlessly: j_max(64, 64 ** (1/3)) is 3 instead of 4; using it instead of the exact j_max leaves the scaling function and all common wavelets unchanged, and any further wavelets are zero; for lam = 2 the whole of filters_directional_vectorised in double precision, j_max included, returns finite values whose frame sums are within the bounds of C101, and J <= 41. For L <= 0, lam <= 0 or lam = 1 the result or exception is that of the exact j_max (C01); for 0 < lam < 1 it returns an integer that is not positive; so it raises exactly the exceptions of the exact j_max, and for lam <= 1 no filters can be built with any J_min.", "quantifier": "every 1 <= L <= 2^40, every double lam > 1, every logarithm of the stated accuracy", "why_tests_cant": "whether log(L)/log(lam) lands above or below an integer depends on the last bit; the tests try a handful of L and lam = 2, 3", "anchors": ["s2wav/samples.py:j_max", "s2wav/filters.py:filters_directional_vectorised"]}
{"id": "C104", "title": "band-limits in double precision", "statement": "Computed in IEEE double precision, scal_bandlimit, L0_j, wav_j_bandlimit and LN_j return the exact values whenever the powers of lam concerned are doubles, which is so for lam = 2 and for integer lam with powers up to 2^53; for every other lam they still never cut a filter: the axisymmetric wavelets and scaling function computed in double precision are exactly zero at and above the computed band-limits, and below the computed lower limit.", "quantifier": "every L <= 2^53, every scale, every lam for which the computed powers do not decrease and the normalisation is finite and non-zero", "why_tests_cant": "for a lam that is not an integer a band-limit may be off by one when a power is close to an integer; tests use lam = 2 and 3", "anchors": ["s2wav/samples.py:LN_j", "s2wav/samples.py:wav_j_bandlimit", "s2wav/samples.py:L0_j", "s2wav/samples.py:scal_bandlimit", "s2wav/filters.py:k_lam"]}
{"id": "C105", "title": "the harmonic-space steps in double precision", "statement": "The products with the filters in the analysis and the products and sums in the synthesis, computed in any arithmetic that is accurate to 2^-50 per operation (as IEEE doubles are, with left-to-right or other summation), raise no exception and produce no infinity and no NaN. The Wigner and scaling coefficients of the analysis are within 2^-47 of the exact ones; the error of the synthesis is at most (N + J + 4) 2^-49 times its value on the moduli of its inputs; and a round trip with the filters of filters_directional_vectorised computed in double precision for lam = 2 returns every harmonic coefficient within a relative error of 2^-30 for L <= 2049, (N + J + 26) 2^-48 for L <= 17, and 0.0011 for every L <= 2^52, up to underflow. In exact arithmetic these programs are those of the exact model.", "quantifier": "every L <= 2^52, N <= L (at most 990 for the round trip), every J_min, every band-limited signal with coefficients up to 2^300, every spin, every library functions of the stated accuracy", "why_tests_cant": "tests compare a few small L against a tolerance of 1e-14 on random data; overflow, NaN and accumulated error at large L, N, J are out of their reach", "anchors": ["s2wav/transforms/wavelet_c.py:_generate_and_apply_wavelets", "s2wav/transforms/wavelet_c.py:_generate_and_apply_scaling", "s2wav/transforms/wavelet_c.py:_sum_over_wavelet_and_scaling", "s2wav/filters.py:filters_directional_vectorised"]}
{"id": "C106", "title": "the looped directional filters in double precision", "statement": "filters_directional (spin0 = 0) in IEEE double precision with lam = 2 raises no exception and produces no infinity and no NaN. Its scaling function is that of filters_directional_vectorised bit for bit. A wavelet entry is exactly zero below J_min, outside the two bands of its scale, below the spin, for orders above the degree or not below N and for orders of the wrong parity. The frame sum is between 1 - 2^-32 and 1.002 + 2^-28 at every degree from the spin on, and within 2^-44 of 1 for L <= 17 and N <= 41, where the wavelets agree with those of the vectorised routine up to rounding. Analysis followed by synthesis with these filters returns every harmonic coefficient up to a factor with the same bounds. A bad J_min raises ValueError.", "quantifier": "every L <= 2^53, J <= 1000, 1 <= N <= 990, every J_min, every spin, every library functions of the stated accuracy; every band-limited signal and jax or torch/numpy engine that inverts for the round trip", "why_tests_cant": "tests compare the looped and vectorised filters at one or two L; the carried-over values of the looped routine only start at large L and NaN or overflow there cannot be sampled", "anchors": ["s2wav/filters.py:filters_directional", "s2wav/filters.py:filters_axisym", "s2wav/filters.py:tiling_direction"]}
{"id": "C107", "title": "whole transforms in double precision", "statement": "analysis followed by synthesis of wavelet_c.py with all arithmetic of s2wav in IEEE double precision raises no exception and no infinity or NaN appears, provided s2fft's transforms are accurate: inverse followed by forward transform returns band-limited coefficients up to a relative error delta of norm, amplifies anything else by at most K, and adds at most tau. The coefficients handed to the final inverse transform are those of the input times the frame sum of the filters up to a relative error of norm B((1+e)(delta + K 2^-47) + e), e = (N+J+4) 2^-49, where B <= 2 bounds the frame sum. With the filters computed in double precision too (lam = 2) they are those of the input up to a relative error 1.01(delta + K 2^-47) plus (N+J+40) 2^-48 for L <= 17, plus 2^-30 for L <= 2049 and plus 0.0011 at any L (0.0021 with the looped routine). In exact arithmetic the same programs are those of the exact model.", "quantifier": "every L <= 2^52, N <= min(L, 990), J <= 1000, J_min, spin, reality flag, sampling scheme accepted by wavelet_c.py, every band-limited signal with coefficients up to 2^300, every s2fft engine of the stated accuracy, every summation order of the dot products", "why_tests_cant": "tests compare round trips with a tolerance at a handful of small L and random signals; an error bound for all band-limits, signals and engines, and freedom from overflow, cannot be sampled", "anchors": ["s2wav/transforms/wavelet_c.py:analysis", "s2wav/transforms/wavelet_c.py:synthesis", "s2wav/transforms/wavelet_c.py:147"]}
{"id": "C108", "title": "JAX filters in double precision", "statement": "In IEEE double precision filters_axisym_jax returns the same bits as filters_axisym_vectorised and raises the same exceptions, for all inputs. tiling_direction_jax and filters_directional_jax, with the same exp and gammaln, return the same bits as the NumPy routines, except that they raise OverflowError exactly when N >= 64 and L >= 65 (or L = 64 and N is even), because the Python integer 2**gamma no longer fits into an int64. With an exp and a gammaln of their own accuracy, for lam = 2 and N <= 63 they are free of NaN and infinity, have the right shape and exact zeros, are close to the filters of exact arithmetic, admissible up to rounding, and the whole round trip with them has the error bounds of C107.", "quantifier": "every L <= 2^53, N, J_min, spin; every exp and gammaln of the stated accuracy; bit equality for all inputs whatever", "why_tests_cant": "tests compare the two routines with a tolerance at a few small L and N; equality of bits for all inputs and the exact point from which JAX overflows cannot be sampled", "anchors": ["s2wav/filters.py:filters_axisym_jax", "s2wav/filters.py:filters_directional_jax", "s2wav/filters.py:tiling_direction_jax", "s2wav/filters.py:k_lam_jax", "s2wav/samples.py:binomial_coefficient_jax"]}
{"id": "C109", "title": "JAX, precompute and PyTorch transforms in double precision", "statement": "With everything s2wav computes itself in IEEE double precision, and with s2fft's transforms accurate up to a relative error delta, analysis and then synthesis of wavelet.py, of wavelet_precompute.py and of wavelet_precompute_torch.py succeed and hand to the final inverse transform the coefficients of the input, up to the relative error of C107: 1.01 (delta + K 2^-47) and what s2wav's own arithmetic and filters add, which is (N + J + 40) 2^-48 for L <= 17, 2^-30 for L <= 2049 and 0.0011 above. For other filters it is the frame sum times the coefficients. In exact arithmetic the programs used are those of the exact model, on all inputs.", "quantifier": "every configuration with 1 <= N <= L <= 2^52, J_min, spin, reality, sampling; precomputes given or computed (wavelet.py); every s2fft with the stated accuracy and every band-limited signal below 2^300", "why_tests_cant": "tests run a few small band-limits with a tolerance; an error bound over all band-limits, signals and roundings cannot be sampled", "anchors": ["s2wav/transforms/wavelet.py:analysis", "s2wav/transforms/wavelet.py:synthesis", "s2wav/transforms/wavelet_precompute.py:analysis", "s2wav/transforms/wavelet_precompute.py:synthesis", "s2wav/transforms/wavelet_precompute_torch.py:analysis", "s2wav/transforms/wavelet_precompute_torch.py:synthesis", "s2wav/transforms/construct.py:generate_wigner_precomputes"]}
{"id": "C110", "title": "base.py analysis and synthesis in double precision", "statement": "With everything s2wav computes itself in IEEE double precision, including the filters that base.py computes inside, and with s2fft's transforms accurate up to a relative error delta, analysis and then synthesis of base.py succeed, with and without multiresolution, and hand to the final inverse transform the coefficients of the input, up to the relative error of C107. With scattering the wavelet maps are those without, in absolute value. For any filters the coefficients come back times the frame sum. In exact arithmetic the programs used are those of the exact model, on all inputs.", "quantifier": "every configuration with 1 <= N <= L <= 2^52, J_min, spin, reality, sampling, nside, multiresolution; every s2fft with the stated accuracy and shapes and every band-limited signal below 2^300", "why_tests_cant": "tests run a few small band-limits with a tolerance; an error bound over all band-limits, signals and roundings cannot be sampled", "anchors": ["s2wav/transforms/base.py:analysis", "s2wav/transforms/base.py:synthesis", "s2wav/samples.py:wavelet_shape_check"]}
{"id": "C111", "title": "The double precision arithmetic is that of IEEE 754", "statement": "The arithmetic behind C98-C110 is IEEE binary64: rounding gives the one double that is nearest to the exact result, in case of two nearest ones the even one, and infinity from the middle between the largest double and 2^1024 on; doubles round to themselves; sums, products, quotients and square roots are the exact (extended real) results rounded, with NaN exactly for NaN operands, inf - inf, 0 * inf, inf / inf, 0 / 0 and roots of negative numbers; Python's division raises on zero; comparisons are exact and false for NaN; floor of a double is a double; integers are converted exactly up to 2^53 and with OverflowError where Python raises it.", "quantifier": "every real number and every pair of doubles, infinities and NaN", "why_tests_cant": "there are 2^128 pairs of operands; the statement characterises rounding uniquely", "anchors": ["s2wav/filters.py:tiling_integrand", "s2wav/filters.py:part_scaling_fn", "s2wav/filters.py:k_lam", "s2wav/samples.py:binomial_coefficient"]}
{"id": "C112", "title": "The looped transforms of base.py in double precision", "statement": "analysis_looped followed by synthesis_looped of base.py, with every product, sum and sign change s2wav performs rounded to double precision, raises nothing and hands to the final inverse transform the input coefficients times the frame sum of its filters, up to a relative error of norm B((1+e)(delta + kappa 2^-47) + e) with e = (N(J+1)+4)/2^49; with the looped filters computed in double precision (lam = 2) the input coefficients themselves come back, up to 1.01(delta + kappa 2^-47) + 0.0021, and (N(J+1)+40)/2^48 in place of 0.0021 for L <= 17. For real signals this is claimed for the orders m >= 0, the ones the inverse transform reads. In exact arithmetic the two programs are those of the exact model.", "quantifier": "every valid configuration with L <= 2^52, N <= 2^10 (990 with computed filters), J < 2^10, any J_min, spin, sampling, reality, with and without multiresolution, every band-limited input below 2^300 and all transforms accurate to delta, kappa, tau", "why_tests_cant": "errors accumulate along loops whose length grows with N and the number of scales; the bound holds for all band-limits and signals", "anchors": ["s2wav/transforms/base.py:analysis_looped", "s2wav/transforms/base.py:synthesis_looped", "s2wav/filters.py:filters_directional"]}
{"id": "C113", "title": "flm_to_analysis in double precision", "statement": "In any arithmetic whatsoever (any rounding, order of summation, infinities or NaN), if analysis returns maps then flm_to_analysis of the coefficients analysis computed returns the same maps to the bit, for all four back ends; flm_to_analysis(J_max=J') returns the maps of the scales J_min..J' computed from the same coefficients as with all scales, so lowering J_max only drops maps (the precompute back ends pick the kernel before the last one for the last scale, C34). In double precision the coefficients it inverts are finite and each within 2^-47 relatively (up to underflow) of those of the exact program. In exact arithmetic the four programs are those of the exact model, on all inputs.", "quantifier": "all inputs and arithmetics for the agreement with analysis; every L, N <= L, lam > 1, J_min >= 0 and J_min - 1 <= J' <= J for the maps; L <= 2^52, coefficients up to 2^300 and filters up to 2^30 for the error bound", "why_tests_cant": "bitwise agreement must hold whatever the backend's rounding and the values, including NaN; tests compare a few runs to a tolerance and never pass J_max", "anchors": ["s2wav/transforms/wavelet.py:flm_to_analysis", "s2wav/transforms/wavelet_c.py:flm_to_analysis", "s2wav/transforms/wavelet_precompute.py:flm_to_analysis", "s2wav/transforms/wavelet_precompute_torch.py:flm_to_analysis"]}
{"id": "C114", "title": "Spin-lowered filters (spin0) in double precision", "statement": "In IEEE double precision, _spin_normalization(l, s) is that of exact arithmetic up to a relative (4|s|+3)/2^51 as long as (l+|s|)!/(l-|s|)! <= 2^999; where that ratio exceeds 2^1025 it silently returns infinity for s > 0 and 0 for s < 0. filters_directional with spin0 = 0 is the routine without it to the bit; with spin0 != 0 and lam = 2 the filters are finite, vanish wherever those without spin0 do, and are those times (-1)^spin0 times the exact normalisation up to a relative (|spin0|+1)/2^48; for any negative spin0 the filters are finite but exactly zero at every degree where the product overflows, e.g. degree 1000 with spin0 = -60.", "quantifier": "every L with L + |spin0| <= 2^53, N <= 990, J_min, spin and spin0 != 0 under the stated bound on the ratio; every C library as accurate as documented", "why_tests_cant": "the tests never pass spin0; the loss of degrees by overflow needs a large spin0 and raises nothing", "anchors": ["s2wav/filters.py:_spin_normalization", "s2wav/filters.py:filters_directional"]}
{"id": "C115", "title": "The harmonic steps of the JAX transforms in single precision", "statement": "With IEEE single precision (JAX's default without jax_enable_x64), the analysis harmonic step of the JAX transforms returns each coefficient as conj(psi) f 8 pi^2/(2l+1) with a relative error at most 2^-18, the synthesis step sums with an error at most (N+J+4)/2^20 of the moduli summed, double precision filters cast to single keep the frame identity up to 2^-22, and an analysis followed by a synthesis returns flm within (N+J+11)/2^19 for L <= 2049 (plus 0.0011 for larger L), up to a tiny absolute term; the arithmetic assumed is exactly round-to-nearest-even of binary32 in the wording of IEEE 754. The operations +, -, *, /, sqrt and the conversion from double return the exact result rounded to nearest even, with the infinities and NaNs of IEEE 754.", "quantifier": "every L <= 2^23, N, J_min, spin, and every coefficient array of modulus <= 2^20 of single precision values", "why_tests_cant": "the tests switch JAX to 64 bits before anything is computed, so the precision users get by default is never exercised", "anchors": ["s2wav/transforms/wavelet.py:analysis", "s2wav/transforms/wavelet.py:synthesis"]}
{"id": "C116", "title": "The JAX filters in single precision", "statement": "In JAX's default 32-bit mode filters_directional_jax, for lam = 2, raises OverflowError for 32 or more directions at band-limits above 32 (exactly when 2**gamma exceeds an int32). For up to 31 directions and L <= 2^23 it returns finite single precision filters with the exact support, symmetric for N <= 15, whose squared moduli are within 2^-15 (N <= 15) or 0.0011 of those of exact arithmetic in the frame normalisation; the frame sum is 1 within 2^-15 for N <= 15 and L <= 2049 and in [0.9989, 1.0021] always; binomial coefficients are exact up to n = 14; and an analysis followed by a synthesis in single precision with these filters returns the coefficients within (N+J+26)/2^19 relative for N <= 15, L <= 2049, and 0.0021 + (N+J+10)/2^19 otherwise.", "quantifier": "every band-limit L <= 2^23, every number of directions, J_min, spin, C library and XLA exp / gammaln accurate to 2^-19", "why_tests_cant": "the tests switch JAX to 64 bits before anything is computed and use few directions, so neither the precision users get by default nor the overflow is exercised", "anchors": ["s2wav/filters.py:filters_directional_jax", "s2wav/filters.py:tiling_direction_jax", "s2wav/samples.py:binomial_coefficient_jax"]}
{"id": "C117", "title": "The JAX transforms in single precision", "statement": "analysis followed by synthesis of wavelet.py and of wavelet_precompute.py in JAX's default 32-bit mode, with s2fft's transforms accurate up to a relative error delta (amplifying rounding errors by at most kappa, with an absolute error tau for underflow): for a band-limited signal of norm at most 2^20 nothing raises and no infinity or NaN arises before the final inverse transform, and the coefficients handed to it are those of the input times the frame sum of the filters, up to a relative error of norm. With the NumPy filters (double precision, converted) that relative error is at most 1.01 (delta + kappa 2^-18) + (N+J+5)/2^19, plus 0.001 above L = 2049; with the JAX filters in single precision 1.01 (delta + kappa 2^-18) + (N+J+26)/2^19, plus 0.0012 for N from 16 to 31, plus 0.001 above L = 2049.", "quantifier": "every configuration with lam = 2, L <= 2^23, N <= 990 (31 for the JAX filters), every arithmetic accurate to single precision, every s2fft with the stated accuracy, every band-limited signal of norm up to 2^20", "why_tests_cant": "the tests switch JAX to 64 bits first, so the precision a user gets by default is never measured; and a test measures one signal, not the worst one", "anchors": ["s2wav/transforms/wavelet.py:analysis", "s2wav/transforms/wavelet.py:synthesis", "s2wav/transforms/wavelet_precompute.py:analysis", "s2wav/transforms/wavelet_precompute.py:synthesis"]}
{"id": "C118", "title": "lam = 3 in double precision, with its exact threshold", "statement": "k_lam in IEEE double precision with lam = 3 returns an array of finite numbers if and only if L <= 794; there every entry is non-negative, within 2^-31 of the value of exact arithmetic, and exactly 1 for l <= 3^(j-1) and exactly 0 for l >= 3^j. From L = 795 on the entry k[7, 794] of a call that returns is plus infinity. At L = 795 the call does return, and all other entries are finite.", "quantifier": "every band-limit with top scale at most 32, every C library accurate as assumed in C98 that returns a number in (0, 1] for 3^-1", "why_tests_cant": "one abscissa of one entry (j = 7, l = 794) out of a quarter of a million decides; tests with lam = 3 use small band-limits, and no test measures the distance to exact arithmetic", "anchors": ["s2wav/filters.py:k_lam", "s2wav/filters.py:part_scaling_fn", "s2wav/filters.py:tiling_integrand"]}
{"id": "C119", "title": "The filters in double precision with lam = 3", "statement": "In IEEE double precision with lam = 3 and L <= 794, filters_axisym_vectorised and filters_directional_vectorised return without exception, infinity or NaN; they vanish exactly outside the two bands of a scale, below the spin and at orders of the wrong parity; the axisymmetric ones have squares within 2^-29 of those of exact arithmetic and the frame sum is within 2^-29 of 1; analysis followed by synthesis with them returns each harmonic coefficient up to a relative 2^-29. From L = 795 on, any filters returned contain an infinity: the wavelet of scale 6 at degree 794. At L = 795 the axisymmetric ones are returned without exception.", "quantifier": "every L with top scale at most 32, every N <= 990, every J_min and spin, every C library as in C118 (and loggamma as in C101)", "why_tests_cant": "tests use lam = 3 at one or two small band-limits and compare implementations with each other; the failure needs L >= 795", "anchors": ["s2wav/filters.py:filters_axisym_vectorised", "s2wav/filters.py:filters_directional_vectorised", "s2wav/filters.py:k_lam"]}
{"id": "C120", "title": "The generating function in double precision with lam = 4", "statement": "In IEEE double precision with lam = 4, k_lam raises no exception and produces neither infinities nor NaN; every entry is non-negative and within 2^-31 of the entry in exact arithmetic, and the entries outside the transition band are exactly 1 and 0. So at every L from 795 to 2^48, where lam = 3 gives no array of finite numbers, lam = 4 does.", "quantifier": "every L <= 2^48, every top scale up to 498 (in particular the exact one), every C library as in C98", "why_tests_cant": "tests never use lam = 4 and cannot cover all band-limits; that no abscissa is rounded past 1 has to be shown for every l and j", "anchors": ["s2wav/filters.py:k_lam", "s2wav/filters.py:part_scaling_fn", "s2wav/filters.py:tiling_integrand"]}
{"id": "C121", "title": "The filters in double precision with lam = 4", "statement": "In IEEE double precision with lam = 4, filters_axisym_vectorised and filters_directional_vectorised return without exception, infinity or NaN; they vanish exactly outside the two bands of a scale, below the spin and at orders of the wrong parity; the axisymmetric ones have squares within 2^-29 of those of exact arithmetic. For L <= 1025 the frame sum is within 2^-29 of 1 and analysis followed by synthesis returns each harmonic coefficient up to a relative 2^-29; for L <= 2^48 both hold with 1/900.", "quantifier": "every L <= 2^48 with top scale at most 498, every N <= 990, every J_min and spin, every C library as in C120 (and loggamma as in C101)", "why_tests_cant": "tests never use lam = 4 and compare implementations with each other", "anchors": ["s2wav/filters.py:filters_axisym_vectorised", "s2wav/filters.py:filters_directional_vectorised", "s2wav/filters.py:k_lam"]}
{"id": "C122", "title": "The generating function in double precision with lam = 6, 7, 9 or 10", "statement": "In IEEE double precision k_lam has a non-finite entry for lam = 6 and L >= 228 (k[4,227]), for lam = 7 and L >= 9 (k[2,8]) and for lam = 10 and L >= 3 (k[1,2]), and never returns for lam = 9 and L >= 27, although in exact arithmetic all entries lie between 0 and 1 (proved for lam = 7, 9, 10 and L up to the limit of C62). The call with lam = 10, L = 3 returns without an exception.", "quantifier": "every band-limit above the threshold, every top scale not below the exact one, every C library with exp accurate to 2 ulp and exact powers where representable", "why_tests_cant": "tests use lam = 2 and lam = 3 only, at small band-limits", "anchors": ["s2wav/filters.py:k_lam", "s2wav/filters.py:part_scaling_fn", "s2wav/filters.py:tiling_integrand"]}
{"id": "C123", "title": "Which integers lam can be used in double precision", "statement": "In IEEE double precision with lam = 8, k_lam raises no exception and produces neither infinities nor NaN; every entry is non-negative and within 2^-31 of the entry in exact arithmetic, and the entries outside the transition band are exactly 1 and 0. Together with C98, C99, C120 and C122: for every band-limit from 795 to 2^48, among the integers from 2 to 10 exactly 2, 4 and 8 give an array of finite numbers.", "quantifier": "every L <= 2^48, every top scale up to 338 (in particular the exact one), every C library with exp accurate to 2 ulp and exact powers where representable", "why_tests_cant": "tests cannot cover all band-limits and do not use these values of lam", "anchors": ["s2wav/filters.py:k_lam", "s2wav/filters.py:part_scaling_fn", "s2wav/filters.py:tiling_integrand"]}
{"id": "C124", "title": "Infinite or NaN filters spoil the analysis of every signal, silently", "statement": "In IEEE double precision with lam = 5 (every L >= 2) and lam = 3 (every L >= 795), once k_lam has returned, the directional filters are returned without an exception although the wavelet of scale 1 at degree 1 (lam = 5), or of scale 6 at degree 794 (lam = 3), is not finite for any order. The harmonic step of the analysis then also returns, and all coefficients of that scale and degree that it computes are infinite or NaN, whatever the signal (even the zero signal).", "quantifier": "every band-limit above the threshold, every N <= min(L, 990), every J_min not above the scale, every spin not above the degree, every signal, every C library with exp accurate to 2 ulp and exact powers where representable", "why_tests_cant": "tests use lam = 2 only (lam = 3 at one small band-limit); the failure raises nothing", "anchors": ["s2wav/filters.py:filters_directional_vectorised", "s2wav/filters.py:filters_axisym_vectorised", "s2wav/transforms/wavelet.py:analysis"]}
{"id": "C125", "title": "lam = 8 in double precision: filters accurate and admissible, round trip close to the identity", "statement": "In IEEE double precision with lam = 8 the axisymmetric and directional filters are returned without an exception, infinity or NaN; the squares of the axisymmetric ones are within 2^-29 of those of exact arithmetic; entries outside the bands, below the spin, above the degree, of order N or more and of wrong parity are exactly zero; the squares add up to 1 within 1/900 at every degree from the spin on (within 2^-29 for L <= 513); analysis followed by synthesis with these filters returns a band-limited signal up to the same relative errors.", "quantifier": "every band-limit L <= 2^48, every N <= 990, every J_min below the top scale (at most 338), every spin, every C library with exp accurate to 2 ulp and exact powers where representable", "why_tests_cant": "tests use lam = 2 only (lam = 3 at one small band-limit)", "anchors": ["s2wav/filters.py:filters_axisym_vectorised", "s2wav/filters.py:filters_directional_vectorised", "s2wav/filters.py:k_lam"]}
{"id": "C126", "title": "The whole transforms in double precision with lam = 3, 4 and 8", "statement": "In IEEE double precision with lam = 3, 4 or 8 and the package's own directional filters, analysis followed by synthesis raises nothing and returns the harmonic coefficients of the input up to a relative error of norm: 1.01 times what s2fft's transforms contribute, plus 2^-28 (lam = 3, L <= 794; lam = 4, L <= 1025; lam = 8, L <= 513), or plus 0.0012 (lam = 4 or 8, L <= 2^48). This holds for all five implementations; for base.py with and without multiresolution, and with scattering the wavelet maps are the absolute values.", "quantifier": "every band-limit in those ranges, every N <= min(L, 990) (at most 41 for real signals), every J_min, spin and sampling, every band-limited signal with coefficients up to 2^300, every C library as in C118, C120 and C123, every s2fft of a stated accuracy", "why_tests_cant": "tests never leave lam = 2 in a round trip, and compare a few random signals at small band-limits", "anchors": ["s2wav/transforms/wavelet_c.py:analysis", "s2wav/transforms/wavelet_c.py:synthesis", "s2wav/transforms/wavelet_c.py:147", "s2wav/transforms/wavelet.py:analysis", "s2wav/transforms/wavelet.py:synthesis", "s2wav/transforms/wavelet_precompute.py:analysis", "s2wav/transforms/wavelet_precompute.py:synthesis", "s2wav/transforms/wavelet_precompute_torch.py:analysis", "s2wav/transforms/wavelet_precompute_torch.py:synthesis", "s2wav/transforms/construct.py:generate_wigner_precomputes", "s2wav/transforms/base.py:analysis", "s2wav/transforms/base.py:synthesis", "s2wav/samples.py:wavelet_shape_check"]}
{"id": "C127", "title": "The JAX filters in double precision with lam = 3, 4 and 8", "statement": "In IEEE double precision with lam = 3 (L <= 794), 4 or 8 (L <= 2^48), filters_directional_jax with at most 63 directions returns without exception, infinity or NaN; entries outside the bands, below the spin, above the degree, of order N or more and of wrong parity are exactly zero; the frame sum is within 1/900 of 1 at every degree from the spin on, and within 2^-29 for lam = 3, for lam = 4 and L <= 1025, and for lam = 8 and L <= 513. With 64 directions or more and L >= 65 (or L = 64 and N even) it raises OverflowError, while the NumPy routine returns.", "quantifier": "every band-limit in the ranges, every J_min below the top scale, every spin, every C library as in C118, C120 and C123, every exp and gammaln of XLA as accurate as in C108", "why_tests_cant": "tests of the JAX filters use lam = 2 and at most a few directions, and compare with the NumPy routine", "anchors": ["s2wav/filters.py:filters_axisym_jax", "s2wav/filters.py:filters_directional_jax", "s2wav/filters.py:tiling_direction_jax", "s2wav/filters.py:k_lam_jax", "s2wav/samples.py:binomial_coefficient_jax"]}
{"id": "C128", "title": "Non-finite generating functions with lam = 6, 7 and 10 spoil every analysis", "statement": "In IEEE double precision, when k_lam returns with lam = 6 (L >= 228), 7 (L >= 9) or 10 (L >= 3), filters_directional_vectorised returns without exception a wavelet filter that is not finite (at one of two neighbouring scales, degree 227, 8 or 2), and generate_and_apply_wavelets then gives, for every signal including zero, harmonic wavelet coefficients of that degree that are infinite or NaN in every even direction slot and every order, also without exception. For lam = 10, L = 3 and for lam = 7, L = 9 such a call does return.", "quantifier": "every band-limit from the stated one on, N from 1 to min(L, 990), every J_min up to the affected scale, every spin not above the affected degree, every signal, every C library as in C99 (and 10^-1 close to 1/10 for lam = 10)", "why_tests_cant": "the tests use lam = 2 and 3 with small L and no test looks at infinities", "anchors": ["s2wav/filters.py:filters_directional_vectorised", "s2wav/filters.py:filters_axisym_vectorised", "s2wav/transforms/wavelet.py:analysis"]}
{"id": "C129", "title": "Dilations too large for the band-limits in double precision", "statement": "In IEEE double precision wav_j_bandlimit and LN_j with multiresolution raise OverflowError at any scale j whose power lam^(j+1) (lam^2 for j = 0) is not below 2^1024, whatever L, because the power is formed before the minimum with L; with lam >= 2^512 this is every scale, although the exact band-limit is L and the calls return without multiresolution. scal_bandlimit is affected from J_min = 2 on. Conversely, as long as (L+1) lam^2 <= 2^1023 every band-limit of every scale up to the j_max found in double precision is computed without exception and is at most L.", "quantifier": "every lam, L, N and scale as stated, every C library whose pow overflows beyond 2^1024 and returns a number up to 2^1023", "why_tests_cant": "the tests use lam = 2 and 3; the overflow needs a lam that no one tries", "anchors": ["s2wav/samples.py:LN_j", "s2wav/samples.py:wav_j_bandlimit", "s2wav/samples.py:L0_j", "s2wav/samples.py:scal_bandlimit", "s2wav/filters.py:k_lam"]}
{"id": "C130", "title": "Looped filters in double precision with lam = 3, 4 and 8", "statement": "In IEEE double precision with lam = 3 (L <= 794), 4 or 8 (L <= 2^48), filters_axisym and filters_directional (spin0 = 0) return without exception, infinity or NaN for up to 990 directions and any spin. Their scaling function is that of the vectorised routines bit for bit; the axisymmetric wavelets from J_min on equal the vectorised ones bit for bit wherever those are not zero. Wavelet entries are exactly zero below J_min, outside the two bands of their scale, below the spin and at orders the steerable tiling leaves out. The frame sum lies between 1 - 2^-32 and 1.002 + 2^-27, and analysis followed by synthesis with these filters returns every harmonic coefficient up to a factor in that range.", "quantifier": "every L, N, J_min, spin as stated and every C library and gammaln meeting the stated accuracy; the gain for every backend, signal and configuration", "why_tests_cant": "the looped routines are compared with the vectorised ones at a few band-limits with lam = 2 and 3; carrying over the previous entry happens only at some degrees", "anchors": ["s2wav/filters.py:filters_directional", "s2wav/filters.py:filters_axisym", "s2wav/filters.py:tiling_direction"]}
{"id": "C131", "title": "The JAX filters in single precision with lam = 3, 4 and 8", "statement": "In JAX's default 32-bit mode filters_directional_jax with lam = 3 (L <= 794), 4 or 8 (L <= 2^23) raises OverflowError for 32 or more directions at band-limits above 32. For up to 31 directions it returns finite single precision filters with the exact support, symmetric for N <= 15, whose squared moduli are within 2^-15 (N <= 15) or 0.0011 of those of exact arithmetic in the frame normalisation. The frame sum lies in [0.9989, 1.0021] always, and within 2^-15 of 1 for N <= 15 with lam = 3, lam = 4 and L <= 1025, or lam = 8 and L <= 513. An analysis followed by a synthesis in single precision with these filters returns the coefficients within (N+J+26)/2^19 relative in those cases, and 0.0021 + (N+J+10)/2^19 otherwise.", "quantifier": "every band-limit, number of directions, J_min and spin as stated, every C library and XLA exp / gammaln meeting the stated accuracy, and every signal", "why_tests_cant": "the tests switch JAX to 64 bits before anything is computed and use few directions and two values of lam", "anchors": ["s2wav/filters.py:filters_directional_jax", "s2wav/filters.py:tiling_direction_jax", "s2wav/samples.py:binomial_coefficient_jax"]}
{"id": "C132", "title": "The JAX transforms in single precision with lam = 3, 4 and 8", "statement": "analysis followed by synthesis of wavelet.py and of wavelet_precompute.py in JAX's default 32-bit mode with lam = 3 (L <= 794), 4 or 8 (L <= 2^23), with s2fft's transforms accurate up to a relative error delta (amplifying rounding errors by at most kappa): for a band-limited signal of norm at most 2^20 nothing raises and no infinity or NaN arises before the final inverse transform, and the coefficients handed to it are those of the input up to a relative error of norm 1.01 (delta + kappa 2^-18) + (N+J+5)/2^19 with the NumPy filters (double precision, converted; up to 990 directions), and 1.01 (delta + kappa 2^-18) + (N+J+26)/2^19 with the JAX filters in single precision, plus 0.0012 for N from 16 to 31; plus 1/900 for lam = 4 above L = 1025 and lam = 8 above L = 513. Converting the NumPy filters overflows nowhere, gives the nearest single precision numbers and changes the frame sum by less than 2^-22.", "quantifier": "every configuration as stated, every signal, every s2fft meeting the stated accuracy, every C library, gammaln and XLA exp meeting theirs", "why_tests_cant": "the tests switch JAX to 64 bits and compare with tolerances at a few small band-limits", "anchors": ["s2wav/transforms/wavelet.py:analysis", "s2wav/transforms/wavelet.py:synthesis", "s2wav/transforms/wavelet_precompute.py:analysis", "s2wav/transforms/wavelet_precompute.py:synthesis"]}
{"id": "C133", "title": "The looped transforms of base.py in double precision with lam = 3, 4 and 8", "statement": "analysis_looped followed by synthesis_looped of base.py in IEEE double precision, with or without multiresolution, with lam = 3 (L <= 794), 4 or 8 (L <= 2^48) and up to 990 directions, computing the looped filters themselves: nothing raises before the final inverse transform, and the coefficients handed to it are those of the input up to a relative error of norm 1.01 (delta + kappa 2^-47) plus 0.0011 (lam = 3; lam = 4, L <= 1025; lam = 8, L <= 513) or 0.0021. For real signals this is claimed at the orders m >= 0, the only ones the inverse transform reads.", "quantifier": "every configuration as stated, every signal with coefficients up to 2^300, every s2fft meeting the stated accuracy and every C library and gammaln meeting theirs", "why_tests_cant": "the looped transforms are compared with the vectorised ones on random signals at one small band-limit", "anchors": ["s2wav/transforms/base.py:analysis_looped", "s2wav/transforms/base.py:synthesis_looped", "s2wav/filters.py:filters_directional"]}
{"id": "C134", "title": "Spin-lowered filters (spin0) in double precision with lam = 3, 4 and 8", "statement": "filters_directional(..., spin0) in IEEE double precision with lam = 3 (L <= 794), 4 or 8 (L <= 2^48): as long as (L-1+|spin0|)! / (L-1-|spin0|)! stays below 2^999 it returns finite filters, each entry that of the same call without spin0 times (-1)^spin0 times the exact normalisation, up to a relative error of (|spin0|+1)/2^48, and zero wherever that entry is. For a negative spin0 of any size it returns finite filters, but at every degree where the factorial ratio exceeds 2^1025 they are exactly zero, although the normalisation of exact arithmetic is positive.", "quantifier": "every L, N <= 990, J_min, spin, spin0 as stated and every C library and gammaln meeting the stated accuracy", "why_tests_cant": "spin0 is not exercised by the tests, and the lost degrees appear only at large L and spin0", "anchors": ["s2wav/filters.py:_spin_normalization", "s2wav/filters.py:filters_directional"]}
{"id": "C135", "title": "Overflow of the spin-lowered filters for a positive spin0", "statement": "filters_directional(..., spin0) in IEEE double precision with spin0 > 0: for every input and every lam it raises exactly when the same call without spin0 (from degree max(|spin|, spin0) on) does, with the same exception, and otherwise each entry is zero in both or the entry without spin0 times the computed normalisation times (-1)^spin0. At a degree l with (l+spin0)! / (l-spin0)! >= 2^1025 every entry that is finite and nonzero without spin0 is infinite or NaN with it. For lam = 2, 3, 4 and 8 every such degree below L does carry such an entry, so the returned filters are not finite there, and no exception is raised.", "quantifier": "every L, N, J_min, lam, spin, spin0 > 0 (first part); spin0 <= 2^48, L + spin0 <= 2^53, N <= 990 and every C library and gammaln meeting the stated accuracy (second part)", "why_tests_cant": "the tests never pass spin0, and the overflow appears only at large L and spin0 (e.g. degree 1000 with spin0 = 60)", "anchors": ["s2wav/filters.py:_spin_normalization", "s2wav/filters.py:filters_directional"]}
{"id": "C136", "title": "The looped round trip with a negative spin0 in double precision", "statement": "analysis_looped and then synthesis_looped in IEEE double precision with spin0 < 0: nothing is raised, and the coefficients handed to the final inverse transform are those of the input times a factor depending on the degree l only, up to the stated relative rounding error and an absolute error for underflow. The factor is (l-|spin0|)! / (l+|spin0|)! within 0.22 percent, not 1; it is 0 below max(|spin|, |spin0|) and wherever (l+|spin0|)! / (l-|spin0|)! >= 2^1025. So with spin0 the pair is not a round trip.", "quantifier": "every valid configuration with lam = 2 (L <= 2^52, N <= 990) or lam = 3, 4, 8 in the range of C130, -2^48 <= spin0 < 0, multiresolution on or off, every band-limited signal with coefficients up to 2^300, every transform library meeting the stated accuracy", "why_tests_cant": "the tests never pass spin0, and the result has the right shape and raises nothing", "anchors": ["s2wav/transforms/base.py:analysis_looped", "s2wav/transforms/base.py:synthesis_looped", "s2wav/filters.py:filters_directional", "s2wav/filters.py:_spin_normalization"]}
{"id": "C137", "title": "The looped round trip with spin0 in exact arithmetic", "statement": "analysis_looped and then synthesis_looped with any spin0, exact transforms and a generating function that does not exceed 1 (always so for lam = 2, ..., 10 up to the limit of C62): nothing is raised, and every coefficient of degree l handed to the final inverse transform is that of the signal times (l+spin0)! / (l-spin0)!, with degrees below max(|spin|, |spin0|) set to zero. So a positive spin0 at least doubles every coefficient of the remaining degrees, and a negative one at least halves every coefficient: the pair is a round trip for spin0 = 0 only.", "quantifier": "every configuration (any number of directions N), spin, spin0, signal, multiresolution and reality on or off", "why_tests_cant": "the tests never pass spin0; the result has the right shape and raises nothing", "anchors": ["s2wav/transforms/base.py:analysis_looped", "s2wav/transforms/base.py:synthesis_looped", "s2wav/filters.py:filters_directional", "s2wav/filters.py:_spin_normalization"]}
{"id": "C138", "title": "The check of J_min in floating point", "statement": "The floating point constructions of the filters (axisymmetric and directional; NumPy loop with and without spin0, NumPy vectorised, JAX in double and in single precision) raise ValueError unless 0 <= J_min < J for the computed top scale J, and pass on an exception of j_max; with the j_max computed in double precision and lam <= 1 they all raise the exception that the exact filters_axisym raises, whatever L, N, J_min and the spins are: there is no silent result for a lam that does not dilate.", "quantifier": "every L, N, J_min, spin, spin0, every top scale; every double lam <= 1 and |L| <= 2^40 for the last part", "why_tests_cant": "the tests only use admissible scales and lam = 2 or 3; whether log(L)/log(lam) is computed as finite, infinite or NaN differs between values of lam and L", "anchors": ["s2wav/filters.py:filters_axisym", "s2wav/filters.py:filters_axisym_vectorised", "s2wav/filters.py:filters_axisym_jax", "s2wav/filters.py:filters_directional", "s2wav/filters.py:filters_directional_vectorised", "s2wav/filters.py:filters_directional_jax", "s2wav/samples.py:j_max"]}
{"id": "C139", "title": "Band-limits in double precision for any lam", "statement": "With a power function that returns one of the two doubles next to the exact power, scal_bandlimit, wav_j_bandlimit and (for powers up to 2^53) L0_j raise nothing and return the exact value or one less, the latter only if the computed power is an integer below the exact one. That does happen: with lam = 2 ** (1/3) and a correctly rounded power the band-limits at J_min = 3 and at j = 2 are 2 instead of 3 for every L >= 3. Such powers of a double lam > 1 never decrease, so the computed filters still vanish at and above the computed band-limits, and below the computed lower limits, and LN_j is consistent: 1 <= Lj <= L, 1 <= L0j, min(L0j, L) <= Lj, and Nj is the least number of the parity of N not below min(N, Lj).", "quantifier": "every double lam > 0 (lam > 1 for the last part), every L <= 2^53, every scale, every such power function", "why_tests_cant": "the tests use lam = 2 and 3, whose powers are exact; the deviation needs a power within half a unit in the last place of an integer", "anchors": ["s2wav/samples.py:scal_bandlimit", "s2wav/samples.py:wav_j_bandlimit", "s2wav/samples.py:L0_j", "s2wav/filters.py:filters_axisym_vectorised"]}
