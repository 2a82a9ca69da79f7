#!/usr/bin/env python3
"""Regenerates /verif/properties.jsonl (kept as a script only so that long strings stay readable)."""
import json
P=[]
def p(title, statement, quantifier, why, anchors):
    P.append(dict(id="C%02d"%(len(P)+1), title=title, statement=statement, quantifier=quantifier, why_tests_cant=why, anchors=anchors))
S="s2wav/samples.py"; F="s2wav/filters.py"; B="s2wav/transforms/base.py"; W="s2wav/transforms/wavelet.py"
C="s2wav/transforms/wavelet_c.py"; PJ="s2wav/transforms/wavelet_precompute.py"; PT="s2wav/transforms/wavelet_precompute_torch.py"; K="s2wav/transforms/construct.py"
def a(f,*s): return [f"{f}:{x}" for x in s]

p("j_max is the tight top scale",
  "samples.j_max(L, lam) returns the least J >= 0 with lam**J >= L; in particular lam**(J-1) < L <= lam**J whenever L >= 2.",
  "every integer L >= 1 and every real lam > 1 (exact arithmetic)",
  "there are infinitely many (L, lam); tests try L=8,16 and lam=2,3 only", a(S,"j_max"))
p("number of scales is consistent everywhere",
  "For the same (L, N, J_min, lam), n_wav_scales equals the length of every list produced by construct_f, construct_f_jax, construct_f_torch, construct_flmn, construct_flmn_jax and construct_flmn_torch (default J_max), and of the wavelet list returned by every analysis routine.",
  "every L >= 1, N >= 1, lam > 1 and J_min with J_min <= j_max+1",
  "list lengths depend on a real logarithm; the agreement must hold for all parameter combinations", a(S,"n_wav_scales","construct_f","construct_f_jax","construct_f_torch","construct_flmn","construct_flmn_jax","construct_flmn_torch"))
p("multiresolution band-limits are nested and saturate",
  "With multiresolution, the band-limit of scale j never exceeds L, is at least 1, is non-decreasing in j, equals L for the two top scales j_max-1 and j_max, and scale 0 is treated like scale 1. Without multiresolution it is always L.",
  "every L >= 1, lam > 1 and all scales j",
  "quantifies over all pairs of scales and a real parameter", a(S,"wav_j_bandlimit","LN_j","flmn_wav_j"))
p("per-scale directional limit keeps parity and loses no orientation",
  "LN_j returns Nj with Nj congruent to N mod 2, min(N,Lj) <= Nj <= min(N, Lj+1) and Nj >= 1; without multiresolution it returns (L, N, 0).",
  "every L >= 1, N >= 1, lam > 1 and j >= 0, both values of multiresolution",
  "parity correction interacts with every combination of N and Lj; tests use N in {2,3}", a(S,"LN_j"))
p("scaling band-limit is consistent across helpers",
  "f_scal, construct_flm, construct_flm_jax and scal_bandlimit all use the same band-limit Ls = min(ceil(lam**J_min), L) (or L), 1 <= Ls <= L, and it is non-decreasing in J_min.",
  "every L >= 1, lam > 1, J_min",
  "same formula is duplicated in several functions, must agree for all inputs", a(S,"f_scal","scal_bandlimit","construct_flm","construct_flm_jax"))
p("generating function k_lam is well defined",
  "k_lam never divides by zero, returns an array of shape (j_max+2, L) whose entries are >= 0, equal 1 when l < lam**(j-1), equal 0 when l >= lam**j, equal 1 at l = lam**(j-1); k_lam_jax returns the same array.",
  "every L >= 1, every lam > 1, every quad_iters >= 3",
  "the integrand has poles exactly at the quadrature end points; the skip logic must avoid them for every lam, l, j", a(F,"k_lam","k_lam_jax","part_scaling_fn","tiling_integrand"))
p("axisymmetric wavelets have compact support",
  "psi[j,l] of filters_axisym(_vectorised/_jax) vanishes unless lam**(j-1) < l < lam**(j+1); phi[l] vanishes for l >= lam**J_min and is 1 for l < lam**(J_min-1) or l=0; consequently at most two consecutive scales overlap any degree l.",
  "every L, lam > 1, valid J_min, every scale j and degree l",
  "support edges depend on real powers of lam", a(F,"filters_axisym","filters_axisym_vectorised","filters_axisym_jax"))
p("multiresolution truncation loses nothing",
  "Every directional filter coefficient psi[j,l,n] that falls outside L0j <= l < Lj, |n| < Nj, or has n of the wrong parity (so that the multiresolution transforms never read it) is exactly zero, and phi[l]=0 for l >= Ls.",
  "every L, N >= 1, lam > 1, valid J_min, spin, every j >= J_min, l, n",
  "correctness of storing scales at reduced resolution is a statement about all filter entries not stored", a(S,"LN_j","L0_j","scal_bandlimit")+a(F,"filters_directional","filters_directional_vectorised"))
p("axisymmetric admissibility",
  "phi[l]**2 + sum_{j=J_min}^{j_max} psi[j,l]**2 = 1 for every degree l (up to quadrature overshoot: in exact arithmetic the sum is exactly max(1, max_j k_lam[j,l]) for the vectorised filters and 1 whenever k_lam does not exceed 1).",
  "every L >= 2, lam > 1, valid J_min, every l < L",
  "resolution of the identity must hold at every degree for all parameters; tests check two L and two lam", a(F,"filters_axisym","filters_axisym_vectorised","filters_axisym_jax","k_lam"))
p("directional tiling has unit energy",
  "sum_m |s_elm[l,m]|**2 = 1 for every 1 <= l < L, and row l = 0 is zero, for tiling_direction and tiling_direction_jax.",
  "every L >= 1, N >= 1, every degree l",
  "needs the binomial theorem with the parity-adjusted gamma for all l, N", a(F,"tiling_direction","tiling_direction_jax"))
p("directional admissibility",
  "4pi/(2l+1) |phi[l]|**2 + 8pi^2/(2l+1) sum_{j,n} |psi[j,l,n]|**2 equals 1 for every l >= |spin| when spin0 = 0 (same quadrature proviso as C09), and the square of the spin normalisation when spin0 != 0 in the looped filters; it is 0 below max(|spin|,|spin0|).",
  "every L >= 2, N >= 1, lam > 1, valid J_min, spin, spin0, l",
  "combines infinitely many parameters; tests only spin=0 and N in {2,3}", a(F,"filters_directional","filters_directional_vectorised","filters_directional_jax"))
p("J_min validation is exact",
  "filters_axisym, filters_axisym_vectorised, filters_axisym_jax and the directional builders raise ValueError exactly when J_min < 0 or J_min >= j_max(L, lam); otherwise (spin0 = 0) they return arrays of shape (j_max+1, L[,2L-1]) and (L,) and no other exception, division by zero, or NaN can occur.",
  "every L >= 1, lam > 1, J_min, N >= 1, spin",
  "totality claim over all parameters", a(F,"filters_axisym","filters_axisym_vectorised","filters_axisym_jax","filters_directional","filters_directional_vectorised","filters_directional_jax"))
p("vectorised axisymmetric filters equal the looped ones on used scales",
  "For every j >= J_min and l, filters_axisym and filters_axisym_vectorised return the same psi[j,l] and phi[l] whenever k_lam does not overshoot 1. Rows j < J_min are zero in the looped version but in general not in the vectorised version.",
  "every L, lam > 1, valid J_min, j, l",
  "tests only compare at J_min=0", a(F,"filters_axisym","filters_axisym_vectorised"))
p("JAX axisymmetric and directional filters equal the vectorised ones",
  "filters_axisym_jax = filters_axisym_vectorised and filters_directional_jax = filters_directional_vectorised, including which calls raise.",
  "every L, N >= 1, lam > 1, J_min, spin, spin0",
  "equality of two programs for all inputs", a(F,"filters_axisym_jax","filters_directional_jax","tiling_direction_jax"))
p("vectorised directional filters equal the looped ones on used scales",
  "For spin0 = 0, filters_directional and filters_directional_vectorised agree for every j >= J_min whenever k_lam does not overshoot 1; rows j < J_min of the looped filters are zero.",
  "every L, N >= 1, lam > 1, valid J_min, spin, j, l, n",
  "equality of two programs for all inputs", a(F,"filters_directional","filters_directional_vectorised"))
p("spin-lowered filters: vectorised builders are unusable",
  "For every spin0 != 0 filters_directional_vectorised and filters_directional_jax raise ValueError (reshape of 2|s| elements into 2|s|+1) although filters_directional succeeds; hence base.analysis and base.synthesis raise for every spin0 != 0. (The agreement one would rely on is false.)",
  "every spin0 != 0, all other parameters",
  "a universally failing configuration never covered by tests; universal over spin0", a(F,"_spin_normalization_vectorised","_spin_normalization_jax","filters_directional_vectorised"))
p("spin normalisation is the factorial ratio",
  "_spin_normalization(l, s) = sqrt((l+s)!/(l-s)!) for every |s| <= l, positive and with product 1 for s and -s.",
  "every l >= 0 and |s| <= l", "closed form for all l, s", a(F,"_spin_normalization"))
p("binomial coefficient is exact",
  "binomial_coefficient(n,k) equals the integer binomial coefficient for 0 <= k <= n (exact-arithmetic log-gamma), and tiling_direction only ever calls it in that range with an integral k (so never hits a NaN of log-gamma).",
  "every n, k; every L, N, l, m in the tiling loop", "all-integers claim", a(S,"binomial_coefficient","binomial_coefficient_jax")+a(F,"tiling_direction"))
p("wavelets are real-valued and even in the reality sense",
  "psi[j,l,-n] = (-1)**n conj(psi[j,l,n]) and each s_elm is purely real (N odd) or purely imaginary (N even), vanishing unless n has the parity of N-1 and |n| <= min(N-1,l).",
  "every L, N >= 1, j, l, n", "symmetry over all entries and parameters", a(F,"tiling_direction","filters_directional"))
p("filters vanish below the spin",
  "psi[j,l,n]=0 and phi[l]=0 for l < max(|spin|,|spin0|); psi[j,0,n]=0 always (monopole is carried only by scaling coefficients).",
  "every parameter choice", "universal over spin and parameters", a(F,"filters_directional","filters_directional_vectorised","filters_directional_jax"))
p("base vectorised analysis equals looped analysis",
  "base.analysis and base.analysis_looped return the same coefficients (complex signals, any spin, spin0 = 0, N <= L, either multiresolution setting, no overshoot).",
  "every signal, L, N <= L, lam, J_min, spin, sampling", "equality of two programs on all signals", a(B,"analysis","analysis_looped"))
p("base vectorised synthesis equals looped synthesis",
  "base.synthesis and base.synthesis_looped return the same signal on the same band-limited wavelet coefficients (reality False; and reality True although the looped version double-counts at m<0, because the real inverse transform reads only m >= 0).",
  "every coefficient set, L, N <= L, lam, J_min, spin", "equality of two programs on all inputs", a(B,"synthesis","synthesis_looped"))
p("reality flag does not change results for real signals",
  "For a flm with Hermitian symmetry (spin 0), the wavelet and scaling harmonic coefficients computed by analysis_looped with reality=True equal those with reality=False.",
  "every Hermitian-symmetric signal and parameters", "equality on all real signals", a(B,"analysis_looped"))
p("exact reconstruction, NumPy transforms",
  "synthesis(analysis(f)) = f for every band-limited f: base.analysis/base.synthesis and the looped pair, both multiresolution settings, any spin with spin0=0, given exact underlying s2fft transforms; in general each degree l is multiplied by exactly max(1, max_j k_lam[j,l]).",
  "every band-limited signal, L >= 2, 1 <= N <= L, lam > 1, valid J_min, spin, sampling with exact s2fft transforms",
  "reconstruction for all signals and parameters", a(B,"analysis","synthesis","analysis_looped","synthesis_looped"))
p("exact reconstruction, JAX / C / precompute transforms",
  "The same holds for wavelet.analysis/synthesis, wavelet_c, wavelet_precompute and wavelet_precompute_torch with filters from filters_directional_vectorised and matching precomputes.",
  "every band-limited signal and parameters", "reconstruction for all signals and parameters", a(W,"analysis","synthesis")+a(C,"analysis","synthesis")+a(PJ,"analysis","synthesis")+a(PT,"analysis","synthesis"))
p("all backends compute the same coefficients",
  "Given agreeing s2fft transforms, wavelet.analysis, wavelet_c.analysis, wavelet_precompute.analysis and wavelet_precompute_torch.analysis return the same wavelet coefficients as base.analysis(multiresolution=True), and the same scaling coefficients when Ls > 1.",
  "every signal and parameters", "program equivalence", a(B,"analysis")+a(W,"analysis")+a(C,"analysis","_generate_and_apply_wavelets","_generate_and_apply_scaling")+a(PJ,"analysis")+a(PT,"analysis"))
p("analysis is linear", "analysis(a f + b g) has harmonic coefficients a analysis(f) + b analysis(g).",
  "every pair of signals and scalars", "universal over signals", a(B,"analysis")+a(W,"analysis"))
p("synthesis is linear", "synthesis of a linear combination of coefficients is the linear combination of the syntheses.",
  "every pair of coefficient sets and scalars", "universal over coefficients", a(B,"synthesis"))
p("energy conservation (tight frame)",
  "sum |flm|^2 = sum |scaling lm|^2 + sum_j sum (2l+1)/(8 pi^2) |wavelet lmn|^2 for the coefficients produced by analysis (weighted degree-wise by max(1, max_j k_lam) in general).",
  "every signal and parameters", "universal over signals", a(B,"analysis"))
p("synthesis is the adjoint of analysis",
  "<analysis(f), w> = <f, synthesis(w)> for the weighted Wigner inner product, which is what makes gradients of one expressible through the other.",
  "every signal f and coefficient set w", "universal over pairs", a(B,"analysis","synthesis"))
p("analysis output is accepted by synthesis; malformed input is rejected",
  "The arrays returned by base.analysis always pass wavelet_shape_check of base.synthesis with the same parameters, and if the number of scales, the scaling shape or any scale's shape is wrong, base.synthesis raises AssertionError before computing anything.",
  "every parameters; every malformed coefficient list", "universal over shapes", a(S,"wavelet_shape_check")+a(B,"synthesis","analysis"))
p("full precompute kernels are matched to scales",
  "In the precompute transforms every scale j reads the kernel generated for exactly its own (Lj, Nj) and for the right direction, although the kernel of scale j_max is not generated (shared with j_max-1).",
  "every L >= 2, N >= 1, lam > 1, valid J_min, j", "index shift correct for all parameters", a(K,"generate_full_precomputes")+a(PJ,"analysis","synthesis")+a(PT,"analysis","synthesis"))
p("flm_to_analysis agrees with analysis and J_max truncates",
  "flm_to_analysis applied to the harmonic transform of f returns the wavelet part of analysis(f); with J_max it returns the first J_max-J_min+1 scales of the full result (JAX, C).",
  "every signal, parameters and J_min <= J_max <= j_max", "program equivalence", a(W,"flm_to_analysis")+a(C,"flm_to_analysis"))
p("precompute flm_to_analysis with J_max < j_max picks the wrong kernel",
  "With _precomp_shift=False the precompute version uses the right kernel for every J_max < j_max; with the default (and always in torch) the top scale uses the kernel of the previous scale - wrong whenever Lj differs - and for J_max = J_min it silently wraps to the last kernel.",
  "every parameters with J_max < j_max", "index arithmetic for all parameters, negative-index wrap-around", a(PJ,"flm_to_analysis")+a(PT,"flm_to_analysis"))
p("required arguments and samplings are validated",
  "Precompute transforms raise ValueError when precomps is None; the C transforms raise ValueError for healpix in any letter case and for unknown sampling names and accept mw, mwss, dh, gl; calling wavelet.analysis without filters always fails.",
  "every other argument", "universal over remaining arguments", a(PJ,"analysis","synthesis","flm_to_analysis")+a(PT,"analysis")+a(C,"analysis","synthesis")+a(W,"analysis"))
p("rotation equivariance",
  "Analysis acts independently of m: for any degree-wise linear action D on the azimuthal index (in particular rotations), the wavelet coefficients of D f are D applied to the wavelet coefficients of f.",
  "every signal and every degree-wise action", "universal over rotations and signals", a(B,"analysis"))
p("scale locality",
  "Changing flm at a single degree l affects only wavelet scales j with lam**(j-1) < l < lam**(j+1) (at most two) and the scaling coefficients only if l < lam**J_min.",
  "every pair of signals and degree", "universal over signals", a(B,"analysis"))
p("multiresolution and full-resolution agree",
  "base.analysis with multiresolution True/False contain the same non-zero harmonic coefficients, and multiresolution never needs more samples.",
  "every signal and parameters", "universal", a(B,"analysis")+a(S,"LN_j","f_wav_j"))
p("over-estimated j_max is harmless",
  "If floating-point rounding makes j_max one (or more) too large, filters stay admissible and the extra scale carries no information (all its coefficients are zero).",
  "every L, lam > 1, J' >= j_max", "floating rounding of log ratio differs per input (e.g. log(125)/log(5))", a(S,"j_max")+a(F,"k_lam","filters_axisym_vectorised"))
p("N > L is silently wrong in the vectorised transforms",
  "For N = L+1 the slice L-Nj wraps to -1 in base.analysis, so every top-scale wavelet coefficient is zero for every signal although no error is raised, while analysis_looped stays correct; for 1 <= N <= L no wrap occurs.",
  "every signal, L, lam, J_min", "negative slice start wraps silently", a(B,"analysis","synthesis"))
p("scattering output is the modulus",
  "base.analysis with scattering=True returns exactly the modulus (real, non-negative) of the wavelet coefficients returned with scattering=False, and the same scaling coefficients.",
  "every signal and parameters", "universal over signals", a(B,"analysis"))
p("scattering buffers fit the largest scale",
  "construct_f / construct_flmn with scattering=True allocate a buffer of the shape used by the top scales j_max-1 and j_max, which is at least that of every other scale.",
  "every L >= 2, N, lam", "universal", a(S,"construct_f","construct_flmn"))
p("precompute kernels ignore spin",
  "generate_full_precomputes always builds spin-0 spherical kernels, so the precompute transforms never use a kernel for the requested spin when spin != 0.",
  "every spin != 0 and parameters", "universal negative", a(K,"generate_full_precomputes")+a(PJ,"analysis","synthesis"))
p("Ls = 1 edge case shape",
  "When Ls = 1 (J_min = 0) the JAX/C/torch analysis returns scaling coefficients of shape (1,1), which equals the documented f_scal shape exactly for samplings whose L=1 grid is 1x1 (mw, gl), and not for mwss or dh.",
  "every L, N, lam with J_min=0", "universal", a(W,"analysis")+a(S,"f_scal"))
p("swapped positional argument in base.analysis is harmless",
  "base.analysis passes multiresolution in the nside position of construct_f; the pre-allocated arrays are all overwritten, so results do not depend on it (as long as the allocation itself does not raise).",
  "every signal and parameters", "universal", a(B,"analysis")+a(S,"construct_f"))
p("default precomputes equal explicit ones",
  "wavelet.analysis/synthesis/flm_to_analysis with precomps=None equal the same call with precomps=generate_wigner_precomputes(..., forward=False/True).",
  "every signal and parameters", "universal", a(W,"analysis","synthesis","flm_to_analysis")+a(K,"generate_wigner_precomputes"))
if __name__=="__main__":
    with open("/verif/properties.jsonl","w") as f:
        for x in P: f.write(json.dumps(x)+"\n")
    print(len(P))
