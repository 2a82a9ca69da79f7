"""Write MANIFEST.json from the table below (run from /verif)."""
import json

CLAIMS = [
    ("C01", "proved", ["S2wav.C01_j_max", "S2wav.C01_tight", "S2wav.C01_errors"], ""),
    ("C02", "proved", ["S2wav.C02_lengths"], ""),
    ("C03", "proved", ["S2wav.C03_bandlimit"], ""),
    ("C04", "proved", ["S2wav.C04_LN_j", "S2wav.C04_L0_j"], ""),
    ("C05", "proved", ["S2wav.C05_scaling"], ""),
    ("C06", "proved", ["S2wav.C06_k_lam"], ""),
    ("C07", "proved", ["S2wav.C07_support"], "all three builders"),
    ("C08", "proved", ["S2wav.C08_truncation"], ""),
    ("C09", "proved", ["S2wav.C09_admissible"], "sum = column maximum of k_lam unconditionally; = 1 under NoOvershoot, which is proved for a concrete case"),
    ("C10", "proved", ["S2wav.C10_tiling_energy"], ""),
    ("C11", "proved", ["S2wav.C11_admissible"], "same proviso as C09"),
    ("C12", "proved", ["S2wav.C12_validation"], ""),
    ("C13", "proved", ["S2wav.C13_looped_eq_vectorised", "S2wav.C13_rows_below_differ"], ""),
    ("C14", "proved", ["S2wav.C14_jax_eq_vectorised"], ""),
    ("C15", "proved", ["S2wav.C15_looped_eq_vectorised"], ""),
    ("C16", "proved", ["S2wav.C16_spin0_unusable", "S2wav.C16_transforms"], ""),
    ("C17", "proved", ["S2wav.C17_spin_normalization", "S2wav.C17_out_of_range"], ""),
    ("C18", "proved", ["S2wav.C18_binomial", "S2wav.C18_call_site", "S2wav.C18_out_of_range"], ""),
    ("C19", "proved", ["S2wav.C19_symmetry"], ""),
    ("C20", "proved", ["S2wav.C20_below_spin"], ""),
    ("C21", "proved", ["S2wav.C21_base_eq_looped"], "under NoOvershoot"),
    ("C22", "proved", ["S2wav.C22_base_eq_looped"], "under NoOvershoot; for reality=True the real inverse transform is assumed to read only m >= 0"),
    ("C23", "proved", ["S2wav.C23_reality"], "all six backends"),
    ("C24", "proved", ["S2wav.C24_round_trip", "S2wav.C24_reconstruction", "S2wav.C24_base", "S2wav.C24_looped"], "C24_round_trip is the general statement (gain = column maximum of k_lam); reconstruction under NoOvershoot"),
    ("C25", "proved", ["S2wav.C24_round_trip", "S2wav.C25_reconstruction"], "as C24"),
    ("C26", "proved", ["S2wav.C26_analysis", "S2wav.C26_synthesis"], ""),
    ("C27", "proved", ["S2wav.C27_analysis_linear"], ""),
    ("C28", "proved", ["S2wav.C28_synthesis_linear"], ""),
    ("C29", "proved", ["S2wav.C29_energy", "S2wav.C29_tight_frame"], "C29_energy is the general statement, C29_tight_frame under NoOvershoot"),
    ("C30", "proved", ["S2wav.C30_adjoint", "S2wav.C30_adjoint_all"], ""),
    ("C31", "proved", ["S2wav.C31_check", "S2wav.C31_rejected", "S2wav.C31_accepted"], ""),
    ("C32", "proved", ["S2wav.C32_kernels", "S2wav.C32_checked"], ""),
    ("C33", "proved", ["S2wav.C33_jax", "S2wav.C33_c", "S2wav.C34_shift_false"], ""),
    ("C34", "proved", ["S2wav.C34_shift_false", "S2wav.C34_kernel_read", "S2wav.C34_wrong_kernel"], "includes the failing cases"),
    ("C35", "proved", ["S2wav.C35_precomps", "S2wav.C35_sampling", "S2wav.C35_code", "S2wav.C35_filters", "S2wav.C35_filters_flm"], ""),
    ("C36", "proved", ["S2wav.C36_equivariance"], ""),
    ("C37", "proved", ["S2wav.C37_locality"], ""),
    ("C38", "proved", ["S2wav.C38_multiresolution"], ""),
    ("C39", "proved", ["S2wav.C39_top_scale", "S2wav.C39_extra_scales"], ""),
    ("C40", "proved", ["S2wav.C40_when", "S2wav.C40_vectorised", "S2wav.C40_looped", "S2wav.C40_nonzero", "S2wav.C40_too_many"], "C40_nonzero under NoOvershoot"),
    ("C41", "proved", ["S2wav.C41_scattering"], ""),
    ("C42", "proved", ["S2wav.C42_scattering_buffers"], ""),
    ("C43", "proved", ["S2wav.C43_spin_kernels", "S2wav.C43_never_matches"], ""),
    ("C44", "proved", ["S2wav.C44_single_degree", "S2wav.C44_shape", "S2wav.C44_rejected", "S2wav.C44_sphere"], "the shape s2fft uses at band-limit 1 is a parameter of the theorem"),
    ("C45", "proved", ["S2wav.C45_buffers"], ""),
    ("C46", "proved", ["S2wav.C46_precomps"], ""),
    ("C47", "proved", ["S2wav.C47_analysis_formula"], ""),
    ("C48", "proved", ["S2wav.C48_synthesis_formula"], ""),
    ("C49", "proved", ["S2wav.C49_projection"], "under NoOvershoot"),
    ("C50", "proved", ["S2wav.C50_injective"], ""),
    ("C51", "proved", ["S2wav.C51_constants"], ""),
    ("C52", "proved", ["S2wav.C52_real"], ""),
    ("C53", "proved", ["S2wav.C53_orders"], ""),
    ("C54", "proved", ["S2wav.C54_k_lam_values"], ""),
    ("C55", "proved", ["S2wav.C55_axisym_values"], ""),
    ("C56", "proved", ["S2wav.C56_tiling_values"], ""),
    ("C57", "proved", ["S2wav.C57_directional_values"], ""),
    ("C58", "proved", ["S2wav.C58_quadrature_error"], ""),
    ("C59", "proved", ["S2wav.C59_overshoot_place", "S2wav.C59_no_overshoot"], ""),
    ("C60", "proved", ["S2wav.C60_axisym", "S2wav.C60_directional"], ""),
    ("C61", "proved", ["S2wav.C61_frame", "S2wav.C61_round_trip_error"], ""),
    ("C62", "proved", ["S2wav.C62_no_overshoot", "S2wav.C62_admissible", "S2wav.C62_reconstruction", "S2wav.C62_tight_frame",
        "S2wav.C62_base_eq_looped"], "lam = 2, ..., 10; about 780 kernel-evaluated integer comparisons (decide +kernel) cover the whole finite tables"),
    ("C63", "proved", ["S2wav.C63_overshoot", "S2wav.C63_not_admissible", "S2wav.C63_not_exact"], ""),
    ("C64", "proved", ["S2wav.C64_axisym", "S2wav.C64_directional"], ""),
    ("C65", "proved", ["S2wav.C65_part_scaling_fn_jax"], ""),
    ("C66", "proved", ["S2wav.C66_top_wavelet", "S2wav.C66_top_directional", "S2wav.C66_top_coefficients"], ""),
    ("C67", "proved", ["S2wav.C67_ignored", "S2wav.C67_round_trip", "S2wav.C67_reconstruction"], ""),
    ("C68", "proved", ["S2wav.C68_frame_sum", "S2wav.C68_round_trip"], "rounding inside the transforms themselves is the subject of C69"),
    ("C69", "proved", ["S2wav.C69_round_trip", "S2wav.C69_error"], "the size d of the error of the transforms is a parameter"),
    ("C70", "proved", ["S2wav.C70_same_kernels", "S2wav.C70_flm_to_analysis", "S2wav.C70_not_enough"], "a missing kernel makes the s2fft precompute transforms raise (stated in DESIGN.md)"),
    ("C71", "proved", ["S2wav.C71_inner", "S2wav.C71_analysis_gradient", "S2wav.C71_analysis_derivative",
        "S2wav.C71_synthesis_gradient"], "the mathematical gradient in coefficient space; JAX's automatic differentiation itself is not modelled"),
    ("C72", "proved", ["S2wav.C72_steerable", "S2wav.C72_coefficients", "S2wav.C72_minimal", "S2wav.C72_autocorrelation",
        "S2wav.C72_wavelet_autocorrelation"], ""),
    ("C73", "proved", ["S2wav.C73_real", "S2wav.C73_reality"], ""),
    ("C74", "proved", ["S2wav.C74_nested", "S2wav.C74_spin_sign"], ""),
    ("C75", "proved", ["S2wav.C75_merge", "S2wav.C75_maps", "S2wav.C75_coarse"], ""),
    ("C76", "proved", ["S2wav.C76_padding"], ""),
    ("C77", "proved", ["S2wav.C77_conjugate"], ""),
    ("C78", "proved", ["S2wav.C78_homogeneous", "S2wav.C78_contraction"], ""),
    ("C79", "proved", ["S2wav.C79_pythagoras", "S2wav.C79_least"], ""),
    ("C80", "proved", ["S2wav.C80_spectrum"], ""),
    ("C81", "proved", ["S2wav.C81_works", "S2wav.C81_round_trip", "S2wav.C81_reconstruction", "S2wav.C81_dyadic"],
        "s2fft is replaced by the transforms of Sphere/Engine.lean; that s2fft computes these is not proved. The HEALPix grid is not covered"),
    ("C82", "proved", ["S2wav.C82_maps"], "s2fft is replaced by the transforms of Sphere/Engine.lean"),
    ("C83", "proved", ["S2wav.C83_inner", "S2wav.C83_energy"], "s2fft is replaced by the transforms of Sphere/Engine.lean"),
    ("C84", "proved", ["S2wav.C84_inner_products"], "s2fft is replaced by the transforms of Sphere/Engine.lean"),
    ("C85", "proved", ["S2wav.C85_rotation"], "s2fft is replaced by the transforms of Sphere/Engine.lean"),
    ("C86", "proved", ["S2wav.C86_wavelets", "S2wav.C86_real"], "s2fft is replaced by the transforms of Sphere/Engine.lean"),
    ("C87", "proved", ["S2wav.C87_bound", "S2wav.C87_energies"], "s2fft is replaced by the transforms of Sphere/Engine.lean"),
    ("C88", "proved", ["S2wav.C88_coefficients", "S2wav.C88_synthesis"], "s2fft is replaced by the transforms of Sphere/Engine.lean"),
    ("C89", "proved", ["S2wav.C89_maps", "S2wav.C89_reconstruction", "S2wav.C89_coefficients", "S2wav.C89_synthesis"], "s2fft is replaced by the transforms of Sphere/Engine.lean"),
    ("C90", "proved", ["S2wav.C90_adjoint", "S2wav.C90_kernel"], "s2fft is replaced by the transforms of Sphere/Engine.lean"),
    ("C91", "proved", ["S2wav.C91_filters", "S2wav.C91_means"], "s2fft is replaced by the transforms of Sphere/Engine.lean"),
    ("C92", "proved", ["S2wav.C92_moments"], "s2fft is replaced by the transforms of Sphere/Engine.lean"),
    ("C93", "proved", ["S2wav.C93_kept", "S2wav.C93_analysis", "S2wav.C93_synthesis", "S2wav.C93_round_trip",
        "S2wav.C93_reconstruction", "S2wav.C93_iff", "S2wav.C93_filters", "S2wav.C93_same", "S2wav.C93_too_many"],
        "the behaviour for N > L with N - L odd is a defect of the vectorised code; the exact condition is proved"),
    ("C94", "proved", ["S2wav.C94_maps", "S2wav.C94_frequencies", "S2wav.C94_mean", "S2wav.Steerable.ext"], ""),
    ("C95", "proved", ["S2wav.C95_weighted", "S2wav.C95_lowpass", "S2wav.C95_coarse", "S2wav.C95_progressive", "S2wav.C95_bandpass",
        "S2wav.C95_apart"], ""),
    ("C96", "proved", ["S2wav.C96_bandlimits", "S2wav.C96_pixels"], ""),
    ("C97", "proved", ["S2wav.C97_numpy", "S2wav.C97_jax", "S2wav.C97_precompute", "S2wav.C97_axisymmetric", "S2wav.C97_filters", "S2wav.C97_defaults", "S2wav.C97_defaults_helpers", "S2wav.C97_readme",
        "S2wav.C97_shapes", "S2wav.C97_multiresolution", "S2wav.C97_forward", "S2wav.C97_forward_helpers"], ""),
    ("C98", "proved", ["S2wav.C98_accuracy", "S2wav.C98_exact", "S2wav.C98_default"], "accuracy of the C library is a hypothesis (Libm.Ok)"),
    ("C99", "proved", ["S2wav.C99_lam_five", "S2wav.C99_lam_five_returns", "S2wav.C99_lam_three", "S2wav.C99_lam_ten", "S2wav.C99_never_finite",
        "S2wav.C99_rounding_alone"], "a defect of the code: C62 and C63 are about exact arithmetic and do not show it"),
    ("C100", "proved", ["S2wav.C100_vectorised", "S2wav.C100_admissible", "S2wav.C100_looped", "S2wav.C100_range"],
        "accuracy of the C library is a hypothesis (Libm.Ok); np.sqrt is correctly rounded"),
    ("C101", "proved", ["S2wav.C101_binomial", "S2wav.C101_directional", "S2wav.C101_close", "S2wav.C101_admissible", "S2wav.C101_filters"],
        "accuracy of exp and loggamma is a hypothesis (Libm.Ok, Libm.Special)"),
    ("C102", "proved", ["S2wav.C102_gain", "S2wav.C102_error"],
        "the filters are rounded, the arithmetic of the transforms themselves is exact or has a relative error delta"),
    ("C103", "proved", ["S2wav.C103_top_scale", "S2wav.C103_integer", "S2wav.C103_filters", "S2wav.C103_all_double", "S2wav.C103_one_too_many", "S2wav.C103_errors", "S2wav.C103_contracting", "S2wav.C103_exceptions", "S2wav.C103_no_filters", "S2wav.C103_one_too_few", "S2wav.C103_one_too_few_top", "S2wav.C103_off_by_one"],
        "accuracy of the logarithm is a hypothesis (LogOk)"),
    ("C104", "proved", ["S2wav.C104_exact", "S2wav.C104_powers", "S2wav.C104_support", "S2wav.C104_two"],
        "that computed powers do not decrease is a hypothesis for lam other than 2"),
    ("C105", "proved", ["S2wav.C105_exact", "S2wav.C105_ieee", "S2wav.C105_analysis", "S2wav.C105_synthesis", "S2wav.C105_round_trip"],
        "the accuracy of one operation is a hypothesis (Ops.Good), proved for IEEE doubles; the Wigner and harmonic transforms of s2fft are not part of it"),
    ("C106", "proved", ["S2wav.C106_looped", "S2wav.C106_admissible", "S2wav.C106_filters", "S2wav.C106_gain", "S2wav.C106_range"],
        "accuracy of exp and loggamma assumed as in C101; spin0 = 0"),
    ("C107", "proved", ["S2wav.C107_exact", "S2wav.C107_round_trip", "S2wav.C107_gain", "S2wav.C107_error", "S2wav.C107_error_looped"],
        "accuracy of s2fft's transforms is a hypothesis (CFFTO.Near); exp and loggamma as in C101"),
    ("C108", "proved", ["S2wav.C108_axisym", "S2wav.C108_tiling", "S2wav.C108_bits", "S2wav.C108_overflow", "S2wav.C108_directional", "S2wav.C108_close", "S2wav.C108_admissible", "S2wav.C108_filters", "S2wav.C108_error"],
        "includes a finding: OverflowError from 64 directions on; that JAX refuses a Python int beyond int64 is an assumption of the model (jaxInt)"),
    ("C109", "proved", ["S2wav.C109_exact_jax", "S2wav.C109_exact_pre", "S2wav.C109_exact_torch", "S2wav.C109_jax_round_trip", "S2wav.C109_jax_error", "S2wav.C109_pre_round_trip", "S2wav.C109_pre_error", "S2wav.C109_torch_round_trip", "S2wav.C109_torch_error"],
        "s2fft's accuracy is a hypothesis (JaxFFTO.Near, PreFFTO.Near), as in C107"),
    ("C110", "proved", ["S2wav.C110_exact", "S2wav.C110_round_trip", "S2wav.C110_error"],
        "s2fft's accuracy and output shapes are hypotheses (BaseFFTO.Near, BaseFFTO.Shaped), as in C107"),
    ("C111", "proved", ["S2wav.C111_rounding", "S2wav.C111_double", "S2wav.C111_add", "S2wav.C111_neg", "S2wav.C111_sub", "S2wav.C111_mul", "S2wav.C111_div", "S2wav.C111_div_zero", "S2wav.C111_pdiv", "S2wav.C111_sqrt", "S2wav.C111_compare", "S2wav.C111_floor", "S2wav.C111_finite", "S2wav.C111_int", "S2wav.C111_pow", "S2wav.C111_exp", "S2wav.C111_ceil"],
        "the sign of zero is not represented: a zero denominator counts as +0.0"),
    ("C112", "proved", ["S2wav.C112_exact", "S2wav.C112_round_trip", "S2wav.C112_error", "S2wav.C112_signs", "S2wav.C112_sign"],
        "the looped synthesis accumulates N(J+1) terms one after the other, hence the product in the error; s2fft's transforms are parameters with an assumed accuracy, as in C107"),
    ("C113", "proved", ["S2wav.C113_exact", "S2wav.C113_same_c", "S2wav.C113_same_jax", "S2wav.C113_same_pre", "S2wav.C113_same_torch", "S2wav.C113_maps", "S2wav.C113_error"],
        "agreement to the bit assumes that both functions perform the operations they write (XLA may compile the two functions differently); the programs and their transforms are deterministic functions of their inputs"),
    ("C114", "proved", ["S2wav.C114_norm", "S2wav.C114_overflow", "S2wav.C114_zero", "S2wav.C114_filters", "S2wav.C114_lost"],
        "C library assumptions as in C106; between ratios 2^999 and 2^1025 nothing is claimed for positive spins"),
    ("C115", "proved", ["S2wav.Single.C115_rounding", "S2wav.Single.C115_add", "S2wav.Single.C115_sub", "S2wav.Single.C115_mul", "S2wav.Single.C115_div", "S2wav.Single.C115_div_zero", "S2wav.Single.C115_sqrt", "S2wav.Single.C115_cast", "S2wav.Single.C115_ieee", "S2wav.Single.C115_analysis", "S2wav.Single.C115_synthesis", "S2wav.Single.C115_filters", "S2wav.Single.C115_round_trip"],
        "harmonic steps only; s2fft exact"),
    ("C116", "proved", ["S2wav.Single.C116_binomial", "S2wav.Single.C116_tiling", "S2wav.Single.C116_overflow", "S2wav.Single.C116_directional", "S2wav.Single.C116_close", "S2wav.Single.C116_admissible", "S2wav.Single.C116_filters", "S2wav.Single.C116_round_trip"],
        "lam = 2; XLA exp and gammaln assumed accurate to 2^-19"),
    ("C117", "proved", ["S2wav.Single.C117_jax_round_trip", "S2wav.Single.C117_jax_error", "S2wav.Single.C117_jax_error_jax", "S2wav.Single.C117_pre_round_trip", "S2wav.Single.C117_pre_error", "S2wav.Single.C117_pre_error_jax"],
        "accuracy of s2fft assumed (relative error delta, amplification kappa, absolute error tau)"),
    ("C118", "proved", ["S2wav.C118_accuracy", "S2wav.C118_exact", "S2wav.C118_sharp", "S2wav.C118_infinite", "S2wav.C118_returns", "S2wav.C118_default"],
        "the C library must return a number in (0, 1] for 3^-1"),
    ("C119", "proved", ["S2wav.C119_vectorised", "S2wav.C119_admissible", "S2wav.C119_infinite", "S2wav.C119_returns", "S2wav.C119_directional", "S2wav.C119_directional_admissible", "S2wav.C119_gain"],
        "the C library must return a number in (0, 1] for 3^-1"),
    ("C120", "proved", ["S2wav.C120_accuracy", "S2wav.C120_exact", "S2wav.C120_default", "S2wav.C120_contrast"],
        "lam = 4, band-limits up to 2^48, lam**j computed exactly where representable"),
    ("C121", "proved", ["S2wav.C121_vectorised", "S2wav.C121_admissible", "S2wav.C121_directional", "S2wav.C121_directional_admissible", "S2wav.C121_gain"],
        "lam = 4, band-limits up to 2^48; transforms around the filters in exact arithmetic"),
    ("C122", "proved", ["S2wav.C122_lam_six", "S2wav.C122_lam_seven", "S2wav.C122_lam_nine", "S2wav.C122_lam_ten", "S2wav.C122_never_finite", "S2wav.C122_rounding_alone", "S2wav.C122_returns"],
        "violations: k_lam in double precision fails for these lam, by rounding"),
    ("C123", "proved", ["S2wav.C123_accuracy", "S2wav.C123_exact", "S2wav.C123_default", "S2wav.C123_which"],
        "lam = 8, band-limits up to 2^48, lam**j computed exactly where representable"),
    ("C124", "proved", ["S2wav.C124_lam_five", "S2wav.C124_lam_three"],
        "violation: non-finite coefficients for every signal; given that k_lam returns, which C99 and C118 show for L = 2 and L = 795"),
    ("C125", "proved", ["S2wav.C125_vectorised", "S2wav.C125_admissible", "S2wav.C125_directional", "S2wav.C125_directional_admissible", "S2wav.C125_gain"],
        "the counterpart of C100 - C102 for lam = 8; the round trip is in exact arithmetic with the rounded filters"),
    ("C126", "proved", ["S2wav.C126_c", "S2wav.C126_jax", "S2wav.C126_pre", "S2wav.C126_torch", "S2wav.C126_base"],
        "s2fft's accuracy is a hypothesis, as in C107, C109 and C110"),
    ("C127", "proved", ["S2wav.C127_directional", "S2wav.C127_admissible", "S2wav.C127_overflow"],
        "C126 holds with these filters too"),
    ("C128", "proved", ["S2wav.C128_lam_six", "S2wav.C128_lam_seven", "S2wav.C128_lam_ten", "S2wav.C128_seven_returns"],
        "the sign of the infinity is not determined, hence one of two scales; that k_lam returns is a hypothesis, met for lam = 10 and L = 3 by C122_returns, for lam = 7 and L = 9 by C128_seven_returns"),
    ("C129", "proved", ["S2wav.C129_scale", "S2wav.C129_every_scale", "S2wav.C129_scaling", "S2wav.C129_exact", "S2wav.C129_safe"],
        "lam is a Python float here, as in C104"),
    ("C130", "proved", ["S2wav.C130_axisym", "S2wav.C130_directional", "S2wav.C130_admissible", "S2wav.C130_gain"],
        "the transforms of C130_gain are exact; only the filters are rounded, as in C106"),
    ("C131", "proved", ["S2wav.Single.C131_directional", "S2wav.Single.C131_close", "S2wav.Single.C131_admissible", "S2wav.Single.C131_overflow", "S2wav.Single.C131_filters", "S2wav.Single.C131_round_trip"],
        "the counterpart of C116; the tiling integrals are in double precision, as in the code"),
    ("C132", "proved", ["S2wav.Single.C132_filters", "S2wav.Single.C132_jax", "S2wav.Single.C132_jax_jax", "S2wav.Single.C132_pre", "S2wav.Single.C132_pre_jax"],
        "the counterpart of C117; s2fft's accuracy is a hypothesis, as there"),
    ("C133", "proved", ["S2wav.C133_error"],
        "the counterpart of C112; s2fft's accuracy is a hypothesis, as there"),
    ("C134", "proved", ["S2wav.C134_filters", "S2wav.C134_lost"],
        "the counterpart of C114; C134_lost is a violation witness: nonzero filters come out as zeros"),
    ("C135", "proved", ["S2wav.C135_any", "S2wav.C135_overflow", "S2wav.C135_spoiled", "S2wav.C135_spoiled_other"],
        "violation witness: infinite or NaN filters are returned without an exception"),
    ("C136", "proved", ["S2wav.C136_damped", "S2wav.C136_damped_other"],
        "the round trip multiplies each degree by a factor other than 1; negative finding"),
    ("C137", "proved", ["S2wav.C137_round_trip", "S2wav.C137_not_identity", "S2wav.C137_integer"],
        "negative finding: with spin0 other than 0 the pair is not a round trip"),
    ("C138", "proved", ["S2wav.C138_axisym", "S2wav.C138_axisym_error", "S2wav.C138_directional", "S2wav.C138_directional_error", "S2wav.C138_no_filters"],
        "accuracy of the logarithm is a hypothesis (LogOk) of the last part"),
    ("C139", "proved", ["S2wav.C139_scaling", "S2wav.C139_wavelet", "S2wav.C139_lowest", "S2wav.C139_one_less", "S2wav.C139_monotone", "S2wav.C139_support", "S2wav.C139_consistent"],
        "faithful rounding of the power is a hypothesis; C139_support also assumes that the normalisation is finite and not zero"),
]
json.dump({"claims": [dict(property=p, status=s, theorems=t, note=n) for p, s, t, n in CLAIMS]},
          open("MANIFEST.json", "w"), indent=1)
