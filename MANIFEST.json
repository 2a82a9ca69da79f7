{
 "claims": [
  {
   "property": "C01",
   "status": "proved",
   "theorems": [
    "S2wav.C01_j_max",
    "S2wav.C01_tight",
    "S2wav.C01_errors"
   ],
   "note": ""
  },
  {
   "property": "C02",
   "status": "proved",
   "theorems": [
    "S2wav.C02_lengths"
   ],
   "note": ""
  },
  {
   "property": "C03",
   "status": "proved",
   "theorems": [
    "S2wav.C03_bandlimit"
   ],
   "note": ""
  },
  {
   "property": "C04",
   "status": "proved",
   "theorems": [
    "S2wav.C04_LN_j",
    "S2wav.C04_L0_j"
   ],
   "note": ""
  },
  {
   "property": "C05",
   "status": "proved",
   "theorems": [
    "S2wav.C05_scaling"
   ],
   "note": ""
  },
  {
   "property": "C06",
   "status": "proved",
   "theorems": [
    "S2wav.C06_k_lam"
   ],
   "note": ""
  },
  {
   "property": "C07",
   "status": "proved",
   "theorems": [
    "S2wav.C07_support"
   ],
   "note": "all three builders"
  },
  {
   "property": "C08",
   "status": "proved",
   "theorems": [
    "S2wav.C08_truncation"
   ],
   "note": ""
  },
  {
   "property": "C09",
   "status": "proved",
   "theorems": [
    "S2wav.C09_admissible"
   ],
   "note": "sum = column maximum of k_lam unconditionally; = 1 under NoOvershoot, which is proved for a concrete case"
  },
  {
   "property": "C10",
   "status": "proved",
   "theorems": [
    "S2wav.C10_tiling_energy"
   ],
   "note": ""
  },
  {
   "property": "C11",
   "status": "proved",
   "theorems": [
    "S2wav.C11_admissible"
   ],
   "note": "same proviso as C09"
  },
  {
   "property": "C12",
   "status": "proved",
   "theorems": [
    "S2wav.C12_validation"
   ],
   "note": ""
  },
  {
   "property": "C13",
   "status": "proved",
   "theorems": [
    "S2wav.C13_looped_eq_vectorised",
    "S2wav.C13_rows_below_differ"
   ],
   "note": ""
  },
  {
   "property": "C14",
   "status": "proved",
   "theorems": [
    "S2wav.C14_jax_eq_vectorised"
   ],
   "note": ""
  },
  {
   "property": "C15",
   "status": "proved",
   "theorems": [
    "S2wav.C15_looped_eq_vectorised"
   ],
   "note": ""
  },
  {
   "property": "C16",
   "status": "proved",
   "theorems": [
    "S2wav.C16_spin0_unusable",
    "S2wav.C16_transforms"
   ],
   "note": ""
  },
  {
   "property": "C17",
   "status": "proved",
   "theorems": [
    "S2wav.C17_spin_normalization",
    "S2wav.C17_out_of_range"
   ],
   "note": ""
  },
  {
   "property": "C18",
   "status": "proved",
   "theorems": [
    "S2wav.C18_binomial",
    "S2wav.C18_call_site",
    "S2wav.C18_out_of_range"
   ],
   "note": ""
  },
  {
   "property": "C19",
   "status": "proved",
   "theorems": [
    "S2wav.C19_symmetry"
   ],
   "note": ""
  },
  {
   "property": "C20",
   "status": "proved",
   "theorems": [
    "S2wav.C20_below_spin"
   ],
   "note": ""
  },
  {
   "property": "C21",
   "status": "proved",
   "theorems": [
    "S2wav.C21_base_eq_looped"
   ],
   "note": "under NoOvershoot"
  },
  {
   "property": "C22",
   "status": "proved",
   "theorems": [
    "S2wav.C22_base_eq_looped"
   ],
   "note": "under NoOvershoot; for reality=True the real inverse transform is assumed to read only m >= 0"
  },
  {
   "property": "C23",
   "status": "proved",
   "theorems": [
    "S2wav.C23_reality"
   ],
   "note": "all six backends"
  },
  {
   "property": "C24",
   "status": "proved",
   "theorems": [
    "S2wav.C24_round_trip",
    "S2wav.C24_reconstruction",
    "S2wav.C24_base",
    "S2wav.C24_looped"
   ],
   "note": "C24_round_trip is the general statement (gain = column maximum of k_lam); reconstruction under NoOvershoot"
  },
  {
   "property": "C25",
   "status": "proved",
   "theorems": [
    "S2wav.C24_round_trip",
    "S2wav.C25_reconstruction"
   ],
   "note": "as C24"
  },
  {
   "property": "C26",
   "status": "proved",
   "theorems": [
    "S2wav.C26_analysis",
    "S2wav.C26_synthesis"
   ],
   "note": ""
  },
  {
   "property": "C27",
   "status": "proved",
   "theorems": [
    "S2wav.C27_analysis_linear"
   ],
   "note": ""
  },
  {
   "property": "C28",
   "status": "proved",
   "theorems": [
    "S2wav.C28_synthesis_linear"
   ],
   "note": ""
  },
  {
   "property": "C29",
   "status": "proved",
   "theorems": [
    "S2wav.C29_energy",
    "S2wav.C29_tight_frame"
   ],
   "note": "C29_energy is the general statement, C29_tight_frame under NoOvershoot"
  },
  {
   "property": "C30",
   "status": "proved",
   "theorems": [
    "S2wav.C30_adjoint",
    "S2wav.C30_adjoint_all"
   ],
   "note": ""
  },
  {
   "property": "C31",
   "status": "proved",
   "theorems": [
    "S2wav.C31_check",
    "S2wav.C31_rejected",
    "S2wav.C31_accepted"
   ],
   "note": ""
  },
  {
   "property": "C32",
   "status": "proved",
   "theorems": [
    "S2wav.C32_kernels",
    "S2wav.C32_checked"
   ],
   "note": ""
  },
  {
   "property": "C33",
   "status": "proved",
   "theorems": [
    "S2wav.C33_jax",
    "S2wav.C33_c",
    "S2wav.C34_shift_false"
   ],
   "note": ""
  },
  {
   "property": "C34",
   "status": "proved",
   "theorems": [
    "S2wav.C34_shift_false",
    "S2wav.C34_kernel_read",
    "S2wav.C34_wrong_kernel"
   ],
   "note": "includes the failing cases"
  },
  {
   "property": "C35",
   "status": "proved",
   "theorems": [
    "S2wav.C35_precomps",
    "S2wav.C35_sampling",
    "S2wav.C35_code",
    "S2wav.C35_filters",
    "S2wav.C35_filters_flm"
   ],
   "note": ""
  },
  {
   "property": "C36",
   "status": "proved",
   "theorems": [
    "S2wav.C36_equivariance"
   ],
   "note": ""
  },
  {
   "property": "C37",
   "status": "proved",
   "theorems": [
    "S2wav.C37_locality"
   ],
   "note": ""
  },
  {
   "property": "C38",
   "status": "proved",
   "theorems": [
    "S2wav.C38_multiresolution"
   ],
   "note": ""
  },
  {
   "property": "C39",
   "status": "proved",
   "theorems": [
    "S2wav.C39_top_scale",
    "S2wav.C39_extra_scales"
   ],
   "note": ""
  },
  {
   "property": "C40",
   "status": "proved",
   "theorems": [
    "S2wav.C40_when",
    "S2wav.C40_vectorised",
    "S2wav.C40_looped",
    "S2wav.C40_nonzero",
    "S2wav.C40_too_many"
   ],
   "note": "C40_nonzero under NoOvershoot"
  },
  {
   "property": "C41",
   "status": "proved",
   "theorems": [
    "S2wav.C41_scattering"
   ],
   "note": ""
  },
  {
   "property": "C42",
   "status": "proved",
   "theorems": [
    "S2wav.C42_scattering_buffers"
   ],
   "note": ""
  },
  {
   "property": "C43",
   "status": "proved",
   "theorems": [
    "S2wav.C43_spin_kernels",
    "S2wav.C43_never_matches"
   ],
   "note": ""
  },
  {
   "property": "C44",
   "status": "proved",
   "theorems": [
    "S2wav.C44_single_degree",
    "S2wav.C44_shape",
    "S2wav.C44_rejected",
    "S2wav.C44_sphere"
   ],
   "note": "the shape s2fft uses at band-limit 1 is a parameter of the theorem"
  },
  {
   "property": "C45",
   "status": "proved",
   "theorems": [
    "S2wav.C45_buffers"
   ],
   "note": ""
  },
  {
   "property": "C46",
   "status": "proved",
   "theorems": [
    "S2wav.C46_precomps"
   ],
   "note": ""
  },
  {
   "property": "C47",
   "status": "proved",
   "theorems": [
    "S2wav.C47_analysis_formula"
   ],
   "note": ""
  },
  {
   "property": "C48",
   "status": "proved",
   "theorems": [
    "S2wav.C48_synthesis_formula"
   ],
   "note": ""
  },
  {
   "property": "C49",
   "status": "proved",
   "theorems": [
    "S2wav.C49_projection"
   ],
   "note": "under NoOvershoot"
  },
  {
   "property": "C50",
   "status": "proved",
   "theorems": [
    "S2wav.C50_injective"
   ],
   "note": ""
  },
  {
   "property": "C51",
   "status": "proved",
   "theorems": [
    "S2wav.C51_constants"
   ],
   "note": ""
  },
  {
   "property": "C52",
   "status": "proved",
   "theorems": [
    "S2wav.C52_real"
   ],
   "note": ""
  },
  {
   "property": "C53",
   "status": "proved",
   "theorems": [
    "S2wav.C53_orders"
   ],
   "note": ""
  },
  {
   "property": "C54",
   "status": "proved",
   "theorems": [
    "S2wav.C54_k_lam_values"
   ],
   "note": ""
  },
  {
   "property": "C55",
   "status": "proved",
   "theorems": [
    "S2wav.C55_axisym_values"
   ],
   "note": ""
  },
  {
   "property": "C56",
   "status": "proved",
   "theorems": [
    "S2wav.C56_tiling_values"
   ],
   "note": ""
  },
  {
   "property": "C57",
   "status": "proved",
   "theorems": [
    "S2wav.C57_directional_values"
   ],
   "note": ""
  },
  {
   "property": "C58",
   "status": "proved",
   "theorems": [
    "S2wav.C58_quadrature_error"
   ],
   "note": ""
  },
  {
   "property": "C59",
   "status": "proved",
   "theorems": [
    "S2wav.C59_overshoot_place",
    "S2wav.C59_no_overshoot"
   ],
   "note": ""
  },
  {
   "property": "C60",
   "status": "proved",
   "theorems": [
    "S2wav.C60_axisym",
    "S2wav.C60_directional"
   ],
   "note": ""
  },
  {
   "property": "C61",
   "status": "proved",
   "theorems": [
    "S2wav.C61_frame",
    "S2wav.C61_round_trip_error"
   ],
   "note": ""
  },
  {
   "property": "C62",
   "status": "proved",
   "theorems": [
    "S2wav.C62_no_overshoot",
    "S2wav.C62_admissible",
    "S2wav.C62_reconstruction",
    "S2wav.C62_tight_frame",
    "S2wav.C62_base_eq_looped"
   ],
   "note": "lam = 2, ..., 10; about 780 kernel-evaluated integer comparisons (decide +kernel) cover the whole finite tables"
  },
  {
   "property": "C63",
   "status": "proved",
   "theorems": [
    "S2wav.C63_overshoot",
    "S2wav.C63_not_admissible",
    "S2wav.C63_not_exact"
   ],
   "note": ""
  },
  {
   "property": "C64",
   "status": "proved",
   "theorems": [
    "S2wav.C64_axisym",
    "S2wav.C64_directional"
   ],
   "note": ""
  },
  {
   "property": "C65",
   "status": "proved",
   "theorems": [
    "S2wav.C65_part_scaling_fn_jax"
   ],
   "note": ""
  },
  {
   "property": "C66",
   "status": "proved",
   "theorems": [
    "S2wav.C66_top_wavelet",
    "S2wav.C66_top_directional",
    "S2wav.C66_top_coefficients"
   ],
   "note": ""
  },
  {
   "property": "C67",
   "status": "proved",
   "theorems": [
    "S2wav.C67_ignored",
    "S2wav.C67_round_trip",
    "S2wav.C67_reconstruction"
   ],
   "note": ""
  },
  {
   "property": "C68",
   "status": "proved",
   "theorems": [
    "S2wav.C68_frame_sum",
    "S2wav.C68_round_trip"
   ],
   "note": "rounding inside the transforms themselves is the subject of C69"
  },
  {
   "property": "C69",
   "status": "proved",
   "theorems": [
    "S2wav.C69_round_trip",
    "S2wav.C69_error"
   ],
   "note": "the size d of the error of the transforms is a parameter"
  },
  {
   "property": "C70",
   "status": "proved",
   "theorems": [
    "S2wav.C70_same_kernels",
    "S2wav.C70_flm_to_analysis",
    "S2wav.C70_not_enough"
   ],
   "note": "a missing kernel makes the s2fft precompute transforms raise (stated in DESIGN.md)"
  },
  {
   "property": "C71",
   "status": "proved",
   "theorems": [
    "S2wav.C71_inner",
    "S2wav.C71_analysis_gradient",
    "S2wav.C71_analysis_derivative",
    "S2wav.C71_synthesis_gradient"
   ],
   "note": "the mathematical gradient in coefficient space; JAX's automatic differentiation itself is not modelled"
  },
  {
   "property": "C72",
   "status": "proved",
   "theorems": [
    "S2wav.C72_steerable",
    "S2wav.C72_coefficients",
    "S2wav.C72_minimal",
    "S2wav.C72_autocorrelation",
    "S2wav.C72_wavelet_autocorrelation"
   ],
   "note": ""
  },
  {
   "property": "C73",
   "status": "proved",
   "theorems": [
    "S2wav.C73_real",
    "S2wav.C73_reality"
   ],
   "note": ""
  },
  {
   "property": "C74",
   "status": "proved",
   "theorems": [
    "S2wav.C74_nested",
    "S2wav.C74_spin_sign"
   ],
   "note": ""
  },
  {
   "property": "C75",
   "status": "proved",
   "theorems": [
    "S2wav.C75_merge",
    "S2wav.C75_maps",
    "S2wav.C75_coarse"
   ],
   "note": ""
  },
  {
   "property": "C76",
   "status": "proved",
   "theorems": [
    "S2wav.C76_padding"
   ],
   "note": ""
  },
  {
   "property": "C77",
   "status": "proved",
   "theorems": [
    "S2wav.C77_conjugate"
   ],
   "note": ""
  },
  {
   "property": "C78",
   "status": "proved",
   "theorems": [
    "S2wav.C78_homogeneous",
    "S2wav.C78_contraction"
   ],
   "note": ""
  },
  {
   "property": "C79",
   "status": "proved",
   "theorems": [
    "S2wav.C79_pythagoras",
    "S2wav.C79_least"
   ],
   "note": ""
  },
  {
   "property": "C80",
   "status": "proved",
   "theorems": [
    "S2wav.C80_spectrum"
   ],
   "note": ""
  },
  {
   "property": "C81",
   "status": "proved",
   "theorems": [
    "S2wav.C81_works",
    "S2wav.C81_round_trip",
    "S2wav.C81_reconstruction",
    "S2wav.C81_dyadic"
   ],
   "note": "s2fft is replaced by the transforms of Sphere/Engine.lean; that s2fft computes these is not proved. The HEALPix grid is not covered"
  },
  {
   "property": "C82",
   "status": "proved",
   "theorems": [
    "S2wav.C82_maps"
   ],
   "note": "s2fft is replaced by the transforms of Sphere/Engine.lean"
  },
  {
   "property": "C83",
   "status": "proved",
   "theorems": [
    "S2wav.C83_inner",
    "S2wav.C83_energy"
   ],
   "note": "s2fft is replaced by the transforms of Sphere/Engine.lean"
  },
  {
   "property": "C84",
   "status": "proved",
   "theorems": [
    "S2wav.C84_inner_products"
   ],
   "note": "s2fft is replaced by the transforms of Sphere/Engine.lean"
  },
  {
   "property": "C85",
   "status": "proved",
   "theorems": [
    "S2wav.C85_rotation"
   ],
   "note": "s2fft is replaced by the transforms of Sphere/Engine.lean"
  },
  {
   "property": "C86",
   "status": "proved",
   "theorems": [
    "S2wav.C86_wavelets",
    "S2wav.C86_real"
   ],
   "note": "s2fft is replaced by the transforms of Sphere/Engine.lean"
  },
  {
   "property": "C87",
   "status": "proved",
   "theorems": [
    "S2wav.C87_bound",
    "S2wav.C87_energies"
   ],
   "note": "s2fft is replaced by the transforms of Sphere/Engine.lean"
  },
  {
   "property": "C88",
   "status": "proved",
   "theorems": [
    "S2wav.C88_coefficients",
    "S2wav.C88_synthesis"
   ],
   "note": "s2fft is replaced by the transforms of Sphere/Engine.lean"
  },
  {
   "property": "C89",
   "status": "proved",
   "theorems": [
    "S2wav.C89_maps",
    "S2wav.C89_reconstruction",
    "S2wav.C89_coefficients",
    "S2wav.C89_synthesis"
   ],
   "note": "s2fft is replaced by the transforms of Sphere/Engine.lean"
  },
  {
   "property": "C90",
   "status": "proved",
   "theorems": [
    "S2wav.C90_adjoint",
    "S2wav.C90_kernel"
   ],
   "note": "s2fft is replaced by the transforms of Sphere/Engine.lean"
  },
  {
   "property": "C91",
   "status": "proved",
   "theorems": [
    "S2wav.C91_filters",
    "S2wav.C91_means"
   ],
   "note": "s2fft is replaced by the transforms of Sphere/Engine.lean"
  },
  {
   "property": "C92",
   "status": "proved",
   "theorems": [
    "S2wav.C92_moments"
   ],
   "note": "s2fft is replaced by the transforms of Sphere/Engine.lean"
  },
  {
   "property": "C93",
   "status": "proved",
   "theorems": [
    "S2wav.C93_kept",
    "S2wav.C93_analysis",
    "S2wav.C93_synthesis",
    "S2wav.C93_round_trip",
    "S2wav.C93_reconstruction",
    "S2wav.C93_iff",
    "S2wav.C93_filters",
    "S2wav.C93_same",
    "S2wav.C93_too_many"
   ],
   "note": "the behaviour for N > L with N - L odd is a defect of the vectorised code; the exact condition is proved"
  },
  {
   "property": "C94",
   "status": "proved",
   "theorems": [
    "S2wav.C94_maps",
    "S2wav.C94_frequencies",
    "S2wav.C94_mean",
    "S2wav.Steerable.ext"
   ],
   "note": ""
  },
  {
   "property": "C95",
   "status": "proved",
   "theorems": [
    "S2wav.C95_weighted",
    "S2wav.C95_lowpass",
    "S2wav.C95_coarse",
    "S2wav.C95_progressive",
    "S2wav.C95_bandpass",
    "S2wav.C95_apart"
   ],
   "note": ""
  },
  {
   "property": "C96",
   "status": "proved",
   "theorems": [
    "S2wav.C96_bandlimits",
    "S2wav.C96_pixels"
   ],
   "note": ""
  },
  {
   "property": "C97",
   "status": "proved",
   "theorems": [
    "S2wav.C97_numpy",
    "S2wav.C97_jax",
    "S2wav.C97_precompute",
    "S2wav.C97_axisymmetric",
    "S2wav.C97_filters",
    "S2wav.C97_defaults",
    "S2wav.C97_defaults_helpers",
    "S2wav.C97_readme",
    "S2wav.C97_shapes",
    "S2wav.C97_multiresolution",
    "S2wav.C97_forward",
    "S2wav.C97_forward_helpers"
   ],
   "note": ""
  },
  {
   "property": "C98",
   "status": "proved",
   "theorems": [
    "S2wav.C98_accuracy",
    "S2wav.C98_exact",
    "S2wav.C98_default"
   ],
   "note": "accuracy of the C library is a hypothesis (Libm.Ok)"
  },
  {
   "property": "C99",
   "status": "proved",
   "theorems": [
    "S2wav.C99_lam_five",
    "S2wav.C99_lam_five_returns",
    "S2wav.C99_lam_three",
    "S2wav.C99_lam_ten",
    "S2wav.C99_never_finite",
    "S2wav.C99_rounding_alone"
   ],
   "note": "a defect of the code: C62 and C63 are about exact arithmetic and do not show it"
  },
  {
   "property": "C100",
   "status": "proved",
   "theorems": [
    "S2wav.C100_vectorised",
    "S2wav.C100_admissible",
    "S2wav.C100_looped",
    "S2wav.C100_range"
   ],
   "note": "accuracy of the C library is a hypothesis (Libm.Ok); np.sqrt is correctly rounded"
  },
  {
   "property": "C101",
   "status": "proved",
   "theorems": [
    "S2wav.C101_binomial",
    "S2wav.C101_directional",
    "S2wav.C101_close",
    "S2wav.C101_admissible",
    "S2wav.C101_filters"
   ],
   "note": "accuracy of exp and loggamma is a hypothesis (Libm.Ok, Libm.Special)"
  },
  {
   "property": "C102",
   "status": "proved",
   "theorems": [
    "S2wav.C102_gain",
    "S2wav.C102_error"
   ],
   "note": "the filters are rounded, the arithmetic of the transforms themselves is exact or has a relative error delta"
  },
  {
   "property": "C103",
   "status": "proved",
   "theorems": [
    "S2wav.C103_top_scale",
    "S2wav.C103_integer",
    "S2wav.C103_filters",
    "S2wav.C103_all_double",
    "S2wav.C103_one_too_many",
    "S2wav.C103_errors",
    "S2wav.C103_contracting",
    "S2wav.C103_exceptions",
    "S2wav.C103_no_filters",
    "S2wav.C103_one_too_few",
    "S2wav.C103_one_too_few_top",
    "S2wav.C103_off_by_one"
   ],
   "note": "accuracy of the logarithm is a hypothesis (LogOk)"
  },
  {
   "property": "C104",
   "status": "proved",
   "theorems": [
    "S2wav.C104_exact",
    "S2wav.C104_powers",
    "S2wav.C104_support",
    "S2wav.C104_two"
   ],
   "note": "that computed powers do not decrease is a hypothesis for lam other than 2"
  },
  {
   "property": "C105",
   "status": "proved",
   "theorems": [
    "S2wav.C105_exact",
    "S2wav.C105_ieee",
    "S2wav.C105_analysis",
    "S2wav.C105_synthesis",
    "S2wav.C105_round_trip"
   ],
   "note": "the accuracy of one operation is a hypothesis (Ops.Good), proved for IEEE doubles; the Wigner and harmonic transforms of s2fft are not part of it"
  },
  {
   "property": "C106",
   "status": "proved",
   "theorems": [
    "S2wav.C106_looped",
    "S2wav.C106_admissible",
    "S2wav.C106_filters",
    "S2wav.C106_gain",
    "S2wav.C106_range"
   ],
   "note": "accuracy of exp and loggamma assumed as in C101; spin0 = 0"
  },
  {
   "property": "C107",
   "status": "proved",
   "theorems": [
    "S2wav.C107_exact",
    "S2wav.C107_round_trip",
    "S2wav.C107_gain",
    "S2wav.C107_error",
    "S2wav.C107_error_looped"
   ],
   "note": "accuracy of s2fft's transforms is a hypothesis (CFFTO.Near); exp and loggamma as in C101"
  },
  {
   "property": "C108",
   "status": "proved",
   "theorems": [
    "S2wav.C108_axisym",
    "S2wav.C108_tiling",
    "S2wav.C108_bits",
    "S2wav.C108_overflow",
    "S2wav.C108_directional",
    "S2wav.C108_close",
    "S2wav.C108_admissible",
    "S2wav.C108_filters",
    "S2wav.C108_error"
   ],
   "note": "includes a finding: OverflowError from 64 directions on; that JAX refuses a Python int beyond int64 is an assumption of the model (jaxInt)"
  },
  {
   "property": "C109",
   "status": "proved",
   "theorems": [
    "S2wav.C109_exact_jax",
    "S2wav.C109_exact_pre",
    "S2wav.C109_exact_torch",
    "S2wav.C109_jax_round_trip",
    "S2wav.C109_jax_error",
    "S2wav.C109_pre_round_trip",
    "S2wav.C109_pre_error",
    "S2wav.C109_torch_round_trip",
    "S2wav.C109_torch_error"
   ],
   "note": "s2fft's accuracy is a hypothesis (JaxFFTO.Near, PreFFTO.Near), as in C107"
  },
  {
   "property": "C110",
   "status": "proved",
   "theorems": [
    "S2wav.C110_exact",
    "S2wav.C110_round_trip",
    "S2wav.C110_error"
   ],
   "note": "s2fft's accuracy and output shapes are hypotheses (BaseFFTO.Near, BaseFFTO.Shaped), as in C107"
  },
  {
   "property": "C111",
   "status": "proved",
   "theorems": [
    "S2wav.C111_rounding",
    "S2wav.C111_double",
    "S2wav.C111_add",
    "S2wav.C111_neg",
    "S2wav.C111_sub",
    "S2wav.C111_mul",
    "S2wav.C111_div",
    "S2wav.C111_div_zero",
    "S2wav.C111_pdiv",
    "S2wav.C111_sqrt",
    "S2wav.C111_compare",
    "S2wav.C111_floor",
    "S2wav.C111_finite",
    "S2wav.C111_int",
    "S2wav.C111_pow",
    "S2wav.C111_exp",
    "S2wav.C111_ceil"
   ],
   "note": "the sign of zero is not represented: a zero denominator counts as +0.0"
  },
  {
   "property": "C112",
   "status": "proved",
   "theorems": [
    "S2wav.C112_exact",
    "S2wav.C112_round_trip",
    "S2wav.C112_error",
    "S2wav.C112_signs",
    "S2wav.C112_sign"
   ],
   "note": "the looped synthesis accumulates N(J+1) terms one after the other, hence the product in the error; s2fft's transforms are parameters with an assumed accuracy, as in C107"
  },
  {
   "property": "C113",
   "status": "proved",
   "theorems": [
    "S2wav.C113_exact",
    "S2wav.C113_same_c",
    "S2wav.C113_same_jax",
    "S2wav.C113_same_pre",
    "S2wav.C113_same_torch",
    "S2wav.C113_maps",
    "S2wav.C113_error"
   ],
   "note": "agreement to the bit assumes that both functions perform the operations they write (XLA may compile the two functions differently); the programs and their transforms are deterministic functions of their inputs"
  },
  {
   "property": "C114",
   "status": "proved",
   "theorems": [
    "S2wav.C114_norm",
    "S2wav.C114_overflow",
    "S2wav.C114_zero",
    "S2wav.C114_filters",
    "S2wav.C114_lost"
   ],
   "note": "C library assumptions as in C106; between ratios 2^999 and 2^1025 nothing is claimed for positive spins"
  },
  {
   "property": "C115",
   "status": "proved",
   "theorems": [
    "S2wav.Single.C115_rounding",
    "S2wav.Single.C115_add",
    "S2wav.Single.C115_sub",
    "S2wav.Single.C115_mul",
    "S2wav.Single.C115_div",
    "S2wav.Single.C115_div_zero",
    "S2wav.Single.C115_sqrt",
    "S2wav.Single.C115_cast",
    "S2wav.Single.C115_ieee",
    "S2wav.Single.C115_analysis",
    "S2wav.Single.C115_synthesis",
    "S2wav.Single.C115_filters",
    "S2wav.Single.C115_round_trip"
   ],
   "note": "harmonic steps only; s2fft exact"
  },
  {
   "property": "C116",
   "status": "proved",
   "theorems": [
    "S2wav.Single.C116_binomial",
    "S2wav.Single.C116_tiling",
    "S2wav.Single.C116_overflow",
    "S2wav.Single.C116_directional",
    "S2wav.Single.C116_close",
    "S2wav.Single.C116_admissible",
    "S2wav.Single.C116_filters",
    "S2wav.Single.C116_round_trip"
   ],
   "note": "lam = 2; XLA exp and gammaln assumed accurate to 2^-19"
  },
  {
   "property": "C117",
   "status": "proved",
   "theorems": [
    "S2wav.Single.C117_jax_round_trip",
    "S2wav.Single.C117_jax_error",
    "S2wav.Single.C117_jax_error_jax",
    "S2wav.Single.C117_pre_round_trip",
    "S2wav.Single.C117_pre_error",
    "S2wav.Single.C117_pre_error_jax"
   ],
   "note": "accuracy of s2fft assumed (relative error delta, amplification kappa, absolute error tau)"
  },
  {
   "property": "C118",
   "status": "proved",
   "theorems": [
    "S2wav.C118_accuracy",
    "S2wav.C118_exact",
    "S2wav.C118_sharp",
    "S2wav.C118_infinite",
    "S2wav.C118_returns",
    "S2wav.C118_default"
   ],
   "note": "the C library must return a number in (0, 1] for 3^-1"
  },
  {
   "property": "C119",
   "status": "proved",
   "theorems": [
    "S2wav.C119_vectorised",
    "S2wav.C119_admissible",
    "S2wav.C119_infinite",
    "S2wav.C119_returns",
    "S2wav.C119_directional",
    "S2wav.C119_directional_admissible",
    "S2wav.C119_gain"
   ],
   "note": "the C library must return a number in (0, 1] for 3^-1"
  },
  {
   "property": "C120",
   "status": "proved",
   "theorems": [
    "S2wav.C120_accuracy",
    "S2wav.C120_exact",
    "S2wav.C120_default",
    "S2wav.C120_contrast"
   ],
   "note": "lam = 4, band-limits up to 2^48, lam**j computed exactly where representable"
  },
  {
   "property": "C121",
   "status": "proved",
   "theorems": [
    "S2wav.C121_vectorised",
    "S2wav.C121_admissible",
    "S2wav.C121_directional",
    "S2wav.C121_directional_admissible",
    "S2wav.C121_gain"
   ],
   "note": "lam = 4, band-limits up to 2^48; transforms around the filters in exact arithmetic"
  },
  {
   "property": "C122",
   "status": "proved",
   "theorems": [
    "S2wav.C122_lam_six",
    "S2wav.C122_lam_seven",
    "S2wav.C122_lam_nine",
    "S2wav.C122_lam_ten",
    "S2wav.C122_never_finite",
    "S2wav.C122_rounding_alone",
    "S2wav.C122_returns"
   ],
   "note": "violations: k_lam in double precision fails for these lam, by rounding"
  },
  {
   "property": "C123",
   "status": "proved",
   "theorems": [
    "S2wav.C123_accuracy",
    "S2wav.C123_exact",
    "S2wav.C123_default",
    "S2wav.C123_which"
   ],
   "note": "lam = 8, band-limits up to 2^48, lam**j computed exactly where representable"
  },
  {
   "property": "C124",
   "status": "proved",
   "theorems": [
    "S2wav.C124_lam_five",
    "S2wav.C124_lam_three"
   ],
   "note": "violation: non-finite coefficients for every signal; given that k_lam returns, which C99 and C118 show for L = 2 and L = 795"
  },
  {
   "property": "C125",
   "status": "proved",
   "theorems": [
    "S2wav.C125_vectorised",
    "S2wav.C125_admissible",
    "S2wav.C125_directional",
    "S2wav.C125_directional_admissible",
    "S2wav.C125_gain"
   ],
   "note": "the counterpart of C100 - C102 for lam = 8; the round trip is in exact arithmetic with the rounded filters"
  },
  {
   "property": "C126",
   "status": "proved",
   "theorems": [
    "S2wav.C126_c",
    "S2wav.C126_jax",
    "S2wav.C126_pre",
    "S2wav.C126_torch",
    "S2wav.C126_base"
   ],
   "note": "s2fft's accuracy is a hypothesis, as in C107, C109 and C110"
  },
  {
   "property": "C127",
   "status": "proved",
   "theorems": [
    "S2wav.C127_directional",
    "S2wav.C127_admissible",
    "S2wav.C127_overflow"
   ],
   "note": "C126 holds with these filters too"
  },
  {
   "property": "C128",
   "status": "proved",
   "theorems": [
    "S2wav.C128_lam_six",
    "S2wav.C128_lam_seven",
    "S2wav.C128_lam_ten",
    "S2wav.C128_seven_returns"
   ],
   "note": "the sign of the infinity is not determined, hence one of two scales; that k_lam returns is a hypothesis, met for lam = 10 and L = 3 by C122_returns, for lam = 7 and L = 9 by C128_seven_returns"
  },
  {
   "property": "C129",
   "status": "proved",
   "theorems": [
    "S2wav.C129_scale",
    "S2wav.C129_every_scale",
    "S2wav.C129_scaling",
    "S2wav.C129_exact",
    "S2wav.C129_safe"
   ],
   "note": "lam is a Python float here, as in C104"
  },
  {
   "property": "C130",
   "status": "proved",
   "theorems": [
    "S2wav.C130_axisym",
    "S2wav.C130_directional",
    "S2wav.C130_admissible",
    "S2wav.C130_gain"
   ],
   "note": "the transforms of C130_gain are exact; only the filters are rounded, as in C106"
  },
  {
   "property": "C131",
   "status": "proved",
   "theorems": [
    "S2wav.Single.C131_directional",
    "S2wav.Single.C131_close",
    "S2wav.Single.C131_admissible",
    "S2wav.Single.C131_overflow",
    "S2wav.Single.C131_filters",
    "S2wav.Single.C131_round_trip"
   ],
   "note": "the counterpart of C116; the tiling integrals are in double precision, as in the code"
  },
  {
   "property": "C132",
   "status": "proved",
   "theorems": [
    "S2wav.Single.C132_filters",
    "S2wav.Single.C132_jax",
    "S2wav.Single.C132_jax_jax",
    "S2wav.Single.C132_pre",
    "S2wav.Single.C132_pre_jax"
   ],
   "note": "the counterpart of C117; s2fft's accuracy is a hypothesis, as there"
  },
  {
   "property": "C133",
   "status": "proved",
   "theorems": [
    "S2wav.C133_error"
   ],
   "note": "the counterpart of C112; s2fft's accuracy is a hypothesis, as there"
  },
  {
   "property": "C134",
   "status": "proved",
   "theorems": [
    "S2wav.C134_filters",
    "S2wav.C134_lost"
   ],
   "note": "the counterpart of C114; C134_lost is a violation witness: nonzero filters come out as zeros"
  },
  {
   "property": "C135",
   "status": "proved",
   "theorems": [
    "S2wav.C135_any",
    "S2wav.C135_overflow",
    "S2wav.C135_spoiled",
    "S2wav.C135_spoiled_other"
   ],
   "note": "violation witness: infinite or NaN filters are returned without an exception"
  },
  {
   "property": "C136",
   "status": "proved",
   "theorems": [
    "S2wav.C136_damped",
    "S2wav.C136_damped_other"
   ],
   "note": "the round trip multiplies each degree by a factor other than 1; negative finding"
  },
  {
   "property": "C137",
   "status": "proved",
   "theorems": [
    "S2wav.C137_round_trip",
    "S2wav.C137_not_identity",
    "S2wav.C137_integer"
   ],
   "note": "negative finding: with spin0 other than 0 the pair is not a round trip"
  },
  {
   "property": "C138",
   "status": "proved",
   "theorems": [
    "S2wav.C138_axisym",
    "S2wav.C138_axisym_error",
    "S2wav.C138_directional",
    "S2wav.C138_directional_error",
    "S2wav.C138_no_filters"
   ],
   "note": "accuracy of the logarithm is a hypothesis (LogOk) of the last part"
  },
  {
   "property": "C139",
   "status": "proved",
   "theorems": [
    "S2wav.C139_scaling",
    "S2wav.C139_wavelet",
    "S2wav.C139_lowest",
    "S2wav.C139_one_less",
    "S2wav.C139_monotone",
    "S2wav.C139_support",
    "S2wav.C139_consistent"
   ],
   "note": "faithful rounding of the power is a hypothesis; C139_support also assumes that the normalisation is finite and not zero"
  }
 ]
}