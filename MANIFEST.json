{
 "claims": [
  {
   "property": "C01",
   "status": "proved",
   "theorems": [
    "EC.C01_power_eq_pow",
    "EC.C01_power_neg"
   ],
   "note": "All integers; the negative-exponent behaviour of the code (returns x) is part of the claim."
  },
  {
   "property": "C02",
   "status": "proved",
   "theorems": [
    "EC.C02_power_modulo",
    "EC.C02_power_modulo_zero",
    "EC.C02_power_modulo_refuted",
    "EC.C02_power_modulo_panics",
    "EC.C02_any_modulus"
   ],
   "note": "C02_power_modulo_refuted records that for n = 0, p = 1 the result 1 is not the canonical residue; the claim is stated for n >= 1."
  },
  {
   "property": "C03",
   "status": "proved",
   "theorems": [
    "EC.C03_inverse",
    "EC.C03_inverse_panics",
    "EC.C03_inverse_of_dvd",
    "EC.C03_any_modulus",
    "EC.C03_composite_refuted"
   ],
   "note": ""
  },
  {
   "property": "C04",
   "status": "proved",
   "theorems": [
    "EC.C04_extended_gcd",
    "EC.C04_coefficients",
    "EC.C04_depth"
   ],
   "note": ""
  },
  {
   "property": "C05",
   "status": "proved",
   "theorems": [
    "EC.C05_chinese_remainder"
   ],
   "note": "Moduli positive and pairwise coprime."
  },
  {
   "property": "C06",
   "status": "proved",
   "theorems": [
    "EC.C06_sigma_divisor",
    "EC.C06_sigma_divisor_nonpos",
    "EC.C06_sigma_divisor_max",
    "EC.C06_release",
    "EC.C06_release_refuted"
   ],
   "note": ""
  },
  {
   "property": "C07",
   "status": "proved",
   "theorems": [
    "EC.C07_operators",
    "EC.C07_operators_antisymm",
    "EC.C07_term_antisymm_refuted",
    "EC.C07_variable_order",
    "EC.C07_monomial_order",
    "EC.C07_monomial_laws",
    "EC.C07_variable_laws",
    "EC.C07_term_order"
   ],
   "note": ""
  },
  {
   "property": "C08",
   "status": "proved",
   "theorems": [
    "EC.C08_new",
    "EC.C08_count",
    "EC.C08_index_roundtrip",
    "EC.C08_variable_from_index_exact",
    "EC.C08_index_from_variable",
    "EC.C08_index_out_of_range",
    "EC.C08_index_out_of_range_refuted",
    "EC.C08_index_roundtrip_refuted",
    "EC.C08_release",
    "EC.C08_release_exact",
    "EC.C08_release_roundtrip",
    "EC.C08_release_refuted"
   ],
   "note": "C08_variable_from_index_exact characterises every index; the stronger claims that every index below count works and that every other index panics are false (C08_*_refuted)."
  },
  {
   "property": "C09",
   "status": "proved",
   "theorems": [
    "EC.C09_constants",
    "EC.C09_default",
    "EC.C09_assign_in_place",
    "EC.C09_add",
    "EC.C09_sub",
    "EC.C09_neg",
    "EC.C09_to_pol",
    "EC.C09_add_term",
    "EC.C09_sub_term",
    "EC.C09_zero_one",
    "EC.C09_is_zero"
   ],
   "note": ""
  },
  {
   "property": "C10",
   "status": "proved",
   "theorems": [
    "EC.C10_mul_assign_in_place",
    "EC.C10_mul",
    "EC.C10_mul_term",
    "EC.C10_mul_returns",
    "EC.C10_release",
    "EC.C10_release_mul",
    "EC.C10_release_returns",
    "EC.C10_release_refuted"
   ],
   "note": ""
  },
  {
   "property": "C11",
   "status": "partial",
   "theorems": [
    "EC.C11_eq_imp_val",
    "EC.C11_eq_iff_val_partial",
    "EC.C11_canon_closed",
    "EC.C11_eq_iff_val_refuted"
   ],
   "note": "== implies equal values always; equal values imply == for polynomials without stored zeros (closed under + and -). The unrestricted converse is false: C11_eq_iff_val_refuted."
  },
  {
   "property": "C12",
   "status": "proved",
   "theorems": [
    "EC.C12_power",
    "EC.C12_square_cube",
    "EC.C12_power_neg",
    "EC.C12_power_halts",
    "EC.C12_power_returns",
    "EC.C12_release",
    "EC.C12_release_power"
   ],
   "note": ""
  },
  {
   "property": "C13",
   "status": "proved",
   "theorems": [
    "EC.C13_modular_assign_in_place",
    "EC.C13_term_modular_assign_in_place",
    "EC.C13_rem",
    "EC.C13_modular_assign",
    "EC.C13_congruent",
    "EC.C13_eq_iff_congruent",
    "EC.C13_panics",
    "EC.C13_zero"
   ],
   "note": ""
  },
  {
   "property": "C14",
   "status": "proved",
   "theorems": [
    "EC.C14_power_modulo",
    "EC.C14_power_modulo_zero",
    "EC.C14_power_modulo_refuted",
    "EC.C14_power_modulo_returns",
    "EC.C14_release"
   ],
   "note": "n >= 1; C14_power_modulo_refuted records the n = 0 behaviour."
  },
  {
   "property": "C15",
   "status": "proved",
   "theorems": [
    "EC.C15_turns",
    "EC.C15_remainder",
    "EC.C15_diverges",
    "EC.C15_panics",
    "EC.C15_any_modulus_sound",
    "EC.C15_any_modulus",
    "EC.C15_any_modulus_diverges",
    "EC.C15_small_modulus",
    "EC.C15_composite_modulus_refuted",
    "EC.C15_release"
   ],
   "note": ""
  },
  {
   "property": "C16",
   "status": "proved",
   "theorems": [
    "EC.C16_depth",
    "EC.C16_gcd",
    "EC.C16_diverges",
    "EC.C16_any_modulus",
    "EC.C16_release"
   ],
   "note": ""
  },
  {
   "property": "C17",
   "status": "partial",
   "theorems": [
    "EC.C17_is_gcd_one_refuted",
    "EC.C17_release"
   ],
   "note": "The property is false for this code: C17_is_gcd_one_refuted proves it answers true for every non-coprime pair and never answers for coprime ones."
  },
  {
   "property": "C18",
   "status": "proved",
   "theorems": [
    "EC.C18_to_monic",
    "EC.C18_zero",
    "EC.C18_any_modulus",
    "EC.C18_release"
   ],
   "note": ""
  },
  {
   "property": "C19",
   "status": "proved",
   "theorems": [
    "EC.C19_derivative_x",
    "EC.C19_derivative_y",
    "EC.C19_panics",
    "EC.C19_univariate"
   ],
   "note": ""
  },
  {
   "property": "C20",
   "status": "proved",
   "theorems": [
    "EC.C20_reduction",
    "EC.C20_reduction_eval",
    "EC.C20_reduction_returns",
    "EC.C20_release"
   ],
   "note": ""
  },
  {
   "property": "C21",
   "status": "proved",
   "theorems": [
    "EC.C21_reduction_modular_eval",
    "EC.C21_recursion_stops",
    "EC.C21_reduction_modular",
    "EC.C21_returns",
    "EC.C21_release"
   ],
   "note": ""
  },
  {
   "property": "C22",
   "status": "proved",
   "theorems": [
    "EC.C22_eval_xy",
    "EC.C22_additive",
    "EC.C22_multiplicative",
    "EC.C22_eval_x",
    "EC.C22_eval_y",
    "EC.C22_eval_chain"
   ],
   "note": ""
  },
  {
   "property": "C23",
   "status": "proved",
   "theorems": [
    "EC.C23_eval_x_polynomial",
    "EC.C23_eval_y_polynomial",
    "EC.C23_eval_x_polynomial_value",
    "EC.C23_eval_y_polynomial_value",
    "EC.C23_release"
   ],
   "note": ""
  },
  {
   "property": "C24",
   "status": "proved",
   "theorems": [
    "EC.C24_to_frob",
    "EC.C24_to_y_power",
    "EC.C24_to_q_power",
    "EC.C24_returns",
    "EC.C24_to_frob_refuted",
    "EC.C24_release"
   ],
   "note": "n != 0; C24_to_frob_refuted records the n = 0 collapse."
  },
  {
   "property": "C25",
   "status": "proved",
   "theorems": [
    "EC.C25_to_q_power_coef",
    "EC.C25_to_q_power_coef_returns",
    "EC.C25_to_variable_coef",
    "EC.C25_to_variable_coef_panics",
    "EC.C25_to_scalar",
    "EC.C25_to_scalar_panics",
    "EC.C25_to_scalar_variable"
   ],
   "note": ""
  },
  {
   "property": "C26",
   "status": "proved",
   "theorems": [
    "EC.C26_omit_in_place",
    "EC.C26_omit",
    "EC.C26_omit_returns_only",
    "EC.C26_power_omit",
    "EC.C26_power_omit_returns",
    "EC.C26_release",
    "EC.C26_power_omit_laurent",
    "EC.C26_power_omit_laurent_refuted"
   ],
   "note": ""
  },
  {
   "property": "C27",
   "status": "proved",
   "theorems": [
    "EC.C27_degree",
    "EC.C27_zero",
    "EC.C27_panics"
   ],
   "note": ""
  },
  {
   "property": "C28",
   "status": "proved",
   "theorems": [
    "EC.C28_div_assign_in_place",
    "EC.C28_exact",
    "EC.C28_floor",
    "EC.C28_returns",
    "EC.C28_panics",
    "EC.C28_variants",
    "EC.C28_release"
   ],
   "note": ""
  },
  {
   "property": "C29",
   "status": "proved",
   "theorems": [
    "EC.C29_psi",
    "EC.C29_psi_class",
    "EC.C29_release_refuted"
   ],
   "note": ""
  },
  {
   "property": "C30",
   "status": "proved",
   "theorems": [
    "EC.C30_phi",
    "EC.C30_phi_class",
    "EC.C30_release_refuted"
   ],
   "note": ""
  },
  {
   "property": "C31",
   "status": "proved",
   "theorems": [
    "EC.C31_omega",
    "EC.C31_omega_class",
    "EC.C31_omega_one",
    "EC.C31_double"
   ],
   "note": ""
  },
  {
   "property": "C32",
   "status": "proved",
   "theorems": [
    "EC.C32_psi_depth",
    "EC.C32_psi_returns_iff",
    "EC.C32_phi_returns_iff",
    "EC.C32_omega_returns_iff",
    "EC.C32_release",
    "EC.C32_release_psi",
    "EC.C32_release_phi",
    "EC.C32_release_omega"
   ],
   "note": ""
  },
  {
   "property": "C33",
   "status": "proved",
   "theorems": [
    "EC.C33_domain",
    "EC.C33_eisenstein4",
    "EC.C33_eisenstein4_edge",
    "EC.C33_release"
   ],
   "note": ""
  },
  {
   "property": "C34",
   "status": "proved",
   "theorems": [
    "EC.C34_domain",
    "EC.C34_delta1",
    "EC.C34_delta1_finite",
    "EC.C34_release_refuted"
   ],
   "note": ""
  },
  {
   "property": "C35",
   "status": "proved",
   "theorems": [
    "EC.C35_domain",
    "EC.C35_delta1_inverse",
    "EC.C35_delta1_mul_inverse"
   ],
   "note": ""
  },
  {
   "property": "C36",
   "status": "proved",
   "theorems": [
    "EC.C36_j_invariant1",
    "EC.C36_j_invariant",
    "EC.C36_prefix",
    "EC.C36_release",
    "EC.C36_release_refuted"
   ],
   "note": ""
  },
  {
   "property": "C37",
   "status": "proved",
   "theorems": [
    "EC.C37_release",
    "EC.C37_returns_iff",
    "EC.C37_malformed",
    "EC.C37_solve"
   ],
   "note": ""
  },
  {
   "property": "C38",
   "status": "proved",
   "theorems": [
    "EC.C38_generic",
    "EC.C38_generic_panics",
    "EC.C38_release"
   ],
   "note": ""
  },
  {
   "property": "C39",
   "status": "proved",
   "theorems": [
    "EC.C39_shape",
    "EC.C39_symmetric",
    "EC.C39_stored",
    "EC.C39_stored_zero",
    "EC.C39_value",
    "EC.C39_terms"
   ],
   "note": ""
  },
  {
   "property": "C40",
   "status": "proved",
   "theorems": [
    "EC.C40_returns",
    "EC.C40_modular_polynomial",
    "EC.C40_unique",
    "EC.C40_phi2"
   ],
   "note": ""
  },
  {
   "property": "C41",
   "status": "proved",
   "theorems": [
    "EC.C41_any_modulus",
    "EC.EllipticCurve.C41_is_on_curve",
    "EC.EllipticCurve.C41_representatives",
    "EC.EllipticCurve.C41_denotes"
   ],
   "note": ""
  },
  {
   "property": "C42",
   "status": "proved",
   "theorems": [
    "EC.C42_any_modulus",
    "EC.C42_any_modulus_result",
    "EC.C42_composite_modulus_refuted",
    "EC.EllipticCurve.C42_plus",
    "EC.EllipticCurve.C42_zero_plus",
    "EC.EllipticCurve.C42_comm",
    "EC.EllipticCurve.C42_assoc",
    "EC.EllipticCurve.C42_panics"
   ],
   "note": ""
  },
  {
   "property": "C43",
   "status": "partial",
   "theorems": [
    "EC.EllipticCurve.C43_neutral_partial",
    "EC.EllipticCurve.C43_plus_zero_refuted"
   ],
   "note": "O + P = P proved; P + O = P is false for every affine point: C43_plus_zero_refuted."
  },
  {
   "property": "C44",
   "status": "proved",
   "theorems": [
    "EC.C44_any_modulus",
    "EC.EllipticCurve.C44_negate",
    "EC.EllipticCurve.C44_involutive",
    "EC.EllipticCurve.C44_plus_negate"
   ],
   "note": ""
  },
  {
   "property": "C45",
   "status": "proved",
   "theorems": [
    "EC.C45_any_modulus",
    "EC.C45_composite_modulus_refuted",
    "EC.C45_new",
    "EC.C45_new_panics",
    "EC.C45_cardinality",
    "EC.C45_bijection",
    "EC.C45_create_points_in_place"
   ],
   "note": ""
  },
  {
   "property": "C46",
   "status": "proved",
   "theorems": [
    "EC.EllipticCurve.C46_multiply_scalar",
    "EC.EllipticCurve.C46_multiply_scalar_iff",
    "EC.EllipticCurve.C46_odd_order",
    "EC.EllipticCurve.C46_power_of_two_order",
    "EC.EllipticCurve.C46_exceptional"
   ],
   "note": "C46_multiply_scalar_iff characterises exactly when the result is n*P; C46_exceptional gives the result in the remaining case."
  },
  {
   "property": "C47",
   "status": "partial",
   "theorems": [
    "EC.EllipticCurve.C47_negative_scalar_partial",
    "EC.EllipticCurve.C47_negative_scalar_refuted"
   ],
   "note": "The property is false: multiply_scalar(P,-n) = multiply_scalar(P,n) for every point (C47_negative_scalar_partial), which is not -(nP) unless 2P = O (C47_negative_scalar_refuted)."
  },
  {
   "property": "C48",
   "status": "proved",
   "theorems": [
    "EC.EllipticCurve.C48_point_order"
   ],
   "note": ""
  },
  {
   "property": "C49",
   "status": "partial",
   "theorems": [
    "EC.EllipticCurve.C49_division_points_partial",
    "EC.EllipticCurve.C49_exact",
    "EC.EllipticCurve.C49_division_points_refuted",
    "EC.EllipticCurve.C49_iff"
   ],
   "note": "C49_iff gives the exact set for every curve and n; equality with the n-torsion proved for odd group order or |n| a power of two (C49_exact); false in general: C49_division_points_refuted."
  },
  {
   "property": "C50",
   "status": "proved",
   "theorems": [
    "EC.C50_any_modulus",
    "EC.EllipticCurve.C50_j_invariant",
    "EC.EllipticCurve.C50_j_mathlib"
   ],
   "note": ""
  },
  {
   "property": "C51",
   "status": "partial",
   "theorems": [
    "EC.EllipticCurve.C51_isogeny_returns_partial",
    "EC.EllipticCurve.C51_isogeny_refuted",
    "EC.EllipticCurve.C51_trivial_kernel_refuted",
    "EC.EllipticCurve.C51_isogeny_one_refuted"
   ],
   "note": "Returns a curve over the same field; equal cardinality is false: C51_isogeny_refuted, and for every curve with reduced coefficients isogeny(1) gives y^2 = x^3 (C51_isogeny_one_refuted)."
  },
  {
   "property": "C52",
   "status": "proved",
   "theorems": [
    "EC.C52_parameters",
    "EC.C52_primes",
    "EC.C52_good",
    "EC.C52_generator_on_curve",
    "EC.C52_generator_order",
    "EC.C52_multiply_scalar",
    "EC.C52_generator_exists"
   ],
   "note": ""
  },
  {
   "property": "C53",
   "status": "partial",
   "theorems": [
    "EC.C53_odd_trace_diverges",
    "EC.C53_parity_refuted",
    "EC.C53_release_odd_trace_diverges",
    "EC.C53_release_parity_refuted"
   ],
   "note": "The property is false: C53_parity_refuted proves that whenever schoof returns for a nonsingular curve over an odd prime field the entry is 1 mod 2 while the trace is even; C53_odd_trace_diverges: it never returns when the trace is odd."
  },
  {
   "property": "C54",
   "status": "proved",
   "theorems": [
    "EC.C54_release",
    "EC.C54_release_no_overflow",
    "EC.C54_shape",
    "EC.C54_release_shape"
   ],
   "note": ""
  },
  {
   "property": "C55",
   "status": "proved",
   "theorems": [
    "EC.C55_release",
    "EC.C55_small_modulus",
    "EC.C55_sea",
    "EC.C55_panics",
    "EC.C55_returns_iff"
   ],
   "note": ""
  },
  {
   "property": "C56",
   "status": "partial",
   "theorems": [
    "EC.C56_atkin_refuted"
   ],
   "note": "The property is false: C56_atkin_refuted proves that sea never returns for an Atkin prime."
  },
  {
   "property": "C57",
   "status": "proved",
   "theorems": [
    "EC.C57_read_display",
    "EC.C57_read_display_term",
    "EC.C57_display_injective",
    "EC.C57_display_eq_iff"
   ],
   "note": ""
  },
  {
   "property": "C58",
   "status": "proved",
   "theorems": [
    "EC.C58_display_infinity",
    "EC.C58_display_affine",
    "EC.C58_display_eq_iff",
    "EC.C58_display_points",
    "EC.C58_display_points_injective"
   ],
   "note": ""
  },
  {
   "property": "C59",
   "status": "proved",
   "theorems": [
    "EC.C59_release",
    "EC.C59_release_mul",
    "EC.C59_mul",
    "EC.C59_div",
    "EC.C59_div_returns",
    "EC.C59_neg",
    "EC.C59_power",
    "EC.C59_power_modulo",
    "EC.C59_substitutions",
    "EC.C59_modulo",
    "EC.C59_derivative",
    "EC.C59_builder",
    "EC.C59_is_equal_order",
    "EC.C59_power_negative",
    "EC.C59_modulo_any",
    "EC.C59_power_modulo_any",
    "EC.C59_substitutions_domain"
   ],
   "note": ""
  },
  {
   "property": "C60",
   "status": "proved",
   "theorems": [
    "EC.C60_display_returns",
    "EC.C60_display_injective"
   ],
   "note": ""
  },
  {
   "property": "C61",
   "status": "partial",
   "theorems": [
    "EC.C61_trace_mod_three_refuted"
   ],
   "note": "The property is false: C61_trace_mod_three_refuted is a counterexample (y^2 = x^3 + 2x over GF(5), entry 2 mod 3, trace 4). The shape of the entry is C54. The exact entry modulo 3 is C67 (q = 2 mod 3) and C73 (q = 1 mod 3)."
  },
  {
   "property": "C62",
   "status": "proved",
   "theorems": [
    "EC.C62_small",
    "EC.C62_large",
    "EC.C62_root",
    "EC.C62_release_small",
    "EC.C62_release_root",
    "EC.C62_release_tiny",
    "EC.C62_tiny"
   ],
   "note": "The bound for the modulus is sharpened in C84_large: no prime q > 26754 returns."
  },
  {
   "property": "C63",
   "status": "proved",
   "theorems": [
    "EC.EllipticCurve.C63_psi_zero_iff",
    "EC.EllipticCurve.C63_psi_point_order",
    "EC.EllipticCurve.C63_coordinates",
    "EC.EllipticCurve.C63_no_common_zero",
    "EC.EllipticCurve.C63_multiply_scalar"
   ],
   "note": ""
  },
  {
   "property": "C64",
   "status": "proved",
   "theorems": [
    "EC.C64_congruence",
    "EC.C64_order_divisible",
    "EC.C64_mod_three"
   ],
   "note": ""
  },
  {
   "property": "C65",
   "status": "proved",
   "theorems": [
    "EC.C65_release",
    "EC.C65_eval_q",
    "EC.C65_eval_q_negative"
   ],
   "note": ""
  },
  {
   "property": "C66",
   "status": "proved",
   "theorems": [
    "EC.C66_exact",
    "EC.C66_trace",
    "EC.C66_mod_three"
   ],
   "note": ""
  },
  {
   "property": "C67",
   "status": "proved",
   "theorems": [
    "EC.C67_mod_three"
   ],
   "note": ""
  },
  {
   "property": "C68",
   "status": "proved",
   "theorems": [
    "EC.C68_mul_comm",
    "EC.C68_mul_assoc",
    "EC.C68_mul_one",
    "EC.C68_additive",
    "EC.C68_distrib",
    "EC.C68_distrib_refuted"
   ],
   "note": ""
  },
  {
   "property": "C69",
   "status": "proved",
   "theorems": [
    "EC.C69_frobenius"
   ],
   "note": ""
  },
  {
   "property": "C70",
   "status": "proved",
   "theorems": [
    "EC.C70_hasse",
    "EC.C70_bounds"
   ],
   "note": ""
  },
  {
   "property": "C71",
   "status": "proved",
   "theorems": [
    "EC.C71_order",
    "EC.C71_cyclic",
    "EC.C71_multiply_scalar"
   ],
   "note": ""
  },
  {
   "property": "C72",
   "status": "proved",
   "theorems": [
    "EC.C72_schoof_equation",
    "EC.C72_trace_up_to_sign",
    "EC.C72_nonresidue"
   ],
   "note": ""
  },
  {
   "property": "C73",
   "status": "proved",
   "theorems": [
    "EC.C73_mod_three",
    "EC.C73_right"
   ],
   "note": ""
  },
  {
   "property": "C74",
   "status": "proved",
   "theorems": [
    "EC.C74_release",
    "EC.C74_returns",
    "EC.C74_returns_iff"
   ],
   "note": "A sufficient condition; the exact domain is C84."
  },
  {
   "property": "C75",
   "status": "proved",
   "theorems": [
    "EC.C75_exists",
    "EC.C75_modular_polynomial",
    "EC.C75_low_order",
    "EC.C75_phi2",
    "EC.C75_release"
   ],
   "note": "The existence half is for every prime. The bound 214 for the function: from p = 223 on the exponent p^2(p+1)^2 of the highest power of q in j(q^p)^(p+1) leaves the range of i32."
  },
  {
   "property": "C76",
   "status": "proved",
   "theorems": [
    "EC.C76_kronecker"
   ],
   "note": ""
  },
  {
   "property": "C77",
   "status": "proved",
   "theorems": [
    "EC.C77_j_invariant1",
    "EC.C77_j_invariant",
    "EC.C77_modular_polynomial",
    "EC.C77_whenever_returns",
    "EC.C77_negative"
   ],
   "note": ""
  },
  {
   "property": "C78",
   "status": "proved",
   "theorems": [
    "EC.C78_velu",
    "EC.C78_sea_two",
    "EC.C78_rational_torsion",
    "EC.C78_sea_char",
    "EC.C78_symmetric"
   ],
   "note": ""
  },
  {
   "property": "C79",
   "status": "proved",
   "theorems": [
    "EC.C79_mod_five",
    "EC.C79_right"
   ],
   "note": ""
  },
  {
   "property": "C80",
   "status": "proved",
   "theorems": [
    "EC.C80_closed",
    "EC.C80_value",
    "EC.C80_create_points"
   ],
   "note": ""
  },
  {
   "property": "C81",
   "status": "proved",
   "theorems": [
    "EC.C81_order_dvd",
    "EC.C81_annihilates",
    "EC.C81_determines"
   ],
   "note": ""
  },
  {
   "property": "C82",
   "status": "proved",
   "theorems": [
    "EC.C82_isomorphic",
    "EC.C82_twist",
    "EC.C82_same_j",
    "EC.C82_j_zero",
    "EC.C82_j_1728"
   ],
   "note": ""
  },
  {
   "property": "C83",
   "status": "proved",
   "theorems": [
    "EC.C83_never_trace",
    "EC.C83_recover"
   ],
   "note": ""
  },
  {
   "property": "C84",
   "status": "proved",
   "theorems": [
    "EC.C84_domain",
    "EC.C84_large"
   ],
   "note": "StepReturns and TailOk (Spec/SchoofDomain) are stated with Mathlib's division polynomials over ZMod q; t is q+1 minus the number of points of Mathlib's curve."
  },
  {
   "property": "C85",
   "status": "partial",
   "theorems": [
    "EC.C85_same_answer",
    "EC.C85_same_domain",
    "EC.C85_representative_refuted"
   ],
   "note": "The property is false: C85_representative_refuted (a = 2 and a = 6481 modulo 19). C85_same_answer: if both calls return, the answers are equal. C85_same_domain: whether they return agrees for a = a', or q neither 1 mod 3 nor 1 mod 5."
  },
  {
   "property": "C86",
   "status": "proved",
   "theorems": [
    "EC.C86_two",
    "EC.EllipticCurve.C86_singular_iff",
    "EC.EllipticCurve.C86_singular_unique",
    "EC.EllipticCurve.C86_absorbs",
    "EC.EllipticCurve.C86_double",
    "EC.EllipticCurve.C86_closure",
    "EC.EllipticCurve.C86_plus",
    "EC.EllipticCurve.C86_multiply_scalar",
    "EC.EllipticCurve.C86_point_order",
    "EC.EllipticCurve.C86_multiply_singular",
    "EC.EllipticCurve.C86_j_invariant",
    "EC.C86_two_not_closed"
   ],
   "note": ""
  },
  {
   "property": "C87",
   "status": "proved",
   "theorems": [
    "EC.C87_cardinality_sum",
    "EC.C87_cardinality",
    "EC.C87_group_order"
   ],
   "note": ""
  },
  {
   "property": "C88",
   "status": "proved",
   "theorems": [
    "EC.C88_polynomial_modular",
    "EC.C88_gcd_swap",
    "EC.C88_gcd",
    "EC.C88_is_gcd_one"
   ],
   "note": ""
  },
  {
   "property": "C89",
   "status": "proved",
   "theorems": [
    "EC.C89_reduction_modular_normal_form",
    "EC.C89_reduction_normal_form",
    "EC.C89_idempotent",
    "EC.C89_mul"
   ],
   "note": ""
  },
  {
   "property": "C90",
   "status": "proved",
   "theorems": [
    "EC.C90_power",
    "EC.C90_substitutions",
    "EC.C90_reduction",
    "EC.C90_reduction_modular",
    "EC.C90_no_loop"
   ],
   "note": ""
  },
  {
   "property": "C91",
   "status": "proved",
   "theorems": [
    "EC.EllipticCurve.C91_isogeny",
    "EC.EllipticCurve.C91_domain",
    "EC.EllipticCurve.C91_bounds"
   ],
   "note": ""
  },
  {
   "property": "C92",
   "status": "proved",
   "theorems": [
    "EC.C92_phi3",
    "EC.C92_phi5",
    "EC.C92_velu",
    "EC.C92_sea_three",
    "EC.C92_rational_kernel"
   ],
   "note": ""
  },
  {
   "property": "C93",
   "status": "proved",
   "theorems": [
    "EC.C93_two_isogeny"
   ],
   "note": ""
  },
  {
   "property": "C94",
   "status": "proved",
   "theorems": [
    "EC.C94_group",
    "EC.C94_structure",
    "EC.C94_cyclic",
    "EC.C94_torsion_bound"
   ],
   "note": ""
  },
  {
   "property": "C95",
   "status": "proved",
   "theorems": [
    "EC.C95_elkies",
    "EC.C95_atkin",
    "EC.C95_iff",
    "EC.C95_converse_refuted",
    "EC.C95_two"
   ],
   "note": ""
  },
  {
   "property": "C96",
   "status": "proved",
   "theorems": [
    "EC.C96_psi_odd",
    "EC.C96_psi_even",
    "EC.C96_phi",
    "EC.C96_omega",
    "EC.C96_divides",
    "EC.C96_divides_eval",
    "EC.C96_relation",
    "EC.EllipticCurve.C96_chain",
    "EC.EllipticCurve.C96_gcd"
   ],
   "note": ""
  },
  {
   "property": "C97",
   "status": "proved",
   "theorems": [
    "EC.C97_bezout_bound",
    "EC.C97_modulus",
    "EC.C97_short",
    "EC.C97_last",
    "EC.C97_pair",
    "EC.C97_not_coprime_refuted",
    "EC.C97_order"
   ],
   "note": ""
  },
  {
   "property": "C98",
   "status": "proved",
   "theorems": [
    "EC.C98_eval_x_polynomial",
    "EC.C98_eval_y_polynomial",
    "EC.C98_power_modulo"
   ],
   "note": ""
  },
  {
   "property": "C99",
   "status": "proved",
   "theorems": [
    "EC.C99_example_program",
    "EC.C99_chinese_remainder",
    "EC.C99_chinese_remainder_correct",
    "EC.C99_plus",
    "EC.C99_schoof_result",
    "EC.C99_schoof_announces",
    "EC.C99_schoof_stuck",
    "EC.C99_callers_of_plus",
    "EC.C99_multiply_scalar_off_curve",
    "EC.C99_point_order_off_curve"
   ],
   "note": ""
  }
 ]
}