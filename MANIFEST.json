{
 "claims": [
  {
   "property": "C01",
   "status": "partial",
   "theorems": [
    "CLPoly.C01_ZZ_add_partial",
    "CLPoly.C01_ZZ_sub_partial",
    "CLPoly.C01_ZZ_addAssign_partial",
    "CLPoly.C01_ZZ_subAssign_partial",
    "CLPoly.C01_ZZ_mul",
    "CLPoly.C01_ZZ_mulAssign",
    "CLPoly.C01_ZZ_neg",
    "CLPoly.C01_ZZ_add_undefined_at_min"
   ],
   "note": "exact characterisation for every representation; the cases of undefined behaviour (second operand an inline INT64_MIN) are part of the statement"
  },
  {
   "property": "C02",
   "status": "proved",
   "theorems": [
    "CLPoly.C02_run_canon",
    "CLPoly.C02_history",
    "CLPoly.C02_ZZ_compare"
   ],
   "note": ""
  },
  {
   "property": "C03",
   "status": "partial",
   "theorems": [
    "CLPoly.C03_ZZ_div",
    "CLPoly.C03_ZZ_mod",
    "CLPoly.C03_ZZ_fdivQ",
    "CLPoly.C03_ZZ_fdivQR",
    "CLPoly.C03_ZZ_fdivR_partial",
    "CLPoly.C03_ZZ_fdivR_undefined",
    "CLPoly.C03_ZZ_div_zero",
    "CLPoly.C03_ZZ_fdivUi_partial"
   ],
   "note": "fdiv_r at (INT64_MIN, -1) and fdiv_ui at an inline INT64_MIN are stated as defects"
  },
  {
   "property": "C04",
   "status": "partial",
   "theorems": [
    "CLPoly.C04_ZZ_gcd_partial",
    "CLPoly.C04_ZZ_gcd_undefined",
    "CLPoly.C04_ZZ_lcm",
    "CLPoly.C04_ZZ_abs",
    "CLPoly.C04_ZZ_pow"
   ],
   "note": "gcd with an inline INT64_MIN is stated separately"
  },
  {
   "property": "C05",
   "status": "proved",
   "theorems": [
    "CLPoly.C05_ZZ_addmul",
    "CLPoly.C05_ZZ_submul",
    "CLPoly.C05_ZZ_shl",
    "CLPoly.C05_ZZ_shr"
   ],
   "note": ""
  },
  {
   "property": "C06",
   "status": "partial",
   "theorems": [
    "CLPoly.C06_QQ_construct",
    "CLPoly.C06_QQ_ofZZ",
    "CLPoly.C06_QQ_mul",
    "CLPoly.C06_QQ_div",
    "CLPoly.C06_QQ_add_partial",
    "CLPoly.C06_QQ_sub_partial",
    "CLPoly.C06_QQ_neg",
    "CLPoly.C06_QQ_abs",
    "CLPoly.C06_QQ_pow",
    "CLPoly.C06_QQ_compare",
    "CLPoly.C06_QQ_add_undefined"
   ],
   "note": "follows C01 for the undefined cases of addition and subtraction"
  },
  {
   "property": "C07",
   "status": "proved",
   "theorems": [
    "CLPoly.C07_Zp_add",
    "CLPoly.C07_Zp_sub",
    "CLPoly.C07_Zp_neg",
    "CLPoly.C07_Zp_beq"
   ],
   "note": ""
  },
  {
   "property": "C08",
   "status": "proved",
   "theorems": [
    "CLPoly.C08_nmod_mul",
    "CLPoly.C08_Zp_mul",
    "CLPoly.C08_Zp_addmul_submul"
   ],
   "note": ""
  },
  {
   "property": "C09",
   "status": "proved",
   "theorems": [
    "CLPoly.C09_Zp_inv",
    "CLPoly.C09_Zp_div",
    "CLPoly.C09_Zp_inv_zero",
    "CLPoly.C09_inv_prime_units"
   ],
   "note": ""
  },
  {
   "property": "C10",
   "status": "partial",
   "theorems": [
    "CLPoly.C10_Zp_ofI64",
    "CLPoly.C10_Zp_ofU64",
    "CLPoly.C10_Zp_assign",
    "CLPoly.C10_Zp_ofZZ_partial",
    "CLPoly.C10_Zp_pow",
    "CLPoly.C10_Zp_mulI64"
   ],
   "note": "conversion of an inline INT64_MIN is stated separately"
  },
  {
   "property": "C11",
   "status": "partial",
   "theorems": [
    "CLPoly.Var.C11_histories_partial",
    "CLPoly.Var.C11_lookup_partial",
    "CLPoly.Var.C11_stops_only_on_misuse_partial",
    "CLPoly.Var.C11_release_agrees",
    "CLPoly.Var.C11_false_auto_name_collision",
    "CLPoly.Var.C11_false_release_new_variable"
   ],
   "note": "Proved for every history in which the caller does not create variables with names of the form #var_<k>; the unrestricted claim is false (C11_false_auto_name_collision, C11_false_release_new_variable)."
  },
  {
   "property": "C12",
   "status": "proved",
   "theorems": [
    "CLPoly.C12_variable_orders",
    "CLPoly.C12_univariate_order",
    "CLPoly.C12_custom_order",
    "CLPoly.C12_lex_spec",
    "CLPoly.C12_degree",
    "CLPoly.C12_grlex_spec",
    "CLPoly.C12_monomial_orders",
    "CLPoly.C12_monomial_eq"
   ],
   "note": ""
  },
  {
   "property": "C13",
   "status": "proved",
   "theorems": [
    "CLPoly.C13_multiplicative",
    "CLPoly.C13_one_least",
    "CLPoly.C13_no_infinite_descent"
   ],
   "note": ""
  },
  {
   "property": "C14",
   "status": "proved",
   "theorems": [
    "CLPoly.C14_mul",
    "CLPoly.C14_is_divexact",
    "CLPoly.C14_div",
    "CLPoly.C14_lcm",
    "CLPoly.C14_gcd",
    "CLPoly.C14_pow",
    "CLPoly.C14_deg_in",
    "CLPoly.C14_normalization"
   ],
   "note": ""
  },
  {
   "property": "C15",
   "status": "partial",
   "theorems": [
    "CLPoly.C15_normalization_partial",
    "CLPoly.C15_canonical_iff",
    "CLPoly.C15_sort_exists",
    "CLPoly.C15_idempotent",
    "CLPoly.C15_zero_kept"
   ],
   "note": "value and order proved for every sort outcome; zero sums are kept by the code: exact characterisation C15_canonical_iff, witness C15_zero_kept"
  },
  {
   "property": "C16",
   "status": "proved",
   "theorems": [
    "CLPoly.C16_add",
    "CLPoly.C16_sub",
    "CLPoly.C16_neg",
    "CLPoly.C16_cancel"
   ],
   "note": ""
  },
  {
   "property": "C17",
   "status": "proved",
   "theorems": [
    "CLPoly.C17_mul_grlex",
    "CLPoly.C17_mul_lex",
    "CLPoly.C17_heap"
   ],
   "note": ""
  },
  {
   "property": "C18",
   "status": "partial",
   "theorems": [
    "CLPoly.C18_packed_eq_grlex_partial",
    "CLPoly.C18_packed_eq_lex_partial",
    "CLPoly.C18_overflow_grlex",
    "CLPoly.C18_overflow_lex"
   ],
   "note": "the library does not check the capacity: witnesses C18_overflow_grlex, C18_overflow_lex; equality with the unpacked path proved under the capacity condition"
  },
  {
   "property": "C19",
   "status": "partial",
   "theorems": [
    "CLPoly.C19_exact_grlex_partial",
    "CLPoly.C19_exact_lex",
    "CLPoly.C19_divide_by_zero",
    "CLPoly.C19_wrong_quotient"
   ],
   "note": "lex: full; grlex: all operands except one-variable ones of degree >= 2^31, where C19_wrong_quotient refutes the claim"
  },
  {
   "property": "C20",
   "status": "partial",
   "theorems": [
    "CLPoly.C20_field_grlex_partial",
    "CLPoly.C20_field_lex_partial",
    "CLPoly.C20_divides_grlex_partial",
    "CLPoly.C20_divides_lex_partial",
    "CLPoly.C20_not_reduced",
    "CLPoly.C20_wrong_remainder_monomial"
   ],
   "note": "full identity over fields; witnesses C20_not_reduced (lex) and C20_wrong_remainder_monomial (ZZ) refute the rest"
  },
  {
   "property": "C21",
   "status": "proved",
   "theorems": [
    "CLPoly.C21_pow_grlex",
    "CLPoly.C21_pow_lex"
   ],
   "note": ""
  },
  {
   "property": "C22",
   "status": "proved",
   "theorems": [
    "CLPoly.C22_eq",
    "CLPoly.C22_gt",
    "CLPoly.C22_int_order"
   ],
   "note": ""
  },
  {
   "property": "C23",
   "status": "partial",
   "theorems": [
    "CLPoly.C23_add_scalar_partial",
    "CLPoly.C23_sub_scalar_partial",
    "CLPoly.C23_scalar_sub_partial",
    "CLPoly.C23_add_monomial",
    "CLPoly.C23_scale",
    "CLPoly.C23_counterexamples"
   ],
   "note": "monomial operands and scaling: full; scalars: exact characterisation, witnesses in C23_counterexamples"
  },
  {
   "property": "C24",
   "status": "proved",
   "theorems": [
    "CLPoly.C24_lex",
    "CLPoly.C24_grlex",
    "CLPoly.C24_zero"
   ],
   "note": ""
  },
  {
   "property": "C25",
   "status": "proved",
   "theorems": [
    "CLPoly.C25_degree",
    "CLPoly.C25_degree_lex",
    "CLPoly.C25_coeff",
    "CLPoly.C25_coeff_up",
    "CLPoly.C25_leadcoeff",
    "CLPoly.C25_leadcoeff_up",
    "CLPoly.C25_leadcoeff_lex",
    "CLPoly.C25_leadcoeff_lex_const"
   ],
   "note": ""
  },
  {
   "property": "C26",
   "status": "proved",
   "theorems": [
    "CLPoly.C26_value",
    "CLPoly.C26_full",
    "CLPoly.C26_lex_canonical",
    "CLPoly.C26_zero_kept"
   ],
   "note": ""
  },
  {
   "property": "C27",
   "status": "proved",
   "theorems": [
    "CLPoly.C27_value",
    "CLPoly.C27_canonical_iff",
    "CLPoly.C27_canonical",
    "CLPoly.C27_lex",
    "CLPoly.C27_zero_kept"
   ],
   "note": ""
  },
  {
   "property": "C28",
   "status": "proved",
   "theorems": [
    "CLPoly.C28_order",
    "CLPoly.C28_roundtrip",
    "CLPoly.C28_ZZ_to_QQ",
    "CLPoly.C28_QQ_to_ZZ",
    "CLPoly.C28_Zp_to_ZZ",
    "CLPoly.C28_of",
    "CLPoly.C28_tonum",
    "CLPoly.C28_mod"
   ],
   "note": ""
  },
  {
   "property": "C29",
   "status": "proved",
   "theorems": [
    "CLPoly.C29_normal_form",
    "CLPoly.C29_zero_divisor"
   ],
   "note": ""
  },
  {
   "property": "C30",
   "status": "proved",
   "theorems": [
    "CLPoly.C30_groebner_basis"
   ],
   "note": ""
  },
  {
   "property": "C31",
   "status": "proved",
   "theorems": [
    "CLPoly.C31_contains",
    "CLPoly.C31_reduce"
   ],
   "note": ""
  },
  {
   "property": "C32",
   "status": "proved",
   "theorems": [
    "CLPoly.C32_unique",
    "CLPoly.C32_spec_unique"
   ],
   "note": ""
  },
  {
   "property": "C33",
   "status": "proved",
   "theorems": [
    "CLPoly.C33_graph_history",
    "CLPoly.C33_undirected",
    "CLPoly.C33_associatedgraph",
    "CLPoly.C33_connected_branch",
    "CLPoly.C33_connected_branch_graph",
    "CLPoly.C33_isolated_lost"
   ],
   "note": ""
  },
  {
   "property": "C34",
   "status": "proved",
   "theorems": [
    "CLPoly.C34_elimination_game",
    "CLPoly.C34_chordal_completion",
    "CLPoly.C34_minimal"
   ],
   "note": ""
  },
  {
   "property": "C35",
   "status": "proved",
   "theorems": [
    "CLPoly.C35_root_bound"
   ],
   "note": ""
  },
  {
   "property": "C36",
   "status": "partial",
   "theorems": [
    "CLPoly.C36_uspensky_partial",
    "CLPoly.C36_uspensky_returns",
    "CLPoly.C36_uspensky_zero_refuted",
    "CLPoly.C36_uspensky_list",
    "CLPoly.C36_uspensky_list_returns"
   ],
   "note": "list version: full (isolation and termination). One-polynomial version: everything except the root 0, which is never reported (C36_uspensky_zero_refuted)"
  },
  {
   "property": "C37",
   "status": "proved",
   "theorems": [
    "CLPoly.C37_one_to_inf",
    "CLPoly.C37_scale",
    "CLPoly.C37_left_half",
    "CLPoly.C37_right_half",
    "CLPoly.C37_scale_zero_refuted"
   ],
   "note": ""
  },
  {
   "property": "C38",
   "status": "proved",
   "theorems": [
    "CLPoly.C38_dense_unique",
    "CLPoly.C38_dense_queries",
    "CLPoly.C38_dense_ofSparse",
    "CLPoly.C38_dense_toSparse",
    "CLPoly.C38_dense_roundtrip",
    "CLPoly.C38_dense_add",
    "CLPoly.C38_dense_sub",
    "CLPoly.C38_dense_mul",
    "CLPoly.C38_dense_scalarMul",
    "CLPoly.C38_dense_modulus_mismatch",
    "CLPoly.C38_scalarMul_composite"
   ],
   "note": ""
  },
  {
   "property": "C39",
   "status": "proved",
   "theorems": [
    "CLPoly.C39_dense_divrem",
    "CLPoly.C39_dense_divrem_eq",
    "CLPoly.C39_dense_div_zero"
   ],
   "note": ""
  },
  {
   "property": "C40",
   "status": "proved",
   "theorems": [
    "CLPoly.C40_dense_gcd",
    "CLPoly.C40_dense_gcd_associated",
    "CLPoly.C40_hgcd"
   ],
   "note": ""
  },
  {
   "property": "C41",
   "status": "proved",
   "theorems": [
    "CLPoly.C41_squarefree",
    "CLPoly.C41_squarefree_parts",
    "CLPoly.C41_squarefree_any_fuel"
   ],
   "note": ""
  },
  {
   "property": "C42",
   "status": "proved",
   "theorems": [
    "CLPoly.C42_ddf",
    "CLPoly.C42_edf",
    "CLPoly.C42_edf_can_finish",
    "CLPoly.C42_factor",
    "CLPoly.C42_factor_deterministic",
    "CLPoly.C42_factor_can_finish",
    "CLPoly.C42_gcd",
    "CLPoly.C42_extGcd"
   ],
   "note": ""
  },
  {
   "property": "C43",
   "status": "proved",
   "theorems": [
    "CLPoly.C43_powmod",
    "CLPoly.C43_upoly_ring",
    "CLPoly.C43_upoly_ring_int",
    "CLPoly.C43_upoly_div",
    "CLPoly.C43_powmod_zero_const"
   ],
   "note": ""
  },
  {
   "property": "C44",
   "status": "proved",
   "theorems": [
    "CLPoly.C44_symmetric_mod",
    "CLPoly.C44_symmetric_mod_poly",
    "CLPoly.C44_isqrt_ceil",
    "CLPoly.C44_binomial",
    "CLPoly.C44_mignotte"
   ],
   "note": ""
  },
  {
   "property": "C45",
   "status": "proved",
   "theorems": [
    "CLPoly.C45_division_mod",
    "CLPoly.C45_step",
    "CLPoly.C45_linear_step",
    "CLPoly.C45_lift"
   ],
   "note": ""
  },
  {
   "property": "C46",
   "status": "proved",
   "theorems": [
    "CLPoly.C46_factorize",
    "CLPoly.C46_sign_wrong",
    "CLPoly.C46_recombine_product",
    "CLPoly.C46_van_hoeij_product",
    "CLPoly.C46_candidates",
    "CLPoly.C46_select_prime",
    "CLPoly.C46_select_prime_returns",
    "CLPoly.C46_factor_product",
    "CLPoly.C46_factor_lattice_returns",
    "CLPoly.C46_factor_lattice_product"
   ],
   "note": ""
  },
  {
   "property": "C47",
   "status": "proved",
   "theorems": [
    "CLPoly.C47_sign_changes",
    "CLPoly.C47_descartes"
   ],
   "note": ""
  },
  {
   "property": "C48",
   "status": "proved",
   "theorems": [
    "CLPoly.C48_history"
   ],
   "note": ""
  },
  {
   "property": "C49",
   "status": "proved",
   "theorems": [
    "CLPoly.C49_univariate_content",
    "CLPoly.C49_univariate_content_sign",
    "CLPoly.C49_univariate_primitive_part"
   ],
   "note": "univariate content over ZZ; the multivariate cont and pp are C60"
  },
  {
   "property": "C50",
   "status": "proved",
   "theorems": [
    "CLPoly.C50_random_select",
    "CLPoly.C50_random_select_repeat",
    "CLPoly.C50_random_polynomial",
    "CLPoly.C50_random_polynomial_returns",
    "CLPoly.C50_random_polynomial_stalls",
    "CLPoly.C50_random_polynomial_dense",
    "CLPoly.C50_random_sample",
    "CLPoly.C50_random_polynomial_QQ",
    "CLPoly.C50_random_graph"
   ],
   "note": "streams universally quantified; uint64 counting assumed not to overflow (Fits); empty variable list excluded (undefined behaviour in the code); random_polynomials not modelled"
  },
  {
   "property": "C51",
   "status": "proved",
   "theorems": [
    "CLPoly.C51_groebner_basis_ZZ"
   ],
   "note": ""
  },
  {
   "property": "C52",
   "status": "partial",
   "theorems": [
    "CLPoly.C52_false_ideal_over_ZZ",
    "CLPoly.C52_normal_form_sound_partial",
    "CLPoly.C52_false_diverges"
   ],
   "note": "soundness of every terminating normal_form over ZZ; the claim itself is refuted: C52_false_diverges, C52_false_ideal_over_ZZ"
  },
  {
   "property": "C53",
   "status": "proved",
   "theorems": [
    "CLPoly.C53_chordal_input"
   ],
   "note": ""
  },
  {
   "property": "C54",
   "status": "proved",
   "theorems": [
    "CLPoly.C54_gcd_sound",
    "CLPoly.C54_gcd_unique",
    "CLPoly.C54_gcd_shortcuts",
    "CLPoly.C54_gcdheu",
    "CLPoly.C54_extended_gcd",
    "CLPoly.C54_extended_gcd_not_over_Z"
   ],
   "note": ""
  },
  {
   "property": "C55",
   "status": "proved",
   "theorems": [
    "CLPoly.C55_karatsuba_scratch",
    "CLPoly.C55_karatsuba_scratch_overflow"
   ],
   "note": ""
  },
  {
   "property": "C56",
   "status": "partial",
   "theorems": [
    "CLPoly.C56_gcd_returns_partial",
    "CLPoly.C56_gcd_never_returns_refuted"
   ],
   "note": "refuted: C56_gcd_never_returns_refuted (the loop keeps the primitive part of an image after a failed trial division). Proved when two of the primes show the degree of the gcd and all primes up to there exceed twice the coefficients of the scaled gcd"
  },
  {
   "property": "C57",
   "status": "partial",
   "theorems": [
    "CLPoly.C57_from_isolation",
    "CLPoly.C57_compare_rational",
    "CLPoly.C57_compare_partial",
    "CLPoly.C57_compare_irrational",
    "CLPoly.C57_compare_again",
    "CLPoly.C57_compare_returns",
    "CLPoly.C57_shrink",
    "CLPoly.C57_operators",
    "CLPoly.C57_compare_wrong_refuted"
   ],
   "note": "values kept and equality decided correctly always; rational comparison full; order right except one situation that really occurs: C57_compare_wrong_refuted (the library says sqrt 2 < 5/4)"
  },
  {
   "property": "C58",
   "status": "partial",
   "theorems": [
    "CLPoly.C58_sample_is_a_prefix_refuted"
   ],
   "note": "refuted: C58_sample_is_a_prefix_refuted shows every sample is a permutation of the first min(n,size) elements, whatever the random stream"
  },
  {
   "property": "C59",
   "status": "partial",
   "theorems": [
    "CLPoly.C59_gcd_lex_partial",
    "CLPoly.C59_gcd_any_partial",
    "CLPoly.C59_gcd_unique_partial",
    "CLPoly.C59_gcd_univariate",
    "CLPoly.C59_gcd_shortcuts",
    "CLPoly.C59_gcd_any_univariate",
    "CLPoly.C59_gcd_unique_univariate"
   ],
   "note": "runs with the event of the header of Props/MGcd.lean are excluded; no restriction for one variable, two variables of degree at most 57, three of degree at most 26; full for one variable (theorems ..._univariate)"
  },
  {
   "property": "C60",
   "status": "partial",
   "theorems": [
    "CLPoly.C60_cont_partial",
    "CLPoly.C60_pp_partial",
    "CLPoly.C60_cont_univariate",
    "CLPoly.C60_pp_univariate"
   ],
   "note": "runs with the event of the header of Props/MGcd.lean are excluded; no restriction for one variable, two variables of degree at most 57, three of degree at most 26; full for one variable (theorems ..._univariate)"
  },
  {
   "property": "C61",
   "status": "partial",
   "theorems": [
    "CLPoly.C61_is_squarefree_partial",
    "CLPoly.C61_squarefreefactorize_partial",
    "CLPoly.C61_is_squarefree_univariate",
    "CLPoly.C61_squarefreefactorize_univariate"
   ],
   "note": "runs with the event of the header of Props/MGcd.lean are excluded; no restriction for one variable, two variables of degree at most 57, three of degree at most 26; full for one variable (theorems ..._univariate)"
  },
  {
   "property": "C62",
   "status": "partial",
   "theorems": [
    "CLPoly.C62_squarefreebasis_partial",
    "CLPoly.C62_unit_element",
    "CLPoly.C62_squarefreebasis_univariate"
   ],
   "note": "runs with the event of the header of Props/MGcd.lean are excluded; no restriction for one variable, two variables of degree at most 57, three of degree at most 26; full for one variable (theorems ..._univariate)"
  },
  {
   "property": "C63",
   "status": "partial",
   "theorems": [
    "CLPoly.C63_factorize_irreducible_partial",
    "CLPoly.C63_lift_recombine_irreducible",
    "CLPoly.C63_factor_irreducible_partial",
    "CLPoly.C63_factor_irreducible_lattice_partial",
    "CLPoly.C63_lattice_first_round"
   ],
   "note": "degrees up to 7168, with the lattice reduction of the code; beyond, the rows of the lattice need not all be short and the generic theorem (C63_factor_irreducible_partial) assumes that they separate the factors"
  },
  {
   "property": "C64",
   "status": "partial",
   "theorems": [
    "CLPoly.C64_factorize_univariate",
    "CLPoly.C64_factorize_univariate_any",
    "CLPoly.C64_factorize_univariate_QQ",
    "CLPoly.C64_factorize_multivariate_partial",
    "CLPoly.C64_factorize_code_partial",
    "CLPoly.C64_factorize_any_partial"
   ],
   "note": "several variables: C64_factorize_code_partial is about the whole code including the lifting; runs with the events of Wang/LiftDefs.lean (exponent overflow, zero coefficient left by a substitution, univariate factors not coprime modulo the prime) or of C59 are excluded"
  },
  {
   "property": "C65",
   "status": "proved",
   "theorems": [
    "CLPoly.C65_resultant",
    "CLPoly.C65_resultant_combination",
    "CLPoly.C65_resultant_common_zero",
    "CLPoly.C65_resultant_zero_iff"
   ],
   "note": ""
  },
  {
   "property": "C66",
   "status": "partial",
   "theorems": [
    "CLPoly.C66_chain_partial",
    "CLPoly.C66_chain_index_one_partial",
    "CLPoly.C66_last",
    "CLPoly.C66_chain_defect"
   ],
   "note": "every entry of the chain except that entry 1 may be left empty when a subresultant of index >= 2 has degree 1; the full claim is refuted by C66_chain_defect (F=x^3, G=x^3+x+1)"
  },
  {
   "property": "C67",
   "status": "proved",
   "theorems": [
    "CLPoly.C67_discriminant",
    "CLPoly.C67_discriminant_zero_iff"
   ],
   "note": ""
  },
  {
   "property": "C68",
   "status": "proved",
   "theorems": [
    "CLPoly.C68_rankcompare",
    "CLPoly.C68_basset",
    "CLPoly.C68_basset_zero_diverges"
   ],
   "note": "full for non-zero polynomials; with the zero polynomial the loop never ends: C68_basset_zero_diverges"
  },
  {
   "property": "C69",
   "status": "partial",
   "theorems": [
    "CLPoly.C69_charset_partial",
    "CLPoly.C69_charset_zeros_partial",
    "CLPoly.C69_charset_terminates_partial",
    "CLPoly.C69_charset_zero_diverges"
   ],
   "note": "runs in which every operand of a pseudo-division fits the packed exponents (checked variant, equal to the code on those runs); with the zero polynomial the code never returns: C69_charset_zero_diverges"
  },
  {
   "property": "C70",
   "status": "partial",
   "theorems": [
    "CLPoly.C70_sqrfree_partial"
   ],
   "note": "runs whose gcds pass the checks of C59 (strict variant, equal to the code on those runs)"
  },
  {
   "property": "C71",
   "status": "partial",
   "theorems": [
    "CLPoly.C71_wucharset_partial",
    "CLPoly.C71_wucharset_terminates_partial"
   ],
   "note": "runs that pass the capacity checks and the gcd checks (checked variant, equal to the code on those runs); termination is for the checked variant, the depth bound does not depend on the random draws"
  },
  {
   "property": "C72",
   "status": "partial",
   "theorems": [
    "CLPoly.C72_exact_product_code_partial",
    "CLPoly.C72_coprime_factors_code_partial",
    "CLPoly.C72_positive_factors_code_partial",
    "CLPoly.C72_monomial_content_complete",
    "CLPoly.C72_exact_product_partial",
    "CLPoly.C72_coprime_factors_partial",
    "CLPoly.C72_positive_factors_partial",
    "CLPoly.C72_monomial_content"
   ],
   "note": "with the lifting of the code (\u2026_code_partial) and for any lifting; runs with the events of Wang/LiftDefs.lean (exponent overflow, zero coefficient left by a substitution, univariate factors not coprime modulo the prime) or of C59 are excluded"
  },
  {
   "property": "C73",
   "status": "partial",
   "theorems": [
    "CLPoly.C73_eval_point_code_partial",
    "CLPoly.C73_eval_point_partial"
   ],
   "note": "runs with the events of Wang/LiftDefs.lean (exponent overflow, zero coefficient left by a substitution, univariate factors not coprime modulo the prime) or of C59 are excluded"
  },
  {
   "property": "C74",
   "status": "partial",
   "theorems": [
    "CLPoly.C74_single_factor_irreducible_code_partial",
    "CLPoly.C74_single_factor_irreducible_partial"
   ],
   "note": "degrees up to 7168 (C63); runs with the events of Wang/LiftDefs.lean (exponent overflow, zero coefficient left by a substitution, univariate factors not coprime modulo the prime) or of C59 are excluded"
  },
  {
   "property": "C75",
   "status": "partial",
   "theorems": [
    "CLPoly.C75_lll_returns",
    "CLPoly.C75_lll_unimodular",
    "CLPoly.C75_lll_reduced",
    "CLPoly.C75_lll_first_row",
    "CLPoly.C75_lll_short_rows",
    "CLPoly.C75_lll_singular_loops"
   ],
   "note": "full for nonsingular matrices (all the library uses); for singular ones, allowed by the documented precondition, C75_lll_singular_loops refutes termination"
  },
  {
   "property": "C76",
   "status": "proved",
   "theorems": [
    "CLPoly.C76_cld_poly",
    "CLPoly.C76_cld_polys"
   ],
   "note": ""
  },
  {
   "property": "C77",
   "status": "partial",
   "theorems": [
    "CLPoly.C77_is_regular_partial"
   ],
   "note": "runs whose operands fit the packed representation (checked variant, equal to the code when it does not give up)"
  },
  {
   "property": "C78",
   "status": "partial",
   "theorems": [
    "CLPoly.C78_wrsd_partial",
    "CLPoly.C78_wrsd_wrong"
   ],
   "note": "runs whose operands fit the packed representation and without the defect of C66 (checked variant, equal to the code when it does not give up); C78_wrsd_wrong: the code is wrong in the defect case"
  },
  {
   "property": "C79",
   "status": "partial",
   "theorems": [
    "CLPoly.C79_zd_to_rc_partial",
    "CLPoly.C79_zd_to_rc_terminates_partial",
    "CLPoly.C79_grd_partial",
    "CLPoly.C79_grd_terminates_partial",
    "CLPoly.C79_grd_out_of_range_refuted"
   ],
   "note": "ZDtoRC: runs whose operands fit the packed representation and without the defect of C66 (checked variant, equal to the code when it does not give up). GRDforZD: refuted by C79_grd_out_of_range_refuted (a system with finitely many zeros whose Wu decomposition has a free variable: a read outside a vector); proved under the hypothesis that Wucharset of the run has no free variables"
  },
  {
   "property": "C80",
   "status": "partial",
   "theorems": [
    "CLPoly.C80_rsd_diverges",
    "CLPoly.C80_rsd_sound_partial",
    "CLPoly.C80_rsd_wrong"
   ],
   "note": "C80_rsd_sound_partial: whatever the checked run returns for a regular chain is the code's result and splits the zeros into those with f = 0 and f \u2260 0 by regular chains (all fields of characteristic 0). Not true in general of the code: C80_rsd_diverges (a recursion that does not end on a regular chain), C80_rsd_wrong (a wrong decomposition, from the subresultant defect of C66). The checked run gives up on operands that do not fit the packed exponents, on that defect, and where the last element would be replaced by a constant"
  },
  {
   "property": "C81",
   "status": "partial",
   "theorems": [
    "CLPoly.C81_rc_to_sqrfree_diverges",
    "CLPoly.C81_rc_to_sqrfree_partial",
    "CLPoly.C81_first_unchecked"
   ],
   "note": "results that the checked variant returns (equal to the code); termination is refuted by C81_rc_to_sqrfree_diverges, the first element is never checked (C81_first_unchecked)"
  },
  {
   "property": "C82",
   "status": "partial",
   "theorems": [
    "CLPoly.C82_grd_sas_partial",
    "CLPoly.C82_grd_sas_out_of_range_refuted"
   ],
   "note": "results that the checked variant returns (equal to the code), under the hypothesis that Wucharset of this run has N elements in each set and no free variables; termination not covered (C81); refuted otherwise: C82_grd_sas_out_of_range_refuted (see C79)"
  },
  {
   "property": "C83",
   "status": "proved",
   "theorems": [
    "CLPoly.C83_mdp_solves",
    "CLPoly.C83_mdp_unique",
    "CLPoly.C83_mdp_refuses"
   ],
   "note": ""
  },
  {
   "property": "C84",
   "status": "proved",
   "theorems": [
    "CLPoly.C84_vandermonde_solves",
    "CLPoly.C84_vandermonde_refuses"
   ],
   "note": ""
  },
  {
   "property": "C85",
   "status": "proved",
   "theorems": [
    "CLPoly.C85_images"
   ],
   "note": ""
  },
  {
   "property": "C86",
   "status": "partial",
   "theorems": [
    "CLPoly.C86_factors_irreducible_code_partial",
    "CLPoly.C86_factors_irreducible_partial"
   ],
   "note": "with the lifting of the code (C86_factors_irreducible_code_partial) and for any lifting with the contract LiftImg; runs with the events of Wang/LiftDefs.lean (exponent overflow, zero coefficient left by a substitution, univariate factors not coprime modulo the prime) or of C59 are excluded; irreducible divisors of the same multiplicity must contain the same variables; degrees at most 7168 (C63)"
  },
  {
   "property": "C87",
   "status": "proved",
   "theorems": [
    "CLPoly.C87_taylor_coefficient"
   ],
   "note": ""
  },
  {
   "property": "C88",
   "status": "proved",
   "theorems": [
    "CLPoly.C88_sparse_solves",
    "CLPoly.C88_sparse_unique",
    "CLPoly.C88_empty_supports"
   ],
   "note": "the exponents of the factors and of the supports fit into the packed words of the final test; C88_empty_supports: if all supports are empty it returns true and zeros whatever the right hand side is"
  },
  {
   "property": "C89",
   "status": "partial",
   "theorems": [
    "CLPoly.C89_dense_wrong_answer",
    "CLPoly.C89_dense_solves_partial",
    "CLPoly.C89_dense_finds_partial"
   ],
   "note": "refuted in general (C89_dense_wrong_answer); proved for two variables when the solution has no larger degree in y than the right hand side (C89_dense_solves_partial: checked runs; C89_dense_finds_partial: the code ends with the solution, main variable first in the order, degrees that fit); not proved: more auxiliary variables"
  },
  {
   "property": "C90",
   "status": "proved",
   "theorems": [
    "CLPoly.C90_two_variables",
    "CLPoly.C90_checked_runs"
   ],
   "note": "C90_checked_runs: for any order of the variables, runs without the events of Wang/LiftDefs.lean"
  },
  {
   "property": "C91",
   "status": "partial",
   "theorems": [
    "CLPoly.C91_any_variables_partial",
    "CLPoly.C91_wrong_lift_refuted"
   ],
   "note": "proved as long as every answer of the dense solver is a solution (flag ex of the model); C91_wrong_lift_refuted: otherwise the claim is false"
  },
  {
   "property": "C92",
   "status": "proved",
   "theorems": [
    "CLPoly.C92_sparse_finds"
   ],
   "note": ""
  },
  {
   "property": "C93",
   "status": "proved",
   "theorems": [
    "CLPoly.C93_leading_coefficients"
   ],
   "note": ""
  },
  {
   "property": "C94",
   "status": "proved",
   "theorems": [
    "CLPoly.C94_factors_found"
   ],
   "note": ""
  },
  {
   "property": "C95",
   "status": "proved",
   "theorems": [
    "CLPoly.C95_two_variable_factors"
   ],
   "note": ""
  },
  {
   "property": "C96",
   "status": "proved",
   "theorems": [
    "CLPoly.C96_bezout",
    "CLPoly.C96_one_variable",
    "CLPoly.C96_zero",
    "CLPoly.C96_not_gcd"
   ],
   "note": ""
  },
  {
   "property": "C97",
   "status": "proved",
   "theorems": [
    "CLPoly.C97_ZZ",
    "CLPoly.C97_QQ",
    "CLPoly.C97_Zp",
    "CLPoly.C97_injective",
    "CLPoly.C97_upolynomial",
    "CLPoly.C97_names_refuted"
   ],
   "note": ""
  },
  {
   "property": "C98",
   "status": "proved",
   "theorems": [
    "CLPoly.C98_realroot",
    "CLPoly.C98_throws",
    "CLPoly.C98_returns"
   ],
   "note": ""
  },
  {
   "property": "C99",
   "status": "proved",
   "theorems": [
    "CLPoly.C99_random_upolynomial",
    "CLPoly.C99_random_polynomials",
    "CLPoly.C99_associatedgraph"
   ],
   "note": ""
  },
  {
   "property": "C100",
   "status": "partial",
   "theorems": [
    "CLPoly.C100_gcd_never_returns_refuted"
   ],
   "note": "refuted: C100_gcd_never_returns_refuted. No general termination theorem: what a run returns is covered by C59"
  },
  {
   "property": "C101",
   "status": "partial",
   "theorems": [
    "CLPoly.C101_ZZ_roundtrip",
    "CLPoly.C101_ZZ_read",
    "CLPoly.C101_QQ_roundtrip",
    "CLPoly.C101_QQ_read_partial",
    "CLPoly.C101_QQ_invalid_refuted"
   ],
   "note": "round trips and integers: full; rationals: every text except a/0, for which (and for the state after an exception) C101_QQ_invalid_refuted refutes the claim"
  },
  {
   "property": "C102",
   "status": "partial",
   "theorems": [
    "CLPoly.C102_coeff_bound_partial",
    "CLPoly.C102_value",
    "CLPoly.C102_coeff_bound_refuted"
   ],
   "note": "one variable: full (C102_coeff_bound_partial); more variables: refuted (C102_coeff_bound_refuted)"
  },
  {
   "property": "C103",
   "status": "proved",
   "theorems": [
    "CLPoly.C103_rep",
    "CLPoly.C103_ZZ",
    "CLPoly.C103_QQ",
    "CLPoly.C103_Zp",
    "CLPoly.C103_mono",
    "CLPoly.C103_canonical_needed",
    "CLPoly.C103_one_order_needed"
   ],
   "note": ""
  },
  {
   "property": "C104",
   "status": "proved",
   "theorems": [
    "CLPoly.C104_peo",
    "CLPoly.C104_peo_minimal",
    "CLPoly.C104_DFV"
   ],
   "note": "Degrees and counts are unbounded integers in the model."
  },
  {
   "property": "C105",
   "status": "proved",
   "theorems": [
    "CLPoly.C105_elimination_height"
   ],
   "note": "For orderings of all nodes; a shorter ordering is undefined behaviour in the code (none in the model)."
  },
  {
   "property": "C106",
   "status": "partial",
   "theorems": [
    "CLPoly.C106_counts",
    "CLPoly.C106_range",
    "CLPoly.C106_same_nodes_partial",
    "CLPoly.C106_refuted_extra_nodes",
    "CLPoly.C106_no_edges"
   ],
   "note": "Exact counts for all pairs of graphs (C106_counts), range, and the full claim for graphs on the same nodes. In general refuted: the node set is filled from the first graph twice (242-245), so edges at nodes of the second graph only are ignored (C106_refuted_extra_nodes); two graphs without edges give 0/0 (C106_no_edges)."
  },
  {
   "property": "C107",
   "status": "proved",
   "theorems": [
    "CLPoly.C107_find",
    "CLPoly.C107_find_term",
    "CLPoly.C107_find_univariate"
   ],
   "note": ""
  },
  {
   "property": "C108",
   "status": "proved",
   "theorems": [
    "CLPoly.C108_upoly_prem",
    "CLPoly.C108_unique",
    "CLPoly.C108_zero"
   ],
   "note": ""
  },
  {
   "property": "C109",
   "status": "proved",
   "theorems": [
    "CLPoly.C109_variables",
    "CLPoly.C109_variables_all",
    "CLPoly.C109_size",
    "CLPoly.C109_names",
    "CLPoly.C109_same_list"
   ],
   "note": "For polynomials in normal form (the invariant every operation keeps)."
  },
  {
   "property": "C110",
   "status": "partial",
   "theorems": [
    "CLPoly.C110_is_normal_partial",
    "CLPoly.C110_monomial_partial",
    "CLPoly.C110_refuted"
   ],
   "note": "Partial: nonempty vectors with normal monomials. C110_refuted: undefined behaviour on the zero polynomial and on the monomial 1; the const overload of the first check (basic.hh 73-75) accepts polynomials with monomials that are not normal."
  },
  {
   "property": "C111",
   "status": "proved",
   "theorems": [
    "CLPoly.C111_m_d",
    "CLPoly.C111_constant"
   ],
   "note": "Counters and degrees are unbounded in the model. A constant polynomial in the system is undefined behaviour: C111_constant."
  },
  {
   "property": "C112",
   "status": "proved",
   "theorems": [
    "CLPoly.C112_degree",
    "CLPoly.C112_equality",
    "CLPoly.C112_normal",
    "CLPoly.C112_same",
    "CLPoly.C112_mul",
    "CLPoly.C112_div",
    "CLPoly.C112_build",
    "CLPoly.C112_assign",
    "CLPoly.C112_normalization",
    "CLPoly.C112_repair",
    "CLPoly.C112_refuted_resize",
    "CLPoly.C112_refuted_reference",
    "CLPoly.C112_refuted_cancel"
   ],
   "note": "Exponents and degrees are unbounded in the model; two pointers to equal order objects have one name. Refuted with writes through references, deg() or resize: C112_refuted_resize, C112_refuted_reference, C112_refuted_cancel."
  },
  {
   "property": "C113",
   "status": "proved",
   "theorems": [
    "CLPoly.C113_history_grlex",
    "CLPoly.C113_history_lex",
    "CLPoly.C113_same_grlex",
    "CLPoly.C113_same_lex",
    "CLPoly.C113_alias",
    "CLPoly.C113_refuted_scale_zero",
    "CLPoly.C113_refuted_setComp"
   ],
   "note": "The order pointers inside the monomials and pop_back are not modelled. Refuted outside the hypotheses: C113_refuted_scale_zero (order lost), C113_refuted_setComp. == against equality of meanings: grlex (C113_same_grlex)."
  },
  {
   "property": "C114",
   "status": "proved",
   "theorems": [
    "CLPoly.C114_history",
    "CLPoly.C114_every_moment",
    "CLPoly.C114_ownership",
    "CLPoly.C114_inline",
    "CLPoly.C114_no_leak",
    "CLPoly.C114_count",
    "CLPoly.C114_frame",
    "CLPoly.C114_refuted_min",
    "CLPoly.C114_refuted_fdivR",
    "CLPoly.C114_refuted_dead"
   ],
   "note": "GMP is taken at its specification (a number is an integer, mpz_init/mpz_clear allocate and free it); allocation does not fail. /=, %= and the functions that return a new ZZ by calls of these are compositions; fdiv_qr, invert and the string conversion are not in the histories. Undefined behaviour outside the hypotheses: C114_refuted_min, C114_refuted_fdivR, C114_refuted_dead."
  }
 ]
}