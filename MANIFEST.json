{
 "claims": [
  {
   "property": "C01",
   "status": "proved",
   "theorems": [
    "Cyjax.C01_pop"
   ],
   "note": ""
  },
  {
   "property": "C02",
   "status": "partial",
   "theorems": [
    "Cyjax.C02_pop_negative_partial",
    "Cyjax.C02_pop_negative_rotated",
    "Cyjax.C02_pop_negative_violated"
   ],
   "note": "False of the code: for a negative index the remaining entries come out rotated by one (C02_pop_negative_violated, exact description C02_pop_negative_rotated). Proved: the popped value is right."
  },
  {
   "property": "C03",
   "status": "proved",
   "theorems": [
    "Cyjax.C03_insert1d",
    "Cyjax.C03_insert1d_negative",
    "Cyjax.C03_insert1d_negative_scalar"
   ],
   "note": ""
  },
  {
   "property": "C04",
   "status": "proved",
   "theorems": [
    "Cyjax.C04_insertCol",
    "Cyjax.C04_insertCol_negative",
    "Cyjax.C04_insertCol_single"
   ],
   "note": ""
  },
  {
   "property": "C05",
   "status": "proved",
   "theorems": [
    "Cyjax.C05_insert_pop",
    "Cyjax.C05_pop_insert"
   ],
   "note": ""
  },
  {
   "property": "C06",
   "status": "proved",
   "theorems": [
    "Cyjax.C06_prod",
    "Cyjax.C06_prod_empty"
   ],
   "note": ""
  },
  {
   "property": "C07",
   "status": "partial",
   "theorems": [
    "Cyjax.C07_prod_immutable_partial",
    "Cyjax.C07_prod_mutable_partial",
    "Cyjax.C07_prod_violated",
    "Cyjax.C07_prod_alias_violated"
   ],
   "note": "False of the code for a mutable numpy first factor (C07_prod_violated, C07_prod_alias_violated). Proved: immutable first factor; all other arrays are unchanged."
  },
  {
   "property": "C08",
   "status": "proved",
   "theorems": [
    "Cyjax.C08_binomial",
    "Cyjax.C08_binomial_error"
   ],
   "note": ""
  },
  {
   "property": "C09",
   "status": "proved",
   "theorems": [
    "Cyjax.C09_fs_metric",
    "Cyjax.C09_fs_potential",
    "Cyjax.C09_mismatch",
    "Cyjax.C09_flatten_map_unflatten",
    "Cyjax.C09_roundtrip",
    "Cyjax.C09_scalar"
   ],
   "note": ""
  },
  {
   "property": "C10",
   "status": "proved",
   "theorems": [
    "Cyjax.C10_shuffle"
   ],
   "note": ""
  },
  {
   "property": "C11",
   "status": "partial",
   "theorems": [
    "Cyjax.C11_ignores_fn",
    "Cyjax.C11_violated",
    "Cyjax.C11_unit_integrand_partial"
   ],
   "note": "False of the code: fn is ignored in the returned value (C11_ignores_fn, C11_violated). Proved for fn = 1."
  },
  {
   "property": "C12",
   "status": "proved",
   "theorems": [
    "Cyjax.C12_batched_formula",
    "Cyjax.C12_batched",
    "Cyjax.C12_single_batch",
    "Cyjax.C12_variance_nonneg"
   ],
   "note": "Integrand 1 as stated in the property; C12_batched_formula gives the exact result for every fn."
  },
  {
   "property": "C13",
   "status": "proved",
   "theorems": [
    "Cyjax.C13_prng",
    "Cyjax.C13_prng_seed",
    "Cyjax.C13_prng_continue",
    "Cyjax.C13_prng_nodup"
   ],
   "note": "Distinctness under the stated no-collision hypotheses on split."
  },
  {
   "property": "C14",
   "status": "proved",
   "theorems": [
    "Cyjax.C14_affine_hom_affine",
    "Cyjax.C14_hom_affine_hom",
    "Cyjax.C14_strictMono_range",
    "Cyjax.C14_range",
    "Cyjax.C14_meaning"
   ],
   "note": ""
  },
  {
   "property": "C15",
   "status": "proved",
   "theorems": [
    "Cyjax.C15_roundtrip",
    "Cyjax.C15_one_at_patch"
   ],
   "note": ""
  },
  {
   "property": "C16",
   "status": "proved",
   "theorems": [
    "Cyjax.C16_roundtrip"
   ],
   "note": ""
  },
  {
   "property": "C17",
   "status": "proved",
   "theorems": [
    "Cyjax.C17_patch",
    "Cyjax.C17_bounded",
    "Cyjax.C17_same_point",
    "Cyjax.C17_strict_violated"
   ],
   "note": "The docstring's strict |z_i| < 1 is false (C17_strict_violated); the property is stated with <=."
  },
  {
   "property": "C18",
   "status": "proved",
   "theorems": [
    "Cyjax.C18_fixed_patch",
    "Cyjax.C18_auto"
   ],
   "note": ""
  },
  {
   "property": "C19",
   "status": "proved",
   "theorems": [
    "Cyjax.C19_change_chart",
    "Cyjax.C19_same_point"
   ],
   "note": ""
  },
  {
   "property": "C20",
   "status": "proved",
   "theorems": [
    "Cyjax.C20_inverse",
    "Cyjax.C20_cocycle"
   ],
   "note": ""
  },
  {
   "property": "C21",
   "status": "partial",
   "theorems": [
    "Cyjax.C21_equal_charts",
    "Cyjax.C21_violated"
   ],
   "note": "False of the code (C21_violated); C21_equal_charts states exactly what is returned."
  },
  {
   "property": "C22",
   "status": "proved",
   "theorems": [
    "Cyjax.C22_fs_posDef",
    "Cyjax.C22_fs_hermitian"
   ],
   "note": ""
  },
  {
   "property": "C23",
   "status": "proved",
   "theorems": [
    "Cyjax.C23_first_derivative",
    "Cyjax.C23_mixed_derivative",
    "Cyjax.C23_fs_hessian"
   ],
   "note": ""
  },
  {
   "property": "C24",
   "status": "proved",
   "theorems": [
    "Cyjax.C24_affine_real",
    "Cyjax.C24_hom_real",
    "Cyjax.C24_hom_vs_affine",
    "Cyjax.C24_scaling"
   ],
   "note": ""
  },
  {
   "property": "C25",
   "status": "proved",
   "theorems": [
    "Cyjax.C25_fs_det",
    "Cyjax.C25_fs_nondegenerate"
   ],
   "note": ""
  },
  {
   "property": "C26",
   "status": "proved",
   "theorems": [
    "Cyjax.C26_fs_chart"
   ],
   "note": ""
  },
  {
   "property": "C27",
   "status": "proved",
   "theorems": [
    "Cyjax.C27_identity_columns",
    "Cyjax.C27_dependent_column",
    "Cyjax.C27_tangent",
    "Cyjax.C27_implicit_derivative"
   ],
   "note": ""
  },
  {
   "property": "C28",
   "status": "proved",
   "theorems": [
    "Cyjax.C28_pullback",
    "Cyjax.C28_entries",
    "Cyjax.C28_conjugate_gradient",
    "Cyjax.C28_hermitian",
    "Cyjax.C28_posDef"
   ],
   "note": ""
  },
  {
   "property": "C29",
   "status": "proved",
   "theorems": [
    "Cyjax.C29_volume_density"
   ],
   "note": ""
  },
  {
   "property": "C30",
   "status": "proved",
   "theorems": [
    "Cyjax.C30_independent",
    "Cyjax.C30_automatic",
    "Cyjax.C30_positive"
   ],
   "note": ""
  },
  {
   "property": "C31",
   "status": "partial",
   "theorems": [
    "Cyjax.C31_separate_partial",
    "Cyjax.C31_vol_violated"
   ],
   "note": "False of the code for vol other than None and 1: the volume factor enters only the separate pair (C31_vol_violated). Proved for vol = None and vol = 1."
  },
  {
   "property": "C32",
   "status": "partial",
   "theorems": [
    "Cyjax.C32_silent_violated",
    "Cyjax.C32_homogeneous_partial",
    "Cyjax.C32_dwork",
    "Cyjax.C32_fermat",
    "Cyjax.C32_affine_partial",
    "Cyjax.C32_affine_dwork",
    "Cyjax.C32_affine_fermat",
    "Cyjax.C32_clash_violated"
   ],
   "note": "Proved for generic, Dwork and Fermat varieties under an exact root finder (ExactRoots) and any symbol order sympy may pick. Parameter names must not collide with the line symbols t, p, q; a parameter named t always fails (C32_clash_violated), and a parameter named p_0 silently gives points off the variety (C32_silent_violated). Lines on which the leading coefficient vanishes are excluded."
  },
  {
   "property": "C33",
   "status": "partial",
   "theorems": [
    "Cyjax.C33_length",
    "Cyjax.C33_count_partial",
    "Cyjax.C33_dwork",
    "Cyjax.C33_fermat",
    "Cyjax.C33_violated"
   ],
   "note": "The returned length is proved exactly (C33_length). It covers count for degree >= number of variables, in particular for Dwork and Fermat; for smaller degree it is false (C33_violated)."
  },
  {
   "property": "C34",
   "status": "partial",
   "theorems": [
    "Cyjax.C34_solutions_partial",
    "Cyjax.C34_dwork",
    "Cyjax.C34_fermat",
    "Cyjax.C34_no_patch_violated"
   ],
   "note": "Proved without exception for Dwork and Fermat varieties (at least three homogeneous coordinates), and for a general polynomial whenever the leading coefficient in the dependent coordinate does not vanish at the input; the root finder is assumed exact. patch=None, the default, always raises (C34_no_patch_violated). Missing: two homogeneous coordinates, where no other coordinate is left (see C47_single_violated)."
  },
  {
   "property": "C35",
   "status": "partial",
   "theorems": [
    "Cyjax.C35_violated",
    "Cyjax.C35_internal_choice_partial",
    "Cyjax.C35_given"
   ],
   "note": "False of the code: best_dependent swaps params and patch and every call raises (C35_violated). Proved: the automatic choice inside jacobian_embed, induced_metric and induced_fs maximises the modulus of the gradient."
  },
  {
   "property": "C36",
   "status": "proved",
   "theorems": [
    "Cyjax.C36_split_merge",
    "Cyjax.C36_split_underscore",
    "Cyjax.C36_split_plain",
    "Cyjax.C36_merge_injective"
   ],
   "note": ""
  },
  {
   "property": "C37",
   "status": "proved",
   "theorems": [
    "Cyjax.C37_union_mem",
    "Cyjax.C37_union_nodup",
    "Cyjax.C37_union_sorted"
   ],
   "note": ""
  },
  {
   "property": "C38",
   "status": "partial",
   "theorems": [
    "Cyjax.C38_binding_keyword_partial",
    "Cyjax.C38_binding_no_params_partial",
    "Cyjax.C38_binding_positional",
    "Cyjax.C38_too_many",
    "Cyjax.C38_missing",
    "Cyjax.C38_params_length",
    "Cyjax.C38_extra_positional_violated"
   ],
   "note": "False of the code in one case: surplus positional arguments are silently dropped when params is a keyword (C38_extra_positional_violated). Proved: the bindings, missing arguments, too many positional arguments without the keyword, wrong params length."
  },
  {
   "property": "C39",
   "status": "proved",
   "theorems": [
    "Cyjax.C39_evaluation",
    "Cyjax.C39_inputs_exist",
    "Cyjax.C39_poly_call"
   ],
   "note": ""
  },
  {
   "property": "C40",
   "status": "partial",
   "theorems": [
    "Cyjax.C40_complex_violated",
    "Cyjax.C40_real_partial"
   ],
   "note": "False of the code: any non-real coefficient makes every numerical call raise (C40_complex_violated). Real coefficients never fail (C40_real_partial)."
  },
  {
   "property": "C41",
   "status": "partial",
   "theorems": [
    "Cyjax.C41_symbolic_partial",
    "Cyjax.C41_swap_violated"
   ],
   "note": "False of the code when inputs mention symbols of the polynomial that are replaced themselves (C41_swap_violated). Proved whenever the symbols of the polynomial mentioned in the inputs are left as they are."
  },
  {
   "property": "C42",
   "status": "proved",
   "theorems": [
    "Cyjax.C42_modes",
    "Cyjax.C42_log"
   ],
   "note": "The log mode needs non-zero values wherever a positive power occurs."
  },
  {
   "property": "C43",
   "status": "proved",
   "theorems": [
    "Cyjax.C43_from_coeffs",
    "Cyjax.C43_from_coeffs_succeeds",
    "Cyjax.C43_unknown_parameter"
   ],
   "note": "For real coefficients (others cannot be evaluated, C40); construction raises when no variable occurs (C44_constant_violated)."
  },
  {
   "property": "C44",
   "status": "partial",
   "theorems": [
    "Cyjax.C44_roundtrip_partial",
    "Cyjax.C44_constant_violated",
    "Cyjax.C44_complex_violated",
    "Cyjax.C44_complex_sum_violated",
    "Cyjax.C44_power_violated",
    "Cyjax.C44_complex_parameter_violated"
   ],
   "note": "False of the code for complex coefficients (C44_complex_violated, C44_complex_sum_violated, C44_complex_parameter_violated), for powers of parameters (C44_power_violated) and for polynomials without variables (C44_constant_violated); proved for all others."
  },
  {
   "property": "C45",
   "status": "proved",
   "theorems": [
    "Cyjax.C45_arithmetic",
    "Cyjax.C45_metadata",
    "Cyjax.C45_mixed_rejected"
   ],
   "note": "For operands with real coefficients (others cannot be evaluated, C40) and no parameter sharing the base name of a variable of the other operand. For numbers and single symbols as operand see C136."
  },
  {
   "property": "C46",
   "status": "partial",
   "theorems": [
    "Cyjax.C46_diff_partial",
    "Cyjax.C46_diff_succeeds",
    "Cyjax.C46_absent_variable_violated"
   ],
   "note": "False of the code for polynomials from from_coeffs_and_powers and a declared variable that does not occur: diff raises (C46_absent_variable_violated). Proved for generators."
  },
  {
   "property": "C47",
   "status": "partial",
   "theorems": [
    "Cyjax.C47_univariate_partial",
    "Cyjax.C47_leading_partial",
    "Cyjax.C47_single_violated",
    "Cyjax.C47_parameter_rejected",
    "Cyjax.C47_from_sympy",
    "Cyjax.C47_code_partial"
   ],
   "note": "False of the code if var is the only variable and a parameter occurs: the call raises (C47_single_violated). Proved whenever another variable is left."
  },
  {
   "property": "C48",
   "status": "proved",
   "theorems": [
    "Cyjax.C48_bijection",
    "Cyjax.C48_formula"
   ],
   "note": ""
  },
  {
   "property": "C49",
   "status": "proved",
   "theorems": [
    "Cyjax.C49_dispatch",
    "Cyjax.C49_branches"
   ],
   "note": ""
  },
  {
   "property": "C50",
   "status": "partial",
   "theorems": [
    "Cyjax.C50_affine_partial",
    "Cyjax.C50_absent_violated"
   ],
   "note": "Proved for any number of variables and any history, when every coordinate set to one is a generator of the symbolic polynomial (always so after from_sympy) and not the only one. False otherwise: every such call raises (C50_absent_violated)."
  },
  {
   "property": "C51",
   "status": "partial",
   "theorems": [
    "Cyjax.C51_symbolic_index_partial",
    "Cyjax.C51_positional_violated"
   ],
   "note": "False of the code (C51_positional_violated): the patch number is used as the symbolic index. C51_symbolic_index_partial states what holds for any index set."
  },
  {
   "property": "C52",
   "status": "proved",
   "theorems": [
    "Cyjax.C52_cache",
    "Cyjax.C52_evaluation",
    "Cyjax.C52_invalid_pollutes"
   ],
   "note": "For histories of valid calls, as stated; C52_invalid_pollutes shows that one invalid patch breaks it."
  },
  {
   "property": "C53",
   "status": "proved",
   "theorems": [
    "Cyjax.C53_dwork_value",
    "Cyjax.C53_fermat_value",
    "Cyjax.C53_homogeneous",
    "Cyjax.C53_symmetric",
    "Cyjax.C53_patch",
    "Cyjax.C53_shape",
    "Cyjax.C53_symbolic"
   ],
   "note": ""
  },
  {
   "property": "C54",
   "status": "partial",
   "theorems": [
    "Cyjax.C54_order_partial",
    "Cyjax.C54_indices_complete",
    "Cyjax.C54_no_names_partial",
    "Cyjax.C54_no_names_violated",
    "Cyjax.C54_mixed_violated"
   ],
   "note": "With names given and no mixture of z and z0 the result is independent of the order (C54_order_partial) and the indices are complete and sorted. Without names only the parameters and polynomial are (C54_no_names_partial): for x - y the positional arguments swap (C54_no_names_violated). A z/z0 mixture in which z cancels gives an error for one order only (C54_mixed_violated)."
  },
  {
   "property": "C55",
   "status": "partial",
   "theorems": [
    "Cyjax.C55_violated",
    "Cyjax.C55_named_partial"
   ],
   "note": "False without names: two entries of one array are always rejected (C55_violated, every order). With the name given the entries are grouped, sorted and complete (C55_named_partial)."
  },
  {
   "property": "C56",
   "status": "proved",
   "theorems": [
    "Cyjax.C56_monomial_basis",
    "Cyjax.C56_indices"
   ],
   "note": ""
  },
  {
   "property": "C57",
   "status": "proved",
   "theorems": [
    "Cyjax.C57_size",
    "Cyjax.C57_reduced"
   ],
   "note": ""
  },
  {
   "property": "C58",
   "status": "proved",
   "theorems": [
    "Cyjax.C58_result",
    "Cyjax.C58_errors"
   ],
   "note": ""
  },
  {
   "property": "C59",
   "status": "proved",
   "theorems": [
    "Cyjax.C59_basis",
    "Cyjax.C59_order_violated"
   ],
   "note": "C59_order_violated shows that the hypothesis on the order of the terms cannot be dropped."
  },
  {
   "property": "C60",
   "status": "proved",
   "theorems": [
    "Cyjax.C60_hom",
    "Cyjax.C60_affine",
    "Cyjax.C60_log_hom",
    "Cyjax.C60_log_affine",
    "Cyjax.C60_bounded",
    "Cyjax.C60_affine_hom"
   ],
   "note": ""
  },
  {
   "property": "C61",
   "status": "proved",
   "theorems": [
    "Cyjax.C61_kahler",
    "Cyjax.C61_full_nonzero",
    "Cyjax.C61_full_psi",
    "Cyjax.C61_transition",
    "Cyjax.C61_full_degree"
   ],
   "note": "The Kahler transformation is stated for positive definite H and sections without common zero; C61_full_nonzero shows this for the full basis."
  },
  {
   "property": "C62",
   "status": "proved",
   "theorems": [
    "Cyjax.C62_real",
    "Cyjax.C62_pos",
    "Cyjax.C62_diag"
   ],
   "note": ""
  },
  {
   "property": "C63",
   "status": "proved",
   "theorems": [
    "Cyjax.C63_hermitian",
    "Cyjax.C63_posSemidef",
    "Cyjax.C63_posDef",
    "Cyjax.C63_degenerate",
    "Cyjax.C63_full"
   ],
   "note": ""
  },
  {
   "property": "C64",
   "status": "proved",
   "theorems": [
    "Cyjax.C64_sections",
    "Cyjax.C64_metric",
    "Cyjax.C64_differentiable"
   ],
   "note": "For Hermitian H where psi > 0. C64_sections shows that the code's own sections meet IsJet."
  },
  {
   "property": "C65",
   "status": "proved",
   "theorems": [
    "Cyjax.C65_first",
    "Cyjax.C65_dz"
   ],
   "note": ""
  },
  {
   "property": "C66",
   "status": "proved",
   "theorems": [
    "Cyjax.C66_second",
    "Cyjax.C66_differentiable"
   ],
   "note": ""
  },
  {
   "property": "C67",
   "status": "proved",
   "theorems": [
    "Cyjax.C67_first",
    "Cyjax.C67_second",
    "Cyjax.C67_pullback"
   ],
   "note": ""
  },
  {
   "property": "C68",
   "status": "proved",
   "theorems": [
    "Cyjax.C68_ricci",
    "Cyjax.C68_differentiable",
    "Cyjax.C68_full"
   ],
   "note": "In ambient affine coordinates, with log|det|; C68_full shows that all hypotheses hold for the full basis on any hypersurface."
  },
  {
   "property": "C69",
   "status": "proved",
   "theorems": [
    "Cyjax.C69_real"
   ],
   "note": ""
  },
  {
   "property": "C70",
   "status": "proved",
   "theorems": [
    "Cyjax.C70_dependent",
    "Cyjax.C70_real",
    "Cyjax.C70_pos"
   ],
   "note": ""
  },
  {
   "property": "C71",
   "status": "proved",
   "theorems": [
    "Cyjax.C71_metric",
    "Cyjax.C71_induced",
    "Cyjax.C71_kahler"
   ],
   "note": ""
  },
  {
   "property": "C72",
   "status": "partial",
   "theorems": [
    "Cyjax.C72_partial",
    "Cyjax.C72_eta_partial",
    "Cyjax.C72_violated"
   ],
   "note": "Agrees for psi, its derivatives except psi_hh, the Kahler potential, g_proj, g_loc and eta. C72_violated: psi_hh lacks a return in the one-dimensional branch, so the derivatives of the metric and the curvature raise for every diagonal h."
  },
  {
   "property": "C73",
   "status": "proved",
   "theorems": [
    "Cyjax.C73_bounds",
    "Cyjax.C73_zero",
    "Cyjax.C73_scale"
   ],
   "note": "Given the values of eta and the weights at the sampled points; invariance of eta under rescaling of H is C71."
  },
  {
   "property": "C74",
   "status": "proved",
   "theorems": [
    "Cyjax.C74_hermitian",
    "Cyjax.C74_posSemidef",
    "Cyjax.C74_new_hermitian",
    "Cyjax.C74_new_posDef",
    "Cyjax.C74_invertible"
   ],
   "note": "C74_invertible: T is positive definite as soon as the sampled sections span."
  },
  {
   "property": "C75",
   "status": "proved",
   "theorems": [
    "Cyjax.C75_average",
    "Cyjax.C75_split",
    "Cyjax.C75_scale",
    "Cyjax.C75_trace"
   ],
   "note": "Any regrouping of the points into batches, rescaling, trace identity."
  },
  {
   "property": "C76",
   "status": "proved",
   "theorems": [
    "Cyjax.C76_decode",
    "Cyjax.C76_posSemidef",
    "Cyjax.C76_accepts"
   ],
   "note": "Hermitian, positive semi-definite, positive definite iff no zero diagonal entry; every pair of arrays of matching sizes (incl. the length-one broadcast) is covered, other sizes raise."
  },
  {
   "property": "C77",
   "status": "proved",
   "theorems": [
    "Cyjax.C77_complete",
    "Cyjax.C77_from_param"
   ],
   "note": "Existence and uniqueness of (diag, upper) with positive diagonal, for every positive definite matrix of every size."
  },
  {
   "property": "C78",
   "status": "proved",
   "theorems": [
    "Cyjax.C78_sizes",
    "Cyjax.C78_blocks"
   ],
   "note": "Square sizes exactly; odd/other sizes raise. The float square root and rounding of the size are modelled exactly (sizes beyond 2^52 not relevant)."
  },
  {
   "property": "C79",
   "status": "proved",
   "theorems": [
    "Cyjax.C79_identity",
    "Cyjax.C79_fluctuation",
    "Cyjax.C79_posDef"
   ],
   "note": "Identity without fluctuation; diagonal with squared entries with fluctuation; positive definite whenever no entry vanishes."
  },
  {
   "property": "C80",
   "status": "proved",
   "theorems": [
    "Cyjax.C80_stream",
    "Cyjax.C80_total",
    "Cyjax.C80_buffer_size",
    "Cyjax.C80_zero"
   ],
   "note": "Stream equals the samples of the key sequence for every buffer size >= 1 and number of calls; buffer size 0 makes every call raise."
  },
  {
   "property": "C81",
   "status": "proved",
   "theorems": [
    "Cyjax.C81_failure",
    "Cyjax.C81_lost"
   ],
   "note": "What is returned is always a prefix of the stream; after a failed refill every call raises IndexError. C81_lost records that one generated sample is lost at the failure."
  },
  {
   "property": "C82",
   "status": "proved",
   "theorems": [
    "Cyjax.C82_nonneg",
    "Cyjax.C82_negative",
    "Cyjax.C82_variance",
    "Cyjax.C82_zero_iff",
    "Cyjax.C82_scale",
    "Cyjax.C82_weights"
   ],
   "note": "Non-negativity, strict positivity for a negative eta, exact formula mean(w) * relative weighted variance, zero iff constant on the support, scale invariance; also that the loss scales linearly with the weights."
  },
  {
   "property": "C83",
   "status": "proved",
   "theorems": [
    "Cyjax.C83_features",
    "Cyjax.C83_count",
    "Cyjax.C83_errors"
   ],
   "note": "Exact list of features, number and error cases. Powers are rational, complex power is the principal branch of Mathlib."
  },
  {
   "property": "C84",
   "status": "partial",
   "theorems": [
    "Cyjax.C84_identity_partial",
    "Cyjax.C84_suppressed",
    "Cyjax.C84_violated"
   ],
   "note": "Proved without sig_suppress for every input form, hidden layers and dropout; with sig_suppress (default) the initial matrix is one quarter of the identity (C84_suppressed, C84_violated)."
  },
  {
   "property": "C85",
   "status": "proved",
   "theorems": [
    "Cyjax.C85_components",
    "Cyjax.C85_documented_violated",
    "Cyjax.C85_angle",
    "Cyjax.C85_angle_onto",
    "Cyjax.C85_unit"
   ],
   "note": "Ranges for every draw; uniform_angle also hits every value of the annulus. C85_documented_violated: the documented range 0..1 of uniform_components is wrong."
  },
  {
   "property": "C86",
   "status": "proved",
   "theorems": [
    "Cyjax.C86_real",
    "Cyjax.C86_direction",
    "Cyjax.C86_complex",
    "Cyjax.C86_scalar",
    "Cyjax.C86_projective"
   ],
   "note": "Unit norm for every non-zero draw, direction of the draws, affine coordinates bounded by one and same projective point."
  },
  {
   "property": "C87",
   "status": "proved",
   "theorems": [
    "Cyjax.C87_overlap"
   ],
   "note": "For patch_size >= 1, every dim, every pair of distinct patches and every draw in [0,1)."
  },
  {
   "property": "C88",
   "status": "partial",
   "theorems": [
    "Cyjax.C88_first_patches_partial",
    "Cyjax.C88_other_patches_violated"
   ],
   "note": "Proved for the first two patches in every dimension; C88_other_patches_violated shows that for patch size > 1 it fails for every other pair of patches."
  },
  {
   "property": "C89",
   "status": "proved",
   "theorems": [
    "Cyjax.C89_from_sympy_value"
   ],
   "note": ""
  },
  {
   "property": "C90",
   "status": "proved",
   "theorems": [
    "Cyjax.C90_homogeneous",
    "Cyjax.C90_affine",
    "Cyjax.C90_every_point",
    "Cyjax.C90_dwork",
    "Cyjax.C90_fermat"
   ],
   "note": "For polynomials in which the coordinate of the patch occurs and is not the only generator; otherwise the affine polynomial does not exist (C50_absent_violated)."
  },
  {
   "property": "C91",
   "status": "proved",
   "theorems": [
    "Cyjax.C91_gradient_conj",
    "Cyjax.C91_dwork_gradient_conj",
    "Cyjax.C91_induced",
    "Cyjax.C91_dwork_induced"
   ],
   "note": "Polynomials with real coefficients (others cannot be evaluated, C40) and Dwork polynomials with a real factor."
  },
  {
   "property": "C92",
   "status": "proved",
   "theorems": [
    "Cyjax.C92_value",
    "Cyjax.C92_chart",
    "Cyjax.C92_patch_independent"
   ],
   "note": "C92_value is the closed form, C92_chart the behaviour for any degree, C92_patch_independent the Calabi-Yau case."
  },
  {
   "property": "C93",
   "status": "partial",
   "theorems": [
    "Cyjax.C93_documented_partial",
    "Cyjax.C93_angle_violated"
   ],
   "note": "Proved without feature_angle. With it the code uses the angle of the moduli, not of the products (C93_angle_violated)."
  },
  {
   "property": "C94",
   "status": "partial",
   "theorems": [
    "Cyjax.C94_layers_partial",
    "Cyjax.C94_rates_partial",
    "Cyjax.C94_short_violated",
    "Cyjax.C94_example_violated"
   ],
   "note": "Proved for absent dropout rates or at least as many as layers; with fewer rates layers are silently left out (C94_short_violated, C94_example_violated)."
  },
  {
   "property": "C95",
   "status": "proved",
   "theorems": [
    "Cyjax.C95_area",
    "Cyjax.C95_annulus",
    "Cyjax.C95_unit"
   ],
   "note": ""
  },
  {
   "property": "C96",
   "status": "proved",
   "theorems": [
    "Cyjax.C96_real",
    "Cyjax.C96_complex",
    "Cyjax.C96_support"
   ],
   "note": ""
  },
  {
   "property": "C97",
   "status": "partial",
   "theorems": [
    "Cyjax.C97_basis_partial",
    "Cyjax.C97_missing_violated"
   ],
   "note": "Proved when every coordinate occurs in the polynomial. C97_missing_violated: otherwise the power matrix has fewer than n+1 columns."
  },
  {
   "property": "C98",
   "status": "partial",
   "theorems": [
    "Cyjax.C98_reduced_nonzero",
    "Cyjax.C98_reduced_independent",
    "Cyjax.C98_reduced_partial",
    "Cyjax.C98_dependent_violated",
    "Cyjax.C98_full_violated"
   ],
   "note": "C98_reduced_partial: for a basis of sections on an irreducible hypersurface, every sample containing suitable points works. C98_full_violated: for MonomialBasisFull with k >= deg P the matrix T is singular for every sample."
  },
  {
   "property": "C99",
   "status": "partial",
   "theorems": [
    "Cyjax.C99_complex_partial",
    "Cyjax.C99_real_violated"
   ],
   "note": "C99_complex_partial; C99_real_violated: a real H is rejected by the loop."
  },
  {
   "property": "C100",
   "status": "proved",
   "theorems": [
    "Cyjax.C100_frame",
    "Cyjax.C100_curvature",
    "Cyjax.C100_full"
   ],
   "note": "Hypersurface given by a polynomial in affine coordinates; jets of sections as in C64."
  },
  {
   "property": "C101",
   "status": "proved",
   "theorems": [
    "Cyjax.C101_metric",
    "Cyjax.C101_kahler",
    "Cyjax.C101_full"
   ],
   "note": "For homogeneous monomial sections; instance for the full basis."
  },
  {
   "property": "C102",
   "status": "proved",
   "theorems": [
    "Cyjax.C102_eta_chart",
    "Cyjax.C102_patch_independent",
    "Cyjax.C102_dwork",
    "Cyjax.C102_fermat"
   ],
   "note": "Generic HomPoly, Dwork and Fermat varieties; exact transformation law for other degrees."
  },
  {
   "property": "C103",
   "status": "proved",
   "theorems": [
    "Cyjax.C103_homogeneous",
    "Cyjax.C103_scale",
    "Cyjax.C103_rejected"
   ],
   "note": "All five methods; stated for every variety of the right dimension."
  },
  {
   "property": "C104",
   "status": "proved",
   "theorems": [
    "Cyjax.C104_grad",
    "Cyjax.C104_default",
    "Cyjax.C104_eta",
    "Cyjax.C104_ricci_scalar"
   ],
   "note": "grad_def and default dependent for all methods; admissible dependent for eta and (with non-degenerate metric) ricci_scalar."
  },
  {
   "property": "C105",
   "status": "proved",
   "theorems": [
    "Cyjax.C105_affine",
    "Cyjax.C105_smooth",
    "Cyjax.C105_sections"
   ],
   "note": "Sections spanning the coordinate ring; instances for MonomialBasisFull (all hypersurfaces) and MonomialBasisReduced (every coordinate occurs, see C97)."
  },
  {
   "property": "C106",
   "status": "proved",
   "theorems": [
    "Cyjax.C106_patches",
    "Cyjax.C106_calabi_yau"
   ],
   "note": "With the exact transformation law for other degrees (C106_patches)."
  },
  {
   "property": "C107",
   "status": "proved",
   "theorems": [
    "Cyjax.C107_metric",
    "Cyjax.C107_eta"
   ],
   "note": "At points of the variety with positive definite H."
  },
  {
   "property": "C108",
   "status": "proved",
   "theorems": [
    "Cyjax.C108_exists",
    "Cyjax.C108_metric",
    "Cyjax.C108_ricci",
    "Cyjax.C108_eta",
    "Cyjax.C108_scalar"
   ],
   "note": "For hypersurfaces given by one homogeneous polynomial, h positive definite, sections spanning the coordinate ring in that degree (C105_sections). Exact real arithmetic."
  },
  {
   "property": "C109",
   "status": "proved",
   "theorems": [
    "Cyjax.C109_tensor",
    "Cyjax.C109_scalar"
   ],
   "note": "Same hypotheses as C108; no Calabi-Yau condition."
  },
  {
   "property": "C110",
   "status": "proved",
   "theorems": [
    "Cyjax.C110_sigma",
    "Cyjax.C110_scale"
   ],
   "note": ""
  },
  {
   "property": "C111",
   "status": "proved",
   "theorems": [
    "Cyjax.C111_sample",
    "Cyjax.C111_vol",
    "Cyjax.C111_calabi_yau"
   ],
   "note": ""
  },
  {
   "property": "C112",
   "status": "proved",
   "theorems": [
    "Cyjax.C112_step",
    "Cyjax.C112_iterate"
   ],
   "note": ""
  },
  {
   "property": "C114",
   "status": "proved",
   "theorems": [
    "Cyjax.C114_dwork",
    "Cyjax.C114_quintic",
    "Cyjax.C114_fermat",
    "Cyjax.C114_gradient"
   ],
   "note": ""
  },
  {
   "property": "C113",
   "status": "proved",
   "theorems": [
    "Cyjax.C113_sample",
    "Cyjax.C113_vol",
    "Cyjax.C113_sigma"
   ],
   "note": ""
  },
  {
   "property": "C115",
   "status": "proved",
   "theorems": [
    "Cyjax.C115_posDef",
    "Cyjax.C115_one",
    "Cyjax.C115_ambient",
    "Cyjax.C115_kahler",
    "Cyjax.C115_metric",
    "Cyjax.C115_weight",
    "Cyjax.C115_sigma"
   ],
   "note": "Links AlgebraicMetric, fs_metric, induced_fs and the sampling weights through the multinomial theorem. Hypotheses (smooth hypersurface, points on it) are met by the Fermat cubic in an example."
  },
  {
   "property": "C116",
   "status": "proved",
   "theorems": [
    "Cyjax.C116_step",
    "Cyjax.C116_iterate",
    "Cyjax.C116_dwork"
   ],
   "note": ""
  },
  {
   "property": "C117",
   "status": "partial",
   "theorems": [
    "Cyjax.C117_single",
    "Cyjax.C117_dim",
    "Cyjax.C117_index",
    "Cyjax.C117_from_sympy_partial",
    "Cyjax.C117_degree_violated",
    "Cyjax.C117_conic_violated",
    "Cyjax.C117_quartic_violated"
   ],
   "note": "False of the code: poly_degree, documented as the degree, is used as the number of homogeneous coordinates (C117_dim, C117_degree_violated, C117_conic_violated, C117_quartic_violated). Proved when both agree, e.g. for every Calabi-Yau hypersurface, and whenever the number of coordinates is passed."
  },
  {
   "property": "C118",
   "status": "partial",
   "theorems": [
    "Cyjax.C118_parameter_position",
    "Cyjax.C118_variable_position",
    "Cyjax.C118_index_dict_partial",
    "Cyjax.C118_documented_violated"
   ],
   "note": "parameter_position and variable_position proved. variable_index_dict is the inverse of the documented map (C118_index_dict_partial, C118_documented_violated); the evaluation of polynomials uses it in the direction it has."
  },
  {
   "property": "C119",
   "status": "proved",
   "theorems": [
    "Cyjax.C119_call_empty",
    "Cyjax.C119_replace"
   ],
   "note": ""
  },
  {
   "property": "C120",
   "status": "partial",
   "theorems": [
    "Cyjax.C120_any_symbolic_partial",
    "Cyjax.C120_list_violated"
   ],
   "note": "Exact for everything but python lists, which are taken as numerical whatever they contain (C120_list_violated)."
  },
  {
   "property": "C121",
   "status": "proved",
   "theorems": [
    "Cyjax.C121_batch",
    "Cyjax.C121_stream",
    "Cyjax.C121_loss",
    "Cyjax.C121_scale",
    "Cyjax.C121_accuracy"
   ],
   "note": "C121_batch and C121_stream: samples (almost surely, any buffer size, moduli as a function of the key); C121_loss, C121_scale, C121_accuracy: the loss on a sample. Random numbers are random variables with the law of independent normal numbers; roots are exact."
  },
  {
   "property": "C122",
   "status": "proved",
   "theorems": [
    "Cyjax.C122_loss",
    "Cyjax.C122_nonneg",
    "Cyjax.C122_init"
   ],
   "note": "C122_loss, C122_nonneg, C122_init; real arithmetic, arbitrary activation and dropout functions."
  },
  {
   "property": "C123",
   "status": "proved",
   "theorems": [
    "Cyjax.C123_grid",
    "Cyjax.C123_ends",
    "Cyjax.C123_evaluate"
   ],
   "note": "C123_grid and C123_ends: the grid; C123_evaluate: batches. Plots and files are not modelled."
  },
  {
   "property": "C124",
   "status": "partial",
   "theorems": [
    "Cyjax.C124_sampler_partial",
    "Cyjax.C124_modulus_violated"
   ],
   "note": "The box (C124_sampler_partial) holds; the bound on the absolute value, claimed by the comment in scripts/conf/dwork.yaml (0 < |psi| < 10), is false: C124_modulus_violated. The absolute value is at most sqrt(2) times the bound."
  },
  {
   "property": "C125",
   "status": "proved",
   "theorems": [
    "Cyjax.C125_families",
    "Cyjax.C125_generic",
    "Cyjax.C125_random",
    "Cyjax.C125_dwork"
   ],
   "note": "generic smoothness for any family, almost sure smoothness of the moduli of the cube sampler, Dwork family in all dimensions"
  },
  {
   "property": "C126",
   "status": "proved",
   "theorems": [
    "Cyjax.C126_stream",
    "Cyjax.C126_training",
    "Cyjax.C126_dwork_config"
   ],
   "note": "stream and loss almost surely defined for families with a smooth member; instance for conf/dwork.yaml"
  },
  {
   "property": "C127",
   "status": "proved",
   "theorems": [
    "Cyjax.C127_expr",
    "Cyjax.C127_family",
    "Cyjax.C127_smooth_zero",
    "Cyjax.C127_training"
   ],
   "note": "the polynomial of the configuration is parsed by hand (sympy.parse_expr is not modelled)"
  },
  {
   "property": "C128",
   "status": "proved",
   "theorems": [
    "Cyjax.C128_training",
    "Cyjax.C128_keys",
    "Cyjax.C128_evaluations",
    "Cyjax.C128_unique",
    "Cyjax.C128_ends",
    "Cyjax.C128_succeeds"
   ],
   "note": "network, gradient and optimiser are arbitrary functions"
  },
  {
   "property": "C129",
   "status": "partial",
   "theorems": [
    "Cyjax.C129_files_partial",
    "Cyjax.C129_complete_partial",
    "Cyjax.C129_final_violated",
    "Cyjax.C129_message_violated"
   ],
   "note": "violated: the files are written only in every log_every-th step, so the last steps are missing, and the accuracy logged as after s steps is the one after s+1 updates; proved what the files contain and when they are complete"
  },
  {
   "property": "C130",
   "status": "partial",
   "theorems": [
    "Cyjax.C130_measure",
    "Cyjax.C130_mean_partial",
    "Cyjax.C130_volume_partial",
    "Cyjax.C130_violated"
   ],
   "note": "The expectation is the integral divided by n+2 (the degree), because the normalised Fubini-Study measure dA of the weights has total mass n+2 instead of one (C130_violated). The factor is constant and drops out of ratios. Multiples of the degree only: otherwise the last line is cut and the expectation depends on the order of the roots (bounded in C132). The root finder is assumed to return all roots with multiplicity, random numbers to be independent normal."
  },
  {
   "property": "C131",
   "status": "proved",
   "theorems": [
    "Cyjax.C131_points"
   ],
   "note": "fsMeasure is built from the Hermitian form of the Fubini-Study metric on tangent vectors, without use of the model."
  },
  {
   "property": "C132",
   "status": "proved",
   "theorems": [
    "Cyjax.C132_error",
    "Cyjax.C132_volume"
   ],
   "note": "The limit is the integral divided by n+2, see C130."
  },
  {
   "property": "C133",
   "status": "proved",
   "theorems": [
    "Cyjax.C133_accuracy",
    "Cyjax.C133_error"
   ],
   "note": "The factor n+2 of C130 cancels. Assumptions on random numbers and roots as for C130; real arithmetic."
  },
  {
   "property": "C134",
   "status": "proved",
   "theorems": [
    "Cyjax.C134_operator",
    "Cyjax.C134_step",
    "Cyjax.C134_pipeline"
   ],
   "note": "Assumptions on random numbers and roots as for C130; batches of a multiple of n+2 points, so that no line is cut; real arithmetic. With the volume of the variety itself instead of the result of compute_vol the limit is n+2 times too large, see C130."
  },
  {
   "property": "C135",
   "status": "proved",
   "theorems": [
    "Cyjax.C135_density",
    "Cyjax.C135_patch",
    "Cyjax.C135_uniform"
   ],
   "note": "The key is modelled by the independent standard normals jax.random.normal returns."
  },
  {
   "property": "C136",
   "status": "partial",
   "theorems": [
    "Cyjax.C136_arithmetic_partial",
    "Cyjax.C136_metadata",
    "Cyjax.C136_mixed_rejected",
    "Cyjax.C136_underscore_violated"
   ],
   "note": "Holds for symbols spelled as the polynomial spells them. A symbol with underscore (z_1) is counted as an entry of z but not renamed as from_sympy does, so symbolic calls leave it unreplaced (C136_underscore_violated)."
  },
  {
   "property": "C137",
   "status": "partial",
   "theorems": [
    "Cyjax.C137_arrays_partial",
    "Cyjax.C137_poly_partial",
    "Cyjax.C137_gens_violated",
    "Cyjax.C137_order_violated",
    "Cyjax.C137_mixed_violated"
   ],
   "note": "Arrays with one name each are taken over exactly (C137_arrays_partial); an array with symbols of different names is read under the first name (C137_mixed_violated). For a sympy.Poly the values, names, occurring indices and parameters are right (C137_poly_partial), but generators that do not occur are lost (C137_gens_violated) and the order of the variables is the order of a python set (C137_order_violated)."
  },
  {
   "property": "C138",
   "status": "proved",
   "theorems": [
    "Cyjax.C138_constant",
    "Cyjax.C138_flat",
    "Cyjax.C138_homogeneous",
    "Cyjax.C138_sigma_accuracy"
   ],
   "note": ""
  },
  {
   "property": "C139",
   "status": "proved",
   "theorems": [
    "Cyjax.C139_balanced",
    "Cyjax.C139_iteration",
    "Cyjax.C139_fixed",
    "Cyjax.C139_coordinates"
   ],
   "note": ""
  },
  {
   "property": "C140",
   "status": "proved",
   "theorems": [
    "Cyjax.C140_iterate",
    "Cyjax.C140_balanced"
   ],
   "note": ""
  },
  {
   "property": "C141",
   "status": "proved",
   "theorems": [
    "Cyjax.C141_error",
    "Cyjax.C141_volume",
    "Cyjax.C141_almost_surely",
    "Cyjax.C141_sigma",
    "Cyjax.C141_sigma_almost_surely"
   ],
   "note": "The constant is not explicit; bounded measurable functions; degree n+2."
  },
  {
   "property": "C142",
   "status": "proved",
   "theorems": [
    "Cyjax.C142_volume",
    "Cyjax.C142_step",
    "Cyjax.C142_balanced"
   ],
   "note": "Dimension at least one, degree n+2, batch sizes a multiple of n+2, ideal real arithmetic and root finder."
  },
  {
   "property": "C143",
   "status": "partial",
   "theorems": [
    "Cyjax.C143_single_use_partial",
    "Cyjax.C143_training",
    "Cyjax.C143_violated",
    "Cyjax.C143_batched_partial",
    "Cyjax.C143_volume_keys",
    "Cyjax.C143_step_keys",
    "Cyjax.C143_algorithm"
   ],
   "note": "False of mc_integrate_batched, which splits a key and also draws with it (C143_violated); its draws still have different keys (C143_batched_partial). Proved for sequences of calls of the other functions and for the training script. No collisions and independence of values for different keys are assumptions about jax.random."
  },
  {
   "property": "C144",
   "status": "partial",
   "theorems": [
    "Cyjax.C144_named_partial",
    "Cyjax.C144_defaults_partial",
    "Cyjax.C144_no_coeffs_params",
    "Cyjax.C144_explicit",
    "Cyjax.C144_many_violated",
    "Cyjax.C144_absent_violated",
    "Cyjax.C144_clash_violated",
    "Cyjax.C144_order_violated"
   ],
   "note": "Partial because the code violates the full claim: the parameter order is that of a python set (C144_order_violated), more than 26 variables raise (C144_many_violated), None powers raise (C144_absent_violated), and a symbolic coefficient named like a default variable gives an object whose every call raises (C144_clash_violated). Names, indices, the set of parameters and the value are proved (C144_defaults_partial, C144_named_partial)."
  },
  {
   "property": "C145",
   "status": "proved",
   "theorems": [
    "Cyjax.C145_real",
    "Cyjax.C145_complex",
    "Cyjax.C145_surface"
   ],
   "note": ""
  },
  {
   "property": "C146",
   "status": "partial",
   "theorems": [
    "Cyjax.C146_value",
    "Cyjax.C146_gradient_partial",
    "Cyjax.C146_stopped",
    "Cyjax.C146_stationary_partial",
    "Cyjax.C146_minimum",
    "Cyjax.C146_descent_violated"
   ],
   "note": "The full claim fails because of stop_gradient: the exact difference is proved (C146_gradient_partial), equality where the average eta is stationary, zero gradient at zero loss, and a step that increases the loss (C146_descent_violated; there the etas themselves are the parameters)."
  },
  {
   "property": "C147",
   "status": "proved",
   "theorems": [
    "Cyjax.C147_gradient"
   ],
   "note": "jax.value_and_grad is modelled by the derivative with the argument of stop_gradient constant; dropout is multiplication by a fixed mask."
  },
  {
   "property": "C148",
   "status": "proved",
   "theorems": [
    "Cyjax.C148_variance",
    "Cyjax.C148_error"
   ],
   "note": ""
  },
  {
   "property": "C149",
   "status": "partial",
   "theorems": [
    "Cyjax.C149_network_partial",
    "Cyjax.C149_rows",
    "Cyjax.C149_deterministic",
    "Cyjax.C149_missing_key",
    "Cyjax.C149_dropout_mean",
    "Cyjax.C149_documented_violated"
   ],
   "note": "Proved with the two halves of the last layer in the order of the code, sigmoid(out[0]) * out[1]; the docstring gives the other order (C149_documented_violated). The layers need no or enough dropout rates (see C94)."
  },
  {
   "property": "C150",
   "status": "partial",
   "theorems": [
    "Cyjax.C150_immutable_partial",
    "Cyjax.C150_numbers_first_partial",
    "Cyjax.C150_no_parameters_partial",
    "Cyjax.C150_modified_violated"
   ],
   "note": "C150_immutable_partial: inputs that are not mutable arrays, any expression. C150_numbers_first_partial, C150_no_parameters_partial: any inputs, if no product in the expression begins with a symbol. C150_modified_violated: util.prod multiplies in place, so (psi + 1)*x + (psi + 1)*x*y with a numpy array for x overwrites x and returns a wrong value."
  },
  {
   "property": "C151",
   "status": "proved",
   "theorems": [
    "Cyjax.C151_flat",
    "Cyjax.C151_accuracy",
    "Cyjax.C151_signs",
    "Cyjax.C151_sigma_accuracy"
   ],
   "note": ""
  },
  {
   "property": "C152",
   "status": "proved",
   "theorems": [
    "Cyjax.C152_eta",
    "Cyjax.C152_fermat",
    "Cyjax.C152_dwork"
   ],
   "note": ""
  },
  {
   "property": "C153",
   "status": "proved",
   "theorems": [
    "Cyjax.C153_volume",
    "Cyjax.C153_accuracy",
    "Cyjax.C153_mean",
    "Cyjax.C153_scalar"
   ],
   "note": "As for C130, the root finder is assumed to return all roots with multiplicity and random numbers to be independent normal (C153_mean only)."
  },
  {
   "property": "C154",
   "status": "partial",
   "theorems": [
    "Cyjax.C154_plots",
    "Cyjax.C154_axes",
    "Cyjax.C154_pixels_partial",
    "Cyjax.C154_pixels_violated",
    "Cyjax.C154_labels_violated"
   ],
   "note": "Panels, data, positions and scale are proved (C154_plots, C154_axes). The extent of the images is computed with the wrong pixel size, so pixels are not centred at the grid points (C154_pixels_violated; they still contain them, C154_pixels_partial), and the labels of the images are never drawn (C154_labels_violated)."
  },
  {
   "property": "C155",
   "status": "proved",
   "theorems": [
    "Cyjax.C155_measure",
    "Cyjax.C155_fubini_study",
    "Cyjax.C155_action",
    "Cyjax.C155_step",
    "Cyjax.C155_iteration",
    "Cyjax.C155_balanced",
    "Cyjax.C155_eta",
    "Cyjax.C155_eta_balanced",
    "Cyjax.C155_ricci_scalar",
    "Cyjax.C155_ricci_balanced",
    "Cyjax.C155_accuracy",
    "Cyjax.C155_phases",
    "Cyjax.C155_permutation",
    "Cyjax.C155_dwork",
    "Cyjax.C155_fermat"
   ],
   "note": "Exact integrals in place of sample means; the measures are those the sampled points and weights belong to (C130, C131). C155_measure, C155_step, C155_balanced, C155_eta, C155_ricci_scalar, C155_accuracy; C155_dwork and C155_fermat for the matrix entries."
  },
  {
   "property": "C156",
   "status": "proved",
   "theorems": [
    "Cyjax.C156_shapes",
    "Cyjax.C156_induced_metric",
    "Cyjax.C156_induced_fs",
    "Cyjax.C156_fs_metric",
    "Cyjax.C156_sigma_accuracy",
    "Cyjax.C156_sigma_batch"
   ],
   "note": "auto_vmap is an external package; its documented behaviour (broadcast the batch axes, apply the function to every entry, pass on None) is the model. induced_metric, induced_fs and sigma_accuracy combine batched calls without being decorated or use arrays inside, and are proved from it."
  },
  {
   "property": "C157",
   "status": "partial",
   "theorems": [
    "Cyjax.C157_repr_partial",
    "Cyjax.C157_empty_violated",
    "Cyjax.C157_symbols",
    "Cyjax.C157_math",
    "Cyjax.C157_variety",
    "Cyjax.C157_superscript_violated"
   ],
   "note": "sympy's printing of expressions is a parameter. repr is unambiguous for plain names and non-empty arrays (C157_repr_partial), C157_symbols, C157_variety; the LaTeX strings are inline formulas (C157_math). The name of an array without entries is not printed (C157_empty_violated), and the exponent of CP is set wrongly as soon as it has two digits (C157_superscript_violated)."
  },
  {
   "property": "C158",
   "status": "proved",
   "theorems": [
    "Cyjax.C158_poly",
    "Cyjax.C158_fixed",
    "Cyjax.C158_hom"
   ],
   "note": "auto_vmap as in C156. C158_poly relates the entries to the mathematical value, C158_hom to the call of one point (whose value is C49, C50); C158_fixed is the precedence of keyword arguments."
  },
  {
   "property": "C159",
   "status": "proved",
   "theorems": [
    "Cyjax.C159_expression",
    "Cyjax.C159_poly",
    "Cyjax.C159_exact",
    "Cyjax.C159_floats",
    "Cyjax.C159_binary"
   ],
   "note": "The evaluator with addition, multiplication and constants of an arbitrary arithmetic (Model/Rounding.lean). C159_expression for all expressions with real numbers, C159_poly for polynomials, C159_floats for correctly rounded binary numbers of unbounded exponent range (no overflow and no subnormal numbers), C159_binary the explicit bound."
  },
  {
   "property": "C160",
   "status": "proved",
   "theorems": [
    "Cyjax.C160_index",
    "Cyjax.C160_log",
    "Cyjax.C160_exact"
   ],
   "note": "Reductions in any binary tree order. exp and log are functions with given accuracy. C160_index, C160_log, C160_exact."
  },
  {
   "property": "C161",
   "status": "proved",
   "theorems": [
    "Cyjax.C161_accuracy",
    "Cyjax.C161_explicit",
    "Cyjax.C161_perfect",
    "Cyjax.C161_exact",
    "Cyjax.C161_floats"
   ],
   "note": "Model/RoundingAccuracy.lean. C161_accuracy is the general bound, C161_explicit the one for exact inputs, C161_perfect the case of a perfect metric, C161_floats shows that correctly rounded quotients and absolute values satisfy the hypotheses."
  },
  {
   "property": "C162",
   "status": "proved",
   "theorems": [
    "Cyjax.C162_argmax",
    "Cyjax.C162_affine",
    "Cyjax.C162_chart",
    "Cyjax.C162_metric",
    "Cyjax.C162_potential",
    "Cyjax.C162_exact"
   ],
   "note": "Model/RoundingProjective.lean. log is a function with given accuracy, as in C160."
  },
  {
   "property": "C163",
   "status": "proved",
   "theorems": [
    "Cyjax.C163_homogeneous",
    "Cyjax.C163_affine",
    "Cyjax.C163_exact",
    "Cyjax.C163_backward",
    "Cyjax.C163_perturbed"
   ],
   "note": "Evaluation of the coefficients and of p + r q is exact here. C163_backward: small residual and small backward error are the same."
  },
  {
   "property": "C164",
   "status": "proved",
   "theorems": [
    "Cyjax.C164_monotone",
    "Cyjax.C164_inputs",
    "Cyjax.C164_iteration",
    "Cyjax.C164_entries",
    "Cyjax.C164_potential",
    "Cyjax.C164_method"
   ],
   "note": "C164_inputs and C164_iteration are the main statements, for the step with the same sections at the points. C164_entries turns errors of the entries into a factor."
  },
  {
   "property": "C165",
   "status": "proved",
   "theorems": [
    "Cyjax.C165_matrix",
    "Cyjax.C165_condition",
    "Cyjax.C165_inverse",
    "Cyjax.C165_step",
    "Cyjax.C165_exact"
   ],
   "note": "C165_matrix bounds T, C165_condition gives kappa, C165_inverse treats the inverse and C165_step the result; its conclusion is the hypothesis of C164_iteration, so the errors of several steps multiply. The numerical inverse is a parameter with a bound of its residual. C165_exact identifies the program with the exact model. Overflow and underflow are not modelled (see C159)."
  },
  {
   "property": "C166",
   "status": "proved",
   "theorems": [
    "Cyjax.C166_det",
    "Cyjax.C166_lower",
    "Cyjax.C166_metric",
    "Cyjax.C166_separate",
    "Cyjax.C166_weight",
    "Cyjax.C166_exact"
   ],
   "note": "C166_lower is the lower bound of the induced metric, C166_det the determinant estimate for non-Hermitian perturbations, C166_metric, C166_separate and C166_weight the errors; the result is the weight error dw of C165. The library determinant is a parameter with a backward error. C166_exact identifies the program with the one of C30 and C31. Overflow and underflow are not modelled (see C159)."
  },
  {
   "property": "C167",
   "status": "proved",
   "theorems": [
    "Cyjax.C167_condition",
    "Cyjax.C167_lower",
    "Cyjax.C167_metric",
    "Cyjax.C167_local",
    "Cyjax.C167_eta",
    "Cyjax.C167_exact",
    "Cyjax.C167_method"
   ],
   "note": "C167_condition gives the conditions from bounds of h, C167_lower the lower bound of the metric on the variety, C167_metric, C167_local and C167_eta the errors; C167_method is the same for AlgebraicMetric.eta. The result is the error of eta in C161. The library determinant is a parameter with a backward error. C167_exact identifies the programs with those of C62, C67 and C70. Overflow and underflow are not modelled (see C159)."
  },
  {
   "property": "C168",
   "status": "proved",
   "theorems": [
    "Cyjax.C168_uniform",
    "Cyjax.C168_accuracy"
   ],
   "note": "C168_uniform and C168_accuracy. The constants are not explicit; explicit bounds at a point are C161, C166 and C167. The gradient may have absolute errors (as its sums may cancel), which C166 and C167 do not allow. For the default choice of the dependent coordinate. Overflow and underflow are not modelled (see C159)."
  },
  {
   "property": "C169",
   "status": "proved",
   "theorems": [
    "Cyjax.C169_iteration",
    "Cyjax.C169_binary",
    "Cyjax.C169_potential",
    "Cyjax.C169_exact_inverse",
    "Cyjax.C169_exact_step"
   ],
   "note": "C169_iteration, C169_potential, C169_binary; C169_exact_inverse and C169_exact_step for the link to the exact program. The constants depend on the points and the number of steps and are not explicit (explicit bounds for one step: C165). The inverse of the library is assumed to be backward stable column by column (Spec.InvStable). Overflow and underflow are not modelled (see C159)."
  },
  {
   "property": "C170",
   "status": "proved",
   "theorems": [
    "Cyjax.C170_matrices",
    "Cyjax.C170_accuracy",
    "Cyjax.C170_binary"
   ],
   "note": "C170_matrices, C170_accuracy, C170_binary. Combines C168 (strengthened to matrices with errors) and C169. The points are those the exact program uses as well: errors of the sampled points themselves are the subject of C162 and C163. The constants are not explicit. Overflow, underflow and nan_to_num are not modelled."
  },
  {
   "property": "C171",
   "status": "partial",
   "theorems": [
    "Cyjax.C171_volume",
    "Cyjax.C171_variance",
    "Cyjax.C171_plain",
    "Cyjax.C171_nonneg_partial",
    "Cyjax.C171_negative_violated",
    "Cyjax.C171_exact"
   ],
   "note": "C171_volume, C171_variance and C171_plain are the bounds, C171_exact relates the rounded program to the exact one of C12. The last clause fails: C171_negative_violated gives, for every precision of at least 5 digits, two weights with positive variance for which both mc_integrate and mc_integrate_batched return a negative variance (a NaN standard error). C171_nonneg_partial proves non-negativity when the exact variance exceeds the rounding errors. Overflow and underflow are not modelled."
  },
  {
   "property": "C172",
   "status": "partial",
   "theorems": [
    "Cyjax.C172_accepts",
    "Cyjax.C172_exact",
    "Cyjax.C172_error",
    "Cyjax.C172_hermitian",
    "Cyjax.C172_posDef_partial",
    "Cyjax.C172_indefinite_violated"
   ],
   "note": "C172_error is the bound, C172_hermitian the exact symmetry, C172_exact and C172_accepts relate the program to the one of C76. Positive definiteness fails: C172_indefinite_violated gives, for every precision of at least 4 digits, exactly represented parameters with diagonal 1, 1 for which the matrix returned takes the value -4 on a vector. C172_posDef_partial proves it if n ((1+4u)^(d+1) - 1) max H_ii is smaller than the smallest eigenvalue of the exact matrix. Overflow and underflow are not modelled; the order of summation is the same for all entries."
  },
  {
   "property": "C173",
   "status": "partial",
   "theorems": [
    "Cyjax.C173_error",
    "Cyjax.C173_explicit",
    "Cyjax.C173_perfect",
    "Cyjax.C173_nonneg",
    "Cyjax.C173_penalty_partial",
    "Cyjax.C173_floats",
    "Cyjax.C173_penalty_violated",
    "Cyjax.C173_exact",
    "Cyjax.C173_uniform"
   ],
   "note": "C173_error is the bound for inputs with errors, C173_explicit the one for exact inputs, C173_uniform the one for values of eta and weights computed on or near a smooth hypersurface, C173_perfect the one for constant eta, C173_nonneg the sign, C173_floats and C173_exact relate the assumptions and the program to floats and to the program of C121. The penalty fails: C173_penalty_violated gives, for every precision, metrics with negative eta everywhere and a computed loss of exactly zero (|eta| up to about 1e-4 in single precision). C173_penalty_partial proves it for negative eta with square above about the unit roundoff. Overflow and underflow are not modelled."
  },
  {
   "property": "C174",
   "status": "proved",
   "theorems": [
    "Cyjax.C174_variance",
    "Cyjax.C174_error",
    "Cyjax.C174_flat",
    "Cyjax.C174_training"
   ],
   "note": "C174_error is the bound for one set of moduli, C174_variance compares the limit with the accuracy of C133, C174_flat is the equivalence with Ricci-flatness, C174_training the bound for the loss function of a step with any number of sets of moduli, which need not be independent."
  },
  {
   "property": "C175",
   "status": "proved",
   "theorems": [
    "Cyjax.C175_accuracy",
    "Cyjax.C175_loss"
   ],
   "note": "C175_accuracy and C175_loss combine the sampling errors of C133 and C174 with the rounding errors of C168 and C173. The points are those of exact roots; their rounding enters through the errors that the evaluations may have."
  },
  {
   "property": "C176",
   "status": "partial",
   "theorems": [
    "Cyjax.C176_forms",
    "Cyjax.C176_letters",
    "Cyjax.C176_several",
    "Cyjax.C176_superscript",
    "Cyjax.C176_merge_partial",
    "Cyjax.C176_negative_violated"
   ],
   "note": "C176_forms, C176_letters, C176_several and C176_superscript are the claims about split_subscript. The claim about merge_subscript holds for subscripts that are not negative (C176_merge_partial); merge_subscript(name, -1) is read as a name without subscript (C176_negative_violated)."
  },
  {
   "property": "C177",
   "status": "partial",
   "theorems": [
    "Cyjax.C177_convert",
    "Cyjax.C177_derivative_partial",
    "Cyjax.C177_commute_partial",
    "Cyjax.C177_euler",
    "Cyjax.C177_dwork",
    "Cyjax.C177_fermat",
    "Cyjax.C177_ignored_violated",
    "Cyjax.C177_sum_violated"
   ],
   "note": "Proved: C177_convert, C177_derivative_partial, C177_commute_partial, C177_euler, C177_dwork, C177_fermat. Missing: sums, differences, products, and derivatives of Dwork and Fermat polynomials are objects of the base class, whose call accepts the argument patch and ignores it (C177_ignored_violated, C177_sum_violated); omitted coordinates that do not occur raise, as in C50. Numerical arrays shorter than expected are an error in the model, as for numpy; jax would repeat the last entry."
  },
  {
   "property": "C178",
   "status": "partial",
   "theorems": [
    "Cyjax.C178_numpy_partial",
    "Cyjax.C178_symbolic",
    "Cyjax.C178_params",
    "Cyjax.C178_long_violated",
    "Cyjax.C178_jax_violated"
   ],
   "note": "Proved: C178_symbolic (symbolic inputs raise exactly for wrong sizes), C178_params (wrong number of parameters), and C178_numpy_partial (with numpy arrays the call raises exactly if the value of an occurring symbol is missing, and is right otherwise). Missing: entries that are not needed are not noticed (C178_long_violated), and with jax arrays no size but zero raises, missing entries being replaced by the last one (C178_jax_violated)."
  },
  {
   "property": "C179",
   "status": "proved",
   "theorems": [
    "Cyjax.C179_uniform",
    "Cyjax.C179_training",
    "Cyjax.C179_almost_surely",
    "Cyjax.C179_network"
   ],
   "note": "C179_uniform (uniform convergence with exponential bounds), C179_training (approximate minimisers and the accuracy), C179_almost_surely, C179_network (loss function of the script on a sampled batch)."
  },
  {
   "property": "C180",
   "status": "proved",
   "theorems": [
    "Cyjax.C180_continuous",
    "Cyjax.C180_continuous_sampled",
    "Cyjax.C180_uniform",
    "Cyjax.C180_minimum"
   ],
   "note": "C180_uniform (uniform convergence of sigma_accuracy), C180_continuous, C180_continuous_sampled, C180_minimum."
  },
  {
   "property": "C181",
   "status": "proved",
   "theorems": [
    "Cyjax.C181_expressions",
    "Cyjax.C181_differentiable",
    "Cyjax.C181_not_a_generator",
    "Cyjax.C181_split"
   ],
   "note": "C181_expressions (induction over the expression), C181_differentiable (the derivatives it refers to exist), C181_not_a_generator, C181_split."
  },
  {
   "property": "C182",
   "status": "proved",
   "theorems": [
    "Cyjax.C182_normal",
    "Cyjax.C182_coverage",
    "Cyjax.C182_conservative"
   ],
   "note": "C182_normal (central limit theorem for the result), C182_coverage (exact limit of the coverage of the returned standard error, and when it is nominal), C182_conservative (intervals with n + 2 times the returned variance). The returned variance treats points on one line as independent; C182_coverage says what this costs."
  },
  {
   "property": "C183",
   "status": "partial",
   "theorems": [
    "Cyjax.C183_coverage_partial",
    "Cyjax.C183_violated",
    "Cyjax.C183_moments_partial"
   ],
   "note": "C183_moments_partial and C183_coverage_partial prove it for the integrand one. C183_violated: mc_integrate averages the weights instead of fn times the weights (C11), so whenever the integral of fn differs from the integral of one the coverage converges to zero for every t."
  },
  {
   "property": "C184",
   "status": "partial",
   "theorems": [
    "Cyjax.C184_value",
    "Cyjax.C184_variance_total_partial",
    "Cyjax.C184_single_partial",
    "Cyjax.C184_violated"
   ],
   "note": "C184_value proves the values. The variances are wrong: line 243 takes the mean of val2 over all axes, so the squares of all components are mixed. C184_violated: with constant weights 1 and 3 the variances are 4/count and -4/count instead of zero. C184_variance_total_partial: the sum of the variances is right. C184_single_partial: with one weight the variance is right."
  },
  {
   "property": "C185",
   "status": "partial",
   "theorems": [
    "Cyjax.C185_posDef",
    "Cyjax.C185_moments_partial",
    "Cyjax.C185_violated"
   ],
   "note": "C185_posDef: almost surely positive definite. C185_moments_partial: mean one and variance fluctuate^2. C185_violated: the draws are normal, not uniform; the probability that all diagonal entries are in the documented range is the n-th power of the probability of one standard deviation, less than one, and converges to zero for large bases."
  },
  {
   "property": "C186",
   "status": "partial",
   "theorems": [
    "Cyjax.C186_moduli",
    "Cyjax.C186_components_partial",
    "Cyjax.C186_documented_violated"
   ],
   "note": "C186_moduli proves the law of the sampled moduli. C186_components_partial: the law of uniform_components is uniform on the square between -1 - i and 1 + i. C186_documented_violated: this is not the documented square; three quarters of the values lie outside."
  },
  {
   "property": "C187",
   "status": "partial",
   "theorems": [
    "Cyjax.C187_value",
    "Cyjax.C187_exact",
    "Cyjax.C187_classes",
    "Cyjax.C187_integer_partial",
    "Cyjax.C187_violated",
    "Cyjax.C187_nonreal",
    "Cyjax.C187_power",
    "Cyjax.C187_coefficient_partial",
    "Cyjax.C187_coefficient_violated"
   ],
   "note": "C187_value, C187_exact, C187_classes, C187_nonreal and C187_power prove the conversion of numbers and exponents. C187_integer_partial: integers except minus one stay integers. C187_violated: minus one becomes a float, because its class is NegativeOne. C187_coefficient_partial: coefficients with at most one number among their factors are split correctly. C187_coefficient_violated: of 2*I only the last factor is kept."
  },
  {
   "property": "C188",
   "status": "proved",
   "theorems": [
    "Cyjax.C188_counts",
    "Cyjax.C188_normal",
    "Cyjax.C188_interval"
   ],
   "note": "C188_normal proves the central limit theorem with the explicit variance; C188_interval the probabilities of intervals; C188_counts extends them to any number of points (there the probabilities are outer measures, since the order of the roots need not be measurable). The proof writes the loss as a function of three means and uses the central limit theorem for a linear combination of them."
  },
  {
   "property": "C189",
   "status": "proved",
   "theorems": [
    "Cyjax.C189_normal",
    "Cyjax.C189_entries",
    "Cyjax.C189_pipeline"
   ],
   "note": "C189_normal for a fixed volume, C189_entries for the entries, C189_pipeline for the computed volume. The proof is the delta method: the result is a function of means over independent batches that is differentiable at the limit."
  },
  {
   "property": "C190",
   "status": "proved",
   "theorems": [
    "Cyjax.C190_average",
    "Cyjax.C190_interval",
    "Cyjax.C190_sigma"
   ],
   "note": "C190_average for averages over full lines, C190_interval for any number of points, C190_sigma for sigma_accuracy. For numbers of points that are not a multiple of n + 2 the result depends on the order of the roots, which need not be measurable; the probabilities are then outer measures. C190_sigma bounds the error and does not give its limit law: the absolute value in the accuracy is not differentiable where eta V/K = 1, and a normal limit would need that this set has volume zero."
  },
  {
   "property": "C191",
   "status": "proved",
   "theorems": [
    "Cyjax.C191_normal",
    "Cyjax.C191_counts"
   ],
   "note": "C191_normal for multiples of n + 2, C191_counts for any number of points. Moduli and network are fixed; only the points are random."
  },
  {
   "property": "C192",
   "status": "proved",
   "theorems": [
    "Cyjax.C192_gradient",
    "Cyjax.C192_limit"
   ],
   "note": "C192_gradient: existence of both derivatives with probability one and the bound for their difference. C192_limit: both converge to the derivative of the limit of the loss. For one set of moduli; the constant C depends on the curve."
  },
  {
   "property": "C193",
   "status": "proved",
   "theorems": [
    "Cyjax.C193_gradient"
   ],
   "note": "C193_gradient. The numbers drawn with the different keys need not be independent. The constant C depends on the direction and on the parameters."
  }
 ]
}
