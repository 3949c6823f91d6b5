{
 "C02": {
  "status": "partial",
  "note": "False of the code: for a negative index the remaining entries come out rotated by one (C02_pop_negative_violated, exact description C02_pop_negative_rotated). Proved: the popped value is right."
 },
 "C07": {
  "status": "partial",
  "note": "False of the code for a mutable numpy first factor (C07_prod_violated, C07_prod_alias_violated). Proved: immutable first factor; all other arrays are unchanged."
 },
 "C100": {
  "status": "proved",
  "note": "Hypersurface given by a polynomial in affine coordinates; jets of sections as in C64."
 },
 "C101": {
  "status": "proved",
  "note": "For homogeneous monomial sections; instance for the full basis."
 },
 "C102": {
  "status": "proved",
  "note": "Generic HomPoly, Dwork and Fermat varieties; exact transformation law for other degrees."
 },
 "C103": {
  "status": "proved",
  "note": "All five methods; stated for every variety of the right dimension."
 },
 "C104": {
  "status": "proved",
  "note": "grad_def and default dependent for all methods; admissible dependent for eta and (with non-degenerate metric) ricci_scalar."
 },
 "C105": {
  "status": "proved",
  "note": "Sections spanning the coordinate ring; instances for MonomialBasisFull (all hypersurfaces) and MonomialBasisReduced (every coordinate occurs, see C97)."
 },
 "C106": {
  "status": "proved",
  "note": "With the exact transformation law for other degrees (C106_patches)."
 },
 "C107": {
  "status": "proved",
  "note": "At points of the variety with positive definite H."
 },
 "C108": {
  "status": "proved",
  "note": "For hypersurfaces given by one homogeneous polynomial, h positive definite, sections spanning the coordinate ring in that degree (C105_sections). Exact real arithmetic."
 },
 "C109": {
  "status": "proved",
  "note": "Same hypotheses as C108; no Calabi-Yau condition."
 },
 "C11": {
  "status": "partial",
  "note": "False of the code: fn is ignored in the returned value (C11_ignores_fn, C11_violated). Proved for fn = 1."
 },
 "C115": {
  "note": "Links AlgebraicMetric, fs_metric, induced_fs and the sampling weights through the multinomial theorem. Hypotheses (smooth hypersurface, points on it) are met by the Fermat cubic in an example."
 },
 "C117": {
  "status": "partial",
  "note": "False of the code: poly_degree, documented as the degree, is used as the number of homogeneous coordinates (C117_dim, C117_degree_violated, C117_conic_violated, C117_quartic_violated). Proved when both agree, e.g. for every Calabi-Yau hypersurface, and whenever the number of coordinates is passed."
 },
 "C118": {
  "status": "partial",
  "note": "parameter_position and variable_position proved. variable_index_dict is the inverse of the documented map (C118_index_dict_partial, C118_documented_violated); the evaluation of polynomials uses it in the direction it has."
 },
 "C12": {
  "status": "proved",
  "note": "Integrand 1 as stated in the property; C12_batched_formula gives the exact result for every fn."
 },
 "C120": {
  "status": "partial",
  "note": "Exact for everything but python lists, which are taken as numerical whatever they contain (C120_list_violated)."
 },
 "C121": {
  "note": "C121_batch and C121_stream: samples (almost surely, any buffer size, moduli as a function of the key); C121_loss, C121_scale, C121_accuracy: the loss on a sample. Random numbers are random variables with the law of independent normal numbers; roots are exact."
 },
 "C122": {
  "note": "C122_loss, C122_nonneg, C122_init; real arithmetic, arbitrary activation and dropout functions."
 },
 "C123": {
  "note": "C123_grid and C123_ends: the grid; C123_evaluate: batches. Plots and files are not modelled."
 },
 "C124": {
  "status": "partial",
  "note": "The box (C124_sampler_partial) holds; the bound on the absolute value, claimed by the comment in scripts/conf/dwork.yaml (0 < |psi| < 10), is false: C124_modulus_violated. The absolute value is at most sqrt(2) times the bound."
 },
 "C125": {
  "note": "generic smoothness for any family, almost sure smoothness of the moduli of the cube sampler, Dwork family in all dimensions"
 },
 "C126": {
  "note": "stream and loss almost surely defined for families with a smooth member; instance for conf/dwork.yaml"
 },
 "C127": {
  "note": "the polynomial of the configuration is parsed by hand (sympy.parse_expr is not modelled)"
 },
 "C128": {
  "note": "network, gradient and optimiser are arbitrary functions"
 },
 "C129": {
  "note": "violated: the files are written only in every log_every-th step, so the last steps are missing, and the accuracy logged as after s steps is the one after s+1 updates; proved what the files contain and when they are complete",
  "status": "partial"
 },
 "C13": {
  "status": "proved",
  "note": "Distinctness under the stated no-collision hypotheses on split."
 },
 "C130": {
  "status": "partial",
  "note": "The expectation is the integral divided by n+2 (the degree), because the normalised Fubini-Study measure dA of the weights has total mass n+2 instead of one (C130_violated). The factor is constant and drops out of ratios. Multiples of the degree only: otherwise the last line is cut and the expectation depends on the order of the roots (bounded in C132). The root finder is assumed to return all roots with multiplicity, random numbers to be independent normal."
 },
 "C131": {
  "note": "fsMeasure is built from the Hermitian form of the Fubini-Study metric on tangent vectors, without use of the model."
 },
 "C132": {
  "note": "The limit is the integral divided by n+2, see C130."
 },
 "C133": {
  "note": "The factor n+2 of C130 cancels. Assumptions on random numbers and roots as for C130; real arithmetic."
 },
 "C134": {
  "note": "Assumptions on random numbers and roots as for C130; batches of a multiple of n+2 points, so that no line is cut; real arithmetic. With the volume of the variety itself instead of the result of compute_vol the limit is n+2 times too large, see C130."
 },
 "C135": {
  "note": "The key is modelled by the independent standard normals jax.random.normal returns."
 },
 "C136": {
  "status": "partial",
  "note": "Holds for symbols spelled as the polynomial spells them. A symbol with underscore (z_1) is counted as an entry of z but not renamed as from_sympy does, so symbolic calls leave it unreplaced (C136_underscore_violated)."
 },
 "C137": {
  "status": "partial",
  "note": "Arrays with one name each are taken over exactly (C137_arrays_partial); an array with symbols of different names is read under the first name (C137_mixed_violated). For a sympy.Poly the values, names, occurring indices and parameters are right (C137_poly_partial), but generators that do not occur are lost (C137_gens_violated) and the order of the variables is the order of a python set (C137_order_violated)."
 },
 "C141": {
  "note": "The constant is not explicit; bounded measurable functions; degree n+2.",
  "status": "proved"
 },
 "C142": {
  "note": "Dimension at least one, degree n+2, batch sizes a multiple of n+2, ideal real arithmetic and root finder.",
  "status": "proved"
 },
 "C143": {
  "note": "False of mc_integrate_batched, which splits a key and also draws with it (C143_violated); its draws still have different keys (C143_batched_partial). Proved for sequences of calls of the other functions and for the training script. No collisions and independence of values for different keys are assumptions about jax.random.",
  "status": "partial"
 },
 "C144": {
  "note": "Partial because the code violates the full claim: the parameter order is that of a python set (C144_order_violated), more than 26 variables raise (C144_many_violated), None powers raise (C144_absent_violated), and a symbolic coefficient named like a default variable gives an object whose every call raises (C144_clash_violated). Names, indices, the set of parameters and the value are proved (C144_defaults_partial, C144_named_partial).",
  "status": "partial"
 },
 "C146": {
  "note": "The full claim fails because of stop_gradient: the exact difference is proved (C146_gradient_partial), equality where the average eta is stationary, zero gradient at zero loss, and a step that increases the loss (C146_descent_violated; there the etas themselves are the parameters).",
  "status": "partial"
 },
 "C147": {
  "note": "jax.value_and_grad is modelled by the derivative with the argument of stop_gradient constant; dropout is multiplication by a fixed mask."
 },
 "C17": {
  "status": "proved",
  "note": "The docstring's strict |z_i| < 1 is false (C17_strict_violated); the property is stated with <=."
 },
 "C21": {
  "status": "partial",
  "note": "False of the code (C21_violated); C21_equal_charts states exactly what is returned."
 },
 "C31": {
  "status": "partial",
  "note": "False of the code for vol other than None and 1: the volume factor enters only the separate pair (C31_vol_violated). Proved for vol = None and vol = 1."
 },
 "C32": {
  "status": "partial",
  "note": "Proved for generic, Dwork and Fermat varieties under an exact root finder (ExactRoots) and any symbol order sympy may pick. Parameter names must not collide with the line symbols t, p, q; a parameter named t always fails (C32_clash_violated), and a parameter named p_0 silently gives points off the variety (C32_silent_violated). Lines on which the leading coefficient vanishes are excluded."
 },
 "C33": {
  "status": "partial",
  "note": "The returned length is proved exactly (C33_length). It covers count for degree >= number of variables, in particular for Dwork and Fermat; for smaller degree it is false (C33_violated)."
 },
 "C34": {
  "status": "partial",
  "note": "Proved without exception for Dwork and Fermat varieties (at least three homogeneous coordinates), and for a general polynomial whenever the leading coefficient in the dependent coordinate does not vanish at the input; the root finder is assumed exact. patch=None, the default, always raises (C34_no_patch_violated). Missing: two homogeneous coordinates, where no other coordinate is left (see C47_single_violated)."
 },
 "C35": {
  "status": "partial",
  "note": "False of the code: best_dependent swaps params and patch and every call raises (C35_violated). Proved: the automatic choice inside jacobian_embed, induced_metric and induced_fs maximises the modulus of the gradient."
 },
 "C38": {
  "status": "partial",
  "note": "False of the code in one case: surplus positional arguments are silently dropped when params is a keyword (C38_extra_positional_violated). Proved: the bindings, missing arguments, too many positional arguments without the keyword, wrong params length."
 },
 "C40": {
  "status": "partial",
  "note": "False of the code: any non-real coefficient makes every numerical call raise (C40_complex_violated). Real coefficients never fail (C40_real_partial)."
 },
 "C41": {
  "status": "partial",
  "note": "False of the code when inputs mention symbols of the polynomial that are replaced themselves (C41_swap_violated). Proved whenever the symbols of the polynomial mentioned in the inputs are left as they are."
 },
 "C42": {
  "status": "proved",
  "note": "The log mode needs non-zero values wherever a positive power occurs."
 },
 "C43": {
  "status": "proved",
  "note": "For real coefficients (others cannot be evaluated, C40); construction raises when no variable occurs (C44_constant_violated)."
 },
 "C44": {
  "status": "partial",
  "note": "False of the code for complex coefficients (C44_complex_violated, C44_complex_sum_violated, C44_complex_parameter_violated), for powers of parameters (C44_power_violated) and for polynomials without variables (C44_constant_violated); proved for all others."
 },
 "C45": {
  "status": "proved",
  "note": "For operands with real coefficients (others cannot be evaluated, C40) and no parameter sharing the base name of a variable of the other operand. For numbers and single symbols as operand see C136."
 },
 "C46": {
  "status": "partial",
  "note": "False of the code for polynomials from from_coeffs_and_powers and a declared variable that does not occur: diff raises (C46_absent_variable_violated). Proved for generators."
 },
 "C47": {
  "status": "partial",
  "note": "False of the code if var is the only variable and a parameter occurs: the call raises (C47_single_violated). Proved whenever another variable is left."
 },
 "C50": {
  "status": "partial",
  "note": "Proved for any number of variables and any history, when every coordinate set to one is a generator of the symbolic polynomial (always so after from_sympy) and not the only one. False otherwise: every such call raises (C50_absent_violated)."
 },
 "C51": {
  "status": "partial",
  "note": "False of the code (C51_positional_violated): the patch number is used as the symbolic index. C51_symbolic_index_partial states what holds for any index set."
 },
 "C52": {
  "status": "proved",
  "note": "For histories of valid calls, as stated; C52_invalid_pollutes shows that one invalid patch breaks it."
 },
 "C54": {
  "status": "partial",
  "note": "With names given and no mixture of z and z0 the result is independent of the order (C54_order_partial) and the indices are complete and sorted. Without names only the parameters and polynomial are (C54_no_names_partial): for x - y the positional arguments swap (C54_no_names_violated). A z/z0 mixture in which z cancels gives an error for one order only (C54_mixed_violated)."
 },
 "C55": {
  "status": "partial",
  "note": "False without names: two entries of one array are always rejected (C55_violated, every order). With the name given the entries are grouped, sorted and complete (C55_named_partial)."
 },
 "C59": {
  "status": "proved",
  "note": "C59_order_violated shows that the hypothesis on the order of the terms cannot be dropped."
 },
 "C61": {
  "status": "proved",
  "note": "The Kahler transformation is stated for positive definite H and sections without common zero; C61_full_nonzero shows this for the full basis."
 },
 "C64": {
  "status": "proved",
  "note": "For Hermitian H where psi > 0. C64_sections shows that the code's own sections meet IsJet."
 },
 "C68": {
  "status": "proved",
  "note": "In ambient affine coordinates, with log|det|; C68_full shows that all hypotheses hold for the full basis on any hypersurface."
 },
 "C72": {
  "status": "partial",
  "note": "Agrees for psi, its derivatives except psi_hh, the Kahler potential, g_proj, g_loc and eta. C72_violated: psi_hh lacks a return in the one-dimensional branch, so the derivatives of the metric and the curvature raise for every diagonal h."
 },
 "C73": {
  "status": "proved",
  "note": "Given the values of eta and the weights at the sampled points; invariance of eta under rescaling of H is C71."
 },
 "C74": {
  "status": "proved",
  "note": "C74_invertible: T is positive definite as soon as the sampled sections span."
 },
 "C75": {
  "status": "proved",
  "note": "Any regrouping of the points into batches, rescaling, trace identity."
 },
 "C76": {
  "status": "proved",
  "note": "Hermitian, positive semi-definite, positive definite iff no zero diagonal entry; every pair of arrays of matching sizes (incl. the length-one broadcast) is covered, other sizes raise."
 },
 "C77": {
  "status": "proved",
  "note": "Existence and uniqueness of (diag, upper) with positive diagonal, for every positive definite matrix of every size."
 },
 "C78": {
  "status": "proved",
  "note": "Square sizes exactly; odd/other sizes raise. The float square root and rounding of the size are modelled exactly (sizes beyond 2^52 not relevant)."
 },
 "C79": {
  "status": "proved",
  "note": "Identity without fluctuation; diagonal with squared entries with fluctuation; positive definite whenever no entry vanishes."
 },
 "C80": {
  "status": "proved",
  "note": "Stream equals the samples of the key sequence for every buffer size >= 1 and number of calls; buffer size 0 makes every call raise."
 },
 "C81": {
  "status": "proved",
  "note": "What is returned is always a prefix of the stream; after a failed refill every call raises IndexError. C81_lost records that one generated sample is lost at the failure."
 },
 "C82": {
  "status": "proved",
  "note": "Non-negativity, strict positivity for a negative eta, exact formula mean(w) * relative weighted variance, zero iff constant on the support, scale invariance; also that the loss scales linearly with the weights."
 },
 "C83": {
  "status": "proved",
  "note": "Exact list of features, number and error cases. Powers are rational, complex power is the principal branch of Mathlib."
 },
 "C84": {
  "status": "partial",
  "note": "Proved without sig_suppress for every input form, hidden layers and dropout; with sig_suppress (default) the initial matrix is one quarter of the identity (C84_suppressed, C84_violated)."
 },
 "C85": {
  "status": "proved",
  "note": "Ranges for every draw; uniform_angle also hits every value of the annulus. C85_documented_violated: the documented range 0..1 of uniform_components is wrong."
 },
 "C86": {
  "status": "proved",
  "note": "Unit norm for every non-zero draw, direction of the draws, affine coordinates bounded by one and same projective point."
 },
 "C87": {
  "status": "proved",
  "note": "For patch_size >= 1, every dim, every pair of distinct patches and every draw in [0,1)."
 },
 "C88": {
  "status": "partial",
  "note": "Proved for the first two patches in every dimension; C88_other_patches_violated shows that for patch size > 1 it fails for every other pair of patches."
 },
 "C90": {
  "status": "proved",
  "note": "For polynomials in which the coordinate of the patch occurs and is not the only generator; otherwise the affine polynomial does not exist (C50_absent_violated)."
 },
 "C91": {
  "status": "proved",
  "note": "Polynomials with real coefficients (others cannot be evaluated, C40) and Dwork polynomials with a real factor."
 },
 "C92": {
  "status": "proved",
  "note": "C92_value is the closed form, C92_chart the behaviour for any degree, C92_patch_independent the Calabi-Yau case."
 },
 "C93": {
  "status": "partial",
  "note": "Proved without feature_angle. With it the code uses the angle of the moduli, not of the products (C93_angle_violated)."
 },
 "C94": {
  "status": "partial",
  "note": "Proved for absent dropout rates or at least as many as layers; with fewer rates layers are silently left out (C94_short_violated, C94_example_violated)."
 },
 "C97": {
  "status": "partial",
  "note": "Proved when every coordinate occurs in the polynomial. C97_missing_violated: otherwise the power matrix has fewer than n+1 columns."
 },
 "C98": {
  "status": "partial",
  "note": "C98_reduced_partial: for a basis of sections on an irreducible hypersurface, every sample containing suitable points works. C98_full_violated: for MonomialBasisFull with k >= deg P the matrix T is singular for every sample."
 },
 "C99": {
  "status": "partial",
  "note": "C99_complex_partial; C99_real_violated: a real H is rejected by the loop."
 },
 "C149": {
  "status": "partial",
  "note": "Proved with the two halves of the last layer in the order of the code, sigmoid(out[0]) * out[1]; the docstring gives the other order (C149_documented_violated). The layers need no or enough dropout rates (see C94)."
 },
 "C150": {
  "status": "partial",
  "note": "C150_immutable_partial: inputs that are not mutable arrays, any expression. C150_numbers_first_partial, C150_no_parameters_partial: any inputs, if no product in the expression begins with a symbol. C150_modified_violated: util.prod multiplies in place, so (psi + 1)*x + (psi + 1)*x*y with a numpy array for x overwrites x and returns a wrong value."
 },
 "C153": {
  "status": "proved",
  "note": "As for C130, the root finder is assumed to return all roots with multiplicity and random numbers to be independent normal (C153_mean only)."
 },
 "C154": {
  "status": "partial",
  "note": "Panels, data, positions and scale are proved (C154_plots, C154_axes). The extent of the images is computed with the wrong pixel size, so pixels are not centred at the grid points (C154_pixels_violated; they still contain them, C154_pixels_partial), and the labels of the images are never drawn (C154_labels_violated)."
 },
 "C155": {
  "status": "proved",
  "note": "Exact integrals in place of sample means; the measures are those the sampled points and weights belong to (C130, C131). C155_measure, C155_step, C155_balanced, C155_eta, C155_ricci_scalar, C155_accuracy; C155_dwork and C155_fermat for the matrix entries."
 },
 "C156": {
  "status": "proved",
  "note": "auto_vmap is an external package; its documented behaviour (broadcast the batch axes, apply the function to every entry, pass on None) is the model. induced_metric, induced_fs and sigma_accuracy combine batched calls without being decorated or use arrays inside, and are proved from it."
 },
 "C157": {
  "status": "partial",
  "note": "sympy's printing of expressions is a parameter. repr is unambiguous for plain names and non-empty arrays (C157_repr_partial), C157_symbols, C157_variety; the LaTeX strings are inline formulas (C157_math). The name of an array without entries is not printed (C157_empty_violated), and the exponent of CP is set wrongly as soon as it has two digits (C157_superscript_violated)."
 },
 "C158": {
  "status": "proved",
  "note": "auto_vmap as in C156. C158_poly relates the entries to the mathematical value, C158_hom to the call of one point (whose value is C49, C50); C158_fixed is the precedence of keyword arguments."
 },
 "C159": {
  "status": "proved",
  "note": "The evaluator with addition, multiplication and constants of an arbitrary arithmetic (Model/Rounding.lean). C159_expression for all expressions with real numbers, C159_poly for polynomials, C159_floats for correctly rounded binary numbers of unbounded exponent range (no overflow and no subnormal numbers), C159_binary the explicit bound."
 },
 "C160": {
  "status": "proved",
  "note": "Reductions in any binary tree order. exp and log are functions with given accuracy. C160_index, C160_log, C160_exact."
 },
 "C161": {
  "status": "proved",
  "note": "Model/RoundingAccuracy.lean. C161_accuracy is the general bound, C161_explicit the one for exact inputs, C161_perfect the case of a perfect metric, C161_floats shows that correctly rounded quotients and absolute values satisfy the hypotheses."
 },
 "C162": {
  "status": "proved",
  "note": "Model/RoundingProjective.lean. log is a function with given accuracy, as in C160."
 },
 "C163": {
  "status": "proved",
  "note": "Evaluation of the coefficients and of p + r q is exact here. C163_backward: small residual and small backward error are the same."
 },
 "C164": {
  "status": "proved",
  "note": "C164_inputs and C164_iteration are the main statements, for the step with the same sections at the points. C164_entries turns errors of the entries into a factor."
 },
 "C165": {
  "status": "proved",
  "note": "C165_matrix bounds T, C165_condition gives kappa, C165_inverse treats the inverse and C165_step the result; its conclusion is the hypothesis of C164_iteration, so the errors of several steps multiply. The numerical inverse is a parameter with a bound of its residual. C165_exact identifies the program with the exact model. Overflow and underflow are not modelled (see C159)."
 },
 "C166": {
  "status": "proved",
  "note": "C166_lower is the lower bound of the induced metric, C166_det the determinant estimate for non-Hermitian perturbations, C166_metric, C166_separate and C166_weight the errors; the result is the weight error dw of C165. The library determinant is a parameter with a backward error. C166_exact identifies the program with the one of C30 and C31. Overflow and underflow are not modelled (see C159)."
 },
 "C167": {
  "status": "proved",
  "note": "C167_condition gives the conditions from bounds of h, C167_lower the lower bound of the metric on the variety, C167_metric, C167_local and C167_eta the errors; C167_method is the same for AlgebraicMetric.eta. The result is the error of eta in C161. The library determinant is a parameter with a backward error. C167_exact identifies the programs with those of C62, C67 and C70. Overflow and underflow are not modelled (see C159)."
 },
 "C168": {
  "status": "proved",
  "note": "C168_uniform and C168_accuracy. The constants are not explicit; explicit bounds at a point are C161, C166 and C167. The gradient may have absolute errors (as its sums may cancel), which C166 and C167 do not allow. For the default choice of the dependent coordinate. Overflow and underflow are not modelled (see C159)."
 },
 "C169": {
  "status": "proved",
  "note": "C169_iteration, C169_potential, C169_binary; C169_exact_inverse and C169_exact_step for the link to the exact program. The constants depend on the points and the number of steps and are not explicit (explicit bounds for one step: C165). The inverse of the library is assumed to be backward stable column by column (Spec.InvStable). Overflow and underflow are not modelled (see C159)."
 },
 "C170": {
  "status": "proved",
  "note": "C170_matrices, C170_accuracy, C170_binary. Combines C168 (strengthened to matrices with errors) and C169. The points are those the exact program uses as well: errors of the sampled points themselves are the subject of C162 and C163. The constants are not explicit. Overflow, underflow and nan_to_num are not modelled."
 },
 "C171": {
  "status": "partial",
  "note": "C171_volume, C171_variance and C171_plain are the bounds, C171_exact relates the rounded program to the exact one of C12. The last clause fails: C171_negative_violated gives, for every precision of at least 5 digits, two weights with positive variance for which both mc_integrate and mc_integrate_batched return a negative variance (a NaN standard error). C171_nonneg_partial proves non-negativity when the exact variance exceeds the rounding errors. Overflow and underflow are not modelled."
 },
 "C172": {
  "status": "partial",
  "note": "C172_error is the bound, C172_hermitian the exact symmetry, C172_exact and C172_accepts relate the program to the one of C76. Positive definiteness fails: C172_indefinite_violated gives, for every precision of at least 4 digits, exactly represented parameters with diagonal 1, 1 for which the matrix returned takes the value -4 on a vector. C172_posDef_partial proves it if n ((1+4u)^(d+1) - 1) max H_ii is smaller than the smallest eigenvalue of the exact matrix. Overflow and underflow are not modelled; the order of summation is the same for all entries."
 },
 "C173": {
  "status": "partial",
  "note": "C173_error is the bound for inputs with errors, C173_explicit the one for exact inputs, C173_uniform the one for values of eta and weights computed on or near a smooth hypersurface, C173_perfect the one for constant eta, C173_nonneg the sign, C173_floats and C173_exact relate the assumptions and the program to floats and to the program of C121. The penalty fails: C173_penalty_violated gives, for every precision, metrics with negative eta everywhere and a computed loss of exactly zero (|eta| up to about 1e-4 in single precision). C173_penalty_partial proves it for negative eta with square above about the unit roundoff. Overflow and underflow are not modelled."
 },
 "C174": {
  "status": "proved",
  "note": "C174_error is the bound for one set of moduli, C174_variance compares the limit with the accuracy of C133, C174_flat is the equivalence with Ricci-flatness, C174_training the bound for the loss function of a step with any number of sets of moduli, which need not be independent."
 },
 "C175": {
  "status": "proved",
  "note": "C175_accuracy and C175_loss combine the sampling errors of C133 and C174 with the rounding errors of C168 and C173. The points are those of exact roots; their rounding enters through the errors that the evaluations may have."
 },
 "C176": {
  "status": "partial",
  "note": "C176_forms, C176_letters, C176_several and C176_superscript are the claims about split_subscript. The claim about merge_subscript holds for subscripts that are not negative (C176_merge_partial); merge_subscript(name, -1) is read as a name without subscript (C176_negative_violated)."
 },
 "C177": {
  "status": "partial",
  "note": "Proved: C177_convert, C177_derivative_partial, C177_commute_partial, C177_euler, C177_dwork, C177_fermat. Missing: sums, differences, products, and derivatives of Dwork and Fermat polynomials are objects of the base class, whose call accepts the argument patch and ignores it (C177_ignored_violated, C177_sum_violated); omitted coordinates that do not occur raise, as in C50. Numerical arrays shorter than expected are an error in the model, as for numpy; jax would repeat the last entry."
 },
 "C178": {
  "status": "partial",
  "note": "Proved: C178_symbolic (symbolic inputs raise exactly for wrong sizes), C178_params (wrong number of parameters), and C178_numpy_partial (with numpy arrays the call raises exactly if the value of an occurring symbol is missing, and is right otherwise). Missing: entries that are not needed are not noticed (C178_long_violated), and with jax arrays no size but zero raises, missing entries being replaced by the last one (C178_jax_violated)."
 },
 "C179": {
  "status": "proved",
  "note": "C179_uniform (uniform convergence with exponential bounds), C179_training (approximate minimisers and the accuracy), C179_almost_surely, C179_network (loss function of the script on a sampled batch)."
 },
 "C180": {
  "status": "proved",
  "note": "C180_uniform (uniform convergence of sigma_accuracy), C180_continuous, C180_continuous_sampled, C180_minimum."
 },
 "C181": {
  "status": "proved",
  "note": "C181_expressions (induction over the expression), C181_differentiable (the derivatives it refers to exist), C181_not_a_generator, C181_split."
 },
 "C182": {
  "status": "proved",
  "note": "C182_normal (central limit theorem for the result), C182_coverage (exact limit of the coverage of the returned standard error, and when it is nominal), C182_conservative (intervals with n + 2 times the returned variance). The returned variance treats points on one line as independent; C182_coverage says what this costs."
 },
 "C183": {
  "status": "partial",
  "note": "C183_moments_partial and C183_coverage_partial prove it for the integrand one. C183_violated: mc_integrate averages the weights instead of fn times the weights (C11), so whenever the integral of fn differs from the integral of one the coverage converges to zero for every t."
 },
 "C184": {
  "status": "partial",
  "note": "C184_value proves the values. The variances are wrong: line 243 takes the mean of val2 over all axes, so the squares of all components are mixed. C184_violated: with constant weights 1 and 3 the variances are 4/count and -4/count instead of zero. C184_variance_total_partial: the sum of the variances is right. C184_single_partial: with one weight the variance is right."
 },
 "C185": {
  "status": "partial",
  "note": "C185_posDef: almost surely positive definite. C185_moments_partial: mean one and variance fluctuate^2. C185_violated: the draws are normal, not uniform; the probability that all diagonal entries are in the documented range is the n-th power of the probability of one standard deviation, less than one, and converges to zero for large bases."
 },
 "C186": {
  "status": "partial",
  "note": "C186_moduli proves the law of the sampled moduli. C186_components_partial: the law of uniform_components is uniform on the square between -1 - i and 1 + i. C186_documented_violated: this is not the documented square; three quarters of the values lie outside."
 },
 "C187": {
  "status": "partial",
  "note": "C187_value, C187_exact, C187_classes, C187_nonreal and C187_power prove the conversion of numbers and exponents. C187_integer_partial: integers except minus one stay integers. C187_violated: minus one becomes a float, because its class is NegativeOne. C187_coefficient_partial: coefficients with at most one number among their factors are split correctly. C187_coefficient_violated: of 2*I only the last factor is kept."
 },
 "C188": {
  "status": "proved",
  "note": "C188_normal proves the central limit theorem with the explicit variance; C188_interval the probabilities of intervals; C188_counts extends them to any number of points (there the probabilities are outer measures, since the order of the roots need not be measurable). The proof writes the loss as a function of three means and uses the central limit theorem for a linear combination of them."
 },
 "C189": {
  "status": "proved",
  "note": "C189_normal for a fixed volume, C189_entries for the entries, C189_pipeline for the computed volume. The proof is the delta method: the result is a function of means over independent batches that is differentiable at the limit."
 },
 "C190": {
  "status": "proved",
  "note": "C190_average for averages over full lines, C190_interval for any number of points, C190_sigma for sigma_accuracy. For numbers of points that are not a multiple of n + 2 the result depends on the order of the roots, which need not be measurable; the probabilities are then outer measures. C190_sigma bounds the error and does not give its limit law: the absolute value in the accuracy is not differentiable where eta V/K = 1, and a normal limit would need that this set has volume zero."
 },
 "C191": {
  "status": "proved",
  "note": "C191_normal for multiples of n + 2, C191_counts for any number of points. Moduli and network are fixed; only the points are random."
 },
 "C192": {
  "status": "proved",
  "note": "C192_gradient: existence of both derivatives with probability one and the bound for their difference. C192_limit: both converge to the derivative of the limit of the loss. For one set of moduli; the constant C depends on the curve."
 },
 "C193": {
  "status": "proved",
  "note": "C193_gradient. The numbers drawn with the different keys need not be independent. The constant C depends on the direction and on the parameters."
 }
}