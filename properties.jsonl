{"id": "C01", "title": "pop removes exactly the requested entry", "statement": "util.pop(arr, i) returns arr[i] together with the array of all other entries in their original order, for every array length and every index 0 <= i < len(arr).", "quantifier": "every element type, every length n >= 1, every array, every index in [0, n)", "why_tests_cant": "tests cover a few indices of a 4-element array; the roll arithmetic is modular and depends on the length and the index together", "anchors": ["cyjax/util.py:pop"]}
{"id": "C02", "title": "pop with a negative index", "statement": "For a negative index -n <= i < 0, util.pop(arr, i) returns arr[i] (counted from the end) and the remaining entries in their original order.", "quantifier": "every length, every array, every negative index", "why_tests_cant": "modular wrap-around differs between the array of length n and the remaining array of length n-1", "anchors": ["cyjax/util.py:pop"]}
{"id": "C03", "title": "insert_1d places the block at the requested index", "statement": "util.insert_1d(arr, val, i) is arr[:i] ++ val ++ arr[i:] for 0 <= i <= len(arr); a negative i counts backwards with respect to the generated output (i = -1 appends), for scalar and multi-entry val.", "quantifier": "every arr length n, every val length m, every index in [-(n+1), n]", "why_tests_cant": "boundary behaviour of two composed modular rolls for all lengths, block lengths and signs", "anchors": ["cyjax/util.py:insert_1d"]}
{"id": "C04", "title": "insert_col inserts a column block row by row", "statement": "util.insert_col(mat, col, i) inserts the column (or block of columns) at column index i in every row, with the same sign convention as insert_1d, and leaves all other columns in order.", "quantifier": "every matrix shape, every block width, every index in [-(cols+1), cols]", "why_tests_cant": "same modular reasoning, along axis 1 for all shapes", "anchors": ["cyjax/util.py:insert_col"]}
{"id": "C05", "title": "pop and insert_1d are inverse", "statement": "Inserting the popped value back at the same index restores the array, and popping an inserted value returns it and the original array.", "quantifier": "every array, every valid index", "why_tests_cant": "round-trip over all lengths and indices", "anchors": ["cyjax/util.py:pop", "cyjax/util.py:insert_1d"]}
{"id": "C06", "title": "prod is the product and an empty product is 1", "statement": "util.prod(factors) equals the product of all factors, and 1 if there are none.", "quantifier": "every finite sequence of factors over any commutative monoid", "why_tests_cant": "arbitrary lengths including the empty special case", "anchors": ["cyjax/util.py:prod"]}
{"id": "C07", "title": "prod does not modify its inputs", "statement": "Calling util.prod leaves the caller's factor objects unchanged.", "quantifier": "every sequence of factors, mutable arrays or immutable scalars", "why_tests_cant": "aliasing: in-place multiplication on the first factor depends on object identity and mutability", "anchors": ["cyjax/util.py:prod"]}
{"id": "C08", "title": "binomial is the binomial coefficient", "statement": "util.binomial(n, k) = n!/(k!(n-k)!) exactly for 0 <= k <= n, with no rounding in the integer division, and raises for k > n or negative arguments.", "quantifier": "all integers n, k", "why_tests_cant": "unbounded integers", "anchors": ["cyjax/util.py:binomial"]}
{"id": "C09", "title": "flatten_coord / unflatten_coord round-trip", "statement": "Flattening coordinates of any leading batch shape and un-flattening any per-point result array restores the batch shape with result b at batch position b; in particular unflatten(flatten(z)) = z. Hence the Fubini-Study metric and potential at arrays of any shape give at each batch position the value at that point, and points and conjugates of different shapes raise.", "quantifier": "every rank, every batch shape with non-zero coordinate dimension, every per-point output shape", "why_tests_cant": "every rank and shape", "anchors": ["cyjax/util.py:flatten_coord", "cyjax/util.py:unflatten_coord", "cyjax/projective.py:fs_metric", "cyjax/projective.py:fs_potential", "cyjax/projective.py:119-203"]}
{"id": "C10", "title": "shuffle_axis only permutes slices along the axis", "statement": "util.shuffle_axis(key, x, axis) has the shape of x and, for every fixed leading index, its slices along the axis are a permutation of the slices of x along that axis; sub-arrays behind the axis stay intact.", "quantifier": "every array, every axis, every outcome of the random permutations", "why_tests_cant": "all permutation outcomes and shapes", "anchors": ["cyjax/util.py:shuffle_axis"]}
{"id": "C11", "title": "mc_integrate estimates the integral of fn", "statement": "util.mc_integrate(key, count, fn, sample) returns the sample mean of fn(z) * w, the documented Monte Carlo estimate of the integral of fn.", "quantifier": "every integrand, sampler, key and count", "why_tests_cant": "integrands are arbitrary functions; the only integrand used in the library is the constant 1", "anchors": ["cyjax/util.py:mc_integrate"]}
{"id": "C12", "title": "batched integration equals one big average", "statement": "util.mc_integrate_batched over B batches of size S returns the plain average over all B*S samples, whatever the split, and if var is set, the returned variance is (mean(v^2) - mean^2)/(B*S), which is non-negative.", "quantifier": "every sampler, every B, S >= 1 (constant integrand 1)", "why_tests_cant": "all batch splits and sample values", "anchors": ["cyjax/util.py:mc_integrate_batched", "cyjax/variety.py:compute_vol"]}
{"id": "C13", "title": "PRNGSequence is a deterministic stream", "statement": "The n-th key of a PRNGSequence depends only on the seed and n; it is the first half of the split of the (n-1)-fold second half of the seed key; an integer seed equals passing PRNGKey(seed); keys never repeat if splitting never collides.", "quantifier": "every seed, every n, every interleaving of calls", "why_tests_cant": "all histories of next() calls", "anchors": ["cyjax/util.py:PRNGSequence"]}
{"id": "C14", "title": "homogeneous/affine index conversion is inverse", "statement": "For every patch p, index_affine_to_hom(p, .) maps affine indices bijectively and monotonically onto the homogeneous indices other than p, and index_hom_to_affine(p, .) is its inverse.", "quantifier": "all integers p and indices", "why_tests_cant": "unbounded indices, off-by-one at the patch", "anchors": ["cyjax/projective.py:index_hom_to_affine", "cyjax/projective.py:index_affine_to_hom"]}
{"id": "C15", "title": "affine -> homogeneous -> affine is the identity", "statement": "hom_to_affine(affine_to_hom(z, p), p) = z, and affine_to_hom(z, p) has entry 1 at p.", "quantifier": "every dimension, every patch 0 <= p <= dim, every point (any field)", "why_tests_cant": "all dimensions and points", "anchors": ["cyjax/projective.py:affine_to_hom", "cyjax/projective.py:hom_to_affine"]}
{"id": "C16", "title": "homogeneous -> affine -> homogeneous is rescaling", "statement": "affine_to_hom(hom_to_affine(h, p), p) = h / h[p] whenever h[p] != 0, i.e. the same projective point.", "quantifier": "every dimension, patch and point with non-zero p-th coordinate", "why_tests_cant": "all dimensions and points", "anchors": ["cyjax/projective.py:affine_to_hom", "cyjax/projective.py:hom_to_affine"]}
{"id": "C17", "title": "automatic patch choice is numerically optimal", "statement": "hom_to_affine(h) without patch returns the first index of maximal modulus as patch; for h != 0 all returned affine coordinates have modulus at most 1 and the result is the same projective point.", "quantifier": "every dimension, every non-zero point", "why_tests_cant": "all points incl. ties, where modulus exactly 1 occurs", "anchors": ["cyjax/projective.py:hom_to_affine"]}
{"id": "C18", "title": "affine coordinates are scale invariant", "statement": "hom_to_affine(c*h) = hom_to_affine(h), with the same automatically chosen patch, for every non-zero scalar c.", "quantifier": "all points and scalars", "why_tests_cant": "all scalings; argmax ties must be preserved", "anchors": ["cyjax/projective.py:hom_to_affine"]}
{"id": "C19", "title": "change_chart agrees with the homogeneous route", "statement": "change_chart(z, p, q) = hom_to_affine(affine_to_hom(z, p), q) for all patches p != q with non-vanishing q-coordinate.", "quantifier": "every dimension, all pairs of distinct patches, all points", "why_tests_cant": "tests check only moduli bounds; index shifts for p<q and q<p differ", "anchors": ["cyjax/projective.py:change_chart"]}
{"id": "C20", "title": "change_chart is a groupoid", "statement": "Changing chart p->q and then q->p is the identity, and p->q->r equals p->r, wherever the coordinates divided by are non-zero.", "quantifier": "every dimension, all triples of distinct patches, all points", "why_tests_cant": "all triples and points", "anchors": ["cyjax/projective.py:change_chart"]}
{"id": "C21", "title": "change_chart with equal charts is the identity", "statement": "change_chart(z, p, p) returns z.", "quantifier": "every dimension, patch and point", "why_tests_cant": "the degenerate patch combination is never exercised in tests", "anchors": ["cyjax/projective.py:change_chart"]}
{"id": "C22", "title": "Fubini-Study metric is Hermitian positive definite", "statement": "fs_metric(z) is a Hermitian, positive-definite matrix at every affine point in every dimension.", "quantifier": "every dimension and point", "why_tests_cant": "all points", "anchors": ["cyjax/projective.py:fs_metric", "cyjax/projective.py:_fs_metric"]}
{"id": "C23", "title": "fs_metric is the complex Hessian of fs_potential", "statement": "fs_metric(z)[i, j] is the mixed derivative d/dz_i d/dzbar_j of fs_potential(z, zbar), where z and zbar are varied independently.", "quantifier": "every dimension, point and index pair", "why_tests_cant": "derivative identity over a continuum of points", "anchors": ["cyjax/projective.py:_fs_metric", "cyjax/projective.py:_fs_potential", "cyjax/differential.py:complex_hessian"]}
{"id": "C24", "title": "fs_potential: homogeneous vs affine", "statement": "fs_potential(affine_to_hom(z, p), hom=True) = fs_potential(z) for every patch, and rescaling homogeneous coordinates by c shifts it by 2 log|c|; it is real.", "quantifier": "every dimension, patch, point and scale", "why_tests_cant": "all points and scales", "anchors": ["cyjax/projective.py:fs_potential"]}
{"id": "C25", "title": "fs_metric determinant", "statement": "det fs_metric(z) = (1+|z|^2)^-(n+1), so it never degenerates.", "quantifier": "every dimension n and point", "why_tests_cant": "all dimensions", "anchors": ["cyjax/projective.py:fs_metric"]}
{"id": "C26", "title": "fs_metric is chart independent", "statement": "Pulling back fs_metric in chart q along the Jacobian of change_chart p->q gives fs_metric in chart p.", "quantifier": "every dimension, pairs of charts, points", "why_tests_cant": "tensor transformation law over all points", "anchors": ["cyjax/projective.py:fs_metric", "cyjax/projective.py:change_chart"]}
{"id": "C27", "title": "jacobian_embed is the tangent frame", "statement": "jacobian_embed(G, d) has one row per independent coordinate: the columns other than d form the identity, column d is -G_j/G_d, and every row is annihilated by the gradient G (tangent to the variety).", "quantifier": "every dimension, gradient with G_d != 0, and index d", "why_tests_cant": "all dimensions and dependent indices", "anchors": ["cyjax/differential.py:jacobian_embed"]}
{"id": "C28", "title": "induced_metric is the Hermitian pullback", "statement": "induced_metric(g, G, d) = J g J^dagger; it is Hermitian if g is and positive definite if g is; passing the conjugate gradient explicitly gives the same result.", "quantifier": "every dimension, metric, gradient with G_d != 0, index d", "why_tests_cant": "all matrices and dimensions", "anchors": ["cyjax/differential.py:induced_metric"]}
{"id": "C29", "title": "volume density independent of the dependent coordinate", "statement": "det(induced_metric(g, G, d)) * |G_d|^2 does not depend on which coordinate d is eliminated.", "quantifier": "every dimension, ambient metric, gradient and pair of indices with non-zero gradient entries", "why_tests_cant": "determinant identity in every dimension", "anchors": ["cyjax/differential.py:induced_metric", "cyjax/variety.py:sample_intersect_weights", "cyjax/donaldson.py:GeometricObjects.eta"]}
{"id": "C30", "title": "sampling weights independent of coordinate choice", "statement": "sample_intersect_weights gives the same weight for every admissible choice of dependent coordinate, and the automatic choice gives the same value; weights are positive.", "quantifier": "every dimension, point, gradient and dependent index", "why_tests_cant": "all choices", "anchors": ["cyjax/variety.py:sample_intersect_weights"]}
{"id": "C31", "title": "separate weights are consistent with the ratio", "statement": "With separate=True the returned pair (dVolCY, dA) has the ratio that separate=False returns, for every value of vol.", "quantifier": "every point and every vol", "why_tests_cant": "option combination never tested", "anchors": ["cyjax/variety.py:sample_intersect_weights"]}
{"id": "C32", "title": "sampled points lie on the variety", "statement": "Every point returned by sample_intersect satisfies the defining equation (exact arithmetic, exact root finder), in homogeneous and in affine form.", "quantifier": "every defining polynomial, parameters, random draws", "why_tests_cant": "all polynomials and draws; tests sample 30 points of 3 varieties", "anchors": ["cyjax/variety.py:sample_intersect", "cyjax/variety.py:_solve_intersect"]}
{"id": "C33", "title": "sample_intersect returns count points", "statement": "sample_intersect(count=c) returns exactly c points.", "quantifier": "every variety (number of variables n, degree d) and every count", "why_tests_cant": "depends on the relation between degree and ambient dimension", "anchors": ["cyjax/variety.py:sample_intersect"]}
{"id": "C34", "title": "solve_defining returns solutions extending the input", "statement": "Each point returned by solve_defining contains the given coordinates unchanged, the root at position dependent, and satisfies the defining equation in the given patch.", "quantifier": "every polynomial, patch, dependent index, coordinates", "why_tests_cant": "all polynomials/indices", "anchors": ["cyjax/variety.py:solve_defining"]}
{"id": "C35", "title": "best_dependent picks the largest gradient entry", "statement": "best_dependent(zs, params, patch) returns an index maximising the modulus of grad_defining(zs, params, patch).", "quantifier": "every variety and point", "why_tests_cant": "never called in tests; argument order matters for all inputs", "anchors": ["cyjax/variety.py:best_dependent"]}
{"id": "C36", "title": "subscript split/merge round-trip", "statement": "For every variable name consisting of letters and every natural number i, split_subscript(merge_subscript(name, i)) = (name, i), name_i is treated the same, and merge_subscript is injective on such names.", "quantifier": "every letter-only name and every index", "why_tests_cant": "unbounded strings and numbers", "anchors": ["cyjax/polynomial.py:split_subscript", "cyjax/polynomial.py:merge_subscript"]}
{"id": "C37", "title": "index union is an ordered union", "statement": "Merging index lists of two polynomials yields exactly the union of the indices; without duplicates if the inputs have none; sorted if the inputs are sorted.", "quantifier": "all finite integer lists", "why_tests_cant": "all lengths and interleavings", "anchors": ["cyjax/polynomial.py:_union_indices"]}
{"id": "C38", "title": "argument binding: positional = keyword", "statement": "Calling a polynomial with variables and params positionally, by keyword, or mixed binds the same values; too many positional arguments or a missing variable raise; a params array of the wrong length raises.", "quantifier": "every number of variables, every split between positional and keyword arguments", "why_tests_cant": "all argument combinations", "anchors": ["cyjax/polynomial.py:_sort_var_args", "cyjax/polynomial.py:Poly.__call__"]}
{"id": "C39", "title": "numerical evaluation equals the polynomial value", "statement": "Poly.__call__ with numbers returns the mathematical value of the polynomial expression at the bound coordinates and parameters; index lookup respects custom index sets.", "quantifier": "every expression tree, index set, parameter order and input values", "why_tests_cant": "expression trees of unbounded depth", "anchors": ["cyjax/polynomial.py:_eval_sympy_poly", "cyjax/polynomial.py:Poly.__call__", "cyjax/polynomial.py:_sympy_eval_num"]}
{"id": "C40", "title": "polynomials with complex coefficients can be evaluated", "statement": "A polynomial over the complex numbers can be evaluated numerically, whatever its (complex) coefficients.", "quantifier": "every complex-coefficient polynomial", "why_tests_cant": "depends on the symbolic node type of the imaginary unit", "anchors": ["cyjax/polynomial.py:_eval_sympy_poly", "cyjax/polynomial.py:_sympy_eval_num"]}
{"id": "C41", "title": "symbolic evaluation is substitution", "statement": "Poly.__call__ with symbolic inputs returns the polynomial with all inputs simultaneously replaced, so that evaluating the result numerically equals evaluating the polynomial at the evaluated inputs.", "quantifier": "every polynomial and every symbolic input, including inputs mentioning the polynomial's own symbols", "why_tests_cant": "sequential vs simultaneous substitution for all inputs", "anchors": ["cyjax/polynomial.py:Poly.__call__"]}
{"id": "C42", "title": "monomial evaluation modes agree", "statement": "compute_monomials gives coeff_c * prod_v prod_i v_i^{P_vci} in the direct, the opt, the log (non-zero values) and the symbolic mode.", "quantifier": "every number of variables, monomials, powers, values", "why_tests_cant": "all shapes and powers; log/exp identity on the complex plane", "anchors": ["cyjax/polynomial.py:compute_monomials", "cyjax/polynomial.py:_compute_mon", "cyjax/polynomial.py:_compute_mon_scalar"]}
{"id": "C43", "title": "from_coeffs_and_powers builds the documented polynomial", "statement": "The polynomial built from coefficients, symbolic coefficients and powers evaluates to sum_c coeffs_c prod_p params_cp prod_v prod_i v_i^{P_vci}, for any parameter order.", "quantifier": "every coefficient list, power array, parameter list and input", "why_tests_cant": "all shapes", "anchors": ["cyjax/polynomial.py:Poly.from_coeffs_and_powers"]}
{"id": "C44", "title": "to_coeffs_and_powers is inverse", "statement": "Rebuilding a polynomial from to_coeffs_and_powers gives a polynomial with the same values.", "quantifier": "every polynomial with numeric coefficients and linear parameters", "why_tests_cant": "all polynomials", "anchors": ["cyjax/polynomial.py:Poly.to_coeffs_and_powers", "cyjax/polynomial.py:Poly.from_coeffs_and_powers"]}
{"id": "C45", "title": "polynomial arithmetic is pointwise", "statement": "(p + q), (p - q), (p * q) evaluate to the sum, difference and product of the values at the same symbol assignment, with the merged variables and parameters.", "quantifier": "all pairs of polynomials with compatible index structure and all assignments", "why_tests_cant": "all polynomials and index set overlaps", "anchors": ["cyjax/polynomial.py:Poly.__add__", "cyjax/polynomial.py:Poly.__sub__", "cyjax/polynomial.py:Poly.__mul__", "cyjax/polynomial.py:Poly._combine_metadata"]}
{"id": "C46", "title": "diff is the derivative", "statement": "p.diff(x) evaluates to the partial derivative of p with respect to x and keeps the call signature.", "quantifier": "every polynomial, variable, point", "why_tests_cant": "all polynomials and points", "anchors": ["cyjax/polynomial.py:Poly.diff"]}
{"id": "C47", "title": "univariate_coefficients reproduce the polynomial", "statement": "The returned list (highest order first, length degree+1) evaluated as a univariate polynomial in var gives back the polynomial; coefficient entries do not depend on var.", "quantifier": "every multivariate polynomial and variable", "why_tests_cant": "all polynomials", "anchors": ["cyjax/polynomial.py:univariate_coefficients"]}
{"id": "C48", "title": "unique_patch_index is a bijection", "statement": "unique_patch_index maps valid patch tuples bijectively onto 0..total-1.", "quantifier": "every number of variables, every dimensions, all patch tuples", "why_tests_cant": "mixed radix over arbitrary dimensions", "anchors": ["cyjax/polynomial.py:HomPoly.unique_patch_index"]}
{"id": "C49", "title": "compiled evaluation dispatches to the right patch", "statement": "transform_eval(...) evaluated with a valid patch gives the same value as calling the polynomial with that patch.", "quantifier": "every number of variables and all valid patches", "why_tests_cant": "order of the branch table for arbitrary dimensions", "anchors": ["cyjax/polynomial.py:HomPoly.transform_eval"]}
{"id": "C50", "title": "affine polynomial equals homogeneous polynomial with coordinate one", "statement": "hom_poly(z_affine, params, patch=p) = hom_poly(z with 1 inserted at position p, params) for polynomials with indices 0..n-1.", "quantifier": "every homogeneous polynomial, patch, point", "why_tests_cant": "all polynomials, dims, points", "anchors": ["cyjax/polynomial.py:HomPoly.affine_poly", "cyjax/polynomial.py:HomPoly.__call__"]}
{"id": "C51", "title": "affine patch index is positional for any index set", "statement": "The patch index refers to the numerical position in the input variable, whatever the symbolic indices are (as documented).", "quantifier": "every index set", "why_tests_cant": "index sets other than 0..n-1 are never tested", "anchors": ["cyjax/polynomial.py:HomPoly.affine_poly"]}
{"id": "C52", "title": "affine polynomial cache is transparent", "statement": "affine_poly(p) returns the same polynomial whatever sequence of valid affine_poly / evaluation calls happened before.", "quantifier": "every history of calls with valid patches", "why_tests_cant": "history dependence of a mutable cache", "anchors": ["cyjax/polynomial.py:HomPoly.affine_poly"]}
{"id": "C53", "title": "Dwork and Fermat polynomials: closed form, homogeneity, patch consistency", "statement": "Dwork/Fermat evaluate to sum z_i^n + factor*psi*prod z_i (resp. sum z_i^n), are homogeneous of degree n, symmetric under coordinate permutations, and with any patch given equal the value at the homogeneous point with 1 inserted.", "quantifier": "every degree n, factor, parameter, point, patch", "why_tests_cant": "all degrees and points", "anchors": ["cyjax/polynomial.py:DworkPoly", "cyjax/polynomial.py:FermatPoly"]}
{"id": "C54", "title": "from_sympy does not depend on symbol iteration order", "statement": "Variables, indices and parameters found by Poly.from_sympy depend only on the expression and arguments, not on the (hash-randomised) order in which free symbols are visited; indices are complete and sorted.", "quantifier": "every set of free symbols and every iteration order", "why_tests_cant": "iteration order of a hash set differs between processes", "anchors": ["cyjax/polynomial.py:Poly.from_sympy"]}
{"id": "C55", "title": "from_sympy groups indexed symbols of one name", "statement": "Without explicit variable names, symbols z0, z1, ... are detected as one vector variable z.", "quantifier": "every set of free symbols", "why_tests_cant": "depends on the visiting order and bookkeeping", "anchors": ["cyjax/polynomial.py:Poly.from_sympy"]}
{"id": "C56", "title": "monomial_basis is complete and irredundant", "statement": "monomial_basis(n, k) lists every exponent vector of length n+1 with sum k exactly once.", "quantifier": "all n, k", "why_tests_cant": "all dimensions and degrees", "anchors": ["cyjax/donaldson.py:monomial_basis", "cyjax/donaldson.py:monomial_basis_indices"]}
{"id": "C57", "title": "basis size formula", "statement": "monomial_basis_size(n, k) equals the number of rows of monomial_basis(n, k); with reduced=True it equals the number of rows of the reduced basis for any defining polynomial of degree n+1.", "quantifier": "all n, k, all defining polynomials of degree n+1", "why_tests_cant": "all dimensions and degrees", "anchors": ["cyjax/donaldson.py:monomial_basis_size", "cyjax/donaldson.py:monomial_basis", "cyjax/donaldson.py:reduced_monomial_basis"]}
{"id": "C58", "title": "basis reduction never fails and is exact", "statement": "reduced_monomial_basis never raises 'Basis reduction scheme failed' for a non-empty polynomial with terms of one degree; it returns exactly the monomials not divisible by the first listed term, in the original order.", "quantifier": "all dimensions, degrees, and lists of terms", "why_tests_cant": "greedy removal over all inputs", "anchors": ["cyjax/donaldson.py:reduced_monomial_basis"]}
{"id": "C59", "title": "reduced monomials form a basis modulo the polynomial", "statement": "The monomials returned for a polynomial whose terms are listed in descending lexicographic order are linearly independent and spanning in the degree-k part of the coordinate ring modulo the polynomial.", "quantifier": "all homogeneous polynomials, degrees", "why_tests_cant": "linear algebra over all polynomials", "anchors": ["cyjax/donaldson.py:reduced_monomial_basis", "cyjax/donaldson.py:MonomialBasisReduced"]}
{"id": "C60", "title": "section evaluation", "statement": "Evaluating monomial sections gives prod_i z_i^{P_ai}; with a patch given, it equals the evaluation at the homogeneous point with 1 inserted; the log method agrees with the recursive method for non-zero coordinates.", "quantifier": "every power matrix with entries <= degree, dimension, patch and point", "why_tests_cant": "all shapes and points", "anchors": ["cyjax/donaldson.py:_compute_monomials_index", "cyjax/donaldson.py:_compute_monomials_log", "cyjax/donaldson.py:_getpows"]}
{"id": "C61", "title": "sections transform as sections of O(k)", "statement": "Sections of degree k in two patches differ by the k-th power of the transition coordinate; hence the Kahler potential changes by a Kahler transformation log|z_q|^2/pi and psi > 0.", "quantifier": "every degree, patches, points, H", "why_tests_cant": "all points", "anchors": ["cyjax/donaldson.py:MonomialBasisFull", "cyjax/donaldson.py:GeometricObjects.kahler"]}
{"id": "C62", "title": "psi is real and positive", "statement": "For Hermitian H, psi = s H conj(s) is real; for positive definite H and non-zero section vector it is positive.", "quantifier": "every basis size, H, s", "why_tests_cant": "all matrices", "anchors": ["cyjax/donaldson.py:GeometricObjects.psi"]}
{"id": "C63", "title": "algebraic metric is Hermitian and positive semi-definite", "statement": "For Hermitian positive definite H, g_proj is Hermitian and positive semi-definite, and positive definite where the sections immerse.", "quantifier": "every basis size, dimension, H, sections and derivatives", "why_tests_cant": "all matrices (Cauchy-Schwarz)", "anchors": ["cyjax/donaldson.py:GeometricObjects.g_proj"]}
{"id": "C64", "title": "g_proj is the complex Hessian of the Kahler potential", "statement": "g_proj = d_i dbar_j kahler for every Hermitian H, sections and point.", "quantifier": "every H, sections (polynomial), point", "why_tests_cant": "derivatives over a continuum", "anchors": ["cyjax/donaldson.py:GeometricObjects.g_proj", "cyjax/donaldson.py:GeometricObjects.kahler"]}
{"id": "C65", "title": "hand-coded first derivative of the metric", "statement": "g_proj_h[a] is the holomorphic derivative of g_proj in direction a, and g_proj_a the antiholomorphic one.", "quantifier": "every H, sections, point", "why_tests_cant": "index bookkeeping over all dims and points", "anchors": ["cyjax/donaldson.py:GeometricObjects.g_proj_h", "cyjax/donaldson.py:GeometricObjects.g_proj_a"]}
{"id": "C66", "title": "hand-coded second derivative of the metric", "statement": "g_proj_ha[a, b] is the mixed second derivative of g_proj.", "quantifier": "every H, sections, point", "why_tests_cant": "17-term tensor expression, all dims", "anchors": ["cyjax/donaldson.py:GeometricObjects.g_proj_ha", "cyjax/donaldson.py:GeometricObjects.two_haha", "cyjax/donaldson.py:GeometricObjects.three_haha", "cyjax/donaldson.py:GeometricObjects.four_haha"]}
{"id": "C67", "title": "pulled back metric derivatives", "statement": "g_loc_h and g_loc_ha are the first and mixed second derivatives of g_loc = J g J^dagger.", "quantifier": "every dims, metric and Jacobian functions", "why_tests_cant": "product rule over all dims", "anchors": ["cyjax/donaldson.py:GeometricObjects.g_loc_h", "cyjax/donaldson.py:GeometricObjects.g_loc_ha"]}
{"id": "C68", "title": "Ricci tensor is -d dbar log det g", "statement": "ricci_proj = -d_a dbar_b log det g_loc wherever det g_loc != 0.", "quantifier": "every dims, point", "why_tests_cant": "Jacobi formula over all dims", "anchors": ["cyjax/donaldson.py:GeometricObjects.ricci_proj"]}
{"id": "C69", "title": "Ricci scalar is real", "statement": "For Hermitian metric data, ricci_loc is Hermitian and ricci_scalar real.", "quantifier": "every dims and metric", "why_tests_cant": "all matrices", "anchors": ["cyjax/donaldson.py:GeometricObjects.ricci_loc", "cyjax/donaldson.py:GeometricObjects.ricci_scalar"]}
{"id": "C70", "title": "eta is real, positive and coordinate independent", "statement": "eta does not depend on the chosen dependent coordinate, is real for Hermitian H and positive where the metric is.", "quantifier": "every dims, point", "why_tests_cant": "all choices", "anchors": ["cyjax/donaldson.py:GeometricObjects.eta"]}
{"id": "C71", "title": "geometry is invariant under rescaling H", "statement": "Multiplying H by a non-zero real constant leaves g_proj and its derivatives, the metric, the Ricci tensor and eta unchanged and shifts the Kahler potential by log(c)/(pi k).", "quantifier": "every H, scale", "why_tests_cant": "all scales", "anchors": ["cyjax/donaldson.py:GeometricObjects"]}
{"id": "C72", "title": "diagonal H shortcut agrees", "statement": "Passing H as a 1d array of diagonal entries gives the same psi and derivatives as passing the diagonal matrix, for every quantity of the graph.", "quantifier": "every basis size, diagonal H", "why_tests_cant": "1d branch never tested", "anchors": ["cyjax/donaldson.py:GeometricObjects.psi", "cyjax/donaldson.py:GeometricObjects.psi_hh"]}
{"id": "C73", "title": "sigma accuracy bounds", "statement": "For positive etas and weights 0 <= sigma <= 2; sigma = 0 iff all etas are equal; sigma is invariant under rescaling eta (hence H).", "quantifier": "every sample of etas and weights", "why_tests_cant": "all samples", "anchors": ["cyjax/donaldson.py:AlgebraicMetric.sigma_accuracy"]}
{"id": "C74", "title": "donaldson_step preserves Hermiticity and positivity", "statement": "The T matrix of a Donaldson step is Hermitian and positive semi-definite, the new H is Hermitian, and positive definite when T is invertible.", "quantifier": "every sample, weights, H, batches", "why_tests_cant": "all samples and batch counts", "anchors": ["cyjax/donaldson.py:AlgebraicMetric.donaldson_step"]}
{"id": "C75", "title": "donaldson_step averages over all samples and is scale equivariant", "statement": "The result depends only on the union of all sampled points (average over batches*batch_size), a common rescaling of H rescales the result, and tr(T H^T) = N * mean(w)/vol_cy.", "quantifier": "every sample, split into batches, scale", "why_tests_cant": "all batch splits", "anchors": ["cyjax/donaldson.py:AlgebraicMetric.donaldson_step"]}
{"id": "C76", "title": "Cholesky decoding is Hermitian positive semi-definite", "statement": "cholesky_decode(diag, upper) is Hermitian, positive semi-definite, and positive definite iff no diagonal entry is zero.", "quantifier": "every size, diag, upper", "why_tests_cant": "all sizes and values incl. zero diagonal", "anchors": ["cyjax/ml.py:cholesky_decode"]}
{"id": "C77", "title": "Cholesky parametrisation is complete", "statement": "Every Hermitian positive definite matrix is cholesky_decode of exactly one (diag, upper) with positive diagonal.", "quantifier": "every size and matrix", "why_tests_cant": "existence/uniqueness over all matrices", "anchors": ["cyjax/ml.py:cholesky_decode", "cyjax/ml.py:cholesky_from_param"]}
{"id": "C78", "title": "cholesky_from_param accepts exactly square sizes", "statement": "cholesky_from_param succeeds exactly for arrays whose size is a perfect square n^2 and then reads diag and upper from consecutive blocks.", "quantifier": "every array size", "why_tests_cant": "all sizes", "anchors": ["cyjax/ml.py:cholesky_from_param"]}
{"id": "C79", "title": "hermitian_param_init gives the identity", "statement": "cholesky_from_param(hermitian_param_init(key, n)) is the n x n identity; with fluctuation it is diagonal with squared entries.", "quantifier": "every n, key", "why_tests_cant": "all sizes", "anchors": ["cyjax/ml.py:hermitian_param_init", "cyjax/ml.py:cholesky_from_param"]}
{"id": "C80", "title": "BatchSampler stream is independent of buffering", "statement": "The k-th sample returned by next() is sample(k-th key of the seed's key sequence), for every buffer size >= 1: none is skipped, repeated or reordered.", "quantifier": "every seed, buffer size, number of calls", "why_tests_cant": "all histories across refills", "anchors": ["cyjax/ml.py:BatchSampler"]}
{"id": "C81", "title": "BatchSampler failure behaviour", "statement": "If sampling fails while refilling, what later next() calls return is well defined: no stale sample is returned twice.", "quantifier": "every failure point", "why_tests_cant": "crash points in the middle of a refill", "anchors": ["cyjax/ml.py:BatchSampler.new_buffer", "cyjax/ml.py:BatchSampler.__next__"]}
{"id": "C82", "title": "variance_eta_loss is a non-negative, scale-invariant loss", "statement": "For non-negative weights with positive mean the loss is >= 0; for positive etas it is 0 iff all etas with positive weight are equal, and is invariant under rescaling.", "quantifier": "every sample of etas and weights", "why_tests_cant": "all samples", "anchors": ["cyjax/ml.py:variance_eta_loss"]}
{"id": "C83", "title": "HNetMLP features", "statement": "The number of input features is as determined by the powers, moduli count and flags; powers are deduplicated, the trivial product is excluded and each other combination appears exactly once, in lexicographic order.", "quantifier": "every list of powers, number of moduli, flags", "why_tests_cant": "all configurations", "anchors": ["cyjax/ml.py:HNetMLP"]}
{"id": "C84", "title": "HNetMLP starts at the identity", "statement": "At initialisation the network output decodes to the identity matrix (fluctuation 0), for every input and layer configuration.", "quantifier": "every input, layer sizes, sig_suppress setting", "why_tests_cant": "all configurations", "anchors": ["cyjax/ml.py:HNetMLP", "cyjax/ml.py:hermitian_param_init"]}
{"id": "C85", "title": "random complex values lie in the documented region", "statement": "uniform_angle values have modulus in [minrad, maxrad], uniform_angle_unit modulus 1, uniform_components real and imaginary parts in [-1, 1).", "quantifier": "every draw, radii", "why_tests_cant": "all draws", "anchors": ["cyjax/random.py:uniform_components", "cyjax/random.py:uniform_angle", "cyjax/random.py:uniform_angle_unit"]}
{"id": "C86", "title": "sphere samples have norm one", "statement": "real_sphere and complex_sphere points have unit norm along the last axis for every non-zero draw, every shape; uniform_projective gives points with affine coordinates of modulus <= 1.", "quantifier": "every draw and dimension", "why_tests_cant": "all draws", "anchors": ["cyjax/random.py:real_sphere", "cyjax/random.py:complex_sphere", "cyjax/random.py:uniform_projective"]}
{"id": "C87", "title": "projective_overlap points lie in the overlap", "statement": "Every generated point has all coordinates of modulus <= patch_size in this patch and, after change_chart, in the other patch.", "quantifier": "every draw, dim, pair of distinct patches, patch_size >= 1", "why_tests_cant": "all draws and patch pairs", "anchors": ["cyjax/random.py:projective_overlap", "cyjax/projective.py:change_chart"]}
{"id": "C88", "title": "projective_overlap distribution is chart symmetric", "statement": "The distribution of projective_overlap points is invariant under change_chart (as documented).", "quantifier": "every dim, pair of patches", "why_tests_cant": "distributional property; correlation between columns", "anchors": ["cyjax/random.py:projective_overlap"]}
{"id": "C89", "title": "from_sympy preserves values", "statement": "Evaluating the polynomial object made by Poly.from_sympy(expr, names) at arrays gives the value of the symbolic expression in which every symbol with a subscript (z3 or z_3) stands for the array entry whose index is listed at that place and every other symbol stands for its own input.", "quantifier": "all expressions that expand to polynomials with real coefficients, all lists of letter-only variable names, all parameter lists, all iteration orders of the free symbols, all numeric inputs", "why_tests_cant": "Tests fix a handful of expressions; mis-renamed symbols (z_3 against z3, z10 against z1) or index arrays out of step with the symbols only show up for particular name and subscript combinations.", "anchors": ["cyjax/polynomial.py:Poly.from_sympy"]}
{"id": "C90", "title": "grad_defining is the holomorphic gradient", "statement": "VarietySingle.grad_defining(zs, params, patch) lists the partial derivatives of the defining polynomial with respect to the coordinates kept in that patch, in the order of the coordinates, at the homogeneous point with a one inserted at the patch; without patch it lists all homogeneous derivatives. For the Dwork and Fermat families it is the closed form.", "quantifier": "every defining polynomial with real coefficients, every number of coordinates, patch, point and parameter array", "why_tests_cant": "Tests compare at a few random points of one quintic; order of entries and dependence on the patch must hold for every polynomial and patch.", "anchors": ["cyjax/variety.py:VarietySingle.grad_defining", "cyjax/variety.py:VarietySingle.defining"]}
{"id": "C91", "title": "explicit conjugate coordinates change nothing", "statement": "induced_metric and induced_fs called with zs_c = conj(zs) return the same metric and dependent index as the call without zs_c.", "quantifier": "every defining polynomial with real coefficients, metric, point, complex parameters, patch and choice of dependent coordinate", "why_tests_cant": "Relies on the conjugate gradient being computed with conjugate parameters; tests use one family and few points.", "anchors": ["cyjax/variety.py:VarietySingle.induced_metric", "cyjax/variety.py:VarietySingle.induced_fs"]}
{"id": "C92", "title": "weights are the ratio of the two volume forms and do not depend on the patch", "statement": "At a smooth point of the variety, sample_intersect_weights returns |Z|^(2(n+1)) / sum_i |dP/dZ_i|^2 in homogeneous coordinates with Z_patch = 1 (times pi^n/n! unless vol is None), n the dimension of the variety. For a defining polynomial whose degree is the number of homogeneous coordinates the weight is therefore the same in every patch that contains the point.", "quantifier": "every homogeneous defining polynomial, dimension, smooth point, parameters and pair of patches", "why_tests_cant": "An identity between determinants for all dimensions and points.", "anchors": ["cyjax/variety.py:VarietySingle.sample_intersect_weights", "cyjax/projective.py:change_chart", "cyjax/projective.py:fs_metric"]}
{"id": "C93", "title": "HNetMLP features are the documented functions of the products", "statement": "The input features are |f_n|, arg(f_n), Re f_n and Im f_n of the products f_n of moduli powers, as documented, according to the flags.", "quantifier": "every input, powers, flags", "why_tests_cant": "all configurations; the discrepancy only shows for some powers and inputs", "anchors": ["cyjax/ml.py:HNetMLP"]}
{"id": "C94", "title": "HNetMLP has one hidden layer per entry of layer_sizes", "statement": "The hidden part of the network is one dense layer with activation for each entry of layer_sizes, in order, for every admissible dropout_rates.", "quantifier": "every layer_sizes and dropout_rates", "why_tests_cant": "all lengths of both lists", "anchors": ["cyjax/ml.py:HNetMLP"]}
{"id": "C95", "title": "uniform_angle is uniform on the annulus", "statement": "The law of each entry of uniform_angle(key, shape, minrad, maxrad) is the uniform (area) distribution on the annulus minrad <= |z| <= maxrad, and the law of each entry of uniform_angle_unit is invariant under rotations of the circle.", "quantifier": "every minrad < maxrad with minrad >= 0, and every measurable set", "why_tests_cant": "a statement about a probability law; sampling can only estimate it", "anchors": ["cyjax/random.py:uniform_angle", "cyjax/random.py:uniform_angle_unit"]}
{"id": "C96", "title": "sphere samples are rotation invariant", "statement": "The law of each row of real_sphere lives on the unit sphere and is invariant under every orthogonal matrix; the law of each row of complex_sphere (and so of the homogeneous coordinates drawn by uniform_projective) is invariant under every unitary matrix.", "quantifier": "every dimension and every orthogonal / unitary matrix", "why_tests_cant": "a statement about a probability law in every dimension", "anchors": ["cyjax/random.py:real_sphere", "cyjax/random.py:complex_sphere", "cyjax/random.py:uniform_projective"]}
{"id": "C97", "title": "MonomialBasisReduced is a basis on the variety", "statement": "For every homogeneous defining polynomial, MonomialBasisReduced(variety, k) gives monomials in the variety's n+1 homogeneous coordinates that form a basis of the degree-k part of the coordinate ring.", "quantifier": "all homogeneous polynomials, degrees", "why_tests_cant": "all polynomials, including those in which a coordinate does not occur", "anchors": ["cyjax/donaldson.py:MonomialBasisReduced", "cyjax/donaldson.py:reduced_monomial_basis"]}
{"id": "C98", "title": "donaldson_step has a well-defined result", "statement": "For a positive definite H and a positive weight sample on the variety the Donaldson step returns a positive definite new H, for the full and for the reduced monomial basis.", "quantifier": "all hypersurfaces, degrees k, samples, H", "why_tests_cant": "needs linear independence of the sections on every variety", "anchors": ["cyjax/donaldson.py:AlgebraicMetric.donaldson_step", "cyjax/donaldson.py:MonomialBasisFull", "cyjax/donaldson.py:MonomialBasisReduced"]}
{"id": "C99", "title": "donaldson_step accepts any Hermitian H", "statement": "donaldson_step accepts an H matrix of real element type, such as jnp.eye(N), as well as a complex one.", "quantifier": "all H of real or complex element type, batches, points", "why_tests_cant": "depends on the loop carry types for all inputs", "anchors": ["cyjax/donaldson.py:AlgebraicMetric.donaldson_step"]}
{"id": "C100", "title": "Curvature is independent of the dependent coordinate", "statement": "ricci_scalar (and the ambient Ricci tensor) returns the same value for every admissible choice of the dependent coordinate; the metric and the Ricci tensor on the variety transform with the invertible change of tangent frame.", "quantifier": "all hypersurfaces, points, Hermitian H, sections, pairs of admissible dependent coordinates", "why_tests_cant": "all points and varieties; a test sees finitely many floats", "anchors": ["cyjax/donaldson.py:AlgebraicMetric.ricci_scalar", "cyjax/donaldson.py:GeometricObjects.ricci_proj", "cyjax/differential.py:jacobian_embed"]}
{"id": "C101", "title": "The algebraic metric is a global tensor", "statement": "The metric of the algebraic ansatz computed in two affine patches is related by the Jacobian of change_chart, and the Kahler potentials differ by the log of a squared absolute value of a coordinate.", "quantifier": "all degree-k monomial sections, Hermitian H, pairs of patches, points in the overlap", "why_tests_cant": "all points, degrees, dimensions", "anchors": ["cyjax/donaldson.py:GeometricObjects.g_proj", "cyjax/donaldson.py:AlgebraicMetric.kahler_potential", "cyjax/projective.py:change_chart"]}
{"id": "C102", "title": "eta is a global function on a Calabi-Yau variety", "statement": "AlgebraicMetric.eta at a point of the variety returns the same value in every affine patch containing the point and for every admissible dependent coordinate, when the degree of the defining polynomial is the number of homogeneous coordinates; for another degree e it changes by |c|^(2(e-n-2)).", "quantifier": "all defining polynomials, parameters, points, patches, dependent coordinates, Hermitian H", "why_tests_cant": "all points and patches; depends on the Calabi-Yau condition", "anchors": ["cyjax/donaldson.py:AlgebraicMetric.eta", "cyjax/projective.py:change_chart", "cyjax/variety.py:VarietySingle.grad_defining"]}
{"id": "C103", "title": "AlgebraicMetric methods accept homogeneous coordinates of any scale", "statement": "kahler_potential, metric, eta, ricci and ricci_scalar called with homogeneous coordinates (patch=None) return what they return for the affine coordinates in the patch of the largest coordinate, and the result does not change when the coordinates are rescaled; coordinates of the wrong length raise AssertionError.", "quantifier": "all varieties, sections, H, points, scales, optional arguments", "why_tests_cant": "all points and scales", "anchors": ["cyjax/donaldson.py:AlgebraicMetric", "cyjax/donaldson.py:GeometricObjects"]}
{"id": "C104", "title": "Optional arguments of AlgebraicMetric methods change nothing", "statement": "Passing grad_def=variety.grad_defining(...) or dependent=argmax|grad| gives the same results as leaving them out; eta and ricci_scalar are the same for every admissible dependent coordinate.", "quantifier": "all varieties, sections, H, points, patches", "why_tests_cant": "all points and argument combinations", "anchors": ["cyjax/donaldson.py:AlgebraicMetric.metric", "cyjax/donaldson.py:AlgebraicMetric.eta", "cyjax/donaldson.py:AlgebraicMetric.ricci_scalar"]}
{"id": "C105", "title": "At every smooth point the geometry is well defined", "statement": "For positive definite H and a monomial basis of positive degree (full, or reduced modulo the defining polynomial) all methods succeed at every smooth point of the hypersurface: real Kahler potential, positive definite metric, positive eta, Hermitian Ricci tensor, real Ricci scalar; the patch and dependent coordinate returned are those of the largest coordinate and largest derivative.", "quantifier": "all hypersurfaces, degrees, positive definite H, smooth points", "why_tests_cant": "all varieties and points; needs immersion of the sections along the variety", "anchors": ["cyjax/donaldson.py:AlgebraicMetric", "cyjax/donaldson.py:MonomialBasisFull", "cyjax/donaldson.py:MonomialBasisReduced"]}
{"id": "C106", "title": "eta of AlgebraicMetric is one function on a Calabi-Yau variety", "statement": "For a hypersurface of degree n+2 in projective (n+1)-space, AlgebraicMetric.eta returns the same number for homogeneous coordinates at any scale and for affine coordinates in any patch containing the point and any admissible dependent coordinate.", "quantifier": "all Calabi-Yau hypersurfaces, H, smooth points, patches, dependent coordinates", "why_tests_cant": "all points and patches", "anchors": ["cyjax/donaldson.py:AlgebraicMetric.eta"]}
{"id": "C107", "title": "AlgebraicMetric.ricci is -d dbar log det of AlgebraicMetric.metric", "statement": "The Ricci tensor returned by ricci is -d_a dbar_b log|det g|, and also -d_a dbar_b log|eta|, with g and eta what metric and eta return in the same patch, pulled back along jacobian_embed.", "quantifier": "all hypersurfaces, positive definite H, points of the variety, dependent coordinates", "why_tests_cant": "second derivatives at all points", "anchors": ["cyjax/donaldson.py:AlgebraicMetric.ricci", "cyjax/donaldson.py:AlgebraicMetric.metric", "cyjax/donaldson.py:AlgebraicMetric.eta"]}
{"id": "C108", "title": "metric, ricci and ricci_scalar are the Kahler metric and curvature of the variety in local coordinates", "statement": "Near every smooth point the variety has holomorphic coordinates given by all affine coordinates but the dependent one. In them, metric is d_r dbar_s of kahler_potential evaluated on points of the variety, ricci is -d_r dbar_s log det of metric evaluated on points of the variety (equally of eta), and ricci_scalar is the trace of the inverse metric times the Ricci tensor.", "quantifier": "all hypersurfaces, positive definite H, smooth points, dependent coordinates", "why_tests_cant": "derivatives along the variety at all points; the code never differentiates along the variety", "anchors": ["cyjax/donaldson.py:AlgebraicMetric.metric", "cyjax/donaldson.py:AlgebraicMetric.ricci", "cyjax/donaldson.py:AlgebraicMetric.ricci_scalar", "cyjax/donaldson.py:AlgebraicMetric.kahler_potential"]}
{"id": "C109", "title": "metric and ricci transform as tensors between patches; ricci_scalar is a function on the variety", "statement": "For a smooth point in two affine patches and any admissible dependent coordinates, metric and ricci in the two choices are related by the Jacobian of the change of local coordinates, T = M T' M^*. The Ricci scalar is the same number for homogeneous coordinates at any scale and for affine coordinates in any patch and with any admissible dependent coordinate, for hypersurfaces of any degree.", "quantifier": "all hypersurfaces of any degree, positive definite H, smooth points, patches, dependent coordinates", "why_tests_cant": "all points and patches", "anchors": ["cyjax/donaldson.py:AlgebraicMetric.metric", "cyjax/donaldson.py:AlgebraicMetric.ricci", "cyjax/donaldson.py:AlgebraicMetric.ricci_scalar"]}
{"id": "C110", "title": "sigma_accuracy from the sampled lines to the result", "statement": "For a smooth hypersurface, a positive definite h, sections of positive degree that span the coordinate ring and lines in general position, sigma_accuracy succeeds. Its value is the average of |1 - eta vol_cy / vol_k| over the points that sample_intersect returns, weighted with sample_intersect_weights, with vol_cy and vol_k the averages of the weights and of eta times the weights at the same points. It lies between 0 and 2, is 0 exactly if eta takes the same value at all sampled points, and does not change if h is multiplied by a positive number.", "quantifier": "all smooth hypersurfaces of the supported kinds, positive definite h, draws of lines in general position, counts, orders of symbols and exact root finders", "why_tests_cant": "composition of sampling, weights and eta for all draws and matrices", "anchors": ["cyjax/donaldson.py:AlgebraicMetric.sigma_accuracy", "cyjax/variety.py:VarietySingle.sample_intersect", "cyjax/variety.py:VarietySingle.sample_intersect_weights"]}
{"id": "C111", "title": "sample_intersect with weights, and compute_vol", "statement": "On a smooth hypersurface F = 0 of degree e in projective space of dimension n+1 and lines in general position, sample_intersect succeeds with every combination of options; the affine and the homogeneous output describe the same points, and the weight of a point is pi^n/n! |Z|^(2n+2)/|grad F(Z)|^2 for the representative whose largest coordinate has modulus one. For Calabi-Yau hypersurfaces (e = n+2) this value is the same for every representative. compute_vol returns the average of these weights over all points of all batches, which is positive, and the Monte Carlo variance of this average, which is not negative.", "quantifier": "all smooth hypersurfaces of the supported kinds, options, counts, batches, keys and draws of lines in general position", "why_tests_cant": "closed formula for all hypersurfaces and points; positivity for all draws", "anchors": ["cyjax/variety.py:VarietySingle.sample_intersect", "cyjax/variety.py:VarietySingle.compute_vol", "cyjax/util.py:mc_integrate_batched"]}
{"id": "C112", "title": "donaldson_step from the sampled lines to the new matrix, and its iteration", "statement": "On a smooth hypersurface and lines in general position, donaldson_step of a complex-valued Hermitian h returns the transposed inverse of Donaldson's T operator, the Monte Carlo average over all points of all batches of s_a conj(s_b) w / (s h conj(s)) times N/vol in homogeneous coordinates. If h is positive definite, the volume positive and the sections are independent on the sampled points, the new h is positive definite; hence any number of steps keeps h positive definite. A real-valued h is rejected.", "quantifier": "all smooth hypersurfaces of the supported kinds, bases that span the coordinate ring, Hermitian h, numbers of batches and steps", "why_tests_cant": "all matrices and draws, any number of iterations", "anchors": ["cyjax/donaldson.py:AlgebraicMetric.donaldson_step", "cyjax/variety.py:VarietySingle.sample_intersect"]}
{"id": "C114", "title": "which members of the built-in families are smooth", "statement": "The Fermat hypersurface is smooth in every dimension. A member of the Dwork family X_0^d + ... + X_n^d + a X_0...X_n with d = n+1 is smooth exactly if (-a)^d differs from d^d; in the parametrisation of the quintic used by the package, exactly if psi^5 differs from 1. At the points of a smooth member the gradient of the defining function in any patch does not vanish.", "quantifier": "all dimensions, all parameter values, all points", "why_tests_cant": "statement about all points of the variety and all moduli", "anchors": ["cyjax/variety.py:Dwork", "cyjax/variety.py:Fermat", "cyjax/polynomial.py:DworkPoly", "cyjax/polynomial.py:FermatPoly"]}
{"id": "C113", "title": "sampling, accuracy and volume succeed almost surely", "statement": "With independent normal numbers for the points p and q of the lines, on a smooth hypersurface: sample_intersect succeeds with probability one, returns min(count, ceil(count/dim)*degree) points, point number k lies on line number k // degree, and every point lies on the variety and has positive weight. sigma_accuracy succeeds with probability one, for all positive definite h at once, with a value between 0 and 2. compute_vol succeeds with probability one with positive volume and non-negative variance (degree at least the number of coordinates).", "quantifier": "all smooth hypersurfaces of the supported kinds, counts, batches, positive definite h, probability spaces carrying the draws", "why_tests_cant": "a statement with probability one over continuous draws", "anchors": ["cyjax/variety.py:VarietySingle.sample_intersect", "cyjax/variety.py:VarietySingle.compute_vol", "cyjax/donaldson.py:AlgebraicMetric.sigma_accuracy", "cyjax/random.py:complex_sphere"]}
{"id": "C115", "title": "the multinomial H reproduces the Fubini-Study metric", "statement": "With the full monomial basis of degree k and H the diagonal matrix of multinomial coefficients k!/(m_0!...m_N!), the algebraic metric is the Fubini-Study metric divided by pi (the code's normalisation) for every k: same ambient metric, same Kaehler potential, same induced metric on the hypersurface; consequently eta times the sampling weight is the same constant at every point and sigma_accuracy depends only on the sampling weights, not on k. In degree one this H is the identity.", "quantifier": "all degrees k >= 1, all dimensions, all points, all smooth hypersurfaces", "why_tests_cant": "an identity of metrics at every point for every degree; a test sees finitely many points and degrees", "anchors": ["cyjax/donaldson.py:421-484", "cyjax/donaldson.py:712-773", "cyjax/donaldson.py:819-848", "cyjax/projective.py:119-197", "cyjax/variety.py:187-231"]}
{"id": "C116", "title": "Donaldson's algorithm runs almost surely", "statement": "On a smooth Calabi-Yau hypersurface of dimension at least one, with a basis of sections of the coordinate ring, a positive volume and at least as many random lines (over all batches) as sections, donaldson_step returns with probability one a positive definite matrix for every positive definite matrix; so do any number of steps. In particular for every smooth member of the Dwork family with MonomialBasisReduced of any degree.", "quantifier": "all smooth Calabi-Yau hypersurfaces of the supported kinds, degrees k, batches, steps, start matrices, probability spaces carrying the draws", "why_tests_cant": "probability one over continuous draws, all degrees and any number of iterations", "anchors": ["cyjax/donaldson.py:AlgebraicMetric.donaldson_step", "cyjax/donaldson.py:MonomialBasisReduced", "cyjax/variety.py:VarietySingle.sample_intersect", "cyjax/random.py:complex_sphere"]}
{"id": "C117", "title": "VarietySingle.from_sympy builds the variety of the expression", "statement": "VarietySingle.from_sympy(poly, var_name, poly_degree, params), with poly_degree the degree of the defining equation, returns the hypersurface of the expression: the ambient space has exactly the homogeneous coordinates of the expression, the parameters are the given ones (or all other symbols, sorted), and the defining function has the value of the expression; the variety can be sampled.", "quantifier": "all homogeneous expressions with real coefficients, variable names, parameters, degrees and dimensions", "why_tests_cant": "all expressions and degrees; the tests only use Calabi-Yau varieties, where degree and number of coordinates agree", "anchors": ["cyjax/variety.py:VarietySingle.from_sympy", "cyjax/variety.py:VarietySingle.dim_complex", "cyjax/polynomial.py:Poly.from_sympy"]}
{"id": "C118", "title": "dictionaries of positions", "statement": "parameter_position and variable_position give the position of every parameter and variable in the expected order of inputs. variable_index_dict maps, for every array variable, positions to symbolic indices, e.g. {0: 0, 1: 2, 2: 3} for [z0, z2, z3], and is None for scalars.", "quantifier": "all polynomials with distinct names, parameters and indices", "why_tests_cant": "all lists of names, parameters and indices", "anchors": ["cyjax/polynomial.py:Poly.parameter_position", "cyjax/polynomial.py:Poly.variable_position", "cyjax/polynomial.py:Poly.variable_index_dict"]}
{"id": "C119", "title": "calling a polynomial without arguments", "statement": "poly() returns a symbolic expression of the same polynomial, in its own symbols, in which no coefficient equal to an integer is written as a float.", "quantifier": "all polynomials, all values of the symbols", "why_tests_cant": "equality of polynomials for all values", "anchors": ["cyjax/polynomial.py:Poly.__call__", "cyjax/polynomial.py:_replace_float_ints"]}
{"id": "C120", "title": "any_symbolic recognises symbolic input", "statement": "any_symbolic(*args) is true exactly if one of the arguments is symbolic: an expression, a string, an array of objects or strings, or a list of such values.", "quantifier": "all argument lists", "why_tests_cant": "all argument lists", "anchors": ["cyjax/polynomial.py:any_symbolic"]}
{"id": "C121", "title": "training samples and the loss on them", "statement": "Almost surely every call of next on a BatchSampler over a smooth family succeeds, whatever the buffer size: it returns the moduli of its own key and for each of them exactly batch_size points on that member of the family, in patches with coordinates of absolute value at most one, with their positive weights. On such a sample variance_eta_loss of a positive definite matrix is defined, not negative, zero exactly if eta is constant, unchanged under scaling of the matrix, and bounds the squared sigma accuracy on the same points.", "quantifier": "all varieties that can be sampled with smooth members, batch sizes, buffer sizes, keys, positive definite matrices; almost all random numbers", "why_tests_cant": "almost sure statement over all random numbers and unboundedly many calls; inequality for all matrices and samples", "anchors": ["cyjax/ml.py:BatchSampler", "cyjax/ml.py:variance_eta_loss", "cyjax/donaldson.py:AlgebraicMetric.sigma_accuracy"]}
{"id": "C122", "title": "loss function of the training script", "statement": "The loss of a network on a training sample is the mean over the moduli of the losses of the matrices it predicts. It is defined whenever no predicted triangular factor has a zero on its diagonal, and not negative. With initial parameters without fluctuation it is the mean of the losses of the identity matrix, with or without sig_suppress, for any hidden layers and dropout.", "quantifier": "all networks, parameters, smooth families and samples", "why_tests_cant": "all network sizes, parameters and samples", "anchors": ["scripts/train.py:loss_function", "cyjax/ml.py:HNetMLP", "cyjax/ml.py:cholesky_from_param", "cyjax/ml.py:variance_eta_loss"]}
{"id": "C123", "title": "evaluation on a grid of moduli", "statement": "After training the accuracy is evaluated at a grid with grid_points points for the real and for the imaginary part of each parameter, from minus its bound to its bound. The result has the shape of the grid: for any batch size, the number stored at a position of the grid is the accuracy of the matrix predicted for the moduli of this position, and every moduli have their own random key.", "quantifier": "all numbers of parameters, non-zero bounds, at least two grid points, positive batch sizes", "why_tests_cant": "all grid shapes and batch sizes, including sizes that do not divide the number of moduli", "anchors": ["scripts/train.py:main"]}
{"id": "C124", "title": "sampled moduli lie in the box", "statement": "Real and imaginary part of each sampled modulus are between minus its bound and its bound, so moduli lie in the region covered by the evaluation grid; its absolute value is below the bound.", "quantifier": "all bounds and random numbers", "why_tests_cant": "all random numbers", "anchors": ["scripts/train.py:cube_param_sampler", "scripts/conf/dwork.yaml"]}
{"id": "C125", "title": "randomly chosen members of a family are smooth", "statement": "Varieties of the package with parameters are families of hypersurfaces. If one member of a family is smooth, then all members are smooth except at moduli that solve one non-trivial polynomial equation, and the members at moduli drawn by the sampler of the training script are smooth with probability one. For the Dwork family this holds in all dimensions.", "quantifier": "all homogeneous polynomials with parameters, all dimensions and degrees, all non-zero bounds, all probability spaces", "why_tests_cant": "a statement about a set of measure zero in the moduli space", "anchors": ["cyjax/variety.py:VarietySingle", "scripts/train.py:cube_param_sampler"]}
{"id": "C126", "title": "training with random moduli does not fail", "statement": "With moduli drawn uniformly from a box and points sampled from random lines, for a family with a smooth member and of degree at least the number of coordinates, with probability one the batch sampler can be made, every call of next succeeds and gives for each of the drawn moduli the requested number of points, on a smooth member of the family and with positive weights; the loss is defined on every such sample. In particular this holds for the configuration conf/dwork.yaml.", "quantifier": "all families, batch and buffer sizes, keys, numbers of steps, network parameters without a zero on the diagonal; with probability one", "why_tests_cant": "unboundedly many random steps", "anchors": ["cyjax/ml.py:BatchSampler", "cyjax/ml.py:variance_eta_loss", "scripts/train.py:main", "scripts/conf/dwork.yaml"]}
{"id": "C127", "title": "the two-parameter quintic of the training configuration", "statement": "The configuration conf/quintic.yaml gives a variety of dimension 3 with two parameters, whose member at (alpha1, alpha2) is the zero set of the polynomial written in the configuration, for any order in which the symbols are found. With bounds other than zero, training on it does not fail, with probability one: the batch sampler returns samples of points on smooth members, and the loss is defined on each of them.", "quantifier": "all orders of the symbols, batch and buffer sizes, keys, numbers of steps; with probability one", "why_tests_cant": "unboundedly many random steps; the order of a python set", "anchors": ["cyjax/variety.py:VarietySingle.from_sympy", "scripts/conf/quintic.yaml", "scripts/train.py:main"]}
{"id": "C128", "title": "the training loop does what it should", "statement": "Training makes steps until the configured time is over. Step j evaluates the loss of the current parameters on the j-th sample of the batch sampler and updates the parameters with its gradient; the recorded losses are those of all steps in order; every log_every-th step, the first one included, the accuracy of the current parameters is evaluated on the same validation moduli. The outcome is determined by the seed (and the clock), and no random key is used for two purposes. If no part of a step fails, training does not fail.", "quantifier": "all configurations, networks, optimisers, seeds, clocks and numbers of steps", "why_tests_cant": "unboundedly many steps; arbitrary networks and optimisers", "anchors": ["scripts/train.py:main", "cyjax/util.py:PRNGSequence", "cyjax/ml.py:BatchSampler"]}
{"id": "C129", "title": "the files written during training hold its results", "statement": "After training, the files losses, validation and final.params contain the losses of all steps, all accuracies and the final parameters; the accuracy logged as 'after s steps' is that of the parameters after s updates.", "quantifier": "all configurations and numbers of steps", "why_tests_cant": "depends on where the clock stops the loop", "anchors": ["scripts/train.py:main"]}
{"id": "C130", "title": "Monte Carlo integrals with the sampled points and weights are unbiased", "statement": "The mean of f times weight over the points of sample_intersect (as in the documentation), and in particular the result of compute_vol, has the expectation given by the integral of f (of 1) over the variety with respect to the measure of the holomorphic volume form. This measure is finite, positive and does not depend on patch or dependent coordinate.", "quantifier": "all smooth Calabi-Yau hypersurfaces of dimension at least one that can be sampled, all integrable functions on projective space, all numbers of points (multiples of the degree) and batches", "why_tests_cant": "an expectation over random lines; needs the coarea argument for the distribution of the intersections", "anchors": ["cyjax/variety.py:sample_intersect", "cyjax/variety.py:sample_intersect_weights", "cyjax/variety.py:compute_vol", "docs/source/intro/sampling.md"]}
{"id": "C131", "title": "sampled points follow the Fubini-Study density", "statement": "The points returned by sample_intersect are distributed according to the volume of the metric induced by the Fubini-Study metric: the expected mean of a function over the sample is its average with respect to this measure, whose total mass with the normalisation n!/pi^n is the degree of the hypersurface.", "quantifier": "all smooth hypersurfaces of degree at least two and dimension at least one that can be sampled, all integrable functions on projective space, all numbers of points for which no line is cut", "why_tests_cant": "a statement about a distribution on a manifold", "anchors": ["cyjax/variety.py:sample_intersect", "docs/source/intro/sampling.md"]}
{"id": "C132", "title": "Monte Carlo estimates converge", "statement": "The estimate from count points converges in probability to its limit as count grows, with error probability at most C/(count eps^2), also if count is not a multiple of the degree; the result of compute_vol converges almost surely as the number of batches grows, and count times the returned variance converges to the variance of the weights.", "quantifier": "all smooth Calabi-Yau hypersurfaces of dimension at least one that can be sampled, all bounded measurable functions on projective space", "why_tests_cant": "a limit", "anchors": ["cyjax/variety.py:sample_intersect", "cyjax/variety.py:compute_vol", "cyjax/util.py:mc_integrate_batched"]}
{"id": "C133", "title": "sigma_accuracy converges to the sigma measure of the metric", "statement": "The value of sigma_accuracy from count sampled points converges in probability to 1/V * integral |1 - eta V/K| |Omega|^2 over the variety, with V and K the integrals of 1 and eta; the probability of an error of at least eps is at most C/(count eps^2). The limit lies between 0 and 2 and is zero exactly if eta is constant almost everywhere.", "quantifier": "all smooth Calabi-Yau hypersurfaces of dimension at least one that can be sampled, all sections spanning their degree, all positive definite matrices h", "why_tests_cant": "a limit of random sums, compared with an integral over the variety that no test evaluates", "anchors": ["cyjax/donaldson.py:sigma_accuracy", "cyjax/donaldson.py:eta"]}
{"id": "C134", "title": "donaldson_step converges to Donaldson's T operator", "statement": "As the number of batches grows, the matrix returned by donaldson_step converges almost surely to the transposed inverse of T(h)_ab = N/V integral s_a conj(s_b)/(s h s*) |Omega|^2 over the variety when the volume comes from compute_vol; for any other volume the limit is multiplied by the quotient of that volume and the limit of compute_vol. T(h) is positive definite.", "quantifier": "all smooth Calabi-Yau hypersurfaces of dimension at least one that can be sampled, all bases of sections, all positive definite h, all batch sizes that are multiples of the degree", "why_tests_cant": "an almost sure limit, compared with an integral over the variety that no test evaluates", "anchors": ["cyjax/donaldson.py:donaldson_step", "cyjax/variety.py:compute_vol"]}
{"id": "C135", "title": "uniform_projective is uniform for the Fubini-Study metric", "statement": "In the affine coordinates of any patch the points of uniform_projective have the density n!/pi^n det g, with g the metric fs_metric returns. With affine coordinates requested, each patch is returned with probability 1/(n+1), and in it the coordinates have that density restricted to |z_k| <= 1.", "quantifier": "all dimensions n, all patches, all measurable sets of coordinates", "why_tests_cant": "the density of a distribution on all measurable sets, in every dimension", "anchors": ["cyjax/random.py:uniform_projective", "cyjax/random.py:complex_sphere", "cyjax/projective.py:fs_metric"]}
{"id": "C136", "title": "arithmetic of a polynomial with numbers and symbols is pointwise", "statement": "p + c, p - c, p * c for a number or a sympy symbol c evaluate to the sum, difference and product of the values. A symbol that belongs to a variable extends its indices, any other becomes a new parameter; a symbol with an index where the variable is scalar, or the other way round, is rejected.", "quantifier": "all polynomials with real coefficients, all real numbers, all symbols, all assignments", "why_tests_cant": "all polynomials, symbols and their relation to the existing variables and parameters", "anchors": ["cyjax/polynomial.py:Poly._combine_metadata", "cyjax/polynomial.py:Poly.__add__", "cyjax/polynomial.py:Poly.__sub__", "cyjax/polynomial.py:Poly.__mul__"]}
{"id": "C137", "title": "from_sympy with arrays of symbols or a sympy.Poly takes over the given variables", "statement": "Poly.from_sympy with variable_names given as arrays of symbols returns a polynomial whose variables are exactly these: the name of the symbols of each array, their subscripts in the order of the array (also those that do not occur in the expression), in the order of the arrays; arrays whose symbols have different names are refused. Given a sympy.Poly without further arguments, its generators become the variables, in their order, and the symbols of its domain the parameters. In both cases, evaluating the result gives the value of the expression.", "quantifier": "all expressions with all sets of free symbols visited in any order, all lists of arrays, all generators and domains, given or automatic parameters, all input values", "why_tests_cant": "The order in which python lists the set of generator names changes from run to run (string hashing), so a test passes or fails by chance; that generators which do not occur are dropped shows only for particular polynomials.", "anchors": ["cyjax/polynomial.py:537-561", "cyjax/polynomial.py:563-645"]}
{"id": "C138", "title": "Zero accuracy is the same as Ricci-flatness", "statement": "The number that sigma_accuracy approximates is zero exactly if eta returns one and the same value at every point of the variety, and exactly if ricci returns the zero matrix at every point, in every patch and with every admissible dependent coordinate; it is enough that it does so for homogeneous coordinates, with the patch and coordinate the code chooses. Then ricci_scalar is zero too. The sampled accuracy converges to zero in probability, as the number of points grows, exactly if the metric is Ricci-flat.", "quantifier": "all smooth hypersurfaces of dimension at least one of the families whose zeros can be sampled, all parameters, all bases of sections that span the sections of their degree, all positive definite matrices h, all points", "why_tests_cant": "Both sides are statements about all points of the variety: the accuracy is an integral, flatness a differential equation. That they are equivalent needs the connectedness of the variety and the maximum principle; numerically one only sees small numbers on both sides.", "anchors": ["cyjax/donaldson.py:sigma_accuracy", "cyjax/donaldson.py:eta", "cyjax/donaldson.py:AlgebraicMetric.ricci", "cyjax/donaldson.py:AlgebraicMetric.ricci_scalar"]}
{"id": "C139", "title": "Donaldson's iteration has one balanced metric, and converges to it", "statement": "With exact integrals in place of sample means, donaldson_step has a positive definite fixed point h0 (the balanced matrix); every other one is a positive multiple of it, so that all give the same metric. Starting from any positive definite h, repeated steps stay positive definite and converge to a fixed point. The integrals do not depend on the patch and the dependent coordinate used for them.", "quantifier": "all smooth hypersurfaces of dimension at least one of the families whose zeros can be sampled, all parameters, all bases of sections modulo the defining polynomial of any degree, all positive definite starting matrices", "why_tests_cant": "Existence, uniqueness and global convergence are statements about all starting matrices and infinitely many steps; a numerical run only shows that one sequence seems to settle.", "anchors": ["cyjax/donaldson.py:850-887", "cyjax/donaldson.py:donaldson_step"]}
{"id": "C140", "title": "Repeated sampled donaldson_step calls approach the balanced metric", "statement": "k calls of donaldson_step in a row, each with b batches of samples: almost surely none fails, and as b grows the resulting matrix converges to k exact steps, up to the factor given by the volume that is passed (one for the volume from compute_vol). As k grows these limits converge to a balanced matrix, which does not depend on the samples.", "quantifier": "all smooth hypersurfaces of dimension at least one of the families whose zeros can be sampled, all bases modulo the defining polynomial, all positive definite starting matrices, all batch sizes that are a multiple of the degree, all converging sequences of volumes, all independent batches with the law of the sampler, almost every outcome", "why_tests_cant": "It is a limit over the number of samples and steps, with errors of one step entering the next; a test sees finitely many seeds at finite size.", "anchors": ["cyjax/donaldson.py:850-887", "cyjax/variety.py:compute_vol"]}
{"id": "C141", "title": "Exponentially small error probabilities of the Monte Carlo estimates", "statement": "For count samples, the probability that the weighted mean of a bounded function over sample_intersect, the volume from compute_vol, or the result of sigma_accuracy misses its exact value by at least eps is at most a fixed multiple of exp(-count eps^2 / C), with one constant C for all counts, batch shapes and eps. So calls with growing numbers of samples converge almost surely, however the random keys of different calls are related.", "quantifier": "all smooth hypersurfaces of dimension at least one of the families whose zeros can be sampled, all bounded measurable functions of the point, all spanning sections and positive definite matrices (sigma_accuracy), all numbers of samples, all eps, all numbers and sizes of batches that are a multiple of the degree (compute_vol)", "why_tests_cant": "It bounds the probability of rare events for all sample sizes at once; a test sees a few seeds.", "anchors": ["cyjax/variety.py:sample_intersect", "cyjax/variety.py:compute_vol", "cyjax/donaldson.py:sigma_accuracy"]}
{"id": "C142", "title": "Convergence of Donaldson's algorithm needs independent batches only within each call", "statement": "donaldson_step gets its keys from split(key, batches), so that calls with a different number of batches use different samples, not an initial part of one stream. Still the results of compute_vol, of donaldson_step and of repeated steps converge almost surely as the number of batches grows, if the batches of each single call are independent; nothing is needed of the relation of different calls.", "quantifier": "all smooth hypersurfaces of dimension at least one of the families whose zeros can be sampled, all bases modulo the defining polynomial, all positive definite starting matrices, all batch sizes that are a multiple of the degree, all joint laws of the samples of different calls", "why_tests_cant": "It is an almost sure limit under arbitrary dependence between runs; tests use finitely many seeds of one generator.", "anchors": ["cyjax/donaldson.py:850-887", "cyjax/util.py:227-245"]}
{"id": "C143", "title": "Random keys are consumed once, and the algorithm converges with the keys it uses", "statement": "If splitting keys makes no collisions, then no random key is consumed twice by a sequence of calls with next(rns) or by the training script (sampler buffers, validation, initialisation, dropout, accuracies, evaluation), for any number of steps. For an ideal generator, in which values drawn with different keys are independent, a program with one PRNGSequence that calls compute_vol and then donaldson_step k times converges almost surely to the balanced metric. (mc_integrate_batched breaks the rule: it splits each key and also draws with it.)", "quantifier": "all key types and split functions without collisions, all sequences of calls, all numbers of training steps, buffer sizes, batch sizes and evaluation batches; for the limit all hypersurfaces, bases, matrices and ideal generators as in C142", "why_tests_cant": "Reuse of a key shows up only as a statistical correlation; no unit test of single functions detects it, and the number of keys is unbounded.", "anchors": ["cyjax/util.py:227-245", "cyjax/util.py:263-266", "cyjax/ml.py:147-181", "cyjax/donaldson.py:867-871", "scripts/train.py:161-258"]}
{"id": "C144", "title": "Default arguments when building a polynomial from coefficients and powers", "statement": "Poly.from_coeffs_and_powers(coeffs, powers, coeffs_params) without names, indices or parameters calls the variables a, b, c, ..., numbers the entries of each variable 0, 1, ... according to the shape of its powers, takes as parameters exactly the symbols of coeffs_params, each once, and the result evaluates to the documented sum. (Not determined: the order of the parameters, which is that of a python set. Failing: more than 26 variables, a variable whose powers are None, and symbols named like a default variable, for which the object is built but cannot be called.)", "quantifier": "all numbers of monomials, variables and entries, all real coefficients, powers and symbolic coefficients, all orders in which python lists a set", "why_tests_cant": "Shapes and powers are unbounded, and the order of a set of symbols changes with the hash seed of the process, which a single test run cannot vary.", "anchors": ["cyjax/polynomial.py:681-764"]}
{"id": "C145", "title": "real_sphere and complex_sphere are uniform for the surface measure", "statement": "For exact standard normal draws, the probability that a row of real_sphere (complex_sphere) lies in a region of the unit sphere is the area of the region divided by the area of the sphere; equivalently the share, in the volume of the unit ball, of the cone over the region.", "quantifier": "all dimensions, all measurable regions", "why_tests_cant": "A statement about the distribution of random points for every region of every sphere; a test sees finitely many samples.", "anchors": ["cyjax/random.py:87-140"]}
{"id": "C146", "title": "Training follows the gradient of the loss", "statement": "The gradient of variance_eta_loss that jax computes is the derivative of the loss with respect to the parameters on which the etas depend, so that a small step against it does not increase the loss. (True where the average eta is stationary, and at zero loss, where the gradient vanishes. In general the computed gradient is the derivative of the loss plus twice the loss over the average eta times the derivative of the average eta, because the average is excluded from differentiation; a small step against it can increase the loss.)", "quantifier": "all differentiable families of etas, all non-negative weights that do not all vanish, all parameters with non-zero average eta", "why_tests_cant": "A statement about derivatives at every parameter; a test compares finitely many finite differences.", "anchors": ["cyjax/ml.py:184-199", "scripts/train.py:157"]}
{"id": "C147", "title": "The gradient of the training script exists", "statement": "On a training sample of smooth members of the family, and at network parameters for which the decoded triangular matrices have no zero on the diagonal, the loss function of the training script is a differentiable function of all weights and biases of the network. The training step computes its value and the derivative plus the mean over the sample of twice the loss over the average eta times the derivative of the average eta.", "quantifier": "all networks with differentiable activation, any hidden layers, dropout masks and features; all samples on smooth members; all differentiable families of network parameters", "why_tests_cant": "Existence of a derivative at every parameter, through eta, the determinant, the Cholesky decoding and the network.", "anchors": ["scripts/train.py:142-160", "cyjax/ml.py:62-81", "cyjax/ml.py:184-199", "cyjax/ml.py:264-329"]}
{"id": "C148", "title": "The variance returned with the volume bounds the variance of the volume", "statement": "With N points in independent batches whose size is a multiple of n + 2, the volume computed by compute_vol is unbiased, and N times the expected returned variance is the variance of the weights minus the variance of the computed volume. The n + 2 points on one line are not independent, so the returned variance is not an unbiased estimate, but (n + 2) N / (N - n - 2) times its expectation is an upper bound of the variance of the computed volume. The probability of an error of at least eps is at most this bound over eps squared.", "quantifier": "all smooth Calabi-Yau hypersurfaces of a supported family, all numbers and sizes of batches, all key splittings with independent batches, all root orders", "why_tests_cant": "A statement about the law of the result: expectation and variance over all draws.", "anchors": ["cyjax/variety.py:275-282", "cyjax/util.py:206-245", "cyjax/variety.py:196-273"]}
{"id": "C149", "title": "HNetMLP computes the documented network", "statement": "For any parameters, HNetMLP maps moduli to the features, through one dense layer with activation (and dropout) for each entry of layer_sizes, and a last linear layer; with sig_suppress the output is out[0] * sigmoid(out[1]). A batch gives for each row what a single call gives, in order; a number is one modulus, arrays with more axes raise a ValueError. With deterministic=True the dropout key does not matter; without a key training mode raises if a rate other than 0 and 1 is used. Dropout leaves the expectation of every entry unchanged.", "quantifier": "all configurations, parameters, keys, moduli and batch sizes", "why_tests_cant": "Holds for all shapes, weights and random masks; tests fix a few networks and seeds.", "anchors": ["cyjax/ml.py:202-329", "scripts/train.py:142-150"]}
{"id": "C150", "title": "Evaluating a polynomial leaves its inputs alone", "statement": "Calling a polynomial on numbers does not change any array of the caller, and returns the value of the polynomial at the numbers the inputs hold at the time of the call.", "quantifier": "all polynomials, positional and keyword inputs, and contents of the arrays of the caller", "why_tests_cant": "Whether an input is overwritten depends on the form of the expression and the kind of each input; tests pass numbers and jax arrays, which cannot be overwritten.", "anchors": ["cyjax/polynomial.py:181-214", "cyjax/polynomial.py:949-994", "cyjax/util.py:29-37"]}
{"id": "C151", "title": "The Ricci scalar detects Ricci-flatness", "statement": "On a smooth Calabi-Yau hypersurface, ricci_scalar is zero at every point exactly if the whole matrix returned by ricci is zero at every point, in every patch and for every dependent coordinate; this is the case exactly if the accuracy is zero, and exactly if sigma_accuracy converges to zero in probability as the number of points grows. Otherwise ricci_scalar is positive at some point and negative at another, so it cannot be driven to zero from one side.", "quantifier": "all smooth hypersurfaces of degree n+2 with n >= 1 that can be sampled, all spanning sections of positive degree and all positive definite h", "why_tests_cant": "At one point the scalar is one number formed of a matrix; that its vanishing everywhere forces the matrix to vanish is a global statement, proved with the strong maximum principle on a compact manifold.", "anchors": ["cyjax/donaldson.py:755-812", "cyjax/donaldson.py:819-848"]}
{"id": "C152", "title": "The Fubini-Study metric is not Ricci-flat", "statement": "For the matrix h of the Fubini-Study metric, eta at Z on a hypersurface of degree n+2 is sum |dF_i(Z)|^2 / (pi^n (sum |Z_i|^2)^(n+1)). On the Fermat hypersurfaces and on the smooth members of the Dwork family eta takes different values, the accuracy is not zero, and ricci_scalar is positive at some point and negative at another: the starting point of a Donaldson iteration or of a training is not already the solution.", "quantifier": "all degrees of sections; Fermat hypersurfaces and all smooth members of the Dwork family, with a real factor, in every dimension n >= 1", "why_tests_cant": "The value of eta is claimed at every point, and the failure of flatness for every dimension and modulus.", "anchors": ["cyjax/donaldson.py:661-692", "cyjax/donaldson.py:755-812", "cyjax/variety.py:196-231"]}
{"id": "C153", "title": "The Kahler volume does not depend on the metric, and the total scalar curvature is zero", "statement": "On a smooth Calabi-Yau hypersurface of dimension n, the integral of eta for the holomorphic volume form is (n+2)/n! for every positive definite h, every degree of the sections and every spanning set of them. The expected value of the estimate mean(eta * weight) of the Kahler volume is therefore 1/n! if the requested number of points is a multiple of n+2, so that all points on the lines are kept, and the accuracy that sigma_accuracy converges to compares eta with one constant that is the same for all metrics on the variety. The integral of eta times ricci_scalar is zero for every positive definite h.", "quantifier": "all smooth hypersurfaces of degree n+2 with n >= 1 that can be sampled, all spanning sections of positive degree, all positive definite h", "why_tests_cant": "An equality of exact integrals over a manifold for a continuum of metrics; Monte Carlo estimates only agree up to a statistical error.", "anchors": ["cyjax/donaldson.py:819-848", "cyjax/donaldson.py:661-692", "cyjax/donaldson.py:755-812"]}
{"id": "C154", "title": "The plots show the accuracies at the moduli they belong to", "statement": "The plots written after training have one panel for the real and imaginary part of each parameter and one for each pair of them. At each position the first kind shows mean, minimum and maximum of exactly the accuracies of the moduli with this real or imaginary part, and the second kind shows the requested summary of the accuracies of the moduli with the given pair, in a pixel centred at this pair. All panels share one scale. The axes of the panels are labelled by the parameters.", "quantifier": "all accuracies, numbers of parameters, bounds and grid sizes", "why_tests_cant": "A statement about all shapes and all array contents; plots are checked by eye, and a small shift or a missing label is easily overlooked.", "anchors": ["scripts/train.py:45-125", "scripts/train.py:226-275"]}
{"id": "C155", "title": "The balanced metric has the symmetries of the variety", "statement": "For a unitary change U of the homogeneous coordinates with F(U Z) = c F(Z), the holomorphic volume form and the Fubini-Study volume that sampling and weights are based on are invariant, U acts on the sections by an invertible matrix R, and donaldson_step with exact integrals commutes with the transformation h -> R^T h conj(R). The balanced matrix, to which the iteration converges, is invariant, so that eta and ricci_scalar of the balanced metric take the same values at Z and at U Z. For every h, eta and ricci_scalar at U Z are those at Z for the transformed matrix, and both matrices have the same accuracy. In the Dwork family the balanced matrix couples only monomials whose exponents differ by the same number modulo the degree for all coordinates, and it is diagonal for the Fermat varieties with sections of lower degree than the variety.", "quantifier": "all smooth hypersurfaces of degree n+2 with n >= 1 that can be sampled, all unitary symmetries, all bases of sections modulo the defining polynomial, all positive definite h", "why_tests_cant": "A statement about limits and exact integrals for all symmetries of all varieties; the Monte Carlo estimates break the symmetries, so numerical entries are only small, not zero.", "anchors": ["cyjax/donaldson.py:850-887", "cyjax/donaldson.py:donaldson_step", "cyjax/donaldson.py:AlgebraicMetric.eta", "cyjax/donaldson.py:AlgebraicMetric.ricci_scalar"]}
{"id": "C156", "title": "Calls with arrays of points, parameters and patches are pointwise", "statement": "induced_metric and induced_fs accept arrays of metrics, points, parameters, patches, conjugate points and dependent coordinates with any leading batch axes. They fail if and only if the batch shapes cannot be combined by numpy's broadcasting rule (and, for induced_fs, if conjugate points have another shape than the points). Otherwise the result has the combined shape, and every entry, with the dependent coordinate returned for it, is what the call returns for the entries of the arguments that belong to it. sigma_accuracy, which works on arrays of sampled points, computes the mean over single points; with arrays of parameters and matrices each entry of the result is the accuracy for its parameters and matrix with the same random numbers.", "quantifier": "all batch shapes and all arguments", "why_tests_cant": "All combinations of shapes of six arguments; a test sees a few.", "anchors": ["cyjax/variety.py:166-193", "cyjax/donaldson.py:819-848", "cyjax/projective.py:fs_metric"]}
{"id": "C157", "title": "Printed polynomials and varieties show what the object is", "statement": "repr of a polynomial determines its class, the names and indices of its variables, its parameters and the printed expression (two polynomials that print alike agree in all of these); its indexed symbols are read back by split_subscript as name and index. The LaTeX output of polynomials and varieties is one inline formula, and shows the dimension of the projective space as the exponent of CP.", "quantifier": "all polynomials and varieties", "why_tests_cant": "Ambiguity is a statement about all pairs of polynomials, and the formula has to be well formed for all of them.", "anchors": ["cyjax/polynomial.py:918-947", "cyjax/polynomial.py:55-59", "cyjax/variety.py:323-331"]}
{"id": "C158", "title": "Compiled evaluation functions work on arrays of inputs", "statement": "The function returned by transform_eval of a polynomial fails exactly when the batch shapes of its arguments clash; otherwise its result has the broadcast shape and every entry is the value of the polynomial at the entries of the inputs that belong to it, whether the parameters are positional, a keyword of the call or fixed when the function is made. A keyword of the call overrides a fixed one. For homogeneous polynomials every entry is what calling the polynomial with that patch and input returns.", "quantifier": "all polynomials, batch shapes, inputs, patches and ways to pass the parameters", "why_tests_cant": "Covers every combination of batch shapes and argument-passing conventions.", "anchors": ["cyjax/polynomial.py:421-450", "cyjax/polynomial.py:1144-1183"]}
{"id": "C159", "title": "Rounding errors of polynomial evaluation are bounded", "statement": "Calling a polynomial in floating point arithmetic whose operations have relative error at most eps returns the exact value up to ((1+eps)^(N+D+1)-1) times the sum of the absolute values of its terms, where N is the number of terms and D the degree. With p binary digits (24 in single, 53 in double precision) the error is at most (N+D+1)*2^(3-p) times that sum. In exact arithmetic the same program gives the exact value.", "quantifier": "all polynomials, inputs, parameters and precisions", "why_tests_cant": "Floating point errors depend on the input; the bound covers all polynomials and inputs.", "anchors": ["cyjax/polynomial.py:181-214", "cyjax/polynomial.py:949-994", "cyjax/util.py:29-37"]}
{"id": "C160", "title": "Rounding errors of sections are bounded", "statement": "With a look-up table of powers, every section of degree k evaluated in n affine coordinates has relative error at most (1+eps)^(k+n-1)-1, where eps is the relative error of a floating point operation, whatever the order in which the product is taken and whichever patch is used. Evaluated through logarithms, the relative error is at most (1+eps)*exp(((1+eps)^(d+2)-1)*B)-1, with B the sum of exponents times (1+|log z|) and d the depth of the summation order; this requires all coordinates to be non-zero.", "quantifier": "all points, patches, degrees, numbers of coordinates, summation orders and arithmetics", "why_tests_cant": "Order and rounding of the reductions depend on the device; the bound holds for all of them.", "anchors": ["cyjax/donaldson.py:91-126"]}
{"id": "C161", "title": "Rounding errors of the accuracy measure are bounded", "statement": "Computed in floating point arithmetic with relative error eps per operation, sigma_accuracy differs from its exact value at the same points by at most 40 (d + 2) eps, where d is the depth of the summation order of the means (about log2 of the number of points for pairwise summation), provided 10 (d + 2) eps <= 1. In particular a metric with constant eta is reported with at most this value. If the values of eta and the weights have relative errors themselves, an explicit bound in terms of these holds.", "quantifier": "all positive values of eta and weights, numbers of points, summation orders and arithmetics", "why_tests_cant": "The size of rounding errors depends on data, device and summation order; the bound covers all of them.", "anchors": ["cyjax/donaldson.py:843-848"]}
{"id": "C162", "title": "Projective coordinates and the Fubini-Study metric are computed stably", "statement": "With rounded absolute values and quotients (relative error u < 1), hom_to_affine without a patch divides by a non-zero coordinate that is the largest up to the factor (1+u)/(1-u), its coordinates are at most (1+u)^2/(1-u), and it represents the original point up to a common factor and a relative error u in every coordinate; the same choice bounds the quotients by the gradient at the dependent coordinate. A change of charts has relative error u in every coordinate. Entries of fs_metric have an error of a small multiple of eps times the sum of the absolute values of their two terms, and fs_potential an absolute error of eps (1 + |K|) plus a multiple of eps.", "quantifier": "all points, charts, dimensions, summation orders and arithmetics", "why_tests_cant": "Rounding may change the chosen patch near ties; stability is a statement about all points.", "anchors": ["cyjax/projective.py:57-99", "cyjax/projective.py:117-197", "cyjax/variety.py:140-177"]}
{"id": "C163", "title": "Sampling with an inexact root finder", "statement": "If the root finder has backward error tau (every returned number is an exact root of a polynomial whose coefficients differ by relative errors at most tau), sample_intersect returns the same number of points on the same lines as with exact roots, and the defining polynomial at the returned affine coordinates is at most tau * |F|_1 * (2(m+1)/(1-|<p,q>|))^(d/2), where |F|_1 is the sum of the absolute values of its coefficients, d its degree, m the projective dimension and p, q the unit vectors spanning the line.", "quantifier": "all varieties that can be sampled, parameters, lines and root finders", "why_tests_cant": "Residuals of sampled points depend on the drawn lines; tests see finitely many draws.", "anchors": ["cyjax/variety.py:34-44", "cyjax/variety.py:233-272"]}
{"id": "C164", "title": "Errors in Donaldson's algorithm do not grow", "statement": "donaldson_step keeps the order of positive definite matrices. If two matrices agree up to a factor c as quadratic forms, the weights up to rho and the volumes up to sigma, the results (with the same points) agree up to c rho sigma. So if every step of an iteration is computed with an error of at most a factor c_j, the result after k steps agrees with the exact one up to the product of these factors. Errors eps of the entries of a matrix H >= m are a factor 1/(1 - N eps/m), and a factor c changes the Kahler potential by at most log(c)/(pi k) at every point.", "quantifier": "all positive definite matrices, points, weights, volumes, numbers of steps and error factors", "why_tests_cant": "Stability is a statement about all perturbations of all matrices and about arbitrarily many steps.", "anchors": ["cyjax/donaldson.py:850-887", "cyjax/donaldson.py:712-731"]}
{"id": "C165", "title": "Rounding errors of Donaldson's step", "statement": "Let every operation have a relative error of at most eps, the sections, weights and volume relative errors ds, dw, dv, and let the terms of the denominators s h conj(s) be at most kappa times the denominators in sum (kappa = N mu/m works if h >= m with entries at most mu). The entries of the matrix T computed by donaldson_step differ from the exact ones by at most (P-1) sqrt(T_aa T_bb), where P = (1+eps)^(d+B+7) (1+ds)^2 (1+dw) / ((2-Q)(1-dv)), Q = 1 + kappa((1+eps)^(da+db+4)(1+ds)^2 - 1) < 2, B is the number of batches and d, da, db are the depths of the summations. If the residual of the library inverse is at most eta and the row sums of the exact T^-1 are at most L, the entries of the result differ from the exact ones by at most L(eta + phi L (1+eta)/(1-L phi)), phi = N max(T_aa)(P-1), and the Hermitian part of the result is positive definite and agrees with the exact result up to the corresponding factor. In exact arithmetic the program is the one of the other properties. h need not be Hermitian.", "quantifier": "all matrices with positive definite Hermitian part, sections, weights, volumes, summation orders, numbers of batches and points, arithmetics and inverses with the given error bounds", "why_tests_cant": "The bound is for all inputs and all orders of summation of the compiler; tests compare two precisions at a few matrices.", "anchors": ["cyjax/donaldson.py:850-887"]}
{"id": "C166", "title": "Rounding errors of the integration weights", "statement": "Let every operation have a relative error of at most eps, the gradient of the defining polynomial a relative error delta, and let the library determinant be backward stable with error rho relative to the largest entry. The weight computed by sample_intersect_weights has a relative error of at most (1+eps)/(2-W) - 1, with W = (1+eps)^6 (1+delta)^2 Delta < 2, Delta = (1 + n^2 (G(1+rho)-1) 2 (1+q)^2 (1+|z|^2))^n, where n is the dimension of the variety, G -> 1 is the explicit growth factor of the induced metric and q bounds the gradient in units of its dependent entry. Without a given dependent coordinate, the coordinate chosen by rounded absolute values has q = (1+delta)(1+eps)/((1-delta)(1-eps)), even if it is not the largest in exact arithmetic. The two separate measures have the corresponding bounds. In particular the conditioning does not depend on the size of the gradient, and in the patch of the largest coordinate 1+|z|^2 <= n+2.", "quantifier": "all varieties, moduli, points with nonzero gradient, dependent coordinates, volumes, summation orders, arithmetics and determinants with the given error bounds", "why_tests_cant": "The bound is for all points, gradients and orders of summation; tests compare two precisions at a few points and cannot exclude a rounded argmax picking a bad coordinate.", "anchors": ["cyjax/variety.py:195-231"]}
{"id": "C167", "title": "Rounding errors of the algebraic metric and of eta", "statement": "Let every operation have a relative error of at most eps, the values and first derivatives of the sections and the gradient of the defining polynomial a relative error delta, and let the library determinant be backward stable with error rho relative to the largest entry. If the terms of psi, of its first and of its mixed second derivatives are, in absolute value, at most kappa, u and v times psi, the entries of the metric in projective space are computed with errors of at most (G-1)(v+u^2)/(pi degree), those of the metric on the variety with errors of at most (L-1) c, c = (1+q)^2 (v+u^2)/(pi degree), and eta with a relative error of at most (1+eps)^4 (1+delta)^2 (1 + n^2 (L(1+rho)-1) c/m)^n - 1, where m is a lower bound of the metric and G, L -> 1 are explicit growth factors. kappa, u and v follow from a lower bound and the largest entry of h, and m from a lower bound of the metric in projective space. The dependent coordinate chosen by rounded absolute values has q of about one.", "quantifier": "all h (diagonal or full), sections, points, gradients, dependent coordinates, orders and paths of the contractions, arithmetics and determinants with the given error bounds", "why_tests_cant": "The bound is for all points, matrices h and orders of contraction, and separates the conditioning of h and of the metric from the rounding; tests compare two precisions at a few points.", "anchors": ["cyjax/donaldson.py:426-449", "cyjax/donaldson.py:481-484", "cyjax/donaldson.py:604-606", "cyjax/donaldson.py:621-623", "cyjax/donaldson.py:683-685"]}
{"id": "C168", "title": "Uniform numerical stability of eta, weights and accuracy near a smooth hypersurface", "statement": "Let the hypersurface be smooth, h positive definite and let the sections of positive degree span the coordinate ring. There are constants C and tau0 > 0, depending only on the variety, h, the sections and the number of operations in sequence, such that in every arithmetic of accuracy tau <= tau0, at every point in any patch whose affine coordinates are at most one in absolute value and at which the defining polynomial is at most tau0 in absolute value (so the point need not lie exactly on the variety), with a matrix with entries of absolute error tau (not necessarily Hermitian), sections and derivatives of relative error tau, a gradient of absolute error tau and a determinant of backward error tau: AlgebraicMetric.eta and the integration weight exist, are positive and are computed with relative errors of at most C tau; and sigma_accuracy of any number of such points is computed with an absolute error of at most C tau, whatever the orders of the operations.", "quantifier": "all smooth hypersurfaces, positive definite h, spanning sections, patches, points on or near the variety, numbers of points, arithmetics, determinants and orders of operations with the given accuracy", "why_tests_cant": "A uniform constant over all points of a compact variety and all orders of operations needs a compactness argument; sampled points may miss those where the metric, the gradient or psi is nearly degenerate.", "anchors": ["cyjax/donaldson.py:683-685", "cyjax/donaldson.py:843-848", "cyjax/variety.py:195-231"]}
{"id": "C169", "title": "Donaldson's algorithm in floating point follows the exact algorithm", "statement": "Fix the points, weights and volumes of k steps of Donaldson's algorithm (possibly others in every step) and a positive definite initial matrix, with sections that are independent on the points of every step. There are constants C and tau0 > 0 such that for every arithmetic of accuracy tau <= tau0, any orders of summation with at most d operations in sequence, a backward stable matrix inverse, and relative errors of at most tau of the sections, weights and volumes: repeated calls of donaldson_step return, in every step up to k, a matrix whose entries differ from the exact ones by at most C tau, whose Hermitian part is positive definite and agrees with the exact matrix up to the factor 1 + C tau, and whose Kahler potential differs from the exact one by at most C tau at every point. With p binary digits the errors are at most a constant times 2^(-p) for all large p.", "quantifier": "all numbers of steps, sections, batches, points, weights, initial matrices, arithmetics, inverses, orders of summation and input errors of the given accuracy", "why_tests_cant": "A bound on accumulated rounding errors over any number of steps, for every arithmetic and order of summation, cannot be obtained from runs in one precision on one machine.", "anchors": ["cyjax/donaldson.py:850-887"]}
{"id": "C170", "title": "The accuracy reported after a run of Donaldson's algorithm in floating point", "statement": "Run k steps of donaldson_step at any fixed points (possibly others in every step, coordinates at most one in their patch, gradient of the defining polynomial not zero, sections independent on the points of every step), starting from a positive definite matrix, on a smooth hypersurface with sections of positive degree that span the coordinate ring; then call sigma_accuracy at any number of points on or near the hypersurface. There are constants C and tau0 > 0 such that in every arithmetic of accuracy tau <= tau0, with computed sections, derivatives, gradients, volumes, determinants and inverses of accuracy tau, with weights computed from these gradients, and with any orders of operations of bounded depth, the computed matrices have errors of at most C tau in every entry, and the reported accuracy differs by at most C tau from the exact accuracy of the exact matrix at the same points. With b binary digits the error is at most a constant times 2^(-b) for all large b.", "quantifier": "all smooth hypersurfaces, spanning sections, numbers of steps, batches and points, initial matrices, arithmetics, library determinants and inverses of the given accuracy, orders of operations and evaluation points", "why_tests_cant": "An end-to-end error bound for every arithmetic and order of operations, uniform over all evaluation points, cannot be obtained from runs on one machine.", "anchors": ["cyjax/donaldson.py:821-848", "cyjax/donaldson.py:850-887", "cyjax/variety.py:195-231"]}
{"id": "C171", "title": "Monte Carlo volume and its variance in floating point", "statement": "mc_integrate_batched with var=True returns the volume and the variance of the estimate, whose square root is the standard error. From non-negative weights with relative error delta, in arithmetic of accuracy eps, the returned volume has relative error at most (1+eps)^(d+d'+2) (1+delta) - 1, where d and d' are the depths of the sums in a batch and over the batches. The returned variance differs from (mean of squares - square of mean)/N by at most ((1+eps)^(2(d+d')+8) (1+delta)^2 - 1) times (mean of squares + square of mean)/N, and is never negative.", "quantifier": "all numbers of batches and batch sizes, weights, integrands, arithmetics of accuracy eps and orders of summation", "why_tests_cant": "The bound must hold for every arithmetic, order of summation and set of weights; cancellation in the variance shows only for nearly equal weights.", "anchors": ["cyjax/util.py:167-203", "cyjax/util.py:206-245"]}
{"id": "C172", "title": "The Cholesky parametrisation in floating point", "statement": "The matrix returned by cholesky_decode is Hermitian and positive definite for every non-zero diagonal, also in floating point. In arithmetic of accuracy eps its entries differ from the exact ones by at most ((1+eps)^(d+1) - 1) sqrt(H_ii H_jj), where d is the depth of the sums; with a rounding that does not depend on the sign it is exactly Hermitian with non-negative diagonal.", "quantifier": "all sizes, parameters, arithmetics of accuracy eps and orders of summation", "why_tests_cant": "Loss of positive definiteness shows only for badly conditioned parameters, which random tests do not produce; the error bound is for every arithmetic.", "anchors": ["cyjax/ml.py:31-59"]}
{"id": "C173", "title": "The training loss in floating point", "statement": "The loss reported during training is close to the exact one also in floating point, is never negative, and is positive whenever eta is negative at one of the points. In arithmetic of accuracy eps with exact positive eta and weights, the error is at most 82 (d+2) eps times (loss + 4 mean of the weights), where d is the depth of the sums; constant eta gives a loss of second order in eps. With eta and weights computed at points on or near a smooth hypersurface, for a positive definite matrix and sections that span the coordinate ring, the error is at most a constant times the accuracy times (loss + 4 mean of the weights), whatever the number of points.", "quantifier": "all numbers of points, values of eta, weights, arithmetics of accuracy eps and orders of summation", "why_tests_cant": "The bound holds for every arithmetic, order of summation and number of points; the loss of the penalty shows only for eta of small absolute value, which tests with random metrics do not produce.", "anchors": ["cyjax/ml.py:184-199"]}
{"id": "C174", "title": "The training loss converges to the variance of eta over the variety", "statement": "The value of variance_eta_loss on count sampled points converges in probability, as count grows, to 1/(number of coordinates) times the integral of (1 - eta V/K)^2 |Omega|^2 over the variety, with V and K the integrals of 1 and eta; the probability of an error of at least eps is at most C/(count eps^2). The limit bounds V times the squared sigma accuracy and is zero exactly if the metric is Ricci-flat. The loss function of a training step converges in the same way to the mean of these integrals over the moduli of the step.", "quantifier": "all smooth Calabi-Yau hypersurfaces of positive dimension, section bases, positive definite matrices, numbers of points and of moduli, networks that give positive definite matrices", "why_tests_cant": "It is a statement about a limit and about probabilities over all random lines, for all metrics; a test sees one finite sample.", "anchors": ["cyjax/ml.py:141-154", "cyjax/ml.py:184-199", "scripts/train.py:142-150"]}
{"id": "C175", "title": "Accuracy and loss computed in rounded arithmetic from random points", "statement": "The sigma accuracy that floating point arithmetic of accuracy tau computes from count randomly sampled points is within eps + C tau of the integral 1/V int |1 - eta V/K| |Omega|^2 over the variety, except with probability at most C'/(count eps^2), and the exceptions include all draws for which sampling fails. The same holds for the training loss and the variance of eta. The constants depend neither on the number of points nor on the draws, and C' not on the arithmetic.", "quantifier": "all smooth Calabi-Yau hypersurfaces of positive dimension, section bases, positive definite matrices, numbers of points, arithmetics and evaluations of accuracy tau below a threshold, orders of summation with at most k operations in sequence", "why_tests_cant": "It bounds a probability over all random lines and the error of every possible arithmetic at once; a test sees one sample in one arithmetic.", "anchors": ["cyjax/donaldson.py:819-848", "cyjax/ml.py:141-154", "cyjax/ml.py:184-199"]}
{"id": "C176", "title": "Notations for subscripts", "statement": "split_subscript reads name_i and name_{i} for every integer i as (name, i), discards superscripts, raises a ValueError for subscripts with letters and a RuntimeError for more than one subscript. It undoes merge_subscript for every integer subscript.", "quantifier": "all names of letters, all integers, all strings as sub- and superscripts", "why_tests_cant": "There are infinitely many names, integers and strings; tests try a few of them.", "anchors": ["cyjax/polynomial.py:62-90", "cyjax/polynomial.py:93-99"]}
{"id": "C177", "title": "Derivatives of homogeneous polynomials in a patch", "statement": "The derivative of a homogeneous polynomial is again a homogeneous polynomial that can be called with a patch, and going to a patch commutes with differentiating; derivatives with respect to omitted coordinates are evaluated with these coordinates set to one. The derivatives satisfy Euler's relation. Conversion to a homogeneous polynomial succeeds exactly if no variable is a scalar. The derivative of the Dwork and of the Fermat polynomial has the expected values. Sums, differences and products of homogeneous polynomials can likewise be called with a patch.", "quantifier": "all homogeneous polynomials with any number of variables and parameters, all patches, coordinates and points; all degrees of Dwork and Fermat polynomials and real prefactors", "why_tests_cant": "The relation is between two symbolic operations for every polynomial, and the failing case returns a number rather than raising, so a test of the sum without patches passes.", "anchors": ["cyjax/polynomial.py:452-464", "cyjax/polynomial.py:878-916", "cyjax/polynomial.py:1083-1086", "cyjax/polynomial.py:1185-1190", "cyjax/polynomial.py:1203-1215", "cyjax/polynomial.py:1233-1240"]}
{"id": "C178", "title": "Sizes of the inputs of a polynomial", "statement": "Calling a polynomial with an array whose size differs from the size of the variable raises an error, for symbolic and for numerical inputs, and so does a wrong number of parameters.", "quantifier": "all polynomials with any number of scalar and array variables, and inputs of all sizes", "why_tests_cant": "A wrong size gives a plausible number instead of an error, depending on which symbols occur in the polynomial and on the kind of array; tests pass arrays of the right size.", "anchors": ["cyjax/polynomial.py:139-164", "cyjax/polynomial.py:181-214", "cyjax/polynomial.py:949-994"]}
{"id": "C179", "title": "Training on sampled points finds what training on all points would find", "statement": "On a compact set of positive definite matrices, or of parameters of a network, the training loss on sampled points is close to its limit for infinitely many points, for all of them at once. The probability of an error decays exponentially with the number of points. So a matrix that minimises the loss on the sampled points almost minimises the limit, though it was chosen with these points, its accuracy is bounded by its training loss, and the minima converge almost surely. The same holds for the loss function of the training script on a batch of several moduli.", "quantifier": "all smooth Calabi-Yau hypersurfaces that can be sampled, all compact sets of positive definite matrices, all networks with differentiable activation and compact sets of their parameters, all errors and numbers of points", "why_tests_cant": "The claim is about probabilities and about infinitely many matrices at once; convergence for a single matrix does not imply it, since the minimum is chosen from the same points.", "anchors": ["cyjax/ml.py:141-154", "cyjax/ml.py:184-199", "scripts/train.py:142-150"]}
{"id": "C180", "title": "The accuracy is right also for a matrix fitted to the same points, and minima exist", "statement": "On a compact set of positive definite matrices the reported accuracy is close to the true accuracy for all matrices at once, except with a probability that decays exponentially with the number of points. So the accuracy can be trusted also for a matrix that was chosen with the same points. The true accuracy, the limit of the loss and, for almost all draws, the reported accuracy and the loss on sampled points are continuous in the matrix, so both losses have minima on each nonempty compact set.", "quantifier": "all smooth Calabi-Yau hypersurfaces that can be sampled, all compact sets of positive definite matrices, all errors and numbers of points, almost all draws", "why_tests_cant": "The claim is about probabilities and about infinitely many matrices at once.", "anchors": ["cyjax/donaldson.py:819-848", "cyjax/ml.py:184-199"]}
{"id": "C181", "title": "Nested expressions of polynomials evaluate as written", "statement": "Expressions nested at will from polynomial objects with +, - and *, with real numbers as second operands, and with derivatives, are evaluated without error, and calling the result gives the number the expression stands for, at all values of the variables and parameters. The result declares exactly the variables and parameters of all objects in the expression. A derivative with respect to a symbol that is no generator of any of the objects raises. If the parameters occur linearly in the result and some variable occurs, splitting it into coefficients and powers and building it again gives the same values.", "quantifier": "all expressions of all sizes, all polynomial objects with real coefficients whose shared names have the same kind and whose parameters do not share names with variables, all values", "why_tests_cant": "There are infinitely many expressions; a test of single operators does not show that results of operators can be used as operands again.", "anchors": ["cyjax/polynomial.py:833-916", "cyjax/polynomial.py:766-831"]}
{"id": "C182", "title": "Confidence intervals from the variance returned by compute_vol", "statement": "With independent batches whose size is a multiple of n + 2, the result of compute_vol is asymptotically normal around the volume as the number of batches grows. The limiting variance is the number of points times the variance of the result, which is the same for every number of batches and at most n + 2 times the variance of the weights. The probability that the volume is within t times the square root of the returned variance converges, and the limit reaches the level of a normal law exactly if the variance of the result times the number of points is at most the variance of the weights. With n + 2 times the returned variance the intervals contain the volume asymptotically at least with the probability of a normal law.", "quantifier": "all smooth hypersurfaces, all orders of terms, all complete root finders, all batch sizes divisible by n + 2, all t", "why_tests_cant": "It is a statement about the limit of probabilities over all draws; a test sees one result and one variance.", "anchors": ["cyjax/variety.py:275-282", "cyjax/util.py:206-245", "cyjax/variety.py:196-273"]}
{"id": "C183", "title": "Confidence intervals from the variance returned by mc_integrate", "statement": "If sample returns independent points with weights, as the documentation of mc_integrate assumes for its variance, then mc_integrate(key, count, fn, sample, var=True) returns an unbiased estimate of the integral of fn, the returned variance is on average the variance of this estimate up to the factor 1 - 1/count, and the probability that the integral is within t times the square root of the returned variance converges to the probability that a normal variable is within t standard deviations.", "quantifier": "all integrands with finite second moment, all samplers of independent points and weights, all counts, all t", "why_tests_cant": "It is a statement about expectations and limits of probabilities over all draws; a test sees single results, and the only integrand used in the package is one.", "anchors": ["cyjax/util.py:mc_integrate"]}
{"id": "C184", "title": "Batched integration with several weights for every point", "statement": "mc_integrate_batched with a sampler that returns several weights for every point (weights of shape (count, k), several measures at once) integrates every component by itself: the result is the average of the weights of this component over all batches, the variance is the variance of the mean of this component, and a single batch gives what mc_integrate gives.", "quantifier": "all samplers, integrands, numbers of batches, batch sizes and numbers of weights", "why_tests_cant": "The package only integrates with one weight for every point; the shapes and values of weights are arbitrary.", "anchors": ["cyjax/util.py:mc_integrate_batched", "cyjax/util.py:mc_integrate"]}
{"id": "C185", "title": "Fluctuations of the initial Hermitian matrix", "statement": "hermitian_param_init(key, basis_size, fluctuate) returns parameters which give a positive definite Hermitian matrix when transformed by cholesky_from_param, and whose diagonal entries are uniform random values between 1 - fluctuate and 1 + fluctuate.", "quantifier": "all basis sizes and fluctuations, all independent normal draws", "why_tests_cant": "It is a statement about the law of the random draws; a test with one key sees one draw, and with the small default fluctuation every draw looks right.", "anchors": ["cyjax/ml.py:hermitian_param_init", "cyjax/ml.py:cholesky_from_param"]}
{"id": "C186", "title": "Law of uniform_components and of the sampled moduli", "statement": "The entries of uniform_components(key, shape) are independent and uniform in the square with real and imaginary part between 0 and 1, as documented. The moduli drawn by cube_param_sampler of the training script are independent, and each is uniform in the square of complex numbers with real and imaginary part between minus its bound and its bound.", "quantifier": "all shapes, all positive bounds, all independent uniform draws", "why_tests_cant": "It is a statement about the law of random draws; the tests in the documentation only bound the absolute values of the parts by one, which hides the wrong range.", "anchors": ["cyjax/random.py:uniform_components", "scripts/train.py:cube_param_sampler"]}
{"id": "C187", "title": "Numbers in polynomials keep their value", "statement": "When a polynomial is evaluated numerically or split into coefficients and powers, every real number of its expression is used with its value up to one rounding, numbers with 53 binary digits exactly. Integers of any size stay integers, so that powers are products. The imaginary unit becomes 1j, and any other number that is not real is rejected with a TypeError. A coefficient is split into its number and its parameters.", "quantifier": "all sympy numbers, all roundings, all coefficients with any number of parameters", "why_tests_cant": "Tests use a few integer and floating-point coefficients; the branches depend on the class that sympy chooses for a number, and the numbers are unbounded.", "anchors": ["cyjax/polynomial.py:_sympy_eval_num", "cyjax/polynomial.py:_eval_sympy_poly", "cyjax/polynomial.py:Poly.to_coeffs_and_powers"]}
{"id": "C188", "title": "Fluctuations of the training loss", "statement": "On sampled points the value of variance_eta_loss is asymptotically normal around 1/(n + 2) times the integral of (1 - eta V/K)^2 |Omega|^2. For count a multiple of the number n + 2 of points on each line, the error times the square root of count converges in distribution to a centred normal variable. Its variance is n + 2 times the variance of a weighted mean over the points of one line. For any count, the probability that the loss is within t/sqrt(count) of its limit converges to the probability of the normal law.", "quantifier": "all smooth hypersurfaces, all section bases, all positive definite matrices, all numbers of points", "why_tests_cant": "It is a statement about the law of random results in the limit of many points; a test sees single values.", "anchors": ["cyjax/ml.py:variance_eta_loss", "cyjax/variety.py:VarietySingle.sample_intersect", "cyjax/ml.py:BatchSampler"]}
{"id": "C189", "title": "Fluctuations of donaldson_step", "statement": "With independent batches whose size is a multiple of the number n + 2 of points on each line, the matrix returned by donaldson_step is asymptotically normal around its limit, the transposed inverse of Donaldson's T operator: every real linear function of its error, times the square root of the number of points, converges in distribution to a centred normal variable. This holds for a fixed volume and for the volume of compute_vol from as many batches. The variance is the batch size times the variance of weighted means over one batch: for a fixed volume of one function on the variety, and for a computed volume of the difference between a multiple of the computed volume and the mean of that function. For every entry, the probability that the real or the imaginary part of its error is at most t/sqrt(count) converges to the probability of the normal law.", "quantifier": "all smooth hypersurfaces, all bases of sections, all positive definite matrices, all numbers of batches, all linear functions of the matrix", "why_tests_cant": "It is a statement about the law of random matrices in the limit of many points; a test sees single values.", "anchors": ["cyjax/donaldson.py:donaldson_step", "cyjax/variety.py:compute_vol"]}
{"id": "C190", "title": "Fluctuations of normalised averages and of sigma_accuracy", "statement": "For sampled points with their weights, the average sum(f w)/sum(w) of a bounded function f on the variety is asymptotically normal around the average of f over the variety with its holomorphic volume form: for any number count of points, the probability that the error is at most t/sqrt(count) converges to the probability of [-t, t] under a centred normal law whose variance is given by the variance over the points of one line, and for counts that are a multiple of the number n + 2 of points on each line the error times sqrt(count) converges in distribution. The lower limit of the probability that the result of sigma_accuracy with count points is within (s + t)/sqrt(count) of the accuracy 1/V int |1 - eta V/K| is at least P(|G1| <= s) + P(|G2| <= t) - 1, where G1 and G2 are the normal variables for the averages of |1 - eta V/K| and of eta V/K.", "quantifier": "all smooth hypersurfaces, all bounded functions on them, all bases of sections, all positive definite matrices, all numbers of points, all s, t > 0", "why_tests_cant": "It is a statement about the law of random values in the limit of many points; a test sees single values.", "anchors": ["cyjax/donaldson.py:sigma_accuracy", "cyjax/donaldson.py:eta"]}
{"id": "C191", "title": "Fluctuations of the loss of a training step", "statement": "For a training step with N sets of moduli for which the network gives positive definite matrices, and random numbers that are independent for different keys, the loss function on sampled points is asymptotically normal around the mean over the moduli of its limits. For count a multiple of the number n + 2 of points on each line, the error times sqrt(count) converges in distribution to a centred normal variable. Its variance is the sum over the moduli of the variances for one set of moduli, over N^2: more moduli in a step reduce the noise of the loss. For any count, the probability that the loss is within t/sqrt(count) of its limit converges to the probability of the normal law.", "quantifier": "all smooth members of the family, all networks and parameters that give positive definite matrices, all N > 0, all t > 0", "why_tests_cant": "It is a statement about the law of random values in the limit of many points; a test sees single values.", "anchors": ["cyjax/ml.py:141-154", "cyjax/ml.py:184-199", "scripts/train.py:142-150", "scripts/train.py:loss_function", "cyjax/ml.py:HNetMLP", "cyjax/ml.py:cholesky_from_param", "cyjax/ml.py:variance_eta_loss"]}
{"id": "C192", "title": "The training gradient converges to the gradient of the loss", "statement": "Training differentiates variance_eta_loss with the average eta held constant (stop_gradient), so on a finite sample it does not follow the gradient of the loss (C146). The difference disappears as the number of points grows: along a continuously differentiable curve of positive definite matrices, the derivative that training uses differs from the derivative of the loss on the same sampled points by at least epsilon with a probability of at most C/(count epsilon^2). Both converge, with the same rate, to the derivative of the limit of the loss for infinitely many points.", "quantifier": "all smooth members of the family, all curves of matrices with continuously differentiable entries that are positive definite near the point, all numbers of points, all epsilon > 0", "why_tests_cant": "It is a statement about the law of derivatives on random samples in the limit of many points; a test sees single values.", "anchors": ["cyjax/ml.py:184-199", "scripts/train.py:157", "cyjax/ml.py:141-154", "scripts/train.py:142-150"]}
{"id": "C193", "title": "The gradient of a training step converges to the gradient of its loss", "statement": "The gradient that a training step computes for the parameters of the network, with the average eta held constant, is not the gradient of the loss function on its sample (C147). For many points it is: in any direction in the space of parameters, the probability that the two differ by at least epsilon is at most C/(count epsilon^2), for any number of sets of moduli in the step. The computed gradient also converges, with the same rate, to the derivative of the mean over the moduli of the limits of the loss for infinitely many points. With probability one the sample exists, the loss is differentiable and the gradient is computed without an exception.", "quantifier": "all smooth members of the family, all networks with continuously differentiable activation function and parameters for which the decoded triangular matrices have no zero on the diagonal, all numbers of sets of moduli, all directions, all numbers of points, all epsilon > 0", "why_tests_cant": "It is a statement about the law of gradients on random samples in the limit of many points; a test sees single values.", "anchors": ["scripts/train.py:142-160", "cyjax/ml.py:62-81", "cyjax/ml.py:184-199", "cyjax/ml.py:264-329", "scripts/train.py:157", "cyjax/ml.py:141-154", "scripts/train.py:142-150", "scripts/train.py:loss_function", "cyjax/ml.py:HNetMLP", "cyjax/ml.py:cholesky_from_param", "cyjax/ml.py:variance_eta_loss"]}
