# DESIGN

Formal model of `ml4physics/cyjax` (read from `/repo`) in Lean 4 + Mathlib, and proofs of the
properties in `properties.jsonl`.

## Layout

* `lean/Verif/Model/*.lean` – the model. One definition per function of the code, each with a comment
  citing file and lines and naming every simplification.
* `lean/Verif/Spec/*.lean` – small independent specifications (when Mathlib has no ready notion).
* `lean/Verif/Lemmas/*.lean` – helper lemmas.
* `lean/Verif/Props/*.lean` – the property theorems only (`Cnn_…`), each followed by a non-vacuity
  `example`/witness. A theorem that covers only part of a property ends in `_partial`; a theorem
  showing that the code violates a property ends in `_violated`.
* `seeded/LOG.jsonl` – mutation attempts on the model. `predicted` lists the claims expected to break before the run,
  `survived` those of them whose theorems still proved, with the reason, and `outcome` tells inconclusive runs apart.
  `claim` was filled in after the run from the predictions that failed, or from what failed if none of them did.
  A theorem counts as failed if its proof, or a lemma it uses, no longer checks; its negation was not proved. Later batches built
  only the modules of the predicted claims, so `failed` need not list every theorem that the edit breaks.
* `MANIFEST.json` – property → theorems.

## Modelling conventions

* **Numbers.** Floating point numbers are idealised: real arrays are over `ℝ`, complex arrays over `ℂ`
  (or an arbitrary field / commutative ring where the code only uses those operations). Rounding (but see C159 to C162),
  overflow, NaN and inf are not modelled; theorems carry the hypotheses (e.g. a divisor is non-zero)
  under which the exact computation is defined. Lean's totalised `x / 0 = 0` is never relied on.
* **Arrays.** JAX shapes are static, so an array of static length `n` is `Fin n → α`, a matrix
  `Fin r → Fin c → α` / `Matrix`. `jnp.roll`, slicing, `append` etc. are modelled entrywise
  (`Model/Array.lean`). Where the property is about shapes themselves (reshape, flatten) an array is
  shape + row-major data. Traced integer indices are `Int`.
* **jit / vmap / auto_vmap.** `jax.jit` is the identity; `vmap`/`auto_vmap` are pointwise application
  over leading batch axes (trusted). `Model/Batch.lean` models the broadcasting of `auto_vmap` (C156).
* **Autodiff.** `jax.grad/jacfwd/jacrev` are trusted to compute derivatives; the model uses the
  mathematical derivative (`HasDerivAt` of the modelled function, or an exact formula for polynomials).
* **Randomness.** Random draws are universally quantified inputs (restricted to the range guaranteed by
  the generator); keys are an abstract type with an abstract `split`.
* **Exceptions** are values (`Option`/`Except`).
* **from_sympy** takes the expanded polynomial and its free symbols *in iteration order* (an arbitrary list); the
  symbol scan, renaming and final checks of lines 467 ff. are modelled on these.
* **sympy** is trusted: a `sympy.Poly` is an `MvPolynomial` over symbols, a sympy expression an AST
  with its evaluation; `Poly.terms()` lists the support in descending lex order; `jnp.roots` returns
  exact roots (assumption stated as a hypothesis in the theorem).

## Plan per property
* **C01** pop removes exactly the requested entry — `pop` on `Fin (n+1) → α`, literal composition of two rolls; prove = (`a i`, `Fin.removeNth i a`) by modular arithmetic.
* **C02** pop with a negative index — same model with an integer index. False of the code (remaining entries come out rotated): counterexample + `_partial` for the value half.
* **C03** insert_1d places the block at the requested index — `insert1d` = roll, append, roll; spec `arr[:i] ++ val ++ arr[i:]` pointwise; modular arithmetic for both signs.
* **C04** insert_col inserts a column block row by row — `insertCol` on matrices; reduced to C03 row by row.
* **C05** pop and insert_1d are inverse — corollaries of C01 and C03.
* **C06** prod is the product and an empty product is 1 — `prod` as the loop with its `None` start; induction over the list.
* **C07** prod does not modify its inputs — heap model of in-place `*=`; false for a mutable first factor (counterexample); `_partial` for immutable first factors and for all cells except the first factor.
* **C08** binomial is the binomial coefficient — `binomial` over `Int` with ValueError as `none`; factorial identity.
* **C09** flatten_coord / unflatten_coord round-trip — n-d arrays as shape + row-major data; reshape round-trip; `fs_metric` and `fs_potential` at arrays of any shape (`Model/FsBatch.lean`).
* **C10** shuffle_axis only permutes slices along the axis — n-d array shuffle with an arbitrary family of permutations.
* **C11** mc_integrate estimates the integral of fn — false of the code (`fn` is ignored): counterexample, `_partial` for `fn = 1`.
* **C12** batched integration equals one big average — scan over keys as recursion; regroup sums; variance by Cauchy–Schwarz.
* **C13** PRNGSequence is a deterministic stream — state machine over abstract `split`; induction over calls.
* **C14** homogeneous/affine index conversion is inverse — `Int` arithmetic.
* **C15** affine -> homogeneous -> affine is the identity — from C01/C03 over any field.
* **C16** homogeneous -> affine -> homogeneous is rescaling — from C01/C03 over any field.
* **C17** automatic patch choice is numerically optimal — `argmax` modelled as first maximum; norm inequality.
* **C18** affine coordinates are scale invariant — argmax is invariant under scaling; division cancels.
* **C19** change_chart agrees with the homogeneous route — case split p<q / q<p on `insertNth`/`removeNth`.
* **C20** change_chart is a groupoid — from C19 + C15/C16.
* **C21** change_chart with equal charts is the identity — false of the code: counterexample; exact description of what is returned.
* **C22** Fubini-Study metric is Hermitian positive definite — quadratic form, Cauchy–Schwarz.
* **C23** fs_metric is the complex Hessian of fs_potential — `HasDerivAt` of the two-variable potential in each slot.
* **C24** fs_potential: homogeneous vs affine — sums over `insertNth`; `Complex.log` on positive reals.
* **C25** fs_metric determinant — matrix determinant lemma.
* **C26** fs_metric is chart independent — Jacobian of chart transition from `HasDerivAt`, matrix identity.
* **C27** jacobian_embed is the tangent frame — from C01/C04.
* **C28** induced_metric is the Hermitian pullback — conjugation by J; injectivity of Jᵀ for positive definiteness.
* **C29** volume density independent of the dependent coordinate — row-operation matrix between tangent frames with determinant ±G_d/G_d'.
* **C30** sampling weights independent of coordinate choice — from C29, C22, C28.
* **C31** separate weights are consistent with the ratio — false for vol ≠ 1: counterexample; `_partial` for vol = 1 and vol = None.
* **C32** sampled points lie on the variety — polynomial in t via exact root hypothesis; Horner form. A parameter that has the name of a symbol of the line either makes sampling fail or silently gives points off the variety (`C32_clash_violated`, `C32_silent_violated`).
* **C33** sample_intersect returns count points — count arithmetic; false for degree < number of variables: counterexample; `_partial` for degree ≥ number of variables (includes the CY case).
* **C34** solve_defining returns solutions extending the input — roll arithmetic + exact root hypothesis; patch=None raises (modelled as error).
* **C35** best_dependent picks the largest gradient entry — false (arguments swapped): the model evaluates the gradient at swapped arguments; counterexample + what holds.
* **C36** subscript split/merge round-trip — model of sympy's `split_super_sub` on character lists; induction.
* **C37** index union is an ordered union — loop as recursion on two lists; invariants.
* **C38** argument binding: positional = keyword — decision logic stated outright.
* **C39** numerical evaluation equals the polynomial value — AST induction.
* **C40** polynomials with complex coefficients can be evaluated — false (`I` is not a `sympy.Number`): theorem that evaluation errors exactly when an unsupported node occurs.
* **C41** symbolic evaluation is substitution — sequential vs simultaneous substitution; counterexample (swap) + `_partial` under non-interference.
* **C42** monomial evaluation modes agree — fold over powers, exp/log.
* **C43** from_coeffs_and_powers builds the documented polynomial — `MvPolynomial` semantics.
* **C44** to_coeffs_and_powers is inverse — `MvPolynomial` support sum; counterexample for complex coefficients.
* **C45** polynomial arithmetic is pointwise — metadata merge + `MvPolynomial` ring hom.
* **C46** diff is the derivative — `MvPolynomial.pderiv` and `HasDerivAt`.
* **C47** univariate_coefficients reproduce the polynomial — `MvPolynomial` as polynomial in one variable. The calls of `Poly.from_sympy` with arrays of symbols inside it are modelled too (`Model/UniCoeffs.lean`) and shown to give exactly the coefficient polynomials used elsewhere (`C47_from_sympy`; names must not be `params`, subscripts of parameters not negative).
* **C48** unique_patch_index is a bijection — mixed radix induction.
* **C49** compiled evaluation dispatches to the right patch — sorted table lookup from C48.
* **C50** affine polynomial equals homogeneous polynomial with coordinate one — `MvPolynomial` substitution.
* **C51** affine patch index is positional for any index set — false for general index sets: counterexample.
* **C52** affine polynomial cache is transparent — state machine over the cache, induction over histories; counterexample for out-of-range patch.
* **C53** Dwork and Fermat polynomials: closed form, homogeneity, patch consistency — closed forms, big operators.
* **C54** from_sympy does not depend on symbol iteration order — fold over an arbitrary permutation of the free symbols.
* **C55** from_sympy groups indexed symbols of one name — false without names (always rejected); true with the name given.
* **C89** from_sympy preserves values — from `callAt_ok` and the renaming lemma for the symbol scan.
* **C90** grad_defining is the holomorphic gradient — `callAt_ok` along a coordinate line and `MvPolynomial.pderiv`.
* **C91** explicit conjugate coordinates change nothing — conjugation of real polynomials, C28.
* **C92** value and patch independence of the weights — block determinant for the density of a kernel, inverse of the Fubini-Study metric, Euler's identity.
* **C93** documented features — comparison with `Complex.arg`; the angle feature is a sum of multiples of angles and leaves `(-pi, pi]`, refuted by a witness.
* **C94** hidden layers — list induction over `layer_sizes`; `zip` truncation shown by a witness.
* **C95** annulus law — polar coordinates change of variables against `ProbabilityTheory.cond volume`.
* **C96** sphere laws — invariance of the standard Gaussian under linear isometries.
* **C97** MonomialBasisReduced — C59 with sympy's term list; the column count is the number of variables that occur, so it fails for cones (witness).
* **C98** donaldson_step has a well-defined result — dependent sections make `T` singular, in particular the full basis with k ≥ deg P (witness polynomial P·X_0^(k-d)); for a basis modulo an irreducible P the Nullstellensatz gives points that make `T` positive definite.
* **C99** donaldson_step accepts any Hermitian H — type of the `fori_loop` carry; refuted for real element type.
* **C100** curvature independent of the dependent coordinate — change of frame for `jacobian_embed`, `log det` changes by the log of a squared holomorphic function.
* **C101** the algebraic metric is a global tensor — Euler's identity and the chain rule for `change_chart`.
* **C102** eta is global on a Calabi-Yau variety — block determinant covariance, `|det M|^2 |c|^(2(n+2)) = 1`.
* **C103** coordinates of the methods — the coordinate node of `GeometricObjects` is a function of the point.
* **C104** optional arguments — unfolding of the methods, C70 and C100.
* **C105** geometry at smooth points — sections that span the coordinate ring immerse along the variety, Euler's identity.
* **C106** eta as a function on the variety — C102 through the methods.
* **C107** Ricci from metric and from eta — C68; `log |G_d|^2` is pluriharmonic.
* **C108** local holomorphic coordinates — implicit function theorem, chain rule for `∂∂̄` along holomorphic maps, C64, C107.
* **C109** tensor law between patches, Ricci scalar a function on the variety — C108, C101, C106; `log |Z_q/Z_p|^2` is pluriharmonic.
* **C56** monomial_basis is complete and irredundant — `combinations_with_replacement` as recursion; counting.
* **C57** basis size formula — stars and bars.
* **C58** basis reduction never fails and is exact — invariant of the removal loop.
* **C59** reduced monomials form a basis modulo the polynomial — `MonomialOrder.lex` division / leading terms.
* **C60** section evaluation — scan of powers, big products, exp/log.
* **C61** sections transform as sections of O(k) — homogeneity of monomials, C15–C19.
* **C62** psi is real and positive — Hermitian forms.
* **C63** algebraic metric is Hermitian and positive semi-definite — Cauchy–Schwarz for the H inner product.
* **C64** g_proj is the complex Hessian of the Kahler potential — Wirtinger derivatives `HasWirtAt` of forms `s H conj(s)`, logarithm.
* **C65** hand-coded first derivative of the metric — `HasWirtAt`, quotient rule.
* **C66** hand-coded second derivative of the metric — `HasWirtAt`, quotient rule.
* **C67** pulled back metric derivatives — product rule for `HasWirtAt`.
* **C68** Ricci tensor is -d dbar log det g — derivative of `det` (Jacobi) and of `inv`.
* **C69** Ricci scalar is real — conjugate symmetry of traces.
* **C70** eta is real, positive and coordinate independent — C29 with the algebraic metric.
* **C71** geometry is invariant under rescaling H — algebra.
* **C72** diagonal H shortcut agrees — algebra; `psi_hh` violates it (missing return): modelled as shape error.
* **C73** sigma accuracy bounds — finite sums.
* **C74** donaldson_step preserves Hermiticity and positivity — matrix algebra.
* **C75** donaldson_step averages over all samples and is scale equivariant — matrix algebra, regrouping sums.
* **C76** Cholesky decoding is Hermitian positive semi-definite — `M Mᴴ`, determinant of triangular matrices.
* **C77** Cholesky parametrisation is complete — existence/uniqueness of UL-Cholesky by induction on the size.
* **C78** cholesky_from_param accepts exactly square sizes — integer square root arithmetic, shape errors as `none`.
* **C79** hermitian_param_init gives the identity — from C76/C78.
* **C80** BatchSampler stream is independent of buffering — state machine, refinement to the key stream.
* **C81** BatchSampler failure behaviour — state machine with failing sampler.
* **C82** variance_eta_loss is a non-negative, scale-invariant loss — finite sums.
* **C83** HNetMLP features — cartesian product counting.
* **C84** HNetMLP starts at the identity — false for sig_suppress=True (decodes to 1/4 identity); exact value proved.
* **C85** random complex values lie in the documented region — real/complex arithmetic.
* **C86** sphere samples have norm one — norm computations.
* **C87** projective_overlap points lie in the overlap — monotonicity of exp/log; C19.
* **C88** projective_overlap distribution is chart symmetric — false for most patch pairs (column 0 draw reused): counterexample; `_partial` for the {0,1} pair via a measure preserving map on draws.
* **C89–C109** see `properties.jsonl`; each has its file under `Props`.
* **C110–C112** the sampling pipelines (`sigma_accuracy`, `compute_vol`, `donaldson_step`) from the lines to the result — `Model/Pipeline.lean`; composition of the earlier results for the three kinds of varieties.
* **C113, C116** the same pipelines for random lines — the normal numbers behind `complex_sphere` are random variables with the
  law `Spec/LineLaw.lean` (independent standard normals; the keys of the batches of one `donaldson_step` or `compute_vol` call give
  independent draws). A smooth hypersurface in at least three coordinates is irreducible (`Lemmas/SmoothIrreducible.lean`), so bad
  lines form a null set (`Lemmas/NullSet.lean`, `GenericLine.lean`, `GenericPoints.lean`).
* **C117** `VarietySingle.from_sympy` — from C54/C89 and the sampling results; false of the code unless degree and number of
  coordinates agree.
* **C118–C120** dictionaries of positions, `poly()` and `any_symbolic` — lists and structural induction.
* **C114** smooth members of the families — partial derivatives and elimination by hand.
* **C115** multinomial `H` gives the Fubini–Study metric — multinomial theorem, then uniqueness of the metric of a potential (C64).
* **C121, C122** training samples and losses — C80 (buffer), C111/C113 (sampling) and the Cauchy–Schwarz inequality.
* **C123, C124** grid of moduli, batches and moduli sampler of the training script — lists; the absolute value is not bounded as the
  configuration says.
* **C125** generic smoothness of families — Nullstellensatz and a determinant (one degree in which the ideal of the form and its
  derivatives contains everything); **C126** batch sampler and loss with random moduli — Fubini over moduli and lines.
* **C127** the two-parameter quintic of `conf/quintic.yaml` — C117 for families, C126.
* **C128, C129** the training loop as a relation (it ends when a clock says so), invariant after `i` steps; the files are only written
  at evaluations, so they miss the last steps.
* **C130 – C132** the lines through two independent complex normal vectors: average over `p` along the direction `q` by the change of
  variables `(t, w) ↦` point on the cone (`CurveSwap`, from Mathlib's area formula for injective maps on countably many pieces), then
  integrate out the radius and `q` (`ConeIntegral`, `ConeAverage`, `ConeScaling`, `LineAverage`). This gives the density of the
  intersections, which is `n!/π^n det g` (`WeightAverage`). Sums over a sample are sums of independent, bounded functions of the lines
  (`SampleSums`), so expectation, Chebyshev's inequality and the strong law apply. Root finding is assumed to return all roots with
  multiplicity (`CompleteRoots`). Finding: `∫ dA = n + 2`, not `1`, so the estimates are too small by this factor
  (`C130_violated`); it is a constant, so it drops out of quotients of two estimates.
* **C133** `sigma_accuracy`: `eta` as a measurable, scale-invariant, bounded positive function of the homogeneous point (`EtaMeasure`), then
  Chebyshev for the three sums and a deterministic inequality for the quotient (`SigmaLimit`).
* **C134** `donaldson_step`: strong law for the entries of the T operator (bounded, scale-invariant functions), which is positive definite
  because a form that is no multiple of the defining one vanishes almost nowhere; continuity of the inverse.
* **C135** `uniform_projective`: the quotients of complex normals, integrated in polar form over the pivot coordinate; ties are null sets.
* **C136** arithmetic with numbers and symbols: the operand as a `Poly` object, then C45. Finding: `z_1` is not renamed to `z1`.
* **C137** `from_sympy` with arrays of symbols and with a `sympy.Poly`: both reduce to the call with names, for which a general
  success lemma (`fits_fromSympy`) is proved. Findings: generators that do not occur are lost, their order is the order of a set,
  and an array with symbols of different names is read under the first name.
* **C138** accuracy zero ⇔ `eta` constant ⇔ Ricci-flat. Almost everywhere constant means constant, as `eta` is continuous and every
  point has a chart (`RicciFlat`). The Ricci form is `-∂∂̄ log eta`, so flatness says that `log eta` is pluriharmonic; it takes its
  maximum on the compact variety and is locally constant there (`Pluriharmonic`), and the cone of an irreducible form is connected:
  a relatively clopen set would give a polynomial factor, by Liouville-type growth (`PolynomialGrowth`, `ConeConnected`).
* **C139** existence, uniqueness and global attraction of the balanced matrix. `Spec/Balanced.lean` defines balanced without the
  iteration (`N/V ∫ s_a conj(s_b)/ψ_h = (h⁻¹)ᵀ`). The proof is for abstract families of positive matrices of trace one: the step is
  monotone and homogeneous for the order of hermitian matrices, `det` grows and `∫ log tr(B H)` falls along it; existence by adding
  `ε·1` to the family and letting `ε → 0`, uniqueness by comparing along the largest relative eigenvector, convergence because an
  orbit that comes close to a fixed point stays close.
* **C140** the sampled algorithm: repeated `donaldson_step`s. The order argument also gives that a sampled step is
  continuous uniformly in the sample (`Lemmas/StepLimit.lean`), so that the errors of earlier steps do not destroy the limit in the number
  of batches; the steps need not be independent of each other.
* **C141** Hoeffding's inequality for sums over lines (`Lemmas/Hoeffding.lean`), so the error bounds of C132 and C133 become
  exponential and, by Borel-Cantelli, almost sure statements under any dependence between calls.
* **C142** the convergence of C134 and C140 for rows of batches: independence only within each call.
* **C143** the use of random keys. `Model/Keys.lean` lists the keys consumed by each function; `Spec/KeyTree.lean` states what is
  assumed of `jax.random.split` (no collisions) and of the values (`IdealGenerator`: independent for different keys). Both are
  assumptions about `jax`, not proved; the theorems `C143_volume_keys` and `C143_step_keys` tie the lists to the models of the functions.
* **C144** the default arguments of `from_coeffs_and_powers` (`Model/PolyDefaults.lean`): names, indices and parameters derived from the
  powers and symbolic coefficients. The order in which python lists a set is an arbitrary permutation; identifiers are ASCII.
* **C145** the law of `real_sphere` and `complex_sphere` is the normalised surface measure, as share of cones in the ball and as Mathlib's
  `Measure.toSphere`. Standard normal draws are exact (`normalRow`), as in C96.
* **C146** `Model/LossGrad.lean` keeps the argument of `stop_gradient` apart (`lossStopped`) and models `jax.value_and_grad` by the
  Fréchet derivative with that argument constant. The computed gradient, its difference from the derivative of the loss, and three positive etas for
  which a small step against it increases the loss.
* **C147** the same for `value_and_grad(loss_function)` of the training script (`trainValueAndGrad`): network, decoding, `eta` and loss are
  differentiable in the weights and biases; dropout is multiplication by a mask fixed by the key.
* **C148** the variance returned by `compute_vol` treats all points as independent, but the `n + 2` points on one line are not. Exact formula
  for its expectation, and an upper bound of the variance of the result by `(n + 2) N / (N - n - 2)` times this expectation.
* **C149** the function that `HNetMLP` computes: features, dense layers with dropout, gated last layer; rows of a batch are independent. Flax's
  `Dense` and `Dropout` are modelled by their documented formulas; the random mask is an arbitrary function of row, layer and entry.
* **C150** evaluation with object identity (`Model/EvalHeap.lean`): the compiled function of `_eval_sympy_poly` hands the objects of the caller
  to `util.prod`, which multiplies in place. A refinement relates it to evaluation on values (C39) where no product begins with a mutable input;
  a witness shows that other products overwrite the input. An input of a scalar variable is one number (a numpy array of shape `()`).
* **C151**, **C152** Ricci scalar: `Lemmas/HopfMax.lean` proves the strong maximum principle of Hopf for operators given as finite sums
  of second derivatives, `Lemmas/LeviTrace.lean` rewrites the trace of a Levi form with a positive matrix in this way, and
  `Lemmas/RicciScalar.lean` applies it in the charts of C138 to `log eta`. So a Ricci scalar of one sign forces `eta` to be constant.
  `Props/FubiniStudyFlat.lean` computes `eta` of the Fubini–Study metric and compares it at explicit points;
  `Lemmas/FubiniStudyLow.lean` does so for the cubic curves (where the values agree only for singular members) and quartic surfaces.
* **C153** Kahler volume: `Lemmas/NullLagrangian.lean` proves that the integral of `det ∂∂̄(κ + u) - det ∂∂̄κ` over coordinates vanishes if
  `u` has compact support (the determinant is a divergence). `Lemmas/ChartChange.lean` defines the volume density of a potential on the
  hypersurface, `Lemmas/VolumeInvariance.lean` cuts a difference of potentials into pieces supported in single charts, and
  `Lemmas/KahlerVolume.lean` identifies `eta` with the density of the Kahler potential. Points and weights as in C130.
* **C154** plots: `Model/Plot.lean` returns the panels with their data; the statements use multi-indices of the array (`Spec/Plot.lean`),
  and `C154_axes` combines them with the grid of the evaluation.
* **C155** symmetries: `Spec/Symmetry.lean` says what a symmetry of the variety and its action on the sections are. The measures are invariant because the
  random lines are; `eta` is compared in local coordinates with the Fubini–Study metric, whose `eta` is known in closed form (C152).
* **C156** batches: `Model/Batch.lean` has arrays with batch axes, numpy's broadcasting and the array program of `sigma_accuracy`;
  `Spec/Broadcast.lean` states the broadcasting rule without recursion. Key lemma: adapting an index twice is adapting it once.
* **C157** printing: `Model/Printing.lean` builds the strings; unique readability by cutting at the first delimiter (`word_cut`). False for arrays without
  entries and for the exponent of CP from ten on.
* **C158** `transform_eval` on batches: `Model/TransformEval.lean`, on top of the broadcasting model of C156.
* **C159** Rounding: `Model/Rounding.lean` repeats the evaluator of polynomials with an arbitrary arithmetic (`Arith`: add, mul,
  constants); with exact arithmetic it is the evaluator of C39. `Arith.Accurate ε` is the standard model of floating point
  (relative error at most `ε` per operation); it is proved for complex arithmetic on correctly rounded binary numbers (`rnd p`).
  Overflow and subnormal numbers are not modelled.
* **C160** Rounding errors of both ways to evaluate sections; reductions are binary trees (`RTree`) over the entries, so that every
  summation order is covered.
* **C161** Rounding errors of `sigma_accuracy`; quotient and absolute value are `DivAbs`, with the same standard model.
* **C162** Rounding in `projective.py`: choice of the patch, charts, Fubini-Study metric and potential.
* **C163** Sampling with a root finder of backward error `τ` (`ApproxRoots`) instead of an exact one; strengthens C32.
* **C164** Stability of `donaldson_step`: errors measured as factors of quadratic forms (`WithinFactor`) are not increased by a step.
* **C165** `donaldson_step` in rounded arithmetic: symmetrisation, denominators (pairwise `einsum` contraction), batch means, the loop, the normalisation; the inverse is a parameter.
* **C166** `sample_intersect_weights` in rounded arithmetic: argmax of rounded absolute values, Jacobian, two matrix products with arbitrary summation orders, the normalisation; the determinant is a parameter.
* **C167** `psi`, `psi_h`, `psi_ha`, `g_proj`, `jac`, `g_loc` and `eta` in rounded arithmetic: pairwise contractions in either order with arbitrary summation orders; the determinant is a parameter.
* **C168** No new code; the programs of C161, C166 and C167 together, with `Spec.Evaluation` for the inputs of a numerical evaluation at one point.
* **C169** No new code; `donaldsonStepF` of C165 repeated, with `Spec.InvStable` for the inverse of the library and `Spec.StepInputs` for the inputs of a step.
* **C170** No new code; the rounded programs of C161, C165, C166 and C167 in sequence. `Spec.RunStep` collects the inputs of a step whose weights are computed.
* **C171** `Model/RoundingIntegrate`: `mc_integrate` and `mc_integrate_batched` with `var=True` in a given arithmetic, for given values of integrand and weights.
* **C172** `Model/RoundingCholesky`: `cholesky_decode` in a given arithmetic. `Spec/RoundingCholesky`: roundings that commute with the sign.
* **C173** `Model/RoundingLoss`: `variance_eta_loss` in a given arithmetic. `Spec/RoundingLoss`: accurate logarithms, roundings that keep zero and one.
* **C174** `Spec/LossLimit`: the variance of `eta` as an integral over the hypersurface. The sampled row and the loss are those of C121 and C122.
* **C175** `Spec/SampledRounding`: the numbers that can be computed from a list of points, in any arithmetic of a given accuracy with evaluations of a given accuracy at these points.
* **C176** `Model/SubscriptForms`: `merge_subscript` for all integers.
* **C177** `Model/PolyClass`: the class of an object, `from_poly` and its overrides, the class of derivatives, sums, differences and products, and the effect of the argument `patch` on each class.
* **C178** `Model/InputSizes`: which entries a call reads from a jax array of any size.
* **C179** Uniform convergence of the training loss over compact sets of matrices or network parameters, and convergence of minimisers; from the exponential bounds of C141 and the joint continuity of eta.
* **C180** Uniform convergence of the accuracy over compact sets of matrices, continuity of accuracy and loss in the matrix, and existence of minima.
* **C181** Expressions of polynomial objects, by induction over the expression; generators of merged polynomials.
* **C182** Asymptotic normality of compute_vol and coverage of its standard error, from Mathlib's central limit theorem and Slutsky's theorem.
* **C183** Expectation, variance and coverage of mc_integrate with independent samples, for the integrand one; failure for other integrands.
* **C184** Monte Carlo integration with weights of shape (count, k): the batched variances mix the components.
* **C185** The law of the initial parameters with fluctuation: positive definite almost surely, but not in the documented range.
* **C186** The law of uniform_components and of the moduli sampled for training.
* **C187** The conversion of sympy numbers by their classes, exponents, and the loop over the factors of a coefficient.
* **C188** The central limit theorem for the training loss on sampled points.
* **C189** The central limit theorem for a step of Donaldson's algorithm, by the delta method for the inverse of a matrix of means.
* **C190** The central limit theorem for self-normalised averages, and from it an asymptotic bound on the error of sigma_accuracy.
* **C191** Independent normal limits of the losses of the moduli add up: the law of the loss of a whole training step.
* **C192** The integral of eta does not depend on the matrix (C153), so the mean of the derivative of eta over the sample tends to zero and with it the error from `stop_gradient`.
* **C193** The network is continuously differentiable in its parameters, so C192 applies along each line in the space of parameters and for each set of moduli.

## Trusted base

* Lean 4.33.0 kernel; axioms `propext`, `Classical.choice`, `Quot.sound` only.
* The faithfulness of the hand-written model to `/repo` (nothing is executed).
* The idealisations listed under *Modelling conventions*.

## What is modelled and what is not

`tools/coverage.py` lists every function of `/repo/cyjax` with the model definitions that cite its lines.

Modelled, function by function: `util.py`, `projective.py`, `differential.py`, `random.py` (all functions); `polynomial.py`
except the functions below; `variety.py` except the functions below; `donaldson.py` except the functions below; `ml.py`
(Cholesky coding, `BatchSampler`, `variance_eta_loss`, `HNetMLP`); of `scripts/train.py` the moduli sampler, the loss function and
the evaluation on a grid.

Not modelled:

* `polynomial.py`: sympy's printer (an argument of the printing functions); `_sympy_eval_num` in the models of evaluation (numbers of sympy are their values there; C187 models the conversion);
  `Poly.domain` and `from_poly`.
* `donaldson.py`: the abstract base class `LBSections` and `_transform_if_static` (jit plumbing).
* `ml.py`: `BatchSampler.__iter__` (returns `self`).
* `scripts/train.py`: optimiser; of the plots colours, layout and drawing itself (`Model/Plot.lean` has the data of the panels); notebooks, documentation and packaging.
* Inside modelled functions: floating point rounding (except for C159 to C175 and C187, in the standard model of rounding), jit compilation, device placement, dtype promotion (except for C99),
  the PRNG itself (draws are inputs; C86, C88, C113 and C116 take `jax.random.normal` to give independent standard normals), the
  root finder of `jnp.roots` (`ExactRoots`: it returns all roots of a polynomial with non-zero leading coefficient) and Flax's parameter initialisation of hidden layers.
