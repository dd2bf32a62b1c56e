{"id": "C01", "title": "The inner minimiser always stops, after between 1 and max(1, maxiter) iterations", "statement": "Calling the L-BFGS driver on any objective, any starting point and any tolerances terminates; the iteration count it reports is at least 1 and at most max(1, maxiter). This also holds if the objective produces NaN or infinity.", "quantifier": "for all objectives, starting points, tolerances, maxiter, and any arithmetic (comparison results are arbitrary, so IEEE NaN is covered)", "why_tests_cant": "termination over all objectives and all float behaviours is an unbounded claim; a test can only run finitely many objectives to completion", "anchors": ["src/quadcoil/solver.py: run_opt_lbfgs", "src/quadcoil/solver.py: run_opt_optax"]}
{"id": "C02", "title": "If the inner minimiser stops before its iteration budget, a requested tolerance was met", "statement": "When the reported iteration count is below maxiter, then at the returned state: the gradient norm is not above gtol, or the average improvement over the recorded history is not above fstop, or the last step, the last update change and the last value change are all not above xstop/xstop/fstop. The averaged improvement equals (oldest recorded value - newest recorded value)/9.", "quantifier": "for all objectives, starting points, tolerances and iteration budgets", "why_tests_cant": "a test sees one run; the claim is about why any run stops", "anchors": ["src/quadcoil/solver.py: run_opt_optax", "src/quadcoil/solver.py: continuing_criterion"]}
{"id": "C03", "title": "Stopping does not depend on adding a constant to the objective", "statement": "Adding a constant to an objective must not change how many iterations the inner minimiser performs (minimisation is shift invariant). In particular an objective that is negative at the start (e.g. an augmented Lagrangian with positive multipliers) must be minimised just as thoroughly.", "quantifier": "for all objectives, shifts and tolerances", "why_tests_cant": "tests use non-negative objectives; the failure needs a negative start value", "anchors": ["src/quadcoil/solver.py: run_opt_optax (init_val_rec)", "src/quadcoil/solver.py: continuing_criterion"]}
{"id": "C04", "title": "The constrained solve terminates and its total iteration count is bounded", "statement": "solve_constrained terminates for every objective and constraint set; the reported total number of inner iterations is at most (maxiter_tot - 1) + 2*max(1, maxiter_inner) when maxiter_tot >= 1, and it performs at most max(1, maxiter_tot) + 1 outer steps. NaN values do not prevent termination.", "quantifier": "for all objectives, constraints, tolerances, penalties, budgets, and any arithmetic", "why_tests_cant": "termination of nested data dependent loops cannot be established by running examples", "anchors": ["src/quadcoil/solver.py: solve_constrained", "src/quadcoil/solver.py: outer_convergence_criterion", "src/quadcoil/solver.py: body_fun_augmented_lagrangian"]}
{"id": "C05", "title": "maxiter_tot caps the total number of L-BFGS iterations", "statement": "As documented, the number of L-BFGS iterations summed over all outer iterations never exceeds maxiter_tot.", "quantifier": "for all problems and budgets", "why_tests_cant": "tests never hit the cap; needs reasoning about the loop guard that is only checked between inner solves, and about the extra polishing solve", "anchors": ["src/quadcoil/solver.py: solve_constrained (maxiter_tot)", "docs: maxiter_tot"]}
{"id": "C06", "title": "Inequality multipliers stay non-negative", "statement": "Starting from non-negative multipliers and a positive penalty with growth rate >= 1, after every outer iteration and in the returned status every inequality multiplier is >= 0, equals max(mu + c*g, 0) componentwise, and is exactly 0 wherever g <= -mu/c.", "quantifier": "for all numbers of outer iterations, all objective and constraint functions, all inner solver outcomes", "why_tests_cant": "invariant over unboundedly many iterations and arbitrary functions", "anchors": ["src/quadcoil/solver.py: gplus_hard", "src/quadcoil/solver.py: solve_constrained", "src/quadcoil/solver.py: body_fun_augmented_lagrangian"]}
{"id": "C07", "title": "The penalty weight never decreases and never explodes", "statement": "The penalty used in each outer iteration is non-decreasing, always positive, changes only by exactly the growth factor and only when the current point violates ctol, and never exceeds max(c_init, c_k_safe*growth).", "quantifier": "for all problems and all numbers of iterations, growth >= 1, c_init > 0", "why_tests_cant": "invariant over all run lengths", "anchors": ["src/quadcoil/solver.py: solve_constrained", "src/quadcoil/solver.py: body_fun_augmented_lagrangian (c_k)"]}
{"id": "C08", "title": "Reported f, g, h belong to the reported solution", "statement": "In the returned solver status, inner_fin_f, inner_fin_g and inner_fin_h are the objective and constraints evaluated at exactly inner_fin_x, and outer_dx is the distance between the last two outer iterates.", "quantifier": "for all problems and run lengths", "why_tests_cant": "aliasing/staleness bugs depend on control flow, a numeric test with converged runs cannot distinguish x_k from x_{k-1}", "anchors": ["src/quadcoil/solver.py: solve_constrained", "src/quadcoil/solver.py: body_fun_augmented_lagrangian"]}
{"id": "C09", "title": "The reported optimum value is the value at the reported optimum", "statement": "run_opt_lbfgs returns (x, value, ...) with value = objective(x); hence the inner_fin_f of an unconstrained solve and inner_fin_l_aug of a constrained one are the values at inner_fin_x.", "quantifier": "for all objectives and optimiser behaviours", "why_tests_cant": "when converged the last two iterates are close, so a numeric comparison with tolerance passes either way", "anchors": ["src/quadcoil/solver.py: run_opt_optax", "src/quadcoil/quadcoil.py: quadcoil (inner_fin_f)"]}
{"id": "C10", "title": "Normal exit of the outer loop means convergence", "statement": "If the outer loop ends with iterations left and penalty not beyond the safe limit, then the last outer step was below xstop_outer and every constraint satisfies g < ctol and |h| < ctol at the loop's last iterate.", "quantifier": "for all problems, tolerances and run lengths", "why_tests_cant": "needs the negation of the loop guard, for all runs", "anchors": ["src/quadcoil/solver.py: outer_convergence_criterion", "src/quadcoil/solver.py: solve_constrained (final body call)"]}
{"id": "C11", "title": "A stationary point of the augmented Lagrangian is stationary for the Lagrangian with the updated multipliers", "statement": "For differentiable f, g, h the derivative of the inner objective at x equals f' + sum (lam+c h) h' + sum max(mu+c g,0) g', i.e. the derivative of the ordinary Lagrangian at the multipliers the solver stores after the step. So an exactly solved inner problem returns a KKT-stationary triple.", "quantifier": "for all differentiable f, g, h, all points (including kinks of the max), all c > 0", "why_tests_cant": "a derivative identity over all functions; at the kink finite differences are unreliable", "anchors": ["src/quadcoil/solver.py: body_fun_augmented_lagrangian (l_k)", "src/quadcoil/solver.py: gplus_hard"]}
{"id": "C12", "title": "Fixed points of the multiplier update are exactly feasible complementary points", "statement": "An outer update leaves all multipliers unchanged if and only if h(x)=0, g(x)<=0, and mu_i*g_i(x)=0 for all i (given mu>=0, c>0).", "quantifier": "for all constraint values, multipliers, penalties", "why_tests_cant": "an equivalence over the reals", "anchors": ["src/quadcoil/solver.py: gplus_hard", "src/quadcoil/solver.py: body_fun_augmented_lagrangian (lam_k_new, mu_k_new)"]}
{"id": "C13", "title": "Internal rescaling of the unknowns is invisible", "statement": "The scale factor used between outer iterations is always non-zero, each inner solve starts exactly from the previous outer iterate, and the inner objective as a function of the unscaled point does not depend on the scale factor.", "quantifier": "for all problems, iterates and scale factors", "why_tests_cant": "requires all iterates, including the zero vector where the norm vanishes", "anchors": ["src/quadcoil/solver.py: solve_constrained (x_unit)"]}
{"id": "C14", "title": "Smooth surrogates of the positive part bracket the hard one", "statement": "For scale > 0, c > 0: g <= elu version <= hard version <= softplus version <= hard version + log(2)/scale; the multiplier after a softplus step is positive, and after an elu step is > -c/scale (it can be negative).", "quantifier": "for all g, mu, c, scale", "why_tests_cant": "inequalities over all reals", "anchors": ["src/quadcoil/solver.py: gplus_hard", "src/quadcoil/solver.py: gplus_elu", "src/quadcoil/solver.py: gplus_softplus"]}
{"id": "C15", "title": "Parsed constraints mean what the user asked for", "statement": "Without smoothing, a point satisfies all generated inequality (<= 0) and equality (= 0) functions if and only if every requested constraint holds: quantity <= value, >= value or == value at every grid point, for each requested name. The number of inequality and equality blocks equals the number of '<='/'>=' and '==' requests and their order is preserved.", "quantifier": "for all lists of constraints of any length, all quantities, values and positive units", "why_tests_cant": "an equivalence of feasible sets over all inputs", "anchors": ["src/quadcoil/wrapper.py: _parse_constraints", "src/quadcoil/wrapper.py: _add_quantity"]}
{"id": "C16", "title": "Leaving the unit as None does not change the constraint", "statement": "Constraint units only rescale: with unit None the feasible set is the same as with any explicit unit.", "quantifier": "for all quantities and points", "why_tests_cant": "depends on the sign of the quantity at zero current potential, which tests with positive currents do not exercise", "anchors": ["src/quadcoil/wrapper.py: _add_quantity (unit None)", "src/quadcoil/quantity/current.py: _K_theta"]}
{"id": "C17", "title": "Smoothed ('approx') inequality constraints are conservative and tight to eps*log(n)", "statement": "In approx mode, satisfying the generated inequality implies the requested inequality at every grid point; conversely if every grid point satisfies it with margin eps*log(n) (in units), the generated inequality holds.", "quantifier": "for all fields, grid sizes n >= 1, eps > 0", "why_tests_cant": "analytic inequality over all reals and sizes", "anchors": ["src/quadcoil/wrapper.py: _parse_constraints (approx)", "src/quadcoil/math_utils.py: max_lse"]}
{"id": "C18", "title": "Smoothed equality constraints still mean equality", "statement": "In approx mode an '==' constraint on a field is satisfied by every field that equals the requested value everywhere, and only by those up to O(eps).", "quantifier": "for all fields and grid sizes", "why_tests_cant": "needs a counterexample field; tests only use scalar equality or none", "anchors": ["src/quadcoil/wrapper.py: _parse_constraints (approx, '==')"]}
{"id": "C19", "title": "The slack form of a max-norm quantity is exact", "statement": "For f_max_* quantities (not squared) in slack mode: there is a value of the auxiliary variable satisfying the generated inequalities with objective <= t if and only if max|field|/unit <= t; the supplied initial auxiliary value is feasible and attains the true value.", "quantifier": "for all fields, grid sizes >= 1, units > 0, t", "why_tests_cant": "statement about a minimum over an auxiliary variable", "anchors": ["src/quadcoil/quantity/quantity.py: generate_linf_norm", "src/quadcoil/wrapper.py: _add_quantity"]}
{"id": "C20", "title": "The slack form of squared and fourth-power max quantities is exact", "statement": "For quantities built with square=True (max field^2) and for the fourth-power variant, the slack reformulation attains exactly max field^2/unit and max field^4/unit.", "quantifier": "for all fields, grid sizes >= 1, units > 0", "why_tests_cant": "minimum over an auxiliary variable", "anchors": ["src/quadcoil/quantity/quantity.py: generate_linf_norm (square)", "src/quadcoil/quantity/quantity.py: generate_linf_norm_4"]}
{"id": "C21", "title": "Approximate max quantities converge to quantity/unit", "statement": "In approx mode every max-type quantity converges, as the smoothing eps tends to 0, to quantity/unit, the same scaled value as the other smoothing modes, so objective weights and constraint thresholds keep their meaning.", "quantifier": "for all fields, units > 0", "why_tests_cant": "limit statement; tests use unit=1 or do not compare modes with units", "anchors": ["src/quadcoil/quantity/quantity.py: generate_linf_norm", "src/quadcoil/quantity/quantity.py: generate_linf_norm_4", "src/quadcoil/math_utils.py: linf_lse"]}
{"id": "C22", "title": "The slack form of an L1 quantity is exact", "statement": "For scalar-field L1 quantities in slack mode, the minimum of the generated objective over feasible auxiliary fields equals the L1 integral divided by the unit, and the initial auxiliary field is feasible and attains it.", "quantifier": "for all fields, non-negative area weights, units > 0", "why_tests_cant": "minimum over a field of auxiliary variables", "anchors": ["src/quadcoil/quantity/quantity.py: generate_l1_norm"]}
{"id": "C23", "title": "Using one quantity twice does not couple the two uses", "statement": "Using the same slack quantity as objective with unit u1 and in a '<=' constraint with unit u2 yields the feasible set {quantity <= value}.", "quantifier": "for all units u1, u2 > 0 and fields", "why_tests_cant": "requires the same name in two roles with different units", "anchors": ["src/quadcoil/wrapper.py: _add_quantity", "src/quadcoil/quantity/quantity.py: _Quantity", "src/quadcoil/quadcoil.py: f_g_ineq_h_eq_from_y"]}
{"id": "C24", "title": "The total objective is the weighted sum of quantity/unit", "statement": "The total objective equals sum_i weight_i*quantity_i/|unit_i| in the given order; a single string objective equals quantity/|unit| with weight 1.", "quantifier": "for all lists of objectives of any length", "why_tests_cant": "for lists of any length and all weights", "anchors": ["src/quadcoil/wrapper.py: _parse_objectives", "src/quadcoil/wrapper.py: _add_quantity"]}
{"id": "C25", "title": "Illegal requests are always rejected, legal ones never", "statement": "Parsing constraints raises exactly when the four lists differ in length, or for some request: the name is unknown or not a quantity, the smoothing mode is not None/'slack'/'approx', the quantity does not support the requested role, the constraint type is not one of '>=','<=','==', or the unit is neither None nor a scalar. Parsing a tuple of objectives raises exactly when the numbers of names and weights differ, there are fewer units than names, or some objective is illegal in the same sense. Otherwise parsing succeeds.", "quantifier": "for all lists of requests", "why_tests_cant": "complete decision table over unbounded lists", "anchors": ["src/quadcoil/wrapper.py: get_quantity", "src/quadcoil/wrapper.py: _add_quantity", "src/quadcoil/wrapper.py: _parse_constraints", "src/quadcoil/wrapper.py: _parse_objectives"]}
{"id": "C26", "title": "Two quantities never share an auxiliary variable", "statement": "After any sequence of quantity definitions (some failing), no two successfully defined quantities own an auxiliary variable with the same name.", "quantifier": "for all sequences of constructor calls", "why_tests_cant": "invariant over all histories", "anchors": ["src/quadcoil/quantity/quantity.py: _Quantity.__init__"]}
{"id": "C27", "title": "Merging constraint functions concatenates all outputs in order", "statement": "The merged constraint function returns the flattened outputs of the given functions in order, skipping None, so its length is the sum of the sizes; with merging enabled it returns a single number bounding all of them from above, and merging is refused outside approx mode.", "quantifier": "for all lists of functions and outputs", "why_tests_cant": "for lists of any length", "anchors": ["src/quadcoil/wrapper.py: merge_callables"]}
{"id": "C28", "title": "Argument validation accepts exactly the documented argument shapes", "statement": "quadcoil rejects a call before solving iff: not exactly one of plasma_coil_distance/winding_dofs is given, a non-string objective is not a tuple, its weights are not a 1-D array, the objective lists disagree in length, constraint names/types are not tuples, or the constraint lists disagree in length.", "quantifier": "for all argument combinations", "why_tests_cant": "complete decision table", "anchors": ["src/quadcoil/quadcoil.py: quadcoil", "src/quadcoil/quadcoil.py: _input_checking", "src/quadcoil/math_utils.py: is_ndarray"]}
{"id": "C29", "title": "Gradients are returned for exactly the differentiable inputs in use", "statement": "For every metric, the 'grad' dictionary has exactly the keys df_dplasma_dofs, df_dnet_poloidal_current_amperes, df_dnet_toroidal_current_amperes, plus df_dobjective_weight iff the objective is a tuple, df_dconstraint_value iff there are constraints, df_dBnormal_plasma iff given, and exactly one of df_dwinding_dofs / df_dplasma_coil_distance.", "quantifier": "for all argument combinations and metric lists", "why_tests_cant": "all combinations of optional arguments", "anchors": ["src/quadcoil/quadcoil.py: quadcoil (y_dict_current)", "src/quadcoil/quadcoil.py: quadcoil (out_dict)"]}
{"id": "C30", "title": "Every requested metric is reported", "statement": "For every metric list the output dictionary has an entry for every requested metric, in value_only mode as well as in gradient mode.", "quantifier": "for all metric lists", "why_tests_cant": "depends on the special metric name", "anchors": ["src/quadcoil/quadcoil.py: quadcoil (value_only)", "docs: tutorial_outputs"]}
{"id": "C31", "title": "Log-sum-exp bounds", "statement": "max(x) <= max_lse(x) <= max(x)+eps*log(n); |x| <= abs_lse(x) <= |x|+eps*log 2; max|x| <= linf_lse(x) <= max|x|+eps*log(2n); max_lse is monotone and commutes with adding constants, and abs_lse is even.", "quantifier": "for all non-empty arrays and eps > 0", "why_tests_cant": "analytic inequality over all arrays", "anchors": ["src/quadcoil/math_utils.py: max_lse", "src/quadcoil/math_utils.py: abs_lse", "src/quadcoil/math_utils.py: linf_lse"]}
{"id": "C32", "title": "Cylindrical components are rotation invariant", "statement": "The components returned by project_arr_cylindrical do not change when point and vector are rotated together about the axis.", "quantifier": "for all positions off the axis and vectors", "why_tests_cant": "existing test compares the function with itself; failure needs z != 0", "anchors": ["src/quadcoil/math_utils.py: project_arr_cylindrical", "src/quadcoil/quantity/curvature.py: _K_dot_grad_K_cyl", "src/quadcoil/quantity/force.py: _f_l1_force_cyl"]}
{"id": "C33", "title": "The custom reverse rule of the linear solve is the true adjoint", "statement": "For an invertible system A x = b, the cotangents returned for A and b reproduce the directional derivative of <g, x> for every perturbation (dA, db).", "quantifier": "for all sizes, invertible A, b, g and perturbations", "why_tests_cant": "derivative identity over all matrices", "anchors": ["src/quadcoil/math_utils.py: safe_linear_solve", "src/quadcoil/math_utils.py: safe_linear_solve_bwd"]}
{"id": "C34", "title": "Reported gradients are the total derivatives of the metrics along optimal solutions", "statement": "If the optimum depends differentiably on the inputs, stays stationary, and the Hessian is invertible, then the reported gradient -d_x d_y l . (H^-1 d_x F) + d_y F equals the derivative of F(x*(y), y), for metrics whose explicit dependence on the inputs goes through the problem parameters.", "quantifier": "for all twice differentiable Lagrangians, metrics and inputs", "why_tests_cant": "finite differences through a nested solver are too noisy, and objective weights are not covered", "anchors": ["src/quadcoil/quadcoil.py: quadcoil (dfdy)", "src/quadcoil/quadcoil.py: quadcoil (f_metric)"]}
{"id": "C35", "title": "The better of two linear solves is used", "statement": "The vector used in the gradient is the one, of the raw and preconditioned solves, with the smaller residual of the original system; if either solves it exactly, so does the chosen one. If the projectors are exact the preconditioned system has every solution of the original system.", "quantifier": "for all matrices and right-hand sides", "why_tests_cant": "all matrices", "anchors": ["src/quadcoil/quadcoil.py: quadcoil (vihp)", "src/quadcoil/quadcoil.py: quadcoil (Ohess)"]}
{"id": "C36", "title": "The current-potential coefficient count and layout agree with the mode tables", "statement": "ndofs = 2*mpol*ntor+mpol+ntor (twice that plus one without stellarator symmetry) equals the length of the mode tables; the stellarator symmetric table lists each Fourier mode of the given resolution exactly once up to sign and never (0,0).", "quantifier": "for all mpol, ntor >= 0", "why_tests_cant": "for all resolutions", "anchors": ["src/quadcoil/quadcoil_params.py: make_mn_helper", "src/quadcoil/quadcoil_params.py: cp_ndofs"]}
{"id": "C37", "title": "Surface coefficient layout", "statement": "The surface mode tables have 1+ntor+mpol(2ntor+1) cosine and ntor+mpol(2ntor+1) sine modes without repetition, the required number of dofs follows, and the entry used as the minor radius (index 2*ntor+1) is the m=1, n=0 cosine coefficient of R whenever mpol >= 1.", "quantifier": "for all mpol >= 1, ntor >= 0", "why_tests_cant": "for all resolutions", "anchors": ["src/quadcoil/surfacerzfourier_jax.py: make_rzfourier_mc_ms_nc_ns", "src/quadcoil/quadcoil.py: quadcoil (phi_unit)"]}
{"id": "C38", "title": "Surface derivative arrays are the exact derivatives of all orders", "statement": "The arrays for derivative orders (a+1,b) and (a,b+1) are the phi and theta derivatives of the array for orders (a,b), for R, Z and the Cartesian position, for all a, b.", "quantifier": "for all surfaces, resolutions, points, and derivative orders", "why_tests_cant": "all orders and all coefficients; finite difference tests check a few low orders", "anchors": ["src/quadcoil/surfacerzfourier_jax.py: dof_to_rz_op", "src/quadcoil/surfacerzfourier_jax.py: dof_to_gamma_op", "src/quadcoil/surfacerzfourier_jax.py: gammadash1 ... gammadash2dash2dash2"]}
{"id": "C39", "title": "Surfaces have the advertised discrete symmetries", "statement": "Every surface is periodic in theta, advancing phi by 1/nfp rotates it by 2*pi/nfp about the z axis (as do all its derivative arrays), and a stellarator-symmetric surface satisfies (x,y,z)(-phi,-theta) = (x,-y,-z).", "quantifier": "for all surfaces and points", "why_tests_cant": "for all coefficients and points", "anchors": ["src/quadcoil/surfacerzfourier_jax.py: dof_to_gamma_op", "src/quadcoil/surfacerzfourier_jax.py: SurfaceRZFourierJAX"]}
{"id": "C40", "title": "The spectral derivative operators of the current potential are exact", "statement": "Applied to any coefficient vector, the operators for first and second derivatives give the true phi/theta partial derivatives of the current potential, in both symmetry modes.", "quantifier": "for all resolutions, coefficients, points, symmetry modes", "why_tests_cant": "for all coefficients and modes", "anchors": ["src/quadcoil/quadcoil_params.py: diff_helper", "src/quadcoil/quantity/dipole.py: _Phi"]}
{"id": "C41", "title": "Surface current is n x grad(Phi), tangential and divergence free", "statement": "K is orthogonal to the surface normal, equals unit normal x surface gradient of the full (net-current) potential, is affine in the coefficients, and its surface divergence vanishes.", "quantifier": "for all surfaces with non-degenerate normal, all coefficients", "why_tests_cant": "vector identities for all fields", "anchors": ["src/quadcoil/quantity/current.py: _K", "src/quadcoil/surfacerzfourier_jax.py: grad_helper", "src/quadcoil/quadcoil_params.py: diff_helper"]}
{"id": "C42", "title": "The reciprocal basis is dual to the tangent vectors", "statement": "The two gradient vectors satisfy g_i . dgamma_j = delta_ij and are tangent to the surface; the unit normal has length one.", "quantifier": "for all points with non-zero normal", "why_tests_cant": "algebraic identity", "anchors": ["src/quadcoil/surfacerzfourier_jax.py: grad_helper", "src/quadcoil/surfacerzfourier_jax.py: unitnormal"]}
{"id": "C43", "title": "K derivative helpers and K.grad(K) are exact", "statement": "The helper arrays for derivatives of dgamma/|N| are exact derivatives, the K-derivative operators give dK/dphi and dK/dtheta exactly, and K_dot_grad_K is the directional derivative of K along K.", "quantifier": "for all surfaces with non-degenerate normal, all coefficients", "why_tests_cant": "calculus identity for all fields", "anchors": ["src/quadcoil/surfacerzfourier_jax.py: dga_inv_n_dashb", "src/quadcoil/surfacerzfourier_jax.py: unitnormaldash", "src/quadcoil/quadcoil_params.py: Kdash_helper", "src/quadcoil/quantity/curvature.py: _K_dot_grad_K"]}
{"id": "C44", "title": "Net currents are carried by the secular part of the potential", "statement": "The full potential grows by exactly net_poloidal_current/nfp per field period in phi and by net_toroidal_current per poloidal turn, independently of the coefficients, and (stellarator symmetric case) K_theta is its phi derivative.", "quantifier": "for all coefficients, resolutions and points", "why_tests_cant": "for all coefficients", "anchors": ["src/quadcoil/quantity/dipole.py: _Phi_with_net_current", "src/quadcoil/quantity/current.py: _K_theta"]}
{"id": "C45", "title": "Flattening and unflattening parameters loses nothing", "statement": "Unflattening the flattened representation of a surface or of a problem-parameter object reproduces an object with the same coefficients, grids, currents and resolution.", "quantifier": "for all objects", "why_tests_cant": "for all objects; silent reordering of children would only show for particular values", "anchors": ["src/quadcoil/surfacerzfourier_jax.py: tree_flatten/tree_unflatten", "src/quadcoil/quadcoil_params.py: tree_flatten/tree_unflatten"]}
{"id": "C46", "title": "One field period times nfp is the whole torus", "statement": "For a function with field-period symmetry, summing with the evaluation grid over one field period and multiplying by nfp equals the sum over the whole winding surface grid; the default evaluation grid is exactly the first field period of the default winding grid.", "quantifier": "for all nfp >= 1, grids with at least two toroidal points per field period, symmetric functions", "why_tests_cant": "for all nfp and grids", "anchors": ["src/quadcoil/quadcoil_params.py: _Params.__init__", "src/quadcoil/surfacerzfourier_jax.py: integrate", "src/quadcoil/quantity/current.py: _f_K", "src/quadcoil/quadcoil.py: quadcoil (default quadpoints)"]}
{"id": "C47", "title": "The magnetic field is linear in the currents and field objectives are convex", "statement": "The discrete Biot-Savart field is affine in the coefficients and jointly linear in (coefficients, G, I); f_B and f_K are non-negative, convex, and scale by s^2 when all currents (and plasma field) scale by s; the normalised f_B is 1 at zero coefficients.", "quantifier": "for all surfaces, coefficients, currents", "why_tests_cant": "for all coefficients", "anchors": ["src/quadcoil/quantity/magnetic_field.py: _winding_surface_B", "src/quadcoil/quantity/magnetic_field.py: _Bnormal", "src/quadcoil/quantity/magnetic_field.py: _f_B", "src/quadcoil/quantity/magnetic_field.py: _f_B_normalized_by_Bnormal_IG", "src/quadcoil/quantity/current.py: _f_K"]}
{"id": "C48", "title": "The normal field respects the field-period symmetry", "statement": "With a full-torus uniform winding grid, the computed field at a point rotated by one field period is the rotated field, and the normal component is unchanged.", "quantifier": "for all symmetric winding surfaces, coefficients, grid sizes", "why_tests_cant": "for all coefficients and grids", "anchors": ["src/quadcoil/quantity/magnetic_field.py: _winding_surface_B", "src/quadcoil/quantity/magnetic_field.py: _Bnormal"]}
{"id": "C49", "title": "Segment intersection test is correct", "statement": "get_line_intersection returns True exactly when the two segments are not parallel and share a point (end points included), and the answer does not depend on the order of the two segments.", "quantifier": "for all segments", "why_tests_cant": "all real segments", "anchors": ["src/quadcoil/winding_surface.py: get_line_intersection"]}
{"id": "C50", "title": "Polygon vertex weights", "statement": "The weights returned for a polygon are 0 or 1; a polygon without crossings keeps every vertex.", "quantifier": "for all polygons", "why_tests_cant": "all polygons", "anchors": ["src/quadcoil/winding_surface.py: polygon_self_intersection"]}
{"id": "C51", "title": "Offset surfaces lie at the requested distance", "statement": "Every sampled point of the offset surface is at distance exactly |plasma_coil_distance| from the plasma point it is generated from, along a direction orthogonal to both local grid differences.", "quantifier": "for all plasma surfaces with non-degenerate grid cells", "why_tests_cant": "for all surfaces", "anchors": ["src/quadcoil/winding_surface.py: gen_winding_surface_offset"]}
{"id": "C52", "title": "Surface fitting minimises the regularised weighted misfit", "statement": "Any solution of the assembled normal equations is a global minimiser of weighted squared misfit plus lam*sum (m^2+n^2) dof^2, the minimiser is unique when lam > 0 on the non-constant modes and the data determine the rest, and points of weight 0 do not matter.", "quantifier": "for all data, weights and lam >= 0", "why_tests_cant": "global optimality", "anchors": ["src/quadcoil/winding_surface.py: fit_surfacerzfourier"]}
{"id": "C53", "title": "Arc-length angles of generated surfaces form a valid parametrisation", "statement": "In the arc-length generator, the poloidal angles assigned to the vertices start at 0, increase, and stay below 1; consecutive differences are segment lengths divided by the perimeter.", "quantifier": "for all polygons whose neighbouring vertices are distinct", "why_tests_cant": "all polygons; coarse tests cannot see an off-by-one in segments of nearly equal length", "anchors": ["src/quadcoil/winding_surface.py: gen_winding_surface_arc"]}
{"id": "C54", "title": "Automatic winding surfaces work for every symmetry setting", "statement": "Requesting an automatic winding surface works for all combinations of stellsym and plasma_stellsym, the coefficient vector having the length the surface object expects.", "quantifier": "for all resolutions and symmetry flags", "why_tests_cant": "only one combination is tested", "anchors": ["src/quadcoil/quadcoil.py: y_to_qp", "src/quadcoil/winding_surface.py: gen_winding_surface_arc", "src/quadcoil/winding_surface.py: gen_winding_surface_atan"]}
{"id": "C55", "title": "Cut coils carry the whole net current", "statement": "When coils are cut, the currents of all coils after applying symmetries sum to the net poloidal current, and the contour levels are equally spaced with one level per coil, strictly inside the half period (stellarator symmetric case).", "quantifier": "for all nfp, numbers of coils, currents, symmetry modes", "why_tests_cant": "for all numbers of coils", "anchors": ["src/quadcoil/io/coil_cutting.py: cut_coil / levels / coil_currents"]}
{"id": "C56", "title": "Coil Fourier fitting recovers trigonometric curves", "statement": "ifft_simsopt applied to samples of a trigonometric polynomial of degree <= order on a uniform grid returns its coefficients exactly, for every grid size > 2*order.", "quantifier": "for all orders, grid sizes > 2*order, coefficients", "why_tests_cant": "the boundary grid size is not tested; all coefficients", "anchors": ["src/quadcoil/io/coil_cutting.py: ifft_simsopt"]}
{"id": "C57", "title": "The differentiable wrapper forwards exactly the non-differentiable keywords and has a linear derivative rule", "statement": "gen_quadcoil_for_diff forwards exactly the keywords that are not differentiable arguments, and its tangent output is linear in the input tangents, using for each tangent the gradient entry of the same name (the tangent of a scalar objective weight, for which no gradient is computed, does not enter); no gradient entry is missing.", "quantifier": "for all keyword sets, tangents and metrics", "why_tests_cant": "for all keyword sets", "anchors": ["src/quadcoil/io/jax.py: gen_quadcoil_for_diff"]}
{"id": "C58", "title": "Converting symmetric surfaces to DESC keeps the data", "statement": "Converting a stellarator symmetric surface to DESC splits the coefficient vector into the R-cosine and Z-sine parts it was built from.", "quantifier": "for all resolutions with at least one sine mode", "why_tests_cant": "optional dependencies are not installed in CI and only symmetric cases are tested", "anchors": ["src/quadcoil/surfacerzfourier_jax.py: to_desc", "src/quadcoil/surfacerzfourier_jax.py: from_desc"]}
{"id": "C59", "title": "Force self-interaction exclusion removes exactly the coincident source", "statement": "The coil-force integral omits exactly the one source point that coincides with the evaluation point, and agrees with the distance-based exclusion whenever the evaluation grid is the first field period of the source grid and all other points are distinct.", "quantifier": "for all nfp, grids, surfaces", "why_tests_cant": "for all grids", "anchors": ["src/quadcoil/quantity/force.py: _integrate_force"]}
{"id": "C60", "title": "The returned status satisfies the constraints whenever the outer loop converged", "statement": "If the outer loop ends with iterations left and the penalty below its safe limit, the returned solution (after the extra tight-tolerance solve) satisfies every constraint to ctol.", "quantifier": "for all problems", "why_tests_cant": "the last solve is unchecked; requires a problem where the extra multiplier step moves the point", "anchors": ["src/quadcoil/solver.py: solve_constrained (final body call)"]}
{"id": "C61", "title": "The initial auxiliary value of squared max quantities is feasible", "statement": "For quantities built with square=True, the automatically supplied initial auxiliary variable satisfies the generated inequalities at the initial point.", "quantifier": "for all fields and units > 0", "why_tests_cant": "only fails for fields whose maximum is below one", "anchors": ["src/quadcoil/quantity/quantity.py: generate_linf_norm (square, _aux_init)"]}
{"id": "C62", "title": "Cylindrical components preserve length", "statement": "The components returned by project_arr_cylindrical are along orthonormal directions: the sum of their squares equals the squared length of the vector.", "quantifier": "for all positions off the axis and vectors", "why_tests_cant": "existing test compares the function with itself; failure needs z != 0", "anchors": ["src/quadcoil/math_utils.py: project_arr_cylindrical", "src/quadcoil/quantity/curvature.py: _K_dot_grad_K_cyl", "src/quadcoil/quantity/force.py: _f_l1_force_cyl"]}
{"id": "C63", "title": "The reported gradient of f_obj with respect to the objective weights is right", "statement": "At an unconstrained optimum the reported derivative of the metric f_obj with respect to weight i equals the value of objective term i (envelope theorem).", "quantifier": "for all problems with several objective terms", "why_tests_cant": "f_obj gradients with respect to weights are not tested", "anchors": ["src/quadcoil/quadcoil.py: quadcoil (f_metric)", "src/quadcoil/quadcoil.py: f_g_ineq_h_eq_from_y"]}
{"id": "C64", "title": "The first polygon vertex is always kept", "statement": "The first vertex, documented as assumed to be on the polygon to keep, has weight 1.", "quantifier": "for all polygons", "why_tests_cant": "needs an edge crossing two other edges", "anchors": ["src/quadcoil/winding_surface.py: polygon_self_intersection"]}
{"id": "C65", "title": "The angle of vertex j is its normalised arc length", "statement": "In the arc-length generator, the angle of vertex j is the polygon arc length from vertex 0 to vertex j divided by the perimeter.", "quantifier": "for all polygons", "why_tests_cant": "an off-by-one in segment index is invisible for segments of nearly equal length", "anchors": ["src/quadcoil/winding_surface.py: gen_winding_surface_arc"]}
{"id": "C66", "title": "All quantities are available without stellarator symmetry", "statement": "K_theta can be evaluated for every symmetry setting.", "quantifier": "for all resolutions", "why_tests_cant": "only the symmetric case is tested", "anchors": ["src/quadcoil/quantity/current.py: _K_theta"]}
{"id": "C67", "title": "Finite element parameter objects can be flattened", "statement": "The finite-element variant of the parameter object supports flattening and unflattening.", "quantifier": "for all objects", "why_tests_cant": "class is never instantiated by tests", "anchors": ["src/quadcoil/quadcoil_params.py: QuadcoilParamsFiniteElement"]}
{"id": "C68", "title": "Coil Fourier fitting is exact at the smallest accepted grid", "statement": "ifft_simsopt recovers the coefficients of a trigonometric polynomial of degree <= order also when the number of samples is exactly 2*order, which it accepts.", "quantifier": "for all orders and coefficients", "why_tests_cant": "boundary grid size", "anchors": ["src/quadcoil/io/coil_cutting.py: ifft_simsopt"]}
{"id": "C69", "title": "Conversions keep net currents, non-symmetric coefficients and mode counts", "statement": "Converting a non-symmetric surface to DESC keeps all coefficient blocks; exporting the current potential to simsopt keeps both net currents; the FOCUS file's declared mode count equals the number of mode rows written.", "quantifier": "for all resolutions and currents", "why_tests_cant": "optional dependencies are not installed in CI and only symmetric cases are tested", "anchors": ["src/quadcoil/surfacerzfourier_jax.py: to_desc", "src/quadcoil/io/simsopt.py: quadcoil_to_simsopt_cp", "src/quadcoil/io/focus.py: save_focus"]}
{"id": "C70", "title": "The automatic unit of an objective is never zero", "statement": "For every quantity usable as an objective, unit None yields a well defined (non-zero) scaling when net currents are non-zero.", "quantifier": "for all problems", "why_tests_cant": "depends on which quantities vanish at zero coefficients", "anchors": ["src/quadcoil/wrapper.py: _add_quantity (unit None)", "src/quadcoil/quantity/dipole.py: _Phi"]}
{"id": "C71", "title": "The smoothed Huber loss converges to the integral of the vector norm", "statement": "In approx mode the Huber objective of a field with d components differs from quantity/|unit| by at most area*(sqrt(d)*eps^2 + eps), hence converges to it as eps goes to 0.", "quantifier": "for all fields, grids, units and eps >= 0", "why_tests_cant": "error bound over all fields", "anchors": ["src/quadcoil/quantity/quantity.py: generate_huber"]}
{"id": "C72", "title": "The smoothed Huber loss is non-negative and even", "statement": "The smoothed Huber loss is never negative and does not change when the field is reversed.", "quantifier": "for all fields and eps", "why_tests_cant": "needs a field that vanishes or is small compared to eps", "anchors": ["src/quadcoil/quantity/quantity.py: generate_huber"]}
{"id": "C73", "title": "The initial current potential given by the user is where the solve starts", "statement": "Converting the scaled flat starting vector back to a dictionary gives exactly the phi_init the user passed (zeros if none), and flattening and unflattening any dictionary of unknowns with scaling loses nothing, if the unit of phi is non-zero.", "quantifier": "for all starting points, units and sets of slack variables", "why_tests_cant": "for all sizes and values", "anchors": ["src/quadcoil/quadcoil.py: quadcoil (phi_unit, x_dict_init, unravel_unscale_x)"]}
{"id": "C74", "title": "L1 norms can be used in slack mode", "statement": "Every quantity built as an L1 norm, including those of vector fields, can be evaluated in slack mode on every grid.", "quantifier": "for all grids and field shapes", "why_tests_cant": "tests cover scalar fields only", "anchors": ["src/quadcoil/quantity/quantity.py: generate_l1_norm", "src/quadcoil/quantity/force.py: f_l1_force_cyl"]}
{"id": "C75", "title": "Problems without constraints take the unconstrained path, others never do", "statement": "A problem without inequality and equality constraint functions is solved by the unconstrained solver whatever merge_constraints is, and a problem that has constraint functions is never handed to the unconstrained solver.", "quantifier": "for all constraint lists and both values of merge_constraints", "why_tests_cant": "the option is off by default and only changes which solver runs", "anchors": ["src/quadcoil/quadcoil.py: quadcoil (n_g, n_h)", "src/quadcoil/wrapper.py: merge_callables"]}
{"id": "C76", "title": "The coil force is given in the cylindrical frame of the evaluation point", "statement": "The radial, toroidal and vertical force components at a point are the components, in the cylindrical frame of that point, of the (Cartesian) force integral at that point.", "quantifier": "for all surfaces, grids and currents", "why_tests_cant": "requires the vector integral in a single frame as reference", "anchors": ["src/quadcoil/quantity/force.py: _force_cyl"]}
{"id": "C77", "title": "The normal field of a stellarator symmetric problem is odd", "statement": "If winding surface, plasma surface and current potential are stellarator symmetric, the computed field at the mirrored point is the mirrored field with reversed sign pattern, so the normal component changes sign under (phi, theta) -> (-phi, -theta) and half a field period determines it.", "quantifier": "for all symmetric surfaces, coefficients, net currents and full-torus grids", "why_tests_cant": "a statement about all points and coefficients", "anchors": ["src/quadcoil/quantity/magnetic_field.py: _winding_surface_B", "src/quadcoil/quantity/magnetic_field.py: _Bnormal"]}
{"id": "C78", "title": "Surface integrals do not vanish on the smallest grid", "statement": "The surface integral of a positive function is positive for every non-empty quadrature grid a user may pass.", "quantifier": "for all grids", "why_tests_cant": "tests use grids with many points", "anchors": ["src/quadcoil/surfacerzfourier_jax.py: integrate", "src/quadcoil/surfacerzfourier_jax.py: da"]}
{"id": "C79", "title": "Cut coils lie on the winding surface", "statement": "The points of a coil that is cut out of a contour of the current potential are the points of the winding surface at the contour's angles, for symmetric and non-symmetric winding surfaces.", "quantifier": "for all surfaces and contours", "why_tests_cant": "for all coefficient vectors; the conversion uses simsopt's own coefficient order", "anchors": ["src/quadcoil/io/coil_cutting.py: coil_xyz_from_qp"]}
{"id": "C80", "title": "DESC objects are accepted by the wrappers", "statement": "The DESC wrapper runs QUADCOIL on a DESC equilibrium, and the FOCUS writer accepts quadcoil, simsopt and DESC surfaces.", "quantifier": "for all equilibria and surfaces", "why_tests_cant": "DESC is not installed where the tests run", "anchors": ["src/quadcoil/io/desc.py: quadcoil_desc", "src/quadcoil/io/focus.py: save_focus"]}
{"id": "C81", "title": "DESC scaling gives one unit per name", "statement": "The DESC scaling helper returns one unit per objective name and one per constraint name, in the given order, a plain number exactly when the objective is a plain string, and it succeeds whenever every name has a unit.", "quantifier": "for all name lists and unit functions", "why_tests_cant": "for all lists of names", "anchors": ["src/quadcoil/io/desc.py: generate_desc_scaling"]}
{"id": "C82", "title": "The derivative rule reproduces the value output", "statement": "The primal output of the derivative rule of the differentiable wrapper has the same keys and values as the output of the wrapper itself.", "quantifier": "for all metric lists", "why_tests_cant": "needs metric f_obj, and JAX only complains when differentiated", "anchors": ["src/quadcoil/io/jax.py: gen_quadcoil_for_diff"]}
{"id": "C83", "title": "Coils cut from a solution without net current carry its current", "statement": "Coils cut from a current potential carry the current between neighbouring contours, also when the net poloidal current is zero (windowpane coils).", "quantifier": "for all numbers of coils and field periods", "why_tests_cant": "tests use problems with net current", "anchors": ["src/quadcoil/io/coil_cutting.py: cut_coil / coil_currents"]}
{"id": "C84", "title": "The inner minimiser runs the optimiser on true values and gradients", "statement": "Every iteration of the inner minimiser passes to the optimiser the value and the gradient of the objective at the current point; the reported point is the last one, the reported gradient is the gradient there, and the reported changes of point, update and value are those of the last iteration.", "quantifier": "for all objectives, starting points, tolerances and optimisers with optax's contract, any arithmetic", "why_tests_cant": "a statement about every iteration of every run", "anchors": ["src/quadcoil/solver.py: run_opt_optax", "src/quadcoil/solver.py: run_opt_lbfgs"]}
{"id": "C85", "title": "The final solution meets the tight tolerances", "statement": "If the last solve of a constrained problem uses fewer than maxiter_inner iterations, the returned status meets one of the tight tolerances gtol_inner_last, fstop_inner_last, xstop_inner_last.", "quantifier": "for all problems, starting points and tolerances, any arithmetic", "why_tests_cant": "a statement about all problems", "anchors": ["src/quadcoil/solver.py: solve_constrained"]}
{"id": "C86", "title": "The self-force is orthogonal to the current", "statement": "At every evaluation point the reported force components have zero dot product with the components of the surface current there: a magnetic force does no work on the current.", "quantifier": "for all winding surfaces, coefficients, net currents and grids", "why_tests_cant": "an identity for all surfaces, coefficients and grids", "anchors": ["src/quadcoil/quantity/force.py: _force_integrands_xyz", "src/quadcoil/quantity/force.py: _force_cyl"]}
{"id": "C87", "title": "The regularised force integrand integrates to the Lorentz force", "statement": "For every point off the winding surface and every current there, the integral of the regularised (single and double layer) integrand over the whole winding surface equals current x B, where B is the field given by the law of Biot and Savart.", "quantifier": "for all winding surfaces with non-vanishing normal, coefficients, net currents, points off the surface", "why_tests_cant": "an identity between two integrals, for all surfaces", "anchors": ["src/quadcoil/quantity/force.py: _force_integrands_xyz", "src/quadcoil/quantity/force.py: _integrate_force"]}
{"id": "C88", "title": "Gradients in constrained problems are derivatives along the constrained solutions", "statement": "For a problem with constraints solved exactly (solution and multipliers satisfy the first order conditions), the reported gradient of a metric equals the derivative of the metric along the solutions.", "quantifier": "for all smooth objectives, constraints, metrics, inputs and penalty weights", "why_tests_cant": "finite differences through a nested solver are too noisy to see an error of relative size 1/c", "anchors": ["src/quadcoil/quadcoil.py: quadcoil (l_k_terms)", "src/quadcoil/quadcoil.py: quadcoil (dfdy)"]}
{"id": "C89", "title": "The preconditioned linear system has the same solutions", "statement": "If the singular value threshold drops only zero singular values, every solution of the Hessian system solves the preconditioned system built from the sorted terms, and if the Hessian is regular the two systems are equivalent, even if one or two of the three terms vanish. Weaker terms are stretched by larger factors, at least 1.", "quantifier": "for all symmetric Hessians of the three terms, right-hand sides and thresholds", "why_tests_cant": "all matrices", "anchors": ["src/quadcoil/quadcoil.py: quadcoil (Ohess)", "src/quadcoil/quadcoil.py: quadcoil (proj_BC)"]}
{"id": "C90", "title": "The automatic scale of the potential is positive", "statement": "If phi_unit is not given, the scale computed from the normal field and the distance (or the minor radii) is positive, and the coefficient read as minor radius is the one of cos(theta) in R.", "quantifier": "for all normal fields, distances and surface coefficients", "why_tests_cant": "tests use nested surfaces with a field", "anchors": ["src/quadcoil/quadcoil.py: quadcoil (phi_unit)"]}
{"id": "C91", "title": "Quantities have the values their names say", "statement": "The unsmoothed value of a max-norm quantity is the largest absolute value of its field (or its square or fourth power), of an L1 quantity the surface integral of the absolute value over the whole torus, of the Huber quantity the surface integral of the length of the vector, and of f_Phi half the surface integral of the squared potential.", "quantifier": "for all fields, grids, coefficients", "why_tests_cant": "all arrays; slack and smooth forms are tested only against each other", "anchors": ["src/quadcoil/quantity/quantity.py: _Quantity.generate_linf_norm / generate_l1_norm / generate_huber", "src/quadcoil/quantity/dipole.py: f_Phi", "src/quadcoil/quantity/dipole.py: f_max_Phi"]}
{"id": "C92", "title": "Invalid names and roles are refused with ValueError", "statement": "A name that is not a quantity, and a quantity used in a role that it does not support, are refused with ValueError in every smoothing mode. Every shipped objective can be bounded from above, never from below, and evaluates to a single number in every mode.", "quantifier": "for all names, roles, units, smoothing modes and all 27 shipped quantities", "why_tests_cant": "combinations of quantity, role and smoothing mode", "anchors": ["src/quadcoil/wrapper.py: get_quantity", "src/quadcoil/quantity/quantity.py: _Quantity", "src/quadcoil/wrapper.py: _add_quantity"]}
{"id": "C93", "title": "The shipped quantities are consistent", "statement": "Importing the package constructs every quantity without error, names are distinct, every name finds its quantity, no auxiliary variable is called phi, two quantities never share an auxiliary variable, and the slack form of every max-norm quantity bounds its value.", "quantifier": "for all 27 shipped quantities", "why_tests_cant": "a clash shows only if the two quantities are used together", "anchors": ["src/quadcoil/quantity/__init__.py", "src/quadcoil/quantity/quantity.py: _Quantity.__init__"]}
{"id": "C94", "title": "Joining objectives and constraints loses nothing", "statement": "After the objectives' and the constraints' parts are joined, the auxiliary variables are exactly those of the requested quantities, each has an initial value, and the joined constraints hold exactly if those of the two parts hold.", "quantifier": "for all lists of objectives and constraints, all smoothing modes", "why_tests_cant": "all lists of requests", "anchors": ["src/quadcoil/quadcoil.py: quadcoil", "src/quadcoil/wrapper.py: _parse_objectives", "src/quadcoil/wrapper.py: _parse_constraints", "src/quadcoil/wrapper.py: merge_callables"]}
{"id": "C95", "title": "Quantities in their DESC units do not depend on the size of the problem", "statement": "If all lengths are multiplied by one factor, all currents by another and fields accordingly, the value of every quantity divided by its desc_unit stays the same.", "quantifier": "for all 27 quantities, problems, coefficients and factors", "why_tests_cant": "DESC is not installed where the tests run, and a wrong unit is only a wrong scaling", "anchors": ["src/quadcoil/quantity/current.py: _K_desc_unit", "src/quadcoil/quantity/force.py: _force_desc_unit", "src/quadcoil/quantity/dipole.py: _Phi_desc_unit", "src/quadcoil/quantity/magnetic_field.py: _winding_surface_B_desc_unit", "src/quadcoil/quantity/curvature.py: _K_dot_grad_K_desc_unit"]}
{"id": "C96", "title": "A DESC current potential field can be loaded", "statement": "load_FourierCurrentPotentialField returns the parameter object and the coefficients of a DESC current potential field.", "quantifier": "for all fields and grids", "why_tests_cant": "DESC is not installed where the tests run", "anchors": ["src/quadcoil/io/desc.py: load_FourierCurrentPotentialField"]}
{"id": "C97", "title": "The bound on the coefficients can be requested", "statement": "The quantity f_max_phi_dof defined by the package can be used by its name, and its DESC unit can be evaluated.", "quantifier": "for all roles, units and smoothing modes", "why_tests_cant": "the module is never imported", "anchors": ["src/quadcoil/quantity/regularization.py: f_max_phi_dof", "src/quadcoil/quantity/__init__.py"]}
{"id": "C98", "title": "The offset surface lies outside", "statement": "The approximate normal used to offset the plasma surface points outwards, so a positive distance gives a larger surface.", "quantifier": "for all surfaces of revolution with any cross section, field periods and grids with at least three points per turn; outwards means away from the points on the inner side of the edge of the cross section", "why_tests_cant": "the sign of a cross product of differences; all grids", "anchors": ["src/quadcoil/winding_surface.py: gen_winding_surface_offset"]}
{"id": "C99", "title": "The hull rule marks the convex hull", "statement": "graham_scan marks exactly the vertices of the convex hull of the cross section: the coordinates of the marked points are the extreme points of the convex hull of all points.", "quantifier": "for all lists of points, with repetitions and collinear points", "why_tests_cant": "all point sets; no test calls it", "anchors": ["src/quadcoil/winding_surface.py: graham_scan"]}
{"id": "C100", "title": "Every documented rule of the arc length generator can be used", "statement": "gen_winding_surface_arc accepts the rules 'self-intersection' and 'hull' and refuses others with ValueError.", "quantifier": "for all cross sections", "why_tests_cant": "only one rule is ever run", "anchors": ["src/quadcoil/winding_surface.py: gen_winding_surface_arc", "src/quadcoil/winding_surface.py: graham_scan"]}
{"id": "C101", "title": "The poloidal angle is measured about the centre of the same cross section", "statement": "gen_winding_surface_atan computes the poloidal angle of each cross section about the centre of the plasma cross section at the same toroidal angle, with and without stellarator symmetry, and the angles lie in (0, 1].", "quantifier": "for all grid sizes, field periods and interpolation factors", "why_tests_cant": "a wrong centre still gives a surface", "anchors": ["src/quadcoil/winding_surface.py: gen_winding_surface_atan"]}
{"id": "C102", "title": "Saved grids connect neighbouring points", "statement": "In the saved structured grid, points that are neighbours in the grid are neighbours in one of the two angles, and every point carries the value of the field there.", "quantifier": "for all grid sizes", "why_tests_cant": "pyvista is not installed where the tests run", "anchors": ["src/quadcoil/plotting.py: gamma_to_vtk", "src/quadcoil/plotting.py: gamma_and_field_to_vtk", "src/quadcoil/plotting.py: gamma_and_scalar_field_to_vtk"]}
{"id": "C103", "title": "Every kind of constraint can be plotted", "statement": "plot_quantity in constraint mode plots the function whose sign decides whether the constraint holds, for every constraint type that the solver accepts.", "quantifier": "for all quantities, constraint types and values", "why_tests_cant": "plots are not tested", "anchors": ["src/quadcoil/plotting.py: plot_quantity", "src/quadcoil/wrapper.py: _parse_constraints"]}
{"id": "C104", "title": "The plotted window is a neighbourhood of the point", "statement": "plot_quantity varies two coefficients over intervals around their present values and keeps the others, so the present point lies inside the window.", "quantifier": "for all coefficients, ranges and numbers of samples", "why_tests_cant": "plots are not tested", "anchors": ["src/quadcoil/plotting.py: plot_quantity"]}
{"id": "C105", "title": "Reported violations bound the violations of the user's constraints", "statement": "If a run reports inequality values at most tau and equality values at most tau in size, then at the returned potential every requested constraint holds up to tau times its unit. For a maximum in slack form the bound is 2 tau, since the auxiliary variable may be violated too; for its square and fourth power the square root of value/unit is off by tau; for an L1 norm the factor is 1 plus the area.", "quantifier": "for all registries, objectives, constraints, units, smoothing modes and optimisers", "why_tests_cant": "connects the solver's scaled, flattened unknowns with physical quantities; all problems", "anchors": ["src/quadcoil/quadcoil.py: quadcoil", "src/quadcoil/solver.py: solve_constrained", "src/quadcoil/wrapper.py: _parse_constraints"]}
{"id": "C106", "title": "The slack form of a whole problem is exact", "statement": "For a potential, there are values of all auxiliary variables that satisfy all generated constraints with objective at most t, if and only if the potential satisfies all requested constraints and the weighted sum of quantity/unit is at most t.", "quantifier": "for all lists of objectives with non-negative weights and constraints with non-zero units in which no auxiliary variable is used twice", "why_tests_cant": "an exact statement about all problems that combine several quantities", "anchors": ["src/quadcoil/wrapper.py: _parse_objectives", "src/quadcoil/wrapper.py: _parse_constraints", "src/quadcoil/quantity/quantity.py: _Quantity.generate_linf_norm", "src/quadcoil/quantity/quantity.py: _Quantity.generate_l1_norm", "src/quadcoil/quadcoil.py: quadcoil"]}
{"id": "C107", "title": "A minimiser of the flattened problem is a minimiser of the user's problem", "statement": "If the vector returned by the solver minimises the scaled, flattened problem passed to the solver, then the returned potential satisfies the user's constraints and minimises the user's objective among all potentials that do; and every minimiser of the user's problem comes from one of the flattened problem.", "quantifier": "for all problems, smoothing modes None and slack, non-zero scales of the potential", "why_tests_cant": "quantifies over all potentials", "anchors": ["src/quadcoil/quadcoil.py: quadcoil", "src/quadcoil/wrapper.py: _parse_objectives", "src/quadcoil/wrapper.py: _parse_constraints"]}
{"id": "C108", "title": "The returned status bounds the distance to the optimum", "statement": "For convex objective and inequality functions and affine equality functions, the returned objective exceeds the value at any feasible point y by at most |reported gradient| |y - x| / scale - mu.g - lam.h, with the reported multipliers and constraint values.", "quantifier": "for all convex problems, optimisers and tolerances, converged or not", "why_tests_cant": "a bound on the unknown optimum", "anchors": ["src/quadcoil/solver.py: solve_constrained", "src/quadcoil/solver.py: run_opt_lbfgs"]}
{"id": "C109", "title": "The field of the winding surface is the field of Biot and Savart", "statement": "The field at a point is the sum over the winding grid of area element times mu0/4pi K x r / |r|^3. It is free of divergence away from the grid points. When the grid is refined, it tends to the integral of the law of Biot and Savart over the winding surface.", "quantifier": "for all surfaces, grids, currents and points that are not on the surface", "why_tests_cant": "a limit and a derivative at all points", "anchors": ["src/quadcoil/quantity/magnetic_field.py: _winding_surface_B"]}
{"id": "C110", "title": "Surface sums tend to surface integrals", "statement": "integrate, on uniform grids, tends to the integral of f |N| over both angles when both numbers of points grow. So do the area, f_K and, for a fixed winding grid, f_B.", "quantifier": "for all surfaces and continuous functions", "why_tests_cant": "a limit of grids", "anchors": ["src/quadcoil/surfacerzfourier_jax.py: integrate", "src/quadcoil/surfacerzfourier_jax.py: area", "src/quadcoil/quantity/current.py: _f_K", "src/quadcoil/quantity/magnetic_field.py: _f_B"]}
{"id": "C111", "title": "For convex problems the violations fall like the inverse of the penalty weight", "statement": "In every run, the squared distance of the multipliers to those of a saddle point plus the sum of (penalty weight)^2 times squared violation over all outer iterations is at most the initial squared distance D^2 plus an error made of the reported gradients. If the inner solves are exact, the returned violation is at most D/c and the returned objective differs from the optimum by at most (|z*|^2 + D^2)/(2c), where c is the penalty weight of the last solve.", "quantifier": "for all convex problems with a saddle point, optimisers, tolerances and initial multipliers", "why_tests_cant": "a rate of convergence for all convex problems", "anchors": ["src/quadcoil/solver.py: solve_constrained"]}
{"id": "C112", "title": "Constructors store what was given and derive the rest consistently", "statement": "The meshes of a surface list the grid points, the steps are differences of neighbouring points. A parameter object keeps the given surfaces, currents and grids; the evaluation surface is the winding surface on the evaluation grid; the default evaluation grid is exactly the first field period; the default symmetry is that of both surfaces; the default plasma field is zero on the plasma grid; the number of unknowns is the number of modes. Construction succeeds exactly for surfaces whose number of toroidal points is divisible by nfp.", "quantifier": "for all arguments", "why_tests_cant": "for all combinations of given and default arguments", "anchors": ["src/quadcoil/quadcoil_params.py: _Params.__init__", "src/quadcoil/quadcoil_params.py: QuadcoilParams.__init__", "src/quadcoil/surfacerzfourier_jax.py: SurfaceRZFourierJAX.__init__"]}
{"id": "C113", "title": "The surface current on a resolving grid determines the potential up to a constant", "statement": "On a uniform evaluation grid with more than 2*ntor toroidal points per field period and more than 2*mpol poloidal points, two coefficient vectors give the same current at the grid points iff their potentials differ by a constant. With stellarator symmetry the coefficients are then equal, and f_B + w*f_K with w > 0 has exactly one minimiser.", "quantifier": "for all surfaces with non-vanishing normal, resolutions, coefficients and positive weights", "why_tests_cant": "uniqueness over all coefficient vectors and aliasing for all resolutions", "anchors": ["src/quadcoil/quadcoil_params.py: diff_helper", "src/quadcoil/quantity/current.py: _K", "src/quadcoil/quantity/current.py: _f_K", "src/quadcoil/quantity/magnetic_field.py: _f_B"]}
{"id": "C114", "title": "The regularised problem has exactly one solution for every symmetry setting", "statement": "For every symmetry setting the minimiser of f_B + w*f_K, w > 0, is unique on a resolving grid.", "quantifier": "for all parameter objects", "why_tests_cant": "non-uniqueness is invisible: the optimiser returns one of the minimisers", "anchors": ["src/quadcoil/quadcoil_params.py: make_mn_helper", "src/quadcoil/quadcoil_params.py: diff_helper"]}
{"id": "C115", "title": "A symmetric problem has a symmetric solution", "statement": "Reflecting the potential (negating the cosine coefficients) leaves f_B and f_K unchanged when surfaces, plasma field and grids are stellarator symmetric. Hence the current of every minimiser of f_B + w*f_K is its own reflection, and imposing stellarator symmetry on the potential does not change the optimum. The same holds for all convex objectives and for constraints that do not prefer a sign: a solution with stellsym solves the problem without it, and the sine coefficients of every solution without stellsym solve the problem with it.", "quantifier": "for all symmetric surfaces and plasma fields, resolutions, positive weights, lists of convex objectives and lists of constraints on even quantities or in pairs f <= v, f >= -v", "why_tests_cant": "a statement about all minimisers", "anchors": ["src/quadcoil/quadcoil_params.py: make_mn_helper", "src/quadcoil/quadcoil_params.py: diff_helper", "src/quadcoil/quantity/current.py: _K", "src/quadcoil/quantity/magnetic_field.py: _f_B"]}
{"id": "C116", "title": "Solutions superpose", "statement": "The minimiser of f_B + w*f_K is linear in the sources: if net currents and plasma field are added, minimisers are added; if they are scaled, minimisers are scaled and the optimum is scaled by the square.", "quantifier": "for all sources, surfaces, grids and weights", "why_tests_cant": "linearity over all sources", "anchors": ["src/quadcoil/quantity/current.py: _K", "src/quadcoil/quantity/magnetic_field.py: _Bnormal", "src/quadcoil/quantity/magnetic_field.py: _f_B", "src/quadcoil/quantity/current.py: _f_K"]}
{"id": "C117", "title": "A finer representation of the potential is never worse", "statement": "Every potential of resolution mpol, ntor is also a potential of every larger resolution, and of the one without stellarator symmetry, with the same current, f_B and f_K. So the optimum does not increase with the resolution.", "quantifier": "for all resolutions, surfaces and coefficients", "why_tests_cant": "comparison of optima for all resolutions", "anchors": ["src/quadcoil/quadcoil_params.py: make_mn_helper", "src/quadcoil/quadcoil_params.py: diff_helper"]}
{"id": "C118", "title": "The computed minimisers converge when all grids are refined", "statement": "When the winding, evaluation and plasma grids are refined together, f_B tends to the integral of the squared normal field of the law of Biot and Savart. The problem without grids has exactly one minimiser; the coefficients of the computed minimisers of f_B + w*f_K tend to it, and so do the optimal values.", "quantifier": "for all disjoint regular surfaces, resolutions with stellarator symmetry, continuous plasma fields and positive weights", "why_tests_cant": "a limit of minimisers", "anchors": ["src/quadcoil/quantity/magnetic_field.py: _f_B", "src/quadcoil/quantity/current.py: _f_K", "src/quadcoil/quantity/magnetic_field.py: _winding_surface_B"]}
{"id": "C119", "title": "The trade-off between objectives follows the weights", "statement": "If the same objectives are requested with two weight vectors, the change of the values at the minimisers is opposed to the change of the weights. Raising one weight never raises that objective and never lowers the weighted sum of the others.", "quantifier": "for all lists of objectives, units, weights and feasible sets", "why_tests_cant": "comparison of minimisers of two problems", "anchors": ["src/quadcoil/wrapper.py: _parse_objectives"]}
{"id": "C120", "title": "Every contour is cut exactly once", "statement": "On the torus the potential is defined up to multiples of the net current of a field period. Each crossing of a grid edge of the field period by a contour of a requested level is found exactly once by the coil cutter.", "quantifier": "for all current potentials, net currents and levels", "why_tests_cant": "needs potentials of every strength, with and without net current", "anchors": ["src/quadcoil/io/coil_cutting.py: coil_zeta_theta_from_qp"]}
{"id": "C121", "title": "The coils file can be read back", "statement": "Reading the coils file gives the number of field periods and, for each contour, the closed polygon through its points with the coil current. Writing fails only for an empty contour.", "quantifier": "for all lists of contours and currents", "why_tests_cant": "round trip for all lists of contours", "anchors": ["src/quadcoil/io/coil_cutting.py: coil_xyz_from_qp"]}
{"id": "C122", "title": "The coils in the file carry the net current", "statement": "The currents of the filaments in the coils file sum to the net poloidal current.", "quantifier": "for all numbers of field periods, symmetry settings and contours", "why_tests_cant": "needs the file of every symmetry setting", "anchors": ["src/quadcoil/io/coil_cutting.py: coil_xyz_from_qp"]}
{"id": "C123", "title": "The default order of the curves is the largest possible one", "statement": "Without a given order, the order of the Fourier curves is the largest for which the transform of every contour is accepted. A given order is refused iff a contour has fewer than twice as many points.", "quantifier": "for all lists of contours and orders", "why_tests_cant": "all lists of lengths", "anchors": ["src/quadcoil/io/coil_cutting.py: simsopt_curves_from_xyz", "src/quadcoil/io/coil_cutting.py: ifft_simsopt"]}
{"id": "C124", "title": "The quantities described as convex are convex", "statement": "The fields that are linear in the potential are affine functions of the coefficients. The other quantities that the generators of norms describe as convex are convex functions of the coefficients.", "quantifier": "for all problems, quantities, coefficient vectors and weights", "why_tests_cant": "convexity is a statement about all segments", "anchors": ["src/quadcoil/quantity/quantity.py: generate_linf_norm", "src/quadcoil/quantity/quantity.py: generate_l1_norm", "src/quadcoil/quantity/quantity.py: generate_huber", "src/quadcoil/quantity/curvature.py: f_max_K_dot_grad_K_cyl"]}
{"id": "C125", "title": "Convex problems with a current term have exactly one solution", "statement": "If the objective is a sum of convex quantities with nonnegative weights that contains f_K with a positive weight, the constraints are on affine and convex quantities with the directions that the program accepts, and some potential is feasible, then exactly one potential solves the problem. Stellarator symmetry and a grid that resolves the modes are assumed.", "quantifier": "for all geometries, objective lists, weights, units and constraint lists", "why_tests_cant": "existence and uniqueness are statements about all potentials", "anchors": ["src/quadcoil/wrapper.py: _parse_objectives", "src/quadcoil/wrapper.py: _parse_constraints", "src/quadcoil/quadcoil.py: quadcoil"]}
{"id": "C126", "title": "The objective grows quadratically away from the solution", "statement": "For the same problems there is a positive number that depends on the geometry and the grid only, such that the objective of every feasible potential exceeds the optimum by at least this number times the weight of f_K times the squared distance of the coefficients from the solution.", "quantifier": "for all geometries, objectives, constraints and feasible potentials", "why_tests_cant": "one constant for all problems on a geometry", "anchors": ["src/quadcoil/wrapper.py: _parse_objectives", "src/quadcoil/wrapper.py: _parse_constraints", "src/quadcoil/quadcoil.py: quadcoil"]}
{"id": "C127", "title": "The solution depends continuously on the sources", "statement": "Two problems min f_B + w f_K with the same geometry and the same convex set of allowed coefficients: the field and current of the difference of the solutions are together at most as large as those of the difference of the net currents and plasma fields. On a resolving grid the coefficients are Lipschitz continuous, with one constant for the geometry.", "quantifier": "for all net currents, plasma fields, weights and convex sets", "why_tests_cant": "a bound for all pairs of problems", "anchors": ["src/quadcoil/quantity/magnetic_field.py: _f_B", "src/quadcoil/quantity/current.py: _f_K", "src/quadcoil/quadcoil_params.py: QuadcoilParams"]}
{"id": "C128", "title": "The auxiliary-variable form of every quantity is exact", "statement": "With smoothing 'slack', for every quantity of the package and every potential: every value allowed by the auxiliary constraints is at least the scaled quantity, and some choice of the auxiliary variables attains it.", "quantifier": "for all quantities, problems, potentials and units", "why_tests_cant": "all potentials and all values of the auxiliary variables", "anchors": ["src/quadcoil/quantity/quantity.py: generate_linf_norm", "src/quadcoil/quantity/quantity.py: generate_linf_norm_4", "src/quadcoil/quantity/quantity.py: generate_l1_norm", "src/quadcoil/quantity/quantity.py: generate_huber", "src/quadcoil/quantity/quantity.py: generate_c2"]}
{"id": "C129", "title": "The problem passed to the solver has one solution, that of the user", "statement": "For a call with convex quantities, f_K among the objectives and a resolving grid: the problem in the flat vector of scaled potential and auxiliary variables has minimisers, all of them have the same potential, this potential is the only solution of the constrained problem the user asked for, and the values agree.", "quantifier": "for all geometries, convex objectives and constraints, with and without auxiliary variables", "why_tests_cant": "existence and uniqueness over all vectors", "anchors": ["src/quadcoil/quadcoil.py: quadcoil", "src/quadcoil/wrapper.py: _parse_objectives", "src/quadcoil/wrapper.py: _parse_constraints", "src/quadcoil/wrapper.py: _add_quantity"]}
{"id": "C130", "title": "The problem passed to the solver is convex", "statement": "For convex quantities the objective and the inequality functions of the problem in the flat vector are convex and differentiable, also with auxiliary variables, so the convergence theorems for the augmented Lagrangian solver apply.", "quantifier": "for all geometries, objective lists, constraint lists, weights and units", "why_tests_cant": "convexity is a statement about all segments of flat vectors", "anchors": ["src/quadcoil/quadcoil.py: quadcoil", "src/quadcoil/wrapper.py: _parse_objectives", "src/quadcoil/wrapper.py: _parse_constraints", "src/quadcoil/quantity/quantity.py: generate_linf_norm", "src/quadcoil/quantity/current.py: f_max_K2"]}
{"id": "C131", "title": "A call is refused exactly if it is not legal", "statement": "With the quantities of the package, quadcoil reaches the solver exactly if the objectives, the constraints and the merging are legal as documented: known names and directions, matching lengths, units that are numbers or None, a known smoothing mode, and merging only with approx or without inequalities. No other input is refused and no illegal input is accepted.", "quantifier": "for all argument lists, problems, initial potentials and units of the potential", "why_tests_cant": "all combinations of names, directions, modes, lengths and shapes", "anchors": ["src/quadcoil/quadcoil.py: quadcoil", "src/quadcoil/wrapper.py: _parse_objectives", "src/quadcoil/wrapper.py: _parse_constraints", "src/quadcoil/wrapper.py: merge_callables", "src/quadcoil/wrapper.py: _add_quantity"]}
{"id": "C132", "title": "Strictly feasible convex calls have multipliers", "statement": "If some potential satisfies all requested constraints strictly, every minimiser of the convex problem passed to the solver is part of a saddle point: there are multipliers, not negative, whose products with the constraints vanish. Their sum is at most the excess of the objective at a point divided by the margin there.", "quantifier": "for all geometries, convex objective and constraint lists, weights and units", "why_tests_cant": "existence of multipliers is not observable in a run", "anchors": ["src/quadcoil/quadcoil.py: quadcoil", "src/quadcoil/wrapper.py: _parse_constraints", "src/quadcoil/solver.py: solve_constrained"]}
{"id": "C133", "title": "The returned potential is close to the solution", "statement": "For a convex call with f_K among the objectives on a resolving grid, the squared distance of the returned potential from the only solution is bounded by the returned gradient norm, complementarity products and violation, whatever the optimiser does, and by twice the squared multipliers over the penalty if the inner problems are solved exactly.", "quantifier": "for all geometries, calls and optimisers", "why_tests_cant": "the solution is not known in a test", "anchors": ["src/quadcoil/quadcoil.py: quadcoil", "src/quadcoil/solver.py: solve_constrained", "src/quadcoil/quantity/current.py: _f_K"]}
{"id": "C134", "title": "The smoothed problem is convex and differentiable", "statement": "With smoothing 'approx' and a positive smoothing parameter, the objective and the inequality functions passed to the solver are convex and differentiable functions of the flat vector, with and without merged constraints, for objectives and constraints with convex quantities.", "quantifier": "for all geometries, convex objective and constraint lists, weights, units and smoothing parameters", "why_tests_cant": "convexity is a statement about all segments of flat vectors", "anchors": ["src/quadcoil/quadcoil.py: quadcoil", "src/quadcoil/wrapper.py: merge_callables", "src/quadcoil/wrapper.py: _parse_constraints", "src/quadcoil/quantity/quantity.py: generate_linf_norm", "src/quadcoil/quantity/quantity.py: generate_l1_norm", "src/quadcoil/quantity/quantity.py: generate_huber"]}
{"id": "C135", "title": "The solution of the smoothed problem approaches the solution linearly", "statement": "For convex calls with f_K among the objectives, a resolving grid and a strictly feasible potential: for small smoothing parameters the smoothed problem has minimisers, all with the same potential, which satisfies the constraints of the user. Its objective exceeds the optimum by at most a constant times the parameter, and so does its squared distance from the solution.", "quantifier": "for all geometries, convex calls with and without merged constraints, and small smoothing parameters", "why_tests_cant": "a statement about a limit, for all problems", "anchors": ["src/quadcoil/quadcoil.py: quadcoil", "src/quadcoil/wrapper.py: merge_callables", "src/quadcoil/wrapper.py: _parse_constraints", "src/quadcoil/quantity/quantity.py: generate_linf_norm", "src/quadcoil/quantity/quantity.py: generate_l1_norm"]}
{"id": "C136", "title": "The potential returned in approx mode is close to the solution", "statement": "For convex calls in approx mode with f_K among the objectives, a resolving grid and a strictly feasible potential there is one constant such that, for all small smoothing parameters and all optimisers, the squared distance of the returned potential from the solution of the user is at most the constant times the sum of the smoothing parameter and the returned gradient, complementarity and violation terms. If the inner problems are solved exactly it is at most the constant times the sum of the parameter and the inverse penalty.", "quantifier": "for all geometries, convex calls with and without merged constraints, small smoothing parameters and optimisers", "why_tests_cant": "the solution is not known in a test, and the constant serves all parameters", "anchors": ["src/quadcoil/quadcoil.py: quadcoil", "src/quadcoil/solver.py: solve_constrained", "src/quadcoil/wrapper.py: merge_callables", "src/quadcoil/quantity/quantity.py: generate_linf_norm"]}
{"id": "C137", "title": "Every inner problem has one minimiser, and the gradient bounds the distance to it", "statement": "If f_K is among the objectives, the grid resolves the modes and there are no auxiliary variables, then for all multipliers, penalties and scales the function that the inner solver minimises has exactly one minimiser. It is its only stationary point, and the norm of the gradient is at least a positive constant times the distance from it. So an outer iteration that reports a small gradient is close to the exact outer iteration.", "quantifier": "for all geometries, calls, multipliers, positive penalties and scales, and optimisers", "why_tests_cant": "a statement about all points of all inner problems", "anchors": ["src/quadcoil/solver.py: solve_constrained", "src/quadcoil/solver.py: run_opt_optax", "src/quadcoil/quadcoil.py: quadcoil", "src/quadcoil/quantity/current.py: _f_K"]}
{"id": "C138", "title": "Without constraints the reported gradient bounds the distance from the solution", "statement": "For a call without constraints, with smooth convex objectives and f_K among them on a resolving grid, the distance of the returned potential from the only solution is at most the norm of the reported gradient divided by a positive constant that depends on the weight, the units and the geometry only.", "quantifier": "for all geometries, objective lists, weights, units, initial potentials and optimisers", "why_tests_cant": "the solution is not known in a test", "anchors": ["src/quadcoil/quadcoil.py: quadcoil", "src/quadcoil/solver.py: run_opt_optax", "src/quadcoil/quantity/current.py: _f_K"]}
{"id": "C139", "title": "The limits and tolerances of the caller govern the run", "statement": "Without constraints the optimiser stops at the first iteration where maxiter_tot is reached or the gradient, the average decrease, or the last steps and decrease are within the tolerances for the last solve. With constraints the outer loop ends with budget left only if the step is below xstop_outer and the constraints are below ctol_outer or the penalty exceeds 1e15; its inner runs obey the inner tolerances and the last run obeys the tolerances for the last solve.", "quantifier": "for all problems, arguments and optimisers", "why_tests_cant": "all problems and all combinations of limits and tolerances", "anchors": ["src/quadcoil/quadcoil.py: quadcoil", "src/quadcoil/solver.py: run_opt_optax", "src/quadcoil/solver.py: solve_constrained"]}
{"id": "C140", "title": "A call solves the problem that its arguments describe", "statement": "A call gets to the solver exactly if there are field periods, one of distance and winding surface is given, the winding grid divides into field periods, the arrays have the sizes that belong to the resolutions, and objectives and constraints are legal. Then the solver gets the problem described by the arguments: default grids where none are given, the given or generated winding surface, the given plasma field or zero. The call returns this problem, the potential found, and for every requested quantity its value at this potential. The call with default arguments is accepted, starts at zero and minimises the field error relative to the one without potential.", "quantifier": "for all arguments and optimisers", "why_tests_cant": "all combinations of about fifty arguments", "anchors": ["src/quadcoil/quadcoil.py: quadcoil", "src/quadcoil/quadcoil.py: _input_checking", "src/quadcoil/quadcoil_params.py: QuadcoilParams", "src/quadcoil/surfacerzfourier_jax.py: SurfaceRZFourierJAX"]}
{"id": "C141", "title": "A unit left as None is the value without potential", "statement": "Leaving the unit of a quantity as None hands the solver exactly the same problem as giving the value of this quantity at zero potential: same unknowns, start, objective, constraints, settings and errors.", "quantifier": "for all problems, registries, lists of objectives and constraints, and smoothing modes", "why_tests_cant": "equality of functions, for all calls", "anchors": ["src/quadcoil/quadcoil.py: quadcoil", "src/quadcoil/wrapper.py: _add_quantity", "src/quadcoil/wrapper.py: _parse_objectives", "src/quadcoil/wrapper.py: _parse_constraints"]}
{"id": "C142", "title": "The usual call returns a potential near the only best one", "statement": "Call with the objectives f_B and f_K with units None and weights 1 and w, no constraints and default grids, at most 16 poloidal and 15 toroidal modes, regular surfaces, a net current and a normal field: the call returns, there is exactly one best potential, and the returned one is at most a constant times the reported gradient away from it. With constraints, a call that returns with zero gradient, satisfied constraints and complementary multipliers returns the solution.", "quantifier": "for all surfaces, net currents, plasma fields, weights and optimisers", "why_tests_cant": "the solution is not known in a test", "anchors": ["src/quadcoil/quadcoil.py: quadcoil", "src/quadcoil/quantity/magnetic_field.py: _f_B", "src/quadcoil/quantity/current.py: _f_K", "src/quadcoil/solver.py: run_opt_optax", "src/quadcoil/solver.py: solve_constrained"]}
{"id": "C143", "title": "Constraint values have prices, and the reported multipliers bound them", "statement": "For convex objectives and constraints the best objective is a convex function of the constraint values and does not grow when a value is weakened. If some potential satisfies all constraints strictly, each constraint has a price that is not negative, and zero if the constraint is not active: with other values no potential gets below the present optimum minus the sum of price times relief. The multipliers that a run reports give such a bound whether or not the run converged: the objective at any potential that satisfies the new constraints is at least the reported one plus the reported products of multipliers and constraint values, minus the relief in units of the constraint times the sum of the multipliers, minus gradient norm times distance.", "quantifier": "for all geometries, objective and constraint lists, units, old and new values, and optimisers", "why_tests_cant": "all new values at once, and optima are not known in a test", "anchors": ["src/quadcoil/quadcoil.py: quadcoil", "src/quadcoil/wrapper.py: _parse_constraints", "src/quadcoil/solver.py: solve_constrained", "src/quadcoil/solver.py: run_opt_optax"]}
{"id": "C144", "title": "The documented defaults are the defaults, or the difference has no effect", "statement": "For every documented parameter of quadcoil the documented default is the one of the signature, and the parameter is called static exactly if it is. Where the defaults differ, the results of a call do not: a call that leaves the objective out returns what the call with the documented objective returns, for all other arguments, and the weight of a single objective does not matter.", "quantifier": "for all documented parameters; for all calls with any objectives, constraints, settings and optimisers", "why_tests_cant": "tests pass the options they need and never compare with the documentation", "anchors": ["src/quadcoil/quadcoil.py: quadcoil", "src/quadcoil/quadcoil.py: QUADCOIL_STATIC_ARGNAMES", "src/quadcoil/wrapper.py: _parse_objectives"]}
{"id": "C145", "title": "The force of a problem is the Lorentz force of all other grid points", "statement": "With a uniform winding grid evaluated on its first field period, each component of the reported force at a grid point is the sum over all other grid points of the whole winding surface, each once, of the area element times the integrand of the Lorentz force exerted on the current at the point, given in the frame of the point; it is enough to compute the current and its derivatives in the first field period.", "quantifier": "for all regular winding surfaces, net currents, potentials, field periods, grids and components", "why_tests_cant": "all grids and surfaces; the reference value is a sum over all field periods that no test computes", "anchors": ["src/quadcoil/quantity/force.py: _force_cyl", "src/quadcoil/quantity/force.py: _integrate_force", "src/quadcoil/quantity/force.py: _force_integrands_xyz", "src/quadcoil/math_utils.py: project_arr_cylindrical"]}
{"id": "C146", "title": "The offset surface has the requested distance from the plasma and keeps its symmetry", "statement": "The points of the offset surface lie at the requested distance from the plasma surface, along its normal: on the plasma surface shifted along its unit normal. For a circular torus this is the torus with the minor radius enlarged by the distance, and points of the midplane stay in the midplane. When the plasma grid is refined, the offset points tend to the shifted surface, uniformly.", "quantifier": "for all plasma surfaces with a normal, distances and grids", "why_tests_cant": "statement about the limit of fine grids and about all grids", "anchors": ["src/quadcoil/winding_surface.py: gen_winding_surface_offset"]}
{"id": "C147", "title": "An axisymmetric plasma gets an axisymmetric winding surface", "statement": "For a plasma surface of revolution the generated winding surface is a surface of revolution: R and Z of the returned surface do not depend on the toroidal angle. This holds for the offset, arc length and arctangent generators.", "quantifier": "for all circular tori, distances, field periods, grids, mode numbers and Tikhonov parameters", "why_tests_cant": "all grids and mode numbers; the deviations are small and no test looks at single coefficients", "anchors": ["src/quadcoil/winding_surface.py: gen_winding_surface_offset", "src/quadcoil/winding_surface.py: gen_winding_surface_arc", "src/quadcoil/winding_surface.py: gen_winding_surface_atan", "src/quadcoil/winding_surface.py: fit_surfacerzfourier"]}
{"id": "C148", "title": "A NaN ends the solve and shows in the result", "statement": "The solver has no test for NaN. Still, a NaN neither keeps it running nor gets lost. An inner solve that meets a point with a NaN objective ends there, after one iteration if it is the starting point. A component of the unknowns that is NaN in any state of the outer loop is NaN in the result. If a constraint value is NaN after any pass through the outer loop, its multiplier is NaN in the result and so is the reported value of the augmented Lagrangian. A solve from NaN unknowns does two iterations.", "quantifier": "for all arithmetics in which NaN spreads and compares false (so for IEEE floats with any rounding), all problems, settings and optimisers with optax's counter, stored value and shapes", "why_tests_cant": "no test produces a NaN in the middle of a run, and a run of the compiled loops cannot be inspected", "anchors": ["src/quadcoil/solver.py: run_opt_optax", "src/quadcoil/solver.py: solve_constrained", "src/quadcoil/solver.py: gplus_hard"]}
{"id": "C149", "title": "Orientation of the device and origins of the angles do not matter", "statement": "Rotate the whole device about its axis and count the toroidal and the poloidal angle from other origins, with all grids moved along. Then for every potential there is one that describes the same current; with it every quantity takes the same values at the corresponding grid points, every scalar function and every user problem has the same value, and the minimisers correspond. With stellarator symmetry the shifts must be multiples of half a period.", "quantifier": "for all surfaces, net currents, plasma fields, mode numbers, grids, shifts, objective and constraint lists", "why_tests_cant": "all shifts and all quantities at once; tests use one description of each device", "anchors": ["src/quadcoil/quadcoil_params.py: QuadcoilParams", "src/quadcoil/quantity/current.py: _K", "src/quadcoil/quantity/magnetic_field.py: _Bnormal", "src/quadcoil/quantity/force.py: _force_cyl", "src/quadcoil/quadcoil.py: quadcoil"]}
{"id": "C150", "title": "Without stellarator symmetry the current is still determined", "statement": "If the potential is not stellarator symmetric, a constant can be added to it without changing the current. For objectives with a positive weight of f_K, convex quantities and constraints that do not use the values of the potential, and an evaluation grid that resolves the modes: the problem has solutions if some potential satisfies the constraints, the solutions are exactly the potentials that differ from one of them in the coefficient of the constant mode, and all have the same current density everywhere. The value of the objective bounds the distance from the solutions, and so do the gradient, the violation and the multipliers reported by a run. The usual call on the default grids returns a potential whose distance from a best one is at most a fixed multiple of the reported gradient.", "quantifier": "for all surfaces, net currents, plasma fields, mode numbers, resolving grids, objective and constraint lists, weights, units, optimisers and starting points", "why_tests_cant": "all problems and all returned points; a test compares coefficients with a stored solution, which is one point of a line here", "anchors": ["src/quadcoil/quantity/current.py: _K", "src/quadcoil/quadcoil_params.py: QuadcoilParams", "src/quadcoil/quadcoil.py: quadcoil", "src/quadcoil/solver.py: solve_constrained", "src/quadcoil/solver.py: run_opt_optax"]}
{"id": "C151", "title": "The gradients of a call are the derivatives along the best potentials", "statement": "For the call with objectives f_B and f_K: for all inputs near the given ones there is exactly one best potential, and it is a differentiable function of the plasma surface, the winding surface or the distance, the net currents, the plasma field and the weights. The gradients that the code computes at the best potential are the derivatives of the metric along the best potentials, one for every entry of every input, under the key of the input and in its shape. For a run the linear system has exactly one solution if the final gradient of the solver is small enough, and the gradients come as near to the derivatives as wanted.", "quantifier": "for all inputs with regular surfaces that are apart, all weights, optimisers with optax's contracts, metrics f_B, f_K and f_obj (with the weights of the call) and all accuracies", "why_tests_cant": "finite differences check single directions at single inputs up to solver errors; nothing checks that the best potential is differentiable or that the linear system has one solution", "anchors": ["src/quadcoil/quadcoil.py: quadcoil", "src/quadcoil/quadcoil_params.py: QuadcoilParams"]}
{"id": "C152", "title": "Another unit of length or current changes nothing but the units of the result", "statement": "Give the same device in other units: all lengths of the arguments times l, all currents times mu, magnetic fields times mu/l, and units and bounds of every quantity times the power of l and mu that belongs to it. The call then raises the same error, or hands the same problem and starting point to the solver and returns the same result in the other units: the solver reports the same, the potential is multiplied by mu, every metric by its factor, and the objective is unchanged.", "quantifier": "for all arguments, l > 0 and mu > 0, all optimisers, all lists of objectives and constraints, all smoothing modes", "why_tests_cant": "all unit systems and all optimisers at once; every test works in SI units", "anchors": ["src/quadcoil/quadcoil.py: quadcoil", "src/quadcoil/wrapper.py: _parse_objectives", "src/quadcoil/wrapper.py: _parse_constraints", "src/quadcoil/quantity/quantity.py: generate_l1_norm", "src/quadcoil/quantity/quantity.py: generate_linf_norm"]}
{"id": "C153", "title": "A generated winding surface scales with the plasma", "statement": "Multiply all points of the plasma surface and the distance by the same number. Then all coefficients of the winding surface from each of the three generators are multiplied by it: the results of the generators for the two devices correspond, the fits have a solution (for all samples, even if no sample has a weight) and exactly one of least norm, and with it the offset generator and the default generator return the scaled list of coefficients. So the default generator meets what C152 asks of a generator.", "quantifier": "for all plasma grids, distances, numbers of field periods, resolutions, interpolations, regularisations and factors l > 0", "why_tests_cant": "all grids and factors at once, also where cross sections intersect themselves or the first fit is singular; tests use two devices in metres", "anchors": ["src/quadcoil/winding_surface.py: gen_winding_surface_offset", "src/quadcoil/winding_surface.py: gen_winding_surface_arc", "src/quadcoil/winding_surface.py: gen_winding_surface_atan", "src/quadcoil/winding_surface.py: fit_surfacerzfourier", "src/quadcoil/winding_surface.py: polygon_self_intersection", "src/quadcoil/math_utils.py: safe_linear_solve"]}
{"id": "C154", "title": "A generated winding surface depends smoothly on plasma and distance", "statement": "Where the approximate normals of the plasma points do not vanish, no offset point lies on the axis, the first fit has one solution and the cross sections of the offset surface are simple polygons, the coefficients returned by the offset generator and by the default generator are infinitely often differentiable functions of the plasma points and the distance. So a call with the default generator can be differentiated with respect to the plasma surface and the distance, as C151 assumes. A circular torus meets the conditions at distance zero, and smoothness holds at all small distances.", "quantifier": "for all plasma grids, distances, numbers of field periods, resolutions, interpolations and regularisations in the regular case", "why_tests_cant": "differentiability is about all small changes at once; the code picks branches (arctan2, weights of intersecting edges, pseudo-inverse), and tests compare values at two devices only", "anchors": ["src/quadcoil/winding_surface.py: gen_winding_surface_offset", "src/quadcoil/winding_surface.py: gen_winding_surface_arc", "src/quadcoil/winding_surface.py: fit_surfacerzfourier", "src/quadcoil/winding_surface.py: polygon_self_intersection", "src/quadcoil/math_utils.py: safe_linear_solve", "src/quadcoil/quadcoil.py: quadcoil"]}
{"id": "C155", "title": "A device may be described with fewer field periods", "statement": "Describe a device with n field periods as one with n/N field periods, with the same surfaces, the same winding grid of the whole torus and N times as many evaluation and plasma points, because a field period is N times longer. Such a description exists for every divisor N, with toroidal mode numbers multiplied by N. A potential of the first description is one of the second; the current at every point and the field anywhere in space are the same; all quantities that are numbers have the same values, and arrays have the same entries, N times each (apart from Cartesian components and the total potential). This includes the force, if the evaluation points are the winding grid points of the first field period. Objective and constraints agree. For convex objectives and constraints the solutions are the same, although the second description admits potentials that differ between the merged field periods.", "quantifier": "for all surfaces, grids, potentials, plasma fields and divisors N of the number of field periods; solutions: all sums of convex objectives with any accepted constraints on affine and convex quantities", "why_tests_cant": "all numbers of field periods at once, and a statement about all potentials without the symmetry; tests use one number of field periods per device", "anchors": ["src/quadcoil/quantity/current.py: _K", "src/quadcoil/quantity/force.py: _force_cyl", "src/quadcoil/quantity/magnetic_field.py: _Bnormal", "src/quadcoil/quantity/magnetic_field.py: _f_B", "src/quadcoil/quadcoil_params.py: QuadcoilParams", "src/quadcoil/surfacerzfourier_jax.py: dof_to_gamma_op", "src/quadcoil/quantity/quantity.py: generate_l1_norm", "src/quadcoil/wrapper.py: _parse_constraints"]}
{"id": "C156", "title": "The change of coordinates for a Hessian gives it condition number 1", "statement": "The two maps returned for a symmetric invertible Hessian are inverse to each other. In the new coordinates the Hessian of a function is symmetric and its own inverse, so all its eigenvalues are 1 or -1, and the identity if it was positive definite. For a Hessian that is not invertible the first map is not injective and the second divides by zero.", "quantifier": "for all symmetric matrices of all sizes and all singular value decompositions, also with repeated singular values", "why_tests_cant": "the function is not called by the package, so no test reaches it; repeated singular values and indefinite matrices are the hard cases", "anchors": ["src/quadcoil/quadcoil.py: _precondition_coordinate_by_matrix"]}
{"id": "C157", "title": "The order in which objectives and constraints are listed does not matter", "statement": "A call that lists the same objectives (each with its unit and weight) and the same constraints in another order fails exactly if the first one fails and stops exactly if it stops. It returns the same outputs, including gradients, and the same solution. The constraint values reported by the solver are the same up to order, and every value keeps its multiplier.", "quantifier": "for all devices, options, lists of objectives and constraints, all permutations and all optimisers that look at a function only at vectors of the given shape", "why_tests_cant": "the number of orders grows factorially and the solver is iterative: equality of complete runs of any length needs an invariant of the loops, and exact arithmetic", "anchors": ["src/quadcoil/wrapper.py: _parse_objectives", "src/quadcoil/wrapper.py: _parse_constraints", "src/quadcoil/wrapper.py: merge_callables", "src/quadcoil/quadcoil.py: quadcoil (f_g_ineq_h_eq_from_y)", "src/quadcoil/solver.py: solve_constrained"]}
{"id": "C158", "title": "Reversing all currents reverses the solution", "statement": "Change the sign of both net currents, of the plasma field and of the potential. Then K, the fields, their normal components and the potential change sign, and every other quantity keeps its value, also smoothed. A potential solves a problem exactly if its negative solves the problem with reversed currents, where bounds on quantities that change sign are reversed (f <= v becomes f >= -v). The program accepts exactly the same problems and forms the same constraint functions, if the units of constraints on quantities that change sign are given. With automatic units it demands the opposite.", "quantifier": "for all devices, potentials, lists of objectives and constraints, units, smoothing modes and parameters", "why_tests_cant": "an identity for all devices and potentials and for the set of all solutions; tests use one sign of the currents, so that the sign of the automatic unit goes unnoticed", "anchors": ["src/quadcoil/quantity/current.py: _K", "src/quadcoil/quantity/magnetic_field.py: _Bnormal", "src/quadcoil/quantity/magnetic_field.py: _winding_surface_B", "src/quadcoil/quantity/quantity.py: generate_c2", "src/quadcoil/wrapper.py: _add_quantity", "src/quadcoil/wrapper.py: _parse_constraints"]}
{"id": "C159", "title": "The sign of phi_unit does not matter", "statement": "A call with the unit -u of the potential fails with the same error as the call with the unit u, stops exactly if it stops, and returns the same outputs and the same solution. The results of the solver are the same up to the signs of the scaled potential and of the gradient.", "quantifier": "for all devices, options, objectives, constraints, smoothing modes, numbers u (also 0) and all optimisers that prefer no sign of an unknown", "why_tests_cant": "a statement about complete runs of two nested loops of any length; tests use one positive unit", "anchors": ["src/quadcoil/quadcoil.py: quadcoil", "src/quadcoil/quadcoil.py: quadcoil (unravel_unscale_x)", "src/quadcoil/solver.py: run_opt_optax", "src/quadcoil/solver.py: solve_constrained"]}
{"id": "C160", "title": "A call with reversed currents returns the reversed solution", "statement": "Change the sign of both net currents, of the plasma field and of the initial potential, and reverse the bounds on quantities that change sign (f <= v becomes f >= -v). If the units of these constraints are given and f_huber_K is not smoothed, then the call fails exactly if the first one fails and stops exactly if it stops. It returns the opposite potential, and every output value with the sign of its quantity. The results of the solver are the same up to the signs of the unknowns and the order of the constraints.", "quantifier": "for all devices, options, lists of objectives and constraints, smoothing modes and all optimisers that prefer no sign of an unknown and look at a function only at vectors of the given shape", "why_tests_cant": "a statement about complete runs of two nested loops of any length, with slack variables; tests use one sign of the currents", "anchors": ["src/quadcoil/quadcoil.py: quadcoil", "src/quadcoil/wrapper.py: _parse_objectives", "src/quadcoil/wrapper.py: _parse_constraints", "src/quadcoil/wrapper.py: _add_quantity", "src/quadcoil/solver.py: solve_constrained", "src/quadcoil/quadcoil_params.py: QuadcoilParams"]}
{"id": "C161", "title": "A call for the mirror image of a device returns the same potential", "statement": "Reflect plasma surface and winding surface at the plane z = 0 (the coefficients of Z change sign), keeping grids, net currents and the given normal field. Then at the same potential the current and its derivatives are reflected, the magnetic field is reflected and reversed, and every other quantity keeps its value, also smoothed. If no constraint refers to Cartesian or cylindrical components of a vector and f_huber_K is not smoothed, the call fails with the same error, stops exactly if the first one stops, and returns the same potential and the mirror images of all outputs. The results of the solver are the same up to the order of the constraints. If the winding surface is generated, the generator must give the mirror image for the mirror image of the plasma and the opposite distance; if the unit of the potential is automatic and the winding surface is given, both surfaces need at least one poloidal mode.", "quantifier": "for all devices, potentials, options, lists of objectives and constraints, smoothing modes and all optimisers that look at a function only at vectors of the given shape", "why_tests_cant": "an identity for all devices and complete runs of two nested loops of any length; tests use one handedness", "anchors": ["src/quadcoil/quantity/current.py: _K", "src/quadcoil/quantity/magnetic_field.py: _winding_surface_B", "src/quadcoil/quantity/magnetic_field.py: _Bnormal", "src/quadcoil/quadcoil.py: quadcoil", "src/quadcoil/wrapper.py: _add_quantity", "src/quadcoil/solver.py: solve_constrained", "src/quadcoil/surfacerzfourier_jax.py: SurfaceRZFourierJAX"]}
{"id": "C162", "title": "The generated winding surface does not depend on the handedness of the plasma", "statement": "A positive plasma_coil_distance puts the winding surface outside the plasma, also for the mirror image of a plasma, and the generated surface of the mirror image is the mirror image of the generated surface. (Proved with the distance reversed: the uniform offset and the default generator applied to the reflected points and the distance -d give the reflected surface for d, and a call with the default generator for the mirror image and -d returns the same potential. With the same sign it is false: for the mirror image of a circular torus every small positive distance puts all points of the offset surface inside the plasma.)", "quantifier": "for all plasma points, distances, numbers of modes, resolutions and regularisations; the failure for all circular tori and grids with at least 3 points in each direction", "why_tests_cant": "an identity between two least squares solutions for all samples; tests use plasmas with one poloidal direction", "anchors": ["src/quadcoil/winding_surface.py: gen_winding_surface_offset", "src/quadcoil/winding_surface.py: gen_winding_surface_arc", "src/quadcoil/quadcoil.py: quadcoil"]}
{"id": "C163", "title": "A run that starts at a solution stays there", "statement": "If the initial potential has the smallest objective of all potentials and satisfies the constraints, the call returns exactly this potential: after one iteration without constraints, after two runs of the inner solver of one iteration each with constraints. The solver returns any point that satisfies the conditions of Karush, Kuhn and Tucker if it is started there with the right multipliers. With zero multipliers, as in every call, the first inner problem is at rest at a point that satisfies the constraints exactly if the objective is.", "quantifier": "for all devices, weights, units, lists of smooth convex objectives and constraints, and all optimisers for which a zero gradient gives a zero update", "why_tests_cant": "the solution is not known in a test, and a test cannot tell a point that stays exactly from one that moves by less than the tolerance", "anchors": ["src/quadcoil/solver.py: solve_constrained", "src/quadcoil/solver.py: run_opt_lbfgs", "src/quadcoil/solver.py: run_opt_optax", "src/quadcoil/quadcoil.py: quadcoil"]}
{"id": "C164", "title": "A weight and a limit describe the same solutions", "statement": "A quantity can be made small by a weight in the objective or by an upper limit as a constraint, and the two agree. A best potential for weighted objectives is best for the remaining objectives under the limits that it reaches. For convex objectives and limits that some potential satisfies strictly there are weights, none negative, such that the best potentials under the limits are the best ones for the weighted objectives that keep the limits and reach those with a weight. If the remaining objectives contain f_K with a positive weight and the grid resolves the potential, the two calls pass problems with the same potential to the solver. A larger weight on one quantity does not make it larger and does not make the other objectives smaller.", "quantifier": "for all geometries, lists of objectives and constraints, units, weights and limits", "why_tests_cant": "the weights that belong to given limits are not known in a test, and the statement is about exact minimisers", "anchors": ["src/quadcoil/quadcoil.py: quadcoil", "src/quadcoil/wrapper.py: _parse_objectives", "src/quadcoil/wrapper.py: _parse_constraints", "src/quadcoil/wrapper.py: _add_quantity"]}
{"id": "C165", "title": "Only the ratio of weight and unit of each objective matters", "statement": "The program does the same for two lists of objectives if for each quantity the sum of weight over size of the unit is the same: a weight and a unit can be scaled together, an objective can be split into several entries, entries with weight zero can be left out, the sign of a unit has no effect. Same errors, same iterations, same result. One objective given as a string is the same as a tuple of length one with weight 1, whatever weight is given, up to the keys of the gradients.", "quantifier": "for all calls, lists, optimisers; objectives f_K, f_B, f_B_normalized_by_Bnormal_IG, f_Phi in each mode, all objectives without smoothing", "why_tests_cant": "infinitely many lists describe the same objective", "anchors": ["src/quadcoil/wrapper.py: _parse_objectives", "src/quadcoil/wrapper.py: _add_quantity", "src/quadcoil/quadcoil.py: quadcoil"]}
{"id": "C166", "title": "Constraints that are not active at the solution can be left out", "statement": "For convex objectives and constraints, a best potential that satisfies some of the constraints strictly is also best when these constraints are not given. Conversely a best potential that happens to satisfy further constraints stays best when they are added, and then the best potentials with them are the best ones without them that satisfy them; this needs no convexity. If f_K is an objective with a positive weight and the grid resolves the potential, the problems that the two calls pass to the solver have the same potential.", "quantifier": "for all geometries, lists of objectives and constraints, units, weights and limits", "why_tests_cant": "which constraints are active is a statement about the exact minimiser, and no better potential may exist anywhere, not only near the solution", "anchors": ["src/quadcoil/quadcoil.py: quadcoil", "src/quadcoil/wrapper.py: _parse_objectives", "src/quadcoil/wrapper.py: _parse_constraints", "src/quadcoil/wrapper.py: _add_quantity"]}
{"id": "C167", "title": "Every entry of a reported array is the value at its grid point", "statement": "Let K be the current on the winding surface whose stream function is the Fourier series with the returned coefficients plus the net currents. The reported arrays K, K2, K_dot_grad_K, Phi, Phi_with_net_current, Phi2 and, with stellarator symmetry, K_theta contain at index i*ntheta+j the value at the grid point (phi_i, theta_j); winding_surface_B and Bnormal contain the field of this current by the law of Biot and Savart at the points of the plasma grid; f_K, f_Phi, f_huber_K, f_l1_Phi and f_B are the sums over the grid of value times area for all periods; the f_max quantities are the largest absolute values or their powers.", "quantifier": "for all surfaces, coefficients with the right length, grids, net currents, calls, optimisers", "why_tests_cant": "a test compares single numbers; transposed grids or interchanged angles can agree on symmetric or square grids", "anchors": ["src/quadcoil/quantity/current.py: _K", "src/quadcoil/quantity/current.py: _K2", "src/quadcoil/quantity/current.py: _K_theta", "src/quadcoil/quantity/current.py: _f_K", "src/quadcoil/quantity/curvature.py: _K_dot_grad_K", "src/quadcoil/quantity/magnetic_field.py: _winding_surface_B", "src/quadcoil/quantity/magnetic_field.py: _Bnormal", "src/quadcoil/quantity/magnetic_field.py: _f_B", "src/quadcoil/quantity/dipole.py: _Phi", "src/quadcoil/quadcoil.py: quadcoil"]}
{"id": "C168", "title": "The earlier force routine agrees with the present one", "statement": "With a uniform winding grid whose first field period is the evaluation grid, and without two grid points at one place, _force_cyl_legacy and _force_cyl return the same force at every evaluation point: the sum over all grid points of the whole winding surface that lie elsewhere.", "quantifier": "for all surfaces, coefficients, net currents, numbers of field periods and grid sizes", "why_tests_cant": "the earlier routine is not called by anything, so that no test compares them", "anchors": ["src/quadcoil/quantity/force.py: _force_cyl_legacy", "src/quadcoil/quantity/force.py: _force_cyl", "src/quadcoil/quantity/force.py: _integrate_force_legacy"]}
{"id": "C169", "title": "Printing does not change what is returned", "statement": "At every level of verbose the same calls fail with the same error, the value and the gradients of every requested metric are the same, the output dictionary has no entries but the requested metrics, and the function made by gen_quadcoil_for_diff can be differentiated in the same cases.", "quantifier": "for all levels of verbose, lists of metrics, calls with and without constraints, and tangents", "why_tests_cant": "tests run at one level of printing", "anchors": ["src/quadcoil/quadcoil.py: quadcoil", "src/quadcoil/io/jax.py: gen_quadcoil_for_diff"]}
{"id": "C170", "title": "The height at which a device is placed does not matter", "statement": "If plasma and winding surface without stellarator symmetry are both moved up by the same height, every quantity and every form of it that the code offers for objectives and constraints stays the same, and a call of quadcoil raises the same error or returns the same potential and the same metrics.", "quantifier": "for all surfaces, heights, coefficients, arguments, optimisers and metrics", "why_tests_cant": "tests use devices that are symmetric about the midplane, for which wrong directions off the midplane often cancel", "anchors": ["src/quadcoil/quadcoil.py: quadcoil", "src/quadcoil/math_utils.py: project_arr_cylindrical", "src/quadcoil/quantity/curvature.py: _K_dot_grad_K_cyl", "src/quadcoil/quantity/force.py: _force_cyl", "src/quadcoil/surfacerzfourier_jax.py: gamma", "src/quadcoil/wrapper.py: _add_quantity"]}
{"id": "C171", "title": "The second fit of a generated winding surface always has exactly one solution", "statement": "The rule for self-intersections keeps at least one vertex of every cross section, whatever the polygon is. So with a positive regularisation the second fit of gen_winding_surface_arc and gen_winding_surface_atan has exactly one solution, for every result of the first step. One vertex may be all that is kept.", "quantifier": "for all polygons, plasma grids, distances, resolutions and positive lam_tikhonov", "why_tests_cant": "there are infinitely many ways in which offset cross sections can cross themselves, and weights that are all zero would make the fit singular only for some of them", "anchors": ["src/quadcoil/winding_surface.py: polygon_self_intersection", "src/quadcoil/winding_surface.py: gen_winding_surface_arc", "src/quadcoil/winding_surface.py: gen_winding_surface_atan", "src/quadcoil/winding_surface.py: fit_surfacerzfourier"]}
{"id": "C172", "title": "What a call reports does not influence what it computes", "statement": "Two calls of quadcoil that differ only in metric_name and value_only work on the same problem and return the same degrees of freedom and solver results. A metric that both report has the same value in both. One of them can fail while the other does not only if it asks for a metric that does not exist, and then with the error of looking up this name.", "quantifier": "for all arguments, lists of metrics, modes, optimisers and registries", "why_tests_cant": "the lists of metrics are combinations of many names in any order, in two modes, and every test fixes one list", "anchors": ["src/quadcoil/quadcoil.py: quadcoil", "src/quadcoil/wrapper.py: get_quantity"]}
{"id": "C173", "title": "Limits on the number of iterations that are not reached do not matter", "statement": "If a call of quadcoil reports fewer iterations than maxiter_tot and, with constraints, maxiter_inner, then the call with any other limits above the reported number returns exactly the same. The same holds for the minimiser and the augmented Lagrangian solver on their own. A smaller limit cuts the minimiser off after exactly so many steps, at least one.", "quantifier": "for all problems, masks, tolerances, limits, arguments and optimisers that count their steps", "why_tests_cant": "whether the limits leak into a converged run, for example through the rule that updates the penalty, depends on the run; tests use one pair of limits", "anchors": ["src/quadcoil/solver.py: run_opt_optax", "src/quadcoil/solver.py: solve_constrained", "src/quadcoil/quadcoil.py: quadcoil"]}
{"id": "C174", "title": "The solution depends on what is asked for, not on how it is written", "statement": "Two convex calls whose constraints allow the same potentials and whose objectives order them in the same way pass problems to the solver that have the same potential as solution, with or without auxiliary variables, for all units, initial potentials and scales. In particular units, order and repetitions of constraints do not matter, an equality is an upper and a lower limit, of two limits the smaller one counts, a limit of f_max_Phi or f_max_Phi2 is a limit of Phi, and all weights may be multiplied by the same number.", "quantifier": "for all pairs of calls with f_K among the objectives on stellarator-symmetric resolving grids", "why_tests_cant": "pairs of calls that ask for the same thing are endless, and runs on both never agree exactly", "anchors": ["src/quadcoil/wrapper.py: _parse_constraints", "src/quadcoil/wrapper.py: _parse_objectives", "src/quadcoil/wrapper.py: _add_quantity", "src/quadcoil/quadcoil.py: quadcoil"]}
{"id": "C175", "title": "The mask that the caller chooses is solved and differentiated", "statement": "The gradients are computed with the same augmented Lagrangian that the solver minimises, whatever gplus_mask is. In particular a limit that is not reached, with multiplier 0, does not change the reported gradients.", "quantifier": "for all masks, scales, penalty weights, problems and metrics", "why_tests_cant": "tests use the default mask; with another one a run returns plausible numbers, and finite differences of noisy runs do not show which part is wrong", "anchors": ["src/quadcoil/quadcoil.py: quadcoil", "src/quadcoil/solver.py: gplus_elu", "src/quadcoil/solver.py: gplus_softplus", "src/quadcoil/solver.py: gplus_hard"]}
{"id": "C176", "title": "Small changes of limits and weights change the solution little", "statement": "For a legal convex call with a weight on f_K and a potential that satisfies all constraints strictly there are K and delta0 > 0 such that every call whose constraint values differ by at most delta <= delta0 passes the set-up, its problem has solutions, all with one potential, whose squared distance from the potential of the given call is at most K*delta, and the optimum differs by at most K*delta. If the weights differ by at most the fraction eps < 1, the squared distance of the potentials is at most 2*eps/(1-eps) times the optimum, times the unit over the weight of f_K, over a number that depends on geometry and grid only.", "quantifier": "for all surfaces, resolved grids, convex objectives and constraints, values, weights, units and modes without approx smoothing", "why_tests_cant": "a test compares two runs; a jump of the solution between two other values, or a limit that makes the problem insoluble, is not seen", "anchors": ["src/quadcoil/wrapper.py: _parse_constraints", "src/quadcoil/wrapper.py: _parse_objectives", "src/quadcoil/quadcoil.py: quadcoil"]}
{"id": "C177", "title": "Gradients by automatic differentiation are numbers", "statement": "Wherever the code evaluates to a number, the gradient that automatic differentiation computes is the derivative of that function and not NaN: at constraints violated by any amount, at points where the current vanishes and at coincident points of the force integral.", "quantifier": "for all constraint values, multipliers, penalty weights, scales, potentials, grids and surfaces", "why_tests_cant": "the gradient of a branch that jnp.where discards, or of a norm at zero, is only seen when a run hits exactly these values, and then as NaN without a hint of where it came from", "anchors": ["src/quadcoil/solver.py: gplus_elu", "src/quadcoil/solver.py: gplus_softplus", "src/quadcoil/solver.py: gplus_hard", "src/quadcoil/quantity/quantity.py: generate_huber", "src/quadcoil/quantity/force.py: _integrate_force", "src/quadcoil/quantity/force.py: _integrate_force_legacy"]}
{"id": "C178", "title": "The winding surface produces no net flux through the plasma surface", "statement": "Whatever the winding surface, its grid, the net currents and the potential: the computed field has no net flux through the plasma surface, so the area-weighted sum of Bnormal without plasma field tends to 0 as the plasma grid is refined. A net flux F of the plasma field through one field period of area A therefore cannot be removed: f_B stays at least nfp*F^2/(2*A).", "quantifier": "for all winding surfaces and grids (uniform over whole field periods), plasma surfaces that contain no winding grid point, currents, potentials and plasma fields", "why_tests_cant": "the identity is exact only in the limit of the plasma grid and for every coarse winding grid at once; stellarator-symmetric test cases have no net flux for another reason", "anchors": ["src/quadcoil/quantity/magnetic_field.py: _winding_surface_B", "src/quadcoil/quantity/magnetic_field.py: _Bnormal", "src/quadcoil/quantity/magnetic_field.py: _f_B", "src/quadcoil/surfacerzfourier_jax.py: SurfaceRZFourierJAX"]}
{"id": "C179", "title": "The field of the winding surface is a vacuum field", "statement": "At every point off the winding surface, the computed field has no divergence, and its curl tends to 0 as the winding grid is refined, whatever the net currents and the potential.", "quantifier": "for all regular winding surfaces, potentials, net currents, points off the surface and sequences of uniform grids", "why_tests_cant": "one finite grid has a field with a curl; that it vanishes in the limit is a cancellation between all grid points which a sampled test sees as a small number of unknown origin", "anchors": ["src/quadcoil/quantity/magnetic_field.py: _winding_surface_B", "src/quadcoil/quantity/current.py: _K", "src/quadcoil/quadcoil_params.py: QuadcoilParams"]}
{"id": "C180", "title": "The law of Ampere holds for the computed field", "statement": "Along every closed curve off the winding surface, the circulation of the computed field tends to mu0 (G l - I l') as the winding grid is refined, where l and l' tell how often the curve is linked with a poloidal and a toroidal turn of the winding surface (the integral of Gauss, the same for every turn). The potential does not contribute; without net currents the circulation tends to 0. On a circular torus the circulation about the axis tends to -mu0 G inside and to 0 outside; with the net current that quadcoil_desc computes it is 2 pi times the G of the equilibrium.", "quantifier": "for all regular winding surfaces, potentials, net currents, closed curves off the surface and sequences of uniform grids", "why_tests_cant": "the constant 1e-7, the signs of the two net currents and the normalisation of the angles enter together; a test needs a reference field, and a wrong sign of a net current changes the field everywhere by an amount that another potential nearly compensates", "anchors": ["src/quadcoil/quantity/magnetic_field.py: _winding_surface_B", "src/quadcoil/quantity/current.py: _K", "src/quadcoil/quadcoil_params.py: QuadcoilParams", "src/quadcoil/io/desc.py: quadcoil_desc"]}
{"id": "C181", "title": "On axisymmetric surfaces the net poloidal current makes a toroidal field only", "statement": "If plasma and winding surface are axisymmetric and the plasma grid is aligned with the uniform winding grid (as the default grids are), then the net poloidal current does not change the normal field and f_B, whatever the potential; at every aligned point it changes the field in the toroidal direction only. As the winding grid is refined, its field tends everywhere off the surface to a toroidal field mu0 G l / (2 pi a), where a is the distance from the axis and l the linking of the circle through the point with the cross section (on a circular torus -1 inside and 0 outside).", "quantifier": "for all axisymmetric surfaces, potentials, net currents, points off the surface, aligned grids and sequences of uniform grids", "why_tests_cant": "a test on one tokamak sees small numbers of unknown origin; the exact cancellation holds for aligned grids only, and a wrong factor or sign of the net current shows up only against an analytic field", "anchors": ["src/quadcoil/quantity/magnetic_field.py: _winding_surface_B", "src/quadcoil/quantity/magnetic_field.py: _Bnormal", "src/quadcoil/quantity/magnetic_field.py: _f_B", "src/quadcoil/quantity/current.py: _K", "src/quadcoil/quadcoil.py: quadcoil"]}
{"id": "C182", "title": "An axisymmetric problem has an axisymmetric solution", "statement": "If plasma and winding surface are axisymmetric, the plasma field does not depend on the toroidal angle, and the uniform toroidal grids have a common number of steps above ntor, then leaving out all modes of the potential that depend on the toroidal angle never increases f_B + w f_K. So there is a solution without such modes for every w >= 0 (also f_B alone, the default objective); and with w > 0 and a resolving evaluation grid every solution is of this kind: the potential does not depend on the toroidal angle and the current only turns with it. The same holds for sums of convex objectives with constraints on affine and convex quantities other than Cartesian components, and a solution with ntor = 0 is then a solution for every ntor below that number of steps. The usual call with default grids returns a potential whose toroidal coefficients are bounded by a constant times the gradient that it reports.", "quantifier": "for all axisymmetric surfaces, net currents, resolutions, weights, plasma fields of the poloidal angle, grids with a common step, with and without stellarator symmetry of the potential", "why_tests_cant": "a test sees toroidal coefficients near 0 in one tokamak and cannot say whether they are rounding errors or a defect of the field, the grids or the order of the modes", "anchors": ["src/quadcoil/quantity/magnetic_field.py: _f_B", "src/quadcoil/quantity/magnetic_field.py: _Bnormal", "src/quadcoil/quantity/current.py: _f_K", "src/quadcoil/quantity/current.py: _K", "src/quadcoil/quadcoil_params.py: QuadcoilParams", "src/quadcoil/quadcoil.py: quadcoil"]}
{"id": "C183", "title": "The quantities obey the inequalities between norms, and a field at a distance needs a current", "statement": "On every grid, with A the area of the whole winding surface: 2 f_K <= A f_max_K2, f_huber_K^2 <= 2 A f_K, 2 f_K <= f_huber_K sqrt(f_max_K2), f_huber_K <= A sqrt(f_max_K2); 2 f_Phi <= A f_max_Phi2, f_l1_Phi^2 <= 2 A f_Phi, 2 f_Phi <= f_l1_Phi f_max_Phi, f_l1_Phi <= A f_max_Phi; 2 f_B <= (area of the plasma surface) f_max_Bnormal2; and f_max_Phi2, f_max_Phi4, f_max_Bnormal2 are the powers 2, 4, 2 of f_max_Phi, f_max_Bnormal. On matching grids the normal field of the coils at distance >= r from the winding surface is at most 1e-7 f_huber_K / r^2. So no potential makes f_max_Bnormal smaller than max|Bnormal_plasma| - 1e-7 f_huber_K / r^2, and f_K is at least (1e7 r^2 (max|Bnormal_plasma| - f_max_Bnormal))^2 / (2 A). Limits for f_max_Bnormal and for f_huber_K, f_K or f_max_K2 below these bounds cannot be met together by any potential.", "quantifier": "for all surfaces, potentials, net currents, plasma fields and grids with nonnegative steps (for the field: default evaluation grid of a winding grid over whole periods)", "why_tests_cant": "tests compare single quantities with stored numbers; a factor nfp, 1/2 or an area element missing in one of two quantities keeps each of them plausible, while the relation between them breaks", "anchors": ["src/quadcoil/quantity/current.py: _f_K", "src/quadcoil/quantity/current.py: _K2", "src/quadcoil/quantity/current.py: _K", "src/quadcoil/quantity/dipole.py: _f_Phi", "src/quadcoil/quantity/magnetic_field.py: _f_B", "src/quadcoil/quantity/magnetic_field.py: _Bnormal", "src/quadcoil/quantity/magnetic_field.py: _winding_surface_B", "src/quadcoil/quantity/quantity.py: generate_linf_norm", "src/quadcoil/quantity/quantity.py: generate_linf_norm_4", "src/quadcoil/quantity/quantity.py: generate_l1_norm", "src/quadcoil/quantity/quantity.py: generate_huber"]}
{"id": "C184", "title": "The net currents bound the current density from below", "statement": "Whatever the potential, the largest current density is at least the net poloidal current over the length of every toroidal loop of the evaluation grid, and at least the net toroidal current over the length of every poloidal loop: G <= sqrt(f_max_K2) L. So a limit on K2 or f_max_K2 below (G/L)^2 for the shortest loop cannot be met. And 2 f_K is at least G^2 over the mean of |dgamma/dphi|^2/|N|, the same for I with dgamma/dtheta.", "quantifier": "for all winding surfaces without singular points, potentials, net currents, numbers of field periods and uniform evaluation grids with more points than the largest mode number in each direction", "why_tests_cant": "a test with one current cannot tell whether the net current is spread over the loops; a wrong factor nfp or 2 pi in the net term or a potential that is not single-valued on the grid changes all values smoothly", "anchors": ["src/quadcoil/quantity/current.py: _K", "src/quadcoil/quantity/current.py: _K2", "src/quadcoil/quantity/current.py: _f_K", "src/quadcoil/quadcoil_params.py: diff_helper", "src/quadcoil/quadcoil_params.py: QuadcoilParams", "src/quadcoil/quantity/quantity.py: generate_linf_norm"]}
