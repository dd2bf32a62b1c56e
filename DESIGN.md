# Verification of quadcoil: design

The code is `/repo/src/quadcoil` (Python, JAX). It is read as text and modelled in Lean 4.

## Layout

* `lean/Verif/Model/*.lean`: the model, one definition per function of the code. Each definition cites
  file and lines. Simplifications are named next to the definition.
* `lean/Verif/Spec/*.lean`: small independent notions used in property statements
  (for example "the least upper bound of a field", "componentwise derivative").
* `lean/Verif/Lemmas/*.lean`: helper lemmas about the model.
* `lean/Verif/Props/*.lean`: the property theorems (named `C01_...`, `C02_...`), each with an `example`
  showing that its hypotheses can be met in a concrete, non-trivial case.

A theorem whose name ends in `_partial` covers only part of its property. If the property is false of
the code, the negation is proved with a concrete witness in a theorem named `..._violated_partial` or
similar, and the true part (if any) is proved next to it.

## Trusted base

* Lean's kernel (4.33.0) and the three standard axioms `propext`, `Classical.choice`, `Quot.sound`
  (through Mathlib's reals). No other axiom, no `sorry`, no `native_decide`, no `bv_decide`.
* The correspondence between model and code. It was made by reading, the code was never run.
* Numbers.  Loop control (termination, iteration counts, staleness) is modelled over an *arbitrary*
  number structure `Num` whose operations and comparisons are unconstrained. Those theorems hold for IEEE
  floats including NaN and rounding.  All other numeric properties are over the real numbers: rounding, overflow
  and NaN are not modelled there. Division by zero is excluded by hypothesis wherever Lean's `x / 0 = 0`
  would otherwise matter.
* External code is a parameter: optax (the optimiser step and its state), JAX transformations (`jit` and
  `vmap` are the identity, `grad`/`hessian` are true derivatives), lineax/`jnp.linalg` solves (specified by the
  equation they solve), DESC and simsopt. Only for C177 the reverse rules of JAX are written out, as they are in
  `jax/_src/lax/lax.py` as far as known without running it (`sqrt`: `ct * (0.5 / ans)`; `div`: `-ct * x * y**-2`; `select`: zeros to the other branch).
* Array programs are modelled pointwise: an array over the (phi, theta) grid is a function of the grid
  point. Shapes are modelled only where a property speaks about shapes or lengths.

Modelled: solver.py (all of it but printing); wrapper.py; quantity/quantity.py constructors;
the argument checking, key structure, scaling and differentiation formula of quadcoil.py; math_utils.py;
quadcoil_params.py; surfacerzfourier_jax.py; quantity/{current,magnetic_field,dipole,curvature,force}.py;
winding_surface.py; parts of plotting.py and io/{coil_cutting,jax,desc,focus,simsopt}.py.
Files: `Model/Num.lean`, `While.lean`, `Solver.lean` (solver.py); `Quantity.lean`, `Wrapper.lean`, `Lse.lean`
(wrapper.py, quantity/quantity.py, math_utils.py); `Dipole.lean` (quantity/dipole.py); `Api.lean`, `ImplicitDiff.lean`
(quadcoil.py); `Precond.lean` (quadcoil.py, the preconditioner); `V3.lean`, `Modes.lean`, `Surface.lean`, `Current.lean`, `Params.lean` (math_utils.py,
surfacerzfourier_jax.py, quadcoil_params.py, quantity/current.py); `Field.lean`, `Force.lean`
(quantity/magnetic_field.py, quantity/force.py); `Winding.lean`, `Hull.lean` (winding_surface.py); `Coils.lean`, `CoilsFile.lean`
(io/coil_cutting.py); `Io.lean` (the other io files); `Plot.lean` (plotting.py).

Not modelled: drawing, quantity/regularization.py (not imported by the package), printing/verbosity, netCDF loading,
jit caching.

## Mutation log

`seeded/LOG.jsonl` has one line per wrong program. `failed` lists the theorems and examples that no longer hold. Twelve edits written by hand broke
the compilation of a definition, so that no theorem was tested; earlier versions of the log counted eleven of them as detected. They now have an empty
`failed` and a note `invalid`, and were repeated as variants that compile (`compiling variant`), all of which are detected by theorems. Three of the
twelve are the same change of `angle` and share one variant.

## Plan per property

Solver (`Model/Num.lean`, `Model/While.lean`, `Model/Solver.lean`)

| id | model and proof |
|----|------|
| C01 | `while_loop` is modelled as "iterate until the guard is false, or diverge (`none`)". The optimiser is a parameter whose only assumed contract is that its counter starts at 0 and grows by 1. Proof by measure. |
| C02 | Negated guard at exit; telescoping of the value record by induction on the list. |
| C03 | False of the code: the record is initialised to `2*f(x0)+...`. Prove: start value below a threshold implies exactly one iteration; witness objective and shift. |
| C04 | Outer loop guard, measure `tot_niter`; invariant bounds. Any arithmetic. |
| C05 | False: witness run with more iterations than `maxiter_tot`. |
| C06 | Invariant `c > 0`, `mu >= 0` by induction over the loop. |
| C07 | Invariant over the loop. |
| C08 | Invariant of the state dictionary, any arithmetic. |
| C09 | False: the returned value is the one at the previous iterate (optax contract: the value stored in the state belongs to the current parameters). Witness. |
| C10, C60 | Negated guard. C60 false: witness where the last unchecked solve leaves the feasible set. |
| C11 | `HasFDerivAt` of the augmented Lagrangian on a normed space; derivative of `max(0,t)^2`. |
| C12 | Algebra of `max`. |
| C13 | Invariant `x_unit != 0`, list algebra. |
| C14 | Convexity of exp/log inequalities. |
| C84 | induction over the inner loop: the sequence of states is a run of the optimiser on true values and gradients. |
| C85 | negated guard of the last inner solve, reusing C02 and C84. |

Wrapper and quantities (`Model/Quantity.lean`, `Model/Wrapper.lean`)

| id | model and proof |
|----|------|
| C15 | `parseConstraints` as a recursion over requests with `Except`; equivalence by induction. |
| C16 | False for negative or zero automatic units. Prove the exact encoded set; witness K_theta with negative G. |
| C17, C18, C31 | log-sum-exp bounds over finite sums; C18 false, exact point has value eps log n. |
| C19, C20, C22 | existence of a slack value, both directions. |
| C21 | limit of the approx branch; false for squared and 4th power unless unit = 1. Vector valued maps (`l1Integral_vec`) have the same limit with the l1 norm of the vector. |
| C61 | False: witness constant field 1/2. |
| C23 | exact feasible set with units u1, u2; false unless u2 <= u1. |
| C24 | induction over the list of objectives. |
| C25 | decision table for every branch, induction over the list. |
| C26 | registry invariant by induction over constructor calls. |
| C27 | list concatenation. |
| C70 | value at zero coefficients of the dipole quantities is 0; `f_B` at zero coefficients is 0 in axisymmetric vacuum problems, by C181. |
| C71 | explicit error bound over finite weighted sums, limit by squeezing. |
| C72 | False: the value at the zero field is negative, and a field and its reverse give different values. Witnesses. |
| C74 | shapes of the slack variables; false for vector fields, proved for scalar fields. |

Top level (`Model/Api.lean`)

| id | model and proof |
|----|------|
| C28, C29, C30 | decision logic on an argument record; C30 false in value_only mode for `f_obj`. |
| C34, C63 | chain rule on a curve of stationary points; C63 false: the weight is captured by value. |
| C35 | selection by residual; matrix algebra. |
| C88 | `Spec/Kkt.lean` states the first order conditions along a path of solutions with strict complementarity. The stationarity residual with frozen multipliers is differentiated along the path, which gives the exact error of the reported gradient. Bound by testing the Hessian system with its own solution. Witness with error 1/(1+c). |
| C89 | `Model/Precond.lean`: sorting, selection, projectors. SVD is a parameter with its contract (orthogonal right factor, product). Projector algebra, then injectivity of the preconditioner by components. |
| C90 | `phiUnitAuto`; coefficient position from C37; witness surfaces. |
| C91 | `Spec/Values.lean` (`IsMaxAbs`, `gridIntegral`) against the generators' unscaled functions. |
| C92 | `addQuantity` from `Model/Wrapper.lean`; `Model/Shipped.lean` lists the 27 quantities with their generators. |
| C93 | `construct` (C26) on the list of `Model/Shipped.lean`. |
| C94 | `dictUnion`, `joinParsed`; induction over the requests gives the keys, `merge_callables` (C27) the constraints. |
| C95 | `Model/Problem.lean` puts the fields of the geometry part into the list of quantities. `Spec/Rescale.lean` enlarges a problem. Scaling of every field by algebra; false for four quantities. `C95_reference_partial` compares every DESC unit with the powers of length and field of a written table. |
| C97 | look-up in the list of `Model/Shipped.lean`; false. |
| C54 | length bookkeeping; false unless the two symmetry flags agree. For a whole call in `Props/CallReturned.lean`: it raises an error, and `winding_stellsym` is ignored. |
| C73 | flattening as list concatenation, induction over the dictionary. |
| C75 | numbers of constraint functions; false with `merge_constraints=True`. |

Geometry (`Model/V3.lean`, `Model/Modes.lean`, `Model/Surface.lean`, `Model/Current.lean`, `Model/Field.lean`)

| id | model and proof |
|----|------|
| C32, C62 | explicit formulas; C62 false off the midplane. |
| C33 | matrix algebra (adjoint identity). |
| C36, C37 | lists of modes, lengths, no duplicates, membership. |
| C38 | derivative of a finite trigonometric sum for general orders (a,b), Leibniz rule with binomial coefficients. |
| C39 | angle addition and parity. |
| C40 | derivative of a finite trigonometric sum. |
| C41, C42 | cross product algebra. |
| C43 | quotient and square root derivative. |
| C44, C66 | secular part; C66 false: the non-symmetric branch raises. |
| C45, C67 | record round trip; C67 false: missing attribute. |
| C46 | sum over a product index. |
| C47, C48 | finite sums; rotation of the Biot-Savart kernel and cyclic reindexing of the source grid. |
| C59 | index arithmetic of the flattened field-period index. |
| C76 | False: components are taken in the frame of the source point. Witness, and the true special case. |
| C86 | the integrand tensors act as cross products with a vector; projections keep this alternating property. |
| C87 | surface calculus: the regularised integrand minus that of Biot and Savart is a divergence of a periodic, continuously differentiable field; Mathlib's divergence theorem on the rectangle. The points lie off the surface; the singular integral on the surface is not modelled. |
| C77 | parity of the kernel and reindexing of the source grid under negation. |
| C78 | False: the grid step is computed from two points and clamps to one point. |

Winding surface and io (`Model/Winding.lean`, `Model/Coils.lean`, `Model/Io.lean`)

| id | model and proof |
|----|------|
| C49 | solve the 2x2 system. |
| C50, C64 | the sign-flip loop; C64 false: rational polygon witness. |
| C51 | unit vector algebra. |
| C52 | completing the square with matrices. |
| C53, C65 | cumulative sums; C65 false: witness polygon. |
| C55 | counting. |
| C56, C68 | orthogonality of discrete exponentials; C68 false at the Nyquist grid. |
| C57 | list filter and linear maps. |
| C58, C69 | list slicing; C69 false. |
| C79 | the coefficient dictionary of simsopt evaluated against the surface series of C38. |
| C80 | False: undefined name; missing method. |
| C81 | induction over the lists of names. |
| C96 | False: the names reached are compared with the names defined. |
| C98 | on a surface of revolution the product of the discrete normal with `q - gamma` is `-rho sin(eps) ccw(prev, cur, q)`, computed in closed form for every vertex and point `q` of the half plane. |
| C99 | the stack of the scan is a convex chain with all points seen so far on its left (induction, identity of four cross products); the marked points are the extreme points of Mathlib's convex hull. False when another point is as low as the starting point. |
| C100 | False: the scan needs a concrete slice size and runs under `vmap`. |
| C101 | row bookkeeping of the arctangent generator; false for every grid with more than one row. |
| C102 | VTK numbers points with the first dimension fastest; false for one of the three functions. |
| C103 | the plotting function composed with the model of `_parse_constraints`; false for equalities. |
| C104 | closed form of the axis; false for a coefficient that is 0. |
| C105 | `Model/Quadcoil.lean` composes parsing, flattening and the solver into one function; a violation of at most tau of the generated function is a violation of at most tau times the unit of the request. |
| C106 | each request is a block of functions of the potential and its own auxiliary variables; blocks with disjoint auxiliary variables are satisfied together (induction over the requests), each block is exact (C19, C20, C22). |
| C107 | bijection between flat vectors and dictionaries, then C15 and C106. |
| C108 | gradient inequality of convex functions at the last point, with the derivative of the augmented Lagrangian of C11. |
| C109 | each summand is rewritten as the law of Biot and Savart; the divergence of a summand vanishes off the source (derivative of `r^-3`); the sums are left Riemann sums of a continuous function (`Lemmas/Riemann.lean`, uniform continuity on the square). |
| C110 | the same Riemann sums for `integrate`, the area, `f_K` (with C46) and `f_B` (winding grid fixed). |
| C111 | one outer iteration is a proximal step on the multipliers: the tangent inequality of C108 at the saddle point gives `<z+ - z*, z+ - z> <= c eps`; summed over the states of the loop. |
| C112 | case analysis of the constructors of surfaces and parameter objects (`Model/Params.lean`); the default evaluation grid by counting points of a uniform grid. |
| C113 | discrete orthogonality of the Fourier modes on a grid with more than `2 mpol`, `2 ntor` points per period: equal currents on the grid give equal coefficients up to the constant mode. The regularised objective is a sum of squares of affine functions; existence of the minimiser by compactness, uniqueness by strict convexity. |
| C114 | false: without stellarator symmetry the potential has a constant mode that no current or field depends on, so minimisers of `f_B + w f_K` are never unique and the second derivative is singular. |
| C115 | the map that negates the cosine coefficients reflects the current; on reflected grids it keeps `f_B` and `f_K`. With C113 every minimiser is its own reflection up to the constant, and its sine part solves the symmetric problem. With objectives and constraints of the user (`Props/SymmetricUser.lean`): on a reflected grid the values of all even quantities are permuted, those of `Bnormal` and `Phi` permuted and negated; the mean of a potential and its reflection is its sine part, so convexity (C124) gives that the sine part is admissible and not worse. `K_theta` is excluded, since without `stellsym` it fails. |
| C116 | `f_B` and `f_K` are quadratic in coefficients, net currents and plasma field together; minimisers are scaled and added. |
| C117 | a coefficient vector is carried to a larger mode table with the same potential, hence the same current and field. |
| C118 | the sums of the law of Biot and Savart converge uniformly on the plasma surface, so `f_B` converges with all grids refined together. The objectives are quadratic polynomials of the coefficients, so they converge uniformly on bounded sets; minimisers of converging convex quadratics converge to the unique minimiser of the limit. |
| C119 | comparison of two minimisers for two weights; stated for the parsed total objective. |
| C120 | a contour is described by the grid edges it crosses (values at the two ends on both sides of the level). With net current the three copies of the field period differ by 1, so a crossing is found once if the values are within 2 of the level; false without net current and for larger values. |
| C121 | the lines of the coils file (`Model/CoilsFile.lean`) are read back by a reader of the format. |
| C122 | sum of the currents read back; false unless there is one field period and no symmetry. |
| C123 | fold over the numbers of points. |
| C124 | the fields are affine in the coefficients, and absolute values, squares, maxima and weighted sums of such functions are convex. The curvature is quadratic: on a circular torus its maximum is larger at zero than at two opposite coefficient vectors. The force is quadratic too: on the torus of C145 with a toroidal net current its two values are computed for every coefficient, and the maximum and its square lie above their chords. For the L1 norm the same device is described without field periods (C155), because the area of a grid with one toroidal point is zero. |
| C125 | the problem of the user (`UserMinimiser`) in terms of coefficient vectors: the feasible set is closed and convex (C124), the term `f_K` is a sum of squares of affine functions that separates the coefficient vectors (C113), the rest of the objective is convex, hence continuous, and nonnegative. A minimising sequence stays in a compact set; two minimisers have equal current. |
| C126 | a sum of squares of affine functions is strictly convex with modulus `sum w (t x - t y)^2`, which is bounded below by compactness of the unit sphere. |
| C127 | the objective is a weighted scalar product of samples (C116). At a minimiser over a convex set no direction into the set descends; adding this for the two problems gives the bound. |
| C128 | each quantity of the package is matched with the exactness lemma of its generator (C106); the fields that the generators receive are nonempty on nonempty grids and of constant length. `f_huber_K`: at zero current the slack form is negative (C72). |
| C129 | C128 gives the hypotheses of C107 for every convex call, C125 gives the one solution of the problem of the user, and C107 transfers it to the flat vector with auxiliary variables. |
| C130 | calls with affine, quadratic and maximum quantities: the values, the auxiliary inequalities and the user's constraints are followed through the parsers and the flat vector; each entry is a convex differentiable function, so the problem meets `IsConvexProblem`, the hypothesis of the convergence theorems C108 and C111. The approx mode and `f_huber_K` are in C134. `f_l1_Phi`: with auxiliary variables the objective is a sum of their absolute values, convex, but restricted to one auxiliary variable it is `const * |s|` at the default start. `f_max_K2`: a midpoint of two potentials with different currents violates convexity of the lower constraint. |
| C131 | the parsers succeed exactly on legal input (C25). The value of the objective is a number: each quantity that may be an objective returns one in all modes, and the auxiliary variables keep the shape of their initial values through the flat vector. Merging: the list of inequality functions is empty exactly if there is no inequality and no auxiliary variable, and in approx mode every function returns one number. |
| C132 | `Lemmas/Slater.lean` separates the set of values above the objective and the inequalities from the optimum (Hahn–Banach in finite dimension). `Props/StrictMultipliers.lean`: a strictly feasible potential of the user gives a strictly feasible flat vector. Each constraint is tightened, the exact slack form (C128) gives auxiliary values for the tightened call, and large auxiliary values make the other inequalities strict; a convex combination makes all of them strict. Same calls as C130. |
| C133 | `Props/ReturnedPotential.lean`: the Lagrangian at the multipliers of C132 grows quadratically in the potential (the constant of C126 for `f_K`); with the bound of the solver on its returned vector (C108, C111) this bounds the distance of the returned potential from the solution. Same calls as C130, stellarator-symmetric resolving grids, `f_K` with a positive weight. |
| C134 | `Lemmas/LseConvex.lean`: the smooth maximum and the smooth absolute value of convex functions are convex and differentiable. `Props/ApproxFlat.lean` writes the functions that approx mode passes to the solver as functions of the coefficients (`ApproxData`), with and without merged constraints. Without `f_huber_K`, whose smoothed form is convex but has a kink: `Props/HuberKink.lean` follows the call through the setup, proves convexity for all problems, and a kink at every vector for which the shifted current vanishes at a grid point; for every epsilon and unit there is a torus with such a vector. |
| C135 | `Props/ApproxRate.lean`: the smoothed values are at least the exact ones and exceed them by at most a multiple of the smoothing parameter (`approx_error`). `Lemmas/SmoothingRate.lean`: moving a little from the solution towards a strictly feasible point gives a point that is feasible for the smoothed problem and costs a multiple of the parameter more. The quadratic growth of the problem of the user (C126) turns the difference of the values into a distance. Squares and fourth powers only with unit 1 (C21), without `f_huber_K`. |
| C136 | `Props/ApproxReturned.lean`: the smoothed problem has multipliers (C132, from the strictly feasible potential) whose sum is bounded for all small smoothing parameters, its Lagrangian grows quadratically in the potential, and the solver bound (`solver_distance`, shared with C133) applies. The triangle inequality with C135 gives the distance from the solution of the user. One constant serves all small parameters, optimisers and penalties. Same calls as C135. |
| C137 | `Lemmas/StrongConvex.lean`: strongly convex functions have one minimiser, and the gradient bounds the distance to it. `Props/InnerProblem.lean`: the penalty terms of the augmented Lagrangian are convex, so the inner problem is as strongly convex as the objective. `Props/InnerProblemCalls.lean`: with `f_K` on a resolving grid the objective is strongly convex if the flat vector has no auxiliary variables (no smoothing, or approx mode). Not with `smoothing='slack'`, where the auxiliary variables enter linearly. |
| C138 | `Props/InnerProblemCalls.lean`: without constraints and smoothing there are no inequalities (`setup_plain`), so `quadcoilSolve` runs the optimiser on the objective once; the gradient bound of C137 gives the distance. |
| C139 | `Props/CallTolerances.lean`: `StopRule` is the stopping rule in terms of the visited points only; the guard of the loop is its negation (`innerContinue_iff`), so a run stops at the first iteration where the rule holds or the limit is reached. `setup_tolerances` follows the arguments of `quadcoil` to the runs. False for `gtol_inner_last` without constraints. |
| C140 | `Model/Call.lean`: one whole call, from the arguments with their defaults to the returned dictionary: default grids, checks, parameter object, unit of the potential, setup, solver, metrics. `Props/Call.lean`: `CallArgs.described` is the problem meant by the arguments, written down without the classes; the setup succeeds exactly for arguments that fit and legal objectives and constraints, and the solver gets the described problem. `Props/CallReturned.lean`: accepted calls return, since the solver always stops (C139). `Props/CallDefault.lean`: the call with default arguments. `Props/CallOutput.lean`: which error is raised, that nothing is raised after the solver if the metrics exist, and the keys of the output and of its gradients. Not modelled: wrong sizes that only show when an objective is traced, broadcasting of `Bnormal_plasma`. |
| C141 | `Props/NoneUnits.lean`: `resolveUnits` replaces every `None` by the value of its quantity at zero potential; the parsed functions are equal at the problem of the call (`AddedSame`, `FghSame`), hence the setups are equal, errors included. Quantities that are arrays keep `None`. |
| C142 | `Props/CallReturned.lean`: the default grids resolve 16 poloidal and 15 toroidal modes, the units are positive if there is a net current and a normal field (`fK_zero_pos`, `fB_pos`), and `f_B`, `f_K` do not see the smoothing mode, so C138 and C133 apply to a whole call. |
| C143 | `Props/Prices.lean`: requests on affine and convex quantities are convex functions with a bound that moves with the value (`request_functions`); Slater (`Lemmas/Slater.lean`) over all entries, summed per request, gives one price per constraint; convexity and monotonicity of the optimum in the values; the tangent inequality of the last outer step (`outer_step_lagrangian`) at points that need not be feasible. `Props/CallPrices.lean`: calls that differ in `constraint_value` only hand the solver functions that differ by the change over the unit (`setup_shifted`), so the reported multipliers bound the effect of other values. `Props/ApproxPrices.lean`: the same in approx mode with an error proportional to the smoothing parameter, with and without merged constraints. |
| C144 | `Model/Docs.lean` holds the signature, the static arguments and the documentation as tables; `Props/Docs.lean` compares all entries. False of the code for 17 parameters. For the objective and its weight the difference is proved to be without effect on any call (`call_of_fgh`: equal functions for the solver give equal results). `Props/CallOutput.lean`: the defaults of the modelled call are those of the table. |
| C145 | `Lemmas/ForcePeriod.lean`: surface, normal, current, their derivatives and the tensors rotate with the field period, so their projections repeat. `Props/ForceProblem.lean`: the force of a problem source by source. `Props/ForceWitness.lean`: all values on a torus, where the frames of the sources give a wrong force. |
| C146 | `Props/OffsetLimit.lean`: difference quotients with moving base points tend to the derivatives (strict differentiability), so the approximate normal tends to the normal; uniformly by compactness. For circular tori the approximate normal is computed on every grid. |
| C147 | `Model/Generate.lean` puts the generators together: samples of the first fit, interpolated cross sections, samples of the second fit. For a circular torus: with exact normals the first fit is the concentric torus (zeros of trigonometric polynomials, `Lemmas/TrigZeros.lean`). The second fit is close to it, but its Tikhonov term and the toroidal samples, which count both ends of the field period, leave coefficients that depend on the toroidal angle. With the normals that the generator computes itself, the first fit already depends on the toroidal angle. |
| C148 | `Spec/Nan.lean`: an arithmetic in which NaN spreads through every operation and every comparison with it is false (IEEE, whatever the rounding). `Props/SolverNan.lean`: the guards of the two loops read such numbers as "stop"; iterates and multipliers keep a NaN by induction over both loops; a NaN multiplier makes every later inner objective NaN. |
| C149 | `Spec/Origin.lean`: the device rotated about the z axis by the angle `2 pi s` and described with toroidal and poloidal angles counted from other origins (all grids shifted by `s` and `t`). `Props/Origin.lean`: all derivatives of the surface rotate (uniqueness of derivatives), then every field of the model pointwise; the shipped quantities, their smoothed and slack forms and the minimisers of the user's problem follow. Existence of the new coefficients: the modes span a space closed under shifts. False for the Cartesian quantities, `Phi_with_net_current` and the smoothed Huber loss. |
| C150 | `Props/UpToConstant.lean`: adding a constant to the potential changes no derivative of it, so no quantity except the eight built from `Phi` (C114 has `f_B` and `f_K`). Without stellarator symmetry the current term separates potentials up to the constant mode (C113); adding the square of that coefficient makes it definite, so the results of C125, C126, C133, C138 and C142 carry over: there are solutions, they differ by the constant mode, have the same current everywhere, and the reported gradient bounds the distance of the returned potential from the nearest one. Calls whose objectives and constraints do not use `Phi`. |
| C151 | whole-call gradients: `Model/CallGradient.lean` models the dictionary of the differentiable inputs, its flattening, the call with other inputs (`y_to_qp`, `f_g_ineq_h_eq_from_y`), the objective `l_k` and the metrics as functions of unknowns and inputs, and the gradient array and dictionary | `Lemmas/SmoothProblem.lean`: all integrals are C² in potential and inputs where surfaces are regular and apart; `Lemmas/StrictQuadratic.lean`, `Lemmas/ImplicitMinimiser.lean`: implicit function theorem, one solution of the Hessian system, continuity; `Props/Sensitivity.lean`, `Props/CallGradient.lean`: the best potential is differentiable in all inputs, the gradients of a run tend to the derivatives along the best potential as the final gradient of the solver tends to zero |
| C152 | the whole call in other units: `Spec/CallRescale.lean` multiplies every length of the arguments by `l`, every current by `mu`, and units and bounds of the quantities by the factors of C95. | `Lemmas/ScaledForms.lean`: all forms (raw, smoothed, slack) of the 27 quantities are unchanged once divided by the unit, except those in `UnitBound`; `Lemmas/ScaledParse.lean`, `Props/CallUnits.lean`: the solver receives the same problem, so errors, iterations and results are the same, the potential is multiplied by `mu` and every reported value by its factor. A generated winding surface needs a generator that scales. False for the names in `UnitBound`, which says for each name which changes of units matter; `Props/UnitWitness.lean` has a witness for each (a torus without currents, the toroidal problem of C124, one mode of the potential). |
| C153 | the three generators of winding surfaces as in C147 (`Model/Generate.lean`, `Model/Winding.lean`), the plasma points multiplied by `l` | `Props/GenerateUnits.lean`: approximate normals, toroidal angles, arc length angles, angles around the centre and weights of self-intersections do not change, radii and heights are multiplied by `l`, and the normal equations of the fit are linear, with a Tikhonov term without dimension. The solve with a pseudo-inverse is modelled as the solution of least norm, which is shown to exist and to be unique for all samples; with it the offset generator and the default generator are functions, and they meet the hypothesis of C152 in every call. |
| C154 | the offset generator and the default generator as functions of plasma points and distance (`Model/Generate.lean`), in a call through `Model/Call.lean` | `Props/GenerateSmooth.lean`: where normals do not vanish, points are off the axis, the first fit has one solution and the cross sections are simple polygons, the normal equations have smooth entries and a determinant other than zero (Cramer's rule); simple polygons stay simple under small changes, so the weights are locally constant. `Props/SurfaceUnique.lean`: the rows of the surface operator are independent, so a surface has one list of coefficients. `Props/GenerateSmoothExamples.lean`: circular tori are regular at distance zero, hence the default generator is smooth at all small distances. Supplies the hypothesis `SmoothGenerator` of C151. |
| C155 | two instances of the model of a problem (`Model/Problem.lean`) related by `Spec/Periods.lean`: the surfaces agree as point sets with their angles, one field period of the second is `N` of the first | `Lemmas/Tiles.lean`, `Lemmas/TiledProblem.lean`, `Lemmas/Turned.lean`: point by point, the second device is the first one turned by a multiple of its field period, so fields agree up to a rotation, sums over the winding grid are re-indexed cyclically, and grids consist of `N` copies. `Lemmas/PeriodModes.lean`, `Lemmas/PeriodSurface.lean`: mode `n` becomes mode `N n`; averaging over the turned devices removes all other modes. `Props/Periods.lean`: for solutions, a potential without the symmetry is embedded in the table without stellarator symmetry, turned, and averaged; by convexity (C124) the average is admissible and not worse. `Props/PeriodForce.lean`: the force through the sum over sources of C145. |
| C156 | `_precondition_coordinate_by_matrix` as the two maps `xToXp`, `xpToX` (`Model/Precond.lean`), the decomposition given by the contract `IsSvd`. | `Props/PrecondCoord.lean`: in the basis of the right singular vectors the square of the matrix is diagonal, so its entries vanish between different singular values and it commutes with the scaling. Singular case: a kernel vector. |
| C157 | the whole call (`Model/Call.lean`), its lists of objectives and constraints given as lists of items (`Spec/Listing.lean`). | `Props/ListOrder.lean`: parsing a list is joining the parts of its items (`Lemmas/ListedParse.lean`), the dictionary of auxiliary variables does not depend on the order (the template is sorted by name), shapes do not depend on the point (`Lemmas/StaticShape.lean`), and the augmented Lagrangian loop commutes with rearranging constraints together with their multipliers (`Lemmas/Rearranged.lean`). Fails for a quantity listed with two units (`C157_swap_partial`). |
| C158 | the quantities (`Model/Problem.lean`) and the parsing of constraints (`Model/Wrapper.lean`); reversed device, potential and bounds in `Spec/Reversal.lean`. | `Props/Reversal.lean`: reversal is the change of units of C149/C152 with factor -1 for currents, so fields follow from `Lemmas/ScalingFields.lean`; parity of each quantity, minimisers through the bijection of potentials, constraint functions by computing `cons_func` on both sides. With automatic units the reversed constraint function is minus the original one (`C158_auto_unit_partial`), with a witness (`C158_opposite_partial`). |
| C159 | the whole call (`Model/Call.lean`, `Model/Solver.lean`); changes of sign in `Spec/SignFree.lean`, with a contract for optimisers that prefer no sign. | `Lemmas/SignFlip.lean`: both loops of the solver commute with changes of sign of unknowns (by `whileLoop_map`); `Props/UnitSign.lean`: with the unit `-u` the dictionary of unknowns has the opposite scaled potential, and the physical potential is the same. |
| C160 | the whole call (`Model/Call.lean`, `Model/Solver.lean`); reversed arguments and outputs in `Spec/ReversedCall.lean`. | `Lemmas/ReversedForms.lean`: every quantity in each smoothing mode takes the reversed value or, for the two halves of a slack constraint, swaps them. `Lemmas/Corresponding.lean`: two setups whose functions agree along a map of unknowns, up to the order of constraints, have corresponding runs. `Props/ReversedCall.lean`: the reversed setup with the opposite unit of the potential corresponds to the given one, and C159 removes the sign of the unit. The exceptions (automatic units of quantities that change sign, smoothed `f_huber_K`) are findings under C158 and C149. |
| C161 | the whole call (`Model/Call.lean`, `Model/Solver.lean`) and all fields (`Model/Field.lean`, `Model/Force.lean`); mirror images of surfaces, values, arguments and outputs in `Spec/MirrorImage.lean`. | `Lemmas/MirrorImage.lean`: reflection at the plane z = 0 of points, normals, currents and forces; the normal of the image is the reflected normal with the opposite sign. `Props/MirrorImage.lean`: fields, values and smoothed forms. `Lemmas/MirrorForms.lean`: a slack inequality for a vector exchanges some entries of its two halves. `Props/MirrorCall.lean`: the two setups correspond (`Lemmas/Corresponding.lean`), so their runs do. A generated winding surface needs a generator that maps mirror images to mirror images with the opposite distance (C162). |
| C162 | the default winding surface generator and the uniform offset (`Model/Generate.lean`, `Model/Winding.lean`) for the plasma points of C161, reflected at z = 0. | `Props/MirrorGenerator.lean`: the approximate normal of the image is the reflected normal with the opposite sign; arc length angles and weights of self-intersections do not change; the normal equations of the fit separate into equations for R and for Z. So the generators commute with the reflection if the distance changes sign, and C161 applies to calls with the default generator. Outwards for both directions is false: for the mirror image of every circular torus with at least 3 points in each direction, all small positive distances give points inside the plasma (`C162_inwards_partial`). |
| C163 | `run_opt`, `solve_constrained` and the whole call (`Model/Solver.lean`, `Model/Quadcoil.lean`, `Model/Call.lean`); the problem of the user from `Spec/UserProblem.lean`. | `Props/RestStart.lean`: the gradient of the inner problem at the present point; it vanishes at a point that satisfies the conditions of Karush, Kuhn and Tucker with the present multipliers, so that neither loop moves and the multiplier update is at its fixed point (C12). `Props/RestCall.lean`: a potential with the smallest objective that satisfies the constraints is such a point with zero multipliers, also in the scaled variables. Contract of the optimiser: a zero gradient gives a zero update. |
| C164 | the setup of the call (`Model/Quadcoil.lean`, `Model/Wrapper.lean`) and the problem of the user from `Spec/UserProblem.lean`; a quantity with a unit that is used as an objective with a weight or as a constraint with an upper limit. | `Props/WeightLimit.lean`: a solution with weights solves the problem with the limits it reaches, without convexity. Back: the prices of C143 times the units are the weights; complementary slackness follows from the bound of C143 at the solution. With `f_K` among the remaining objectives both problems have one solution (C125), and by C129 the calls have the same potential. Monotone trade-off: add the two optimality inequalities. |
| C165 | `_parse_objectives`, `_add_quantity` and the whole call (`Model/Wrapper.lean`, `Model/Call.lean`), for any optimiser. | `Props/ObjectiveRatio.lean`: the parsed objectives are the sum over the names of quantity times total ratio, so two lists with the same ratios give the same function, and the calls are equal. A string is parsed as a tuple of length one with weight 1; the values in the output do not depend on the keys of the gradients. Witness in slack mode from C157. |
| C166 | the parsed problem and the call (`Model/Wrapper.lean`, `Model/Call.lean`), the quantities of the shipped registry on the geometry model. | `Props/Inactive.lean`: a better potential without the inactive constraints would give, by a short step towards it, a better potential that still satisfies them (convexity of each request, `RequestFunctions` from C164). Converse without convexity. For two calls the uniqueness of C129 gives the same potential. Example: torus with a limit of `f_K` above the value at the solution. |
| C167 | the registered quantities on a `FieldProblem` (`Model/Problem.lean`, `Model/Shipped.lean`) and the call. | `Spec/SheetCurrent.lean` says what a sheet current with a given stream function is (unit normal times surface gradient), what its rate of change along itself is, and what an array of values on a grid is, without any definition of the model. `Props/GridValues.lean`: uniqueness of such a current and C40, C41, C43, C109 give the value at every index of every array; integrals as double sums with the area per grid point; maxima; values reported by a call. The force is in C145, the cylindrical components in C62. |
| C168 | `_force_cyl_legacy` (`Model/ForceLegacy.lean`) beside `_force_cyl`. | `Props/ForceLegacy.lean`: the arrays of the two routines are equal when the evaluation grid is the first field period of the winding grid; C59 for the two ways of leaving out the coincident source; C145 for the sum. |
| C169 | the output dictionary of the gradient mode with the entries added for `verbose > 0`, and the whole loop of the derivative rule in io/jax.py (`Model/Verbose.lean`); printing itself has no effect. | `Props/Verbose.lean`: induction over the metrics; the additional entry `hess_cond` stays the first one. |
| C170 | the whole call (`Model/Call.lean`) for surfaces without stellarator symmetry. | `Spec/Lifted.lean` moves a device up; `Lemmas/Lifted.lean`: only points change, no derivatives; `Lemmas/SameForms.lean`: problems on which the used quantities agree give the same computation, for arbitrary arguments; `Props/Lifted.lean`: all quantities but the five cylindrical ones, then the whole call; `Props/LiftedWitness.lean`: on a torus the cylindrical ones change; `Props/LiftedGenerator.lean`: the default generator commutes with the motion when the offset points determine the first fit. |
| C171 | the two generators (`Model/Generate.lean`) with the rule `self-intersection` and a positive `lam_tikhonov`. | `Props/KeptVertices.lean`: if the first edge crosses edge `b`, then `b` crosses it too, and one of the vertices `b`, `b + 1` is kept; with C52 the fit is unique. |
| C172 | `quadcoilCall` (`Model/Call.lean`) with other `metric_name` and `value_only` (`CallArgs.reporting`). | `Props/Reporting.lean`: everything before the dictionary does not look at the two arguments; an entry is the objective or the quantity at the returned potential in both modes; a fold that fails does so at one name, and evaluating a name fails only if it is not found. Examples: a call on a torus that returns. Not covered: errors raised by JAX while it differentiates. |
| C173 | `runOpt`, `solveConstrained`, `quadcoilCall` with other `maxiter_tot` and `maxiter_inner` (`Problem.limits`, `CallArgs.limits`). | `Props/Limits.lean`: backward induction over the loop that stops (`whileLoop_back`), with the two guards and `update_multiplier` as the only places where limits occur. `Visited` is the set of states that the loop goes through; in terms of the reported total no knowledge of them is needed. A smaller limit cuts the minimisation off after exactly that many steps. Examples: calls that report one and two steps. |
| C174 | the setup of the call (`Model/Quadcoil.lean`, `Model/Wrapper.lean`) and the problem of the user from `Spec/UserProblem.lean`. | `Props/SameQuestion.lean`: feasibility does not look at units, order or repetitions; an equality is two limits, of two limits the smaller one counts, limits of maxima and of squares are limits of the field. Two calls with the same allowed potentials and the same order among them have the same solution, because by C129 each problem passed to the solver has the potential of its only user minimiser. Example: two calls on a torus in different modes with other units, weights and scales. |
| C175 | `lkTerms` with the mask of the caller, `SolvesHessian`, `reportedGrad` (`Model/ImplicitDiff.lean`), the three masks (`Model/Solver.lean`); the solver uses `gplusHard` because `quadcoil` passes no mask. | `Props/MaskGrad.lean`: `gplus_elu` and `gplus_hard` agree near constraints above `-mu/c`; with `gplus_hard` limits that are not reached drop out of the equation for `vihp` and of the gradient. Partial: for the other two masks the property fails, computed exactly for `min (x-y)^2/2` subject to `x <= b`. |
| C176 | the set-up of a call (`Model/Wrapper.lean`, `quadcoilSetup`), the user's problem (`Spec`), `sqDist`. | `Props/SmallChanges.lean`: the growth of the objective (C126) and a point with a margin. A point of the new problem, moved by the fraction `δ/m` towards the strictly feasible potential, satisfies the old constraints, and the other way round; convexity bounds the objective along the way. For the weights each term of the objective is nonnegative, so the two objectives differ by a factor between `1-ε` and `1+ε`. `C176_margin_needed`: without a margin the changed problem may have no solution. |
| C177 | `Model/AutoDiff.lean`: numbers with infinities and NaN (`XR`, exact arithmetic, `exp` overflows above a limit `L`), expressions `Ex` with JAX's reverse rules (`Ex.bwd`), the three masks, `f_huber_K` on a line of potentials, the kernels of both force routines. | `Props/AutoDiff.lean`: by induction over expressions, if every step is regular, the value is the real value and the reverse sweep is its derivative. `Props/AutoDiffFields.lean`: the current and the force. Partial: false for two masks beyond the overflow of `exp`, for `f_huber_K` where the current vanishes at a grid point, and for the earlier force routine. |
| C178 | `FieldProblem.windingB`, `bnWinding`, `fB`, `GridSurface.integrate` (`Model/Field.lean`). | `Props/NetFlux.lean`: the field of one grid point is the curl of `K/|y - x|`; its flux density is a divergence in the two angles, so the integral over the torus vanishes (`integral_divergence_periodic`). Sums, one field period and the limit of the plasma grid follow; the bound on `f_B` is the Cauchy-Schwarz inequality on every grid. |
| C179 | `FieldProblem.windingB` (`Model/Field.lean`), `CpParams.K` (`Model/Current.lean`). Specification: `Spec/Curl.lean`, `Spec/Divergence.lean`. | `Props/VacuumField.lean`: the curl of the field of one grid point is computed; times the area element it is a divergence in the two angles, because the current comes from a potential whose derivatives are periodic. So the sums over the grid tend to 0. The divergence vanishes on every grid (C109). |
| C180 | `FieldProblem.windingB` (`Model/Field.lean`), `CpParams.K` (`Model/Current.lean`). Specification: `Spec/Linking.lean` (closed curves, circulation, the linking integral of Gauss). | `Lemmas/Linking.lean`, `Props/Ampere.lean`: the circulation of the field of one grid point is the work of its current in the field of the curve. This field has no curl (the curve is closed), so by the theorem of Stokes the single-valued potential does no work, and the work along a poloidal or toroidal turn is the same for all turns: `4 pi` times the linking integral. That this integral is a whole number is a theorem of topology which is not proved in general. `Lemmas/LinkingCircle.lean`, `Props/AmpereTorus.lean`: for circles it is computed. The poloidal circle can be moved without changing the integral; when it is large and coaxial the integrand separates and the value is the limit for an infinite circle. So on a circular torus the circulation about the axis is `-mu0 G` inside and 0 outside, and `2 pi G` for the `G` of DESC (`descNetPoloidal` in `Model/Io.lean`). |
| C181 | `FieldProblem.windingB`, `bnWinding`, `fB` (`Model/Field.lean`), `CpParams.K` (`Model/Current.lean`), the default grids. Specification: `Spec/Axisymmetric.lean` (axisymmetric surfaces by their points, the toroidal direction, circles about the axis). | `Lemmas/Axisymmetric.lean`, `Props/Tokamak.lean`: the reflection at the vertical plane through the point maps surface, poloidal current and uniform grid to themselves and reverses the field, so only the component across the plane remains. `Props/TokamakField.lean`: in the limit, the integral over the surface turns into the linking integral of the circle through the point with the cross section. A torus with one winding grid point shows that the alignment of the grids is needed. |
| C182 | `FieldProblem.fB`, `fK` (`Model/Field.lean`), `CpParams.Phi`, `K`, `rows` (`Model/Current.lean`). Specification: `IsAxisymmetricData` in `Spec/Axisymmetric.lean`. | `Props/AxisymmetricSolution.lean`: turning the potential by a common step of all grids changes neither objective; the mean over these turns is the axisymmetric part of the potential (also for stellarator symmetric potentials, whose turned copies live in the general basis); the objective is convex, so the axisymmetric part is not worse. Uniqueness (C113) gives the statement for all solutions. `Props/AxisymmetricUser.lean`: the same for weighted sums of convex objectives with constraints on affine and convex quantities, with the tools of C155 (turned problems have the same values in another order) and uniqueness from C125 and C150. `K_theta`, which only exists for stellarator symmetric potentials, is treated directly: its values at the axisymmetric part are means of its values along a ring of grid points. Constraints on Cartesian components are left out. `Props/AxisymmetricModes.lean`: the axisymmetric part lives in the table of modes with `ntor = 0`, so a solution of that smaller problem solves the larger one. `Props/AxisymmetricCall.lean`: for the usual call with the default grids (hypotheses of C142) the toroidal coefficients of the returned potential are bounded by the reported gradient, for every optimizer that meets the contracts. `Props/AxisymmetricNeeded.lean`: a torus with a plasma field that depends on the toroidal angle, for which leaving out the toroidal modes increases `f_B`; so this hypothesis is needed. |
| C183 | the shipped quantities through the registry (`Model/Shipped.lean`, `Model/Problem.lean`), `GridSurface.integrate`, `area`, `FieldProblem.windingB` (`Model/Field.lean`). | `Props/NormInequalities.lean`: every integral is a sum with nonnegative weights, so the Cauchy-Schwarz inequality and the bound by the maximum hold on every grid, not only in the limit. For the field: each summand of the Biot-Savart sum is bounded by `|K| |N| / r^2`; with C46 the sum over the whole surface is the `f_huber_K` of one field period times `nfp`. |
| C184 | `CpParams.K`, `opPhi`, `opTheta` (`Model/Current.lean`), the shipped quantities `K2`, `f_max_K2`, `f_K` (`Model/Shipped.lean`, `Model/Problem.lean`). Loop lengths `toroidalLoop`, `poloidalLoop` are means of the lengths of the tangents over the grid. | `Props/NetCurrentBound.lean`: the derivative of the single-valued potential sums to zero over every loop of a uniform grid with more points than the largest mode number, so the mean of `dPhi/dphi + G` is `G`; `K x dgamma/dphi` has the length of `dPhi/dphi + G`; Cauchy-Schwarz for the integral. `Props/ResolutionNeeded.lean`: with as many toroidal points as `ntor` the bound fails (also C182), and likewise with as many poloidal points as `mpol`, so the number of points cannot be reduced. |
| C82 | the two output dictionaries of C30; false for `f_obj`. |
| C83 | False: the current of a coil is the net current divided by the number of coils. |

## Findings

Properties that are false of the code. Each has a theorem with a concrete witness (`..._violated_partial`).

| id | what goes wrong | where |
|----|------|------|
| C03 | The record of past values starts with artificial values computed from the first one, so the averaged improvement is negative when the objective is negative at the start, and the minimiser stops after one iteration. | solver.py `run_opt_lbfgs` |
| C05 | The budget is checked between outer iterations only, and one more solve follows the loop. | solver.py `solve_constrained` |
| C09 | The value returned is the one of the previous iterate. | solver.py `run_opt_lbfgs` |
| C60 | The final solve with tight tolerances is not followed by a feasibility check. | solver.py `solve_constrained` |
| C16 | With unit `None` a negative value of the quantity reverses the inequality, a zero value makes it meaningless. | wrapper.py |
| C18 | The smoothed equality has value `eps log n` at the exact solution, so it excludes it; it accepts fields that are far from the requested value at some points. | wrapper.py |
| C61 | With `square=True` the slack variable bounds `abs(field)/sqrt(unit)`, but its automatic starting value is `max field^2/sqrt(unit)`. This start value is infeasible exactly where `0 < max abs(field) < 1`. | quantity.py `generate_linf_norm` |
| C21 | In approx mode the unit is applied before squaring, so the limit is `quantity/unit^2` (`/unit^4`). | quantity.py |
| C23 | One auxiliary variable serves both uses, with different scalings. | wrapper.py |
| C70 | Automatic units evaluate at zero coefficients; dipole quantities and all Phi quantities vanish there. | wrapper.py, quantity/dipole.py |
| C72 | The smoothed Huber loss is negative for small fields and not even. | quantity.py |
| C74 | In slack mode an L1 norm of a vector field gets a slack variable of the wrong shape. | quantity.py |
| C30, C82 | In value_only mode `f_obj` is computed but never stored; so the differentiable wrapper and its derivative rule return different keys. | quadcoil.py 744-756, io/jax.py |
| C63 | The objective weights used by `f_obj` are captured by value, so the explicit derivative is lost and the gradient is 0. | quadcoil.py |
| C88 | The multipliers and the penalty weight are constants while differentiating. For `min x^2/2` subject to `x = y` the derivative of `x` is 1, reported is `c/(1+c)`. The error is (derivative of the constraints along vihp) times (derivative of the multipliers). | quadcoil.py 799-820, 999-1004 |
| C90 | The scale of the potential is 0 when the normal field vanishes at the start, or when the two minor radii agree. The start `phi/0` is then not a number. | quadcoil.py 549-558 |
| C95 | The DESC unit of the force norms is a force, but the values are forces per area (off by the square of a length, for the squared norm by the fourth power). The unit of `K_theta` is a current density, but the value is a current. | force.py 517-519, current.py 150-154 |
| C96 | `load_FourierCurrentPotentialField` reads `quadpoints_phi`, `scf_nescoil` and `qp`, which are never defined. | io/desc.py 177, 191, 195 |
| C97 | `quantity/regularization.py` is not imported by `quantity/__init__.py`, and its unit calls `_K_desc_unit`, which it does not import. | regularization.py 13 |
| C75 | With `merge_constraints=True` the merged function always counts as one constraint. | quadcoil.py, wrapper.py |
| C54 | The automatic winding surface has the symmetry of the plasma surface, the object built from it has `stellsym`. `winding_stellsym` is ignored for it. | quadcoil.py 418-444 |
| C62 | The radial direction is normalised with the length of the position including z. | math_utils.py `project_arr_cylindrical` |
| C76 | The force integrand is projected in the frame of the source. | quantity/force.py |
| C66 | `K_theta` without stellarator symmetry raises `TypeError`. | quantity/current.py |
| C67 | `tree_flatten` of the finite element parameters reads an attribute that does not exist. | quadcoil_params.py |
| C78 | On a grid with one toroidal point the step is 0 and so is every integral. | surfacerzfourier_jax.py |
| C64 | The first vertex gets weight 0 when an odd number of edges cross the others. | winding_surface.py |
| C65 | Edge lengths are summed from edge 1, not from edge 0. | winding_surface.py |
| C99 | `graham_scan` starts at the lowest, leftmost point. A second point at the same height has the same angle 0 and a larger distance, and replaces the start. The start is a vertex of the hull and is lost. | winding_surface.py `graham_scan` |
| C100 | Rule `hull` runs the scan under `vmap`, where the number of points kept is not known; it always fails. The error message names a rule `intersection` that does not exist. | winding_surface.py `gen_winding_surface_arc` |
| C101 | The plasma centres are those of the rows of the plasma grid, but they are used for the rows of the interpolated grid, which have other angles. Without stellarator symmetry the numbers of rows differ and the call fails. | winding_surface.py `gen_winding_surface_atan` |
| C102 | `gamma_and_field_to_vtk` gives the dimensions as (rows, columns), but the points are listed row by row, so VTK reads rows of the wrong length. | plotting.py |
| C103 | `plot_quantity` looks for the type `=`; equalities are written `==`, and then the first entry of an empty list is read. | plotting.py 69 |
| C104 | The window is relative to the coefficient; for a coefficient 0 it is one point. | plotting.py 55-56 |
| C68 | At exactly `2*order` samples the highest cosine coefficient is doubled and the sine coefficient is lost. The default order hits this for an even number of points. | io/coil_cutting.py |
| C69 | Non-symmetric surfaces are cut at a quarter instead of the half; the simsopt current potential gets net toroidal current 0; the FOCUS header has the number of coefficients, not of modes. | surfacerzfourier_jax.py `to_desc`, io/simsopt.py, io/focus.py |
| C80 | `quadcoil_desc` reads an undefined global; `save_focus` calls simsopt methods on a quadcoil surface. | io/desc.py 114, io/focus.py |
| C83 | Coil currents are net current / number of contours: zero without net current. | io/coil_cutting.py |
| C114 | Without stellarator symmetry the coefficient of the constant mode is an unknown that no current or field depends on. Minimisers are never unique, and the Hessian inverted by the implicit differentiation is singular unless the objective contains the potential itself. | quadcoil_params.py `make_mn_helper`, quadcoil.py |
| C120 | Without net current the three padded field periods are equal, so every contour is cut three times. With net current, contours of potentials that vary by more than about one field period's current are missed. | io/coil_cutting.py 38-43 |
| C122 | The coils file contains the contours of a half (or one) field period only. Its currents sum to the net current divided by the number of field periods, and by 2 with symmetry. | io/coil_cutting.py 156-176 |
| C124 | `generate_linf_norm` and the other norm generators describe the result as a convex quantity. They are also applied to the curvature `K . grad K`, which is quadratic in the coefficients; `f_max_K_dot_grad_K_cyl` is not convex. Nor are `f_max_force_cyl`, `f_max_force2_cyl` and `f_l1_force_cyl`. | quantity/quantity.py 293, curvature.py 70-77, force.py 523-547 |
| C128 | with smoothing 'slack' `f_huber_K` is replaced by its smoothed form with a fixed epsilon of 1e-3. The value that is minimised or bounded is below the quantity, even negative, so a constraint that holds in the smoothed form can be violated. `f_l1_force_cyl` cannot be evaluated in this mode (C74). | quantity/quantity.py 499-508 |
| C130 | The slack form of `generate_l1_norm` integrates `abs(p)` of the auxiliary variables instead of `p`, as its documentation says. All auxiliary variables start at 0 when `phi_init` is 0, the default, so the objective is not differentiable where the solver starts; avoiding kinks is the purpose of the slack form. | quantity/quantity.py 572-582, 610-618 |
| C130 | `f_max_K2` is generated without `positive_definite=True` although K2 is not negative. Its auxiliary form then contains the needless constraints `-K2/unit - p <= 0`, which are concave. The problem passed to the solver is not convex, although the maximum of K2 is a convex function. | quantity/current.py 134-140, quantity/quantity.py (generate_linf_norm) |
| C134 | `generate_huber` is documented as a smooth approximation, but it adds the square of epsilon to every component before taking the norm. The norm has a kink where the shifted field vanishes, for every epsilon. | quantity.py 483-497 |
| C139 | Without constraints `quadcoil` passes `gtol_inner` (default 1e-6) where the other two tolerances are the `_last` ones (default 1e-10). `gtol_inner_last` has no effect on such calls. | quadcoil.py 650-659 |
| C144 | The documented defaults of 16 parameters are not the real ones (among them the generator of the winding surface, all tolerances, the growth of the penalty and both iteration limits), and `maxiter_inner_last` is not a parameter. `plasma_dofs` is called static and is traced. `smoothing`, `smoothing_params` and `merge_constraints` are not documented. | quadcoil.py 63-264 |
| C145 | The force is wrong already on a circular torus with a poloidal current: with two by two grid points the reported radial force at the outermost point is 3275e-7/1728 instead of 2125e-7/1728. The sources of the opposite field period enter with the wrong sign. | force.py 116-168 |
| C146 | The approximate normal is orthogonal to the grid edge that ends at the point, not to the surface at the point. For a circular torus it is off by half a poloidal grid step: with 34 poloidal points the offset point of the outer midplane is moved out of the midplane by about 9 per cent of the distance, and all points are too close to the plasma. The error vanishes when the grid is refined. | winding_surface.py `gen_winding_surface_offset` |
| C147 | The winding surface generated for an axisymmetric plasma is not axisymmetric. The samples of half a field period do not weight the toroidal modes evenly: errors of the approximate normals and the Tikhonov term leak into modes with toroidal mode numbers other than 0. | winding_surface.py 97-127, 388-457 |
| C148 | The two tests of the constraints disagree about NaN: the stopping test (`any(g >= tol)`) takes a NaN constraint for satisfied, the penalty update (`all(g < tol)`) takes it for violated. A run whose constraints are NaN ends like a converged one; only the NaN multipliers tell. | solver.py 446-447, 505-509 |
| C149 | The smoothed Huber loss `f_huber_K` depends on the orientation of the device: the square of `lse_epsilon` is added to every Cartesian component before the norm is taken. A turn by 180 degrees changes its value. Bounds on `K`, `K_dot_grad_K` and `winding_surface_B` are bounds on Cartesian components and depend on the orientation as well; `Phi_with_net_current` changes by a constant with the origins of the angles. | quantity.py 483-497 |
| C152 | Results depend on the units of length and current for a few quantities. The smoothed forms of `f_l1_Phi` and `f_l1_force_cyl` compare `lse_epsilon` with the field itself, not with the field in its unit: another unit of current is the same as another `lse_epsilon`. The auxiliary variable of `f_max_Phi2` starts at a value multiplied by the unit of current, those of `f_l1_Phi` at values that depend on the unit of length. The smoothed maxima of squares (`f_max_Phi2`, `f_max_force2_cyl`, `f_max_Phi4`) divide the field, not its square, by the unit, and `f_huber_K` keeps the area of the surface. | quantity/quantity.py 293-365, 521-631 |
| C157 | A quantity listed twice with different units in slack mode has one auxiliary variable; it starts at the value for the unit that is listed last. So the order of two objectives moves the start of the optimisation. | wrapper.py 250, 342 |
| C158 | The automatic unit of a quantity that can be negative (K, K_theta, B, Bnormal, Phi) carries its sign. A device with reversed currents and the accordingly reversed bound then gets the opposite constraint: without currents in a plasma field of -2 the bound `Bnormal >= -3` is reported as violated by 1/2. (See C16.) | wrapper.py 144-148, 353-368 |
| C162 | `plasma_coil_distance` is measured along a normal made of differences of plasma points, whose side depends on the direction of the poloidal angle. For a plasma whose poloidal angle turns clockwise (for example the mirror image of a device) a positive distance puts the winding surface inside the plasma, without a warning. | winding_surface.py 92-97 |
| C169 | With `verbose > 0` and without constraints `quadcoil` adds the array `hess_cond` to the dictionary of metrics (quadcoil.py 791). The derivative rule in io/jax.py takes every entry for a metric, so differentiating fails with `TypeError`. |
| C170 | `K_dot_grad_K_cyl` and its maximum depend on the height at which the device is placed, because of C62: on a torus `f_max_K_dot_grad_K_cyl` falls to 3/5 when the torus is raised by 4. | math_utils.py `project_arr_cylindrical` |
| C171 | The rule `self-intersection` may keep only the wrong vertex: of a pentagon whose vertex pokes through the first edge it keeps just this vertex. At least one vertex is always kept. | winding_surface.py 184-198 |
| C173 | Without constraints `maxiter_inner` has no effect at all; the only limit is `maxiter_tot`. A limit of zero still makes one step. | quadcoil.py 649-658, solver.py 162-214 |
| C175 | `gplus_mask` is used to differentiate but not to solve. With `gplus_elu` or `gplus_softplus` a limit that is not reached changes the reported gradients: for `min (x-y)^2/2` with the limit `x <= b` above the solution the true derivative of `x` is 1; `gplus_elu` reports `1/(1 + c (2t^2 - t))` with `t = exp(y-b)`, which may have either sign or not exist, `gplus_softplus` reports less than `1/(1 + c q^2)` with `q = t/(1+t)`, which tends to 0 as the penalty weight grows. The solution is not a stationary point of what is differentiated. | quadcoil.py 691-712 (no `gplus_mask=`), 808-818 |
| C177 | `gplus_elu` evaluates `exp` also where `jnp.where` discards it: for a constraint violated by more than about 709 units (88 in single precision) the value is right and the gradient is NaN. `gplus_softplus` is infinite there, with gradient NaN. `f_huber_K` has the gradient NaN whenever the current vanishes at one point of the evaluation grid, such as at the default start, zero, of a problem without net currents. The earlier force routine has it at every point; the present one adds a small number at these points, which is proved to be enough. | solver.py 233-243, quantity.py 480, force.py 420, 425 (earlier), 215 (present) |
| C70 | Also `f_B`, the default objective with the default unit `None`: for an axisymmetric plasma and winding surface with the default grids, no net toroidal current (default) and no plasma field (default), `f_B` without potential is exactly 0 for every net poloidal current. The unit is 0, or a rounding error in floating point, and the scaled objective is not meaningful; `f_B_normalized_by_Bnormal_IG` has the same denominator (`C70_axisymmetric_violated_partial`). | wrapper.py 144-146, quantity/magnetic_field.py |
| C184 | The numbers of grid points are printed but never compared with `mpol` and `ntor`. With two toroidal evaluation points and `ntor = 2`, a potential cancels a net poloidal current of 5 at all evaluation points, so that `f_K` is exactly 0 (`C184_resolution_needed`). The default grids have 32 points per field period and are not affected for `ntor < 32`. | quadcoil.py 270-286, 340-372 |

Other observations made while modelling (no property of their own):

* C165: with one objective given as a string the argument `objective_weight` is ignored (wrapper.py 226-229), and its gradient is left out.
* C163: `quadcoil` always starts with zero multipliers, so a call started at its own constrained solution leaves it if a constraint is active there (`C163_zero_multipliers`): a warm start keeps a solution only if it is also the best potential without constraints.
* solver.py: a comment says that one branch updates only the
  penalty, but the multipliers are updated too.
* quadcoil.py: `implicit_linear_solver` is ignored and `gtol_inner` (not `gtol_inner_last`) is used in the unconstrained path.
  The documented default of `svtol` is 0.1, the actual one 1e-6.
* wrapper.py: the check of compatible quantities runs only when slack variables are given. With unit `None` a field quantity is
  normalised point by point. `is_ndarray` ignores its argument `n`. `_compress_by_stellsym` only flattens.
* Documentation mentions `f_max_Bnormal_abs` and `Phi_abs`, which do not exist.
* C180: a positive `net_poloidal_current_amperes` makes a toroidal field in the direction of decreasing `phi` (`C180_torus`), since the current flows in the direction of increasing `theta`. `quadcoil_desc` turns the sign of the `G` of DESC, which makes the sign of the field right (`C180_desc`). The tutorial for simsopt (docs/tutorial_inputs.rst 21) passes `external_current()` as it is. The sign matters as soon as `Bnormal_plasma` is not 0. The documentation does not state the convention.
* winding_surface.py: the offset generator assumes that the plasma grid covers one field period.
* io/coil_cutting.py: the number of contours found, not the number of levels, divides the current, so extra contours change it.
  The warning about the expected number of levels is always shown in the symmetric case. Contour points are treated as uniformly
  spaced.
* io/desc.py: `warnings` is not imported.
* surfacerzfourier_jax.py: `to_desc` with `mpol = ntor = 0` slices with `-0`.
* simsopt's `get_rs` returns (does not raise) a `ValueError` for symmetric surfaces; `save_focus` handles this.

Model and code: the model was compared with the code line by line while writing it. No disagreement is known beyond the
simplifications named next to the definitions.
