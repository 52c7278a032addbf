NOTES = {
    "C07": ("partial", "Proved for saved_times without repeated entries. For arbitrary saved_times C07_tl_repeated gives the exact result: the quotient is applied once per occurrence of the time. C07_counterexample_repeated shows that the full statement is then false."),
    "C08": ("partial", "Proved for every saved time that is listed once. C08_tl_diverges: when a time is listed twice or more, the returned perturbation tends to infinity as h tends to 0, unless the derivative happens to be the forecast itself."),
    "C09": ("partial", "The rows of the returned matrix are proved to be the images of the basis vectors, so v @ M is the propagator. The stated M @ v is false in general: C09_counterexample_transposed."),
    "C20": ("partial", "All clauses except the last are proved for every string. Distinctness of clean names is proved for names without LaTeX characters only; C20_counterexample_collision shows it is false in general."),
    "C21": ("partial", "Proved for every iteration order when no shifted coordinate name begins with d; C21_counterexample_d_name shows the order dependence for all other names."),
    "C23": ("partial", "Proved under the stated separation conditions (no increment text inside another token, no function name a suffix of another one); four counterexamples show that the conditions cannot be dropped."),
    "C25": ("partial", "The ValueError clause and the constants are proved in full. The grid clause is proved when no dimension is 0 (C25_zero_shape: ZeroDivisionError) and no declared constant has the name of a grid attribute; C25_counterexample_reserved shows that a constant named dx replaces the grid step."),
    "C26": ("partial", "Proved for one coordinate. For two or more coordinates the mesh is transposed: C26_mesh_transposed describes it exactly and C26_counterexample_two_coordinates refutes the full statement."),
    "C73": ("partial", "The regularized scheme is described exactly for every derivative, mixed or not: it is the regular one, times 2^(o-1) for every variable of odd order o (C73_regularize_value, C73_mixed_value). The statement is therefore proved for the derivatives whose orders are 1 or even, and false for the others (C73_counterexample_third_order, C73_mixed_excess)."),
    "C43": ("partial", "Proved, in every stochastic differential ring, for the expressions in which no random mixed derivative stands alone in a term (Lossless); derivatives with a single pair (variable, order) are a special case (C43_simple). Expectation keeps only the first pair of such a mixed derivative (C43_mixed), so the full statement is false: C43_counterexample."),
    "C41": ("partial", "Couples, entries, identities and errors are proved in full. C41_same_function tells exactly when two couples share their covariance function; distinctness follows when no field name is a proper prefix of another one. C41_counterexample shows that the couples (h, uh) and (hu, h) share the function V_huh."),
    "C67": ("partial", "Arithmetic is proved to preserve solutions for every equation. C67_crash tells exactly when an operation raises. The clause that no operation crashes is false: subs, doit and expand raise TypeError and addition raises IndexError on an equation that sympy decides (C67_counterexample_crash)."),
    "C62": ("partial", "The partition is proved for every system and every iteration order of sets. That prognostic means 'has a time derivative' is proved when the time is the first variable of every mixed derivative, and that constant means 'does not depend on time' when the time is the first argument; the counterexamples show both conditions are needed."),
    "C64": ("partial", "Proved for systems of evolution equations whose right-hand sides are built from symbols, functions and derivatives of functions with sums, products and powers other than square roots, when the local names are distinct identifiers that are not used by the template. The counterexamples show that equal names, elementary functions, square roots, names that are keywords, explicit coordinates, trainable scalars and default exogenous functions do fail; C64_square_root and C64_syntax prove that every square root and every name that is not an identifier fails."),
    "C65": ("partial", "The rejection criterion of the code is proved exactly (C65_rejected). It is the claimed criterion for systems without mixed derivatives in time; C65_counterexample_mixed is accepted wrongly."),
    "C66": ("partial", "Proved for coordinates without underscore and functions whose code name does not end like a derivative; C66_counterexample shows collisions otherwise."),
    "C58": ("partial", "The dictionary is proved exactly in every dimension: the value is |a|! times the coefficient (C58_closure). It is the claimed a! for derivatives in one coordinate; C58_counterexample refutes the claim for mixed derivatives."),
    "C59": ("partial", "Every result is characterised for every history of taylor, closure_by_order and closure (C59_exact). Independence is proved for histories with orders at most n; larger orders, taylor and in_metric_by_order change the results (three counterexamples)."),
    "C60": ("partial", "Proved in one dimension, for any sound solver. In two dimensions the method always raises IndexError and in three it associates the terms with other components (counterexamples)."),
    "C61": ("partial", "Proved in every dimension for the aspect and diffusion prototypes. Positive semidefiniteness is C61_aspect_semidefinite and C61_diffusion_semidefinite. For the local Gaussian the symmetry and the semidefiniteness need a homogeneous tensor and the metric needs metric=False; counterexamples refute both otherwise."),
    "C45": ("partial", "Proved for any number of fields and dimension and for dynamics built with sums, products, rational powers (of quantities positive at the mean) and exp, sin, cos, tan, sinh, cosh, tanh, log, atan (the mean in their domain) of fields and derivatives, that do not use the name \\\\varepsilon; C45_counterexample shows that a parameter of that name is taken for the small parameter and the error is lost. Other functions of the fields, and integrals of fields, are not modelled."),
    "C46": ("partial", "Proved under the hypotheses of C45 (the name \\\\varepsilon is not used)."),
    "C47": ("partial", "Proved under the hypotheses of C45: the mean of the second-order Taylor expansion; exact for every random solution of polynomial dynamics of degree at most two."),
    "C48": ("partial", "Proved under the hypotheses of C45 (the name \\\\varepsilon is not used), including that variance_system is computed without exception."),
    "C49": ("partial", "Proved under the hypotheses of C45 (the name \\\\varepsilon is not used), including that epsilon_system is computed without exception."),
    "C50": ("partial", "Proved under the hypotheses of C45 (the name \\\\varepsilon is not used), in any dimension, including that metric_system is computed without exception."),
    "C51": ("partial", "Proved under the hypotheses of C45 (the name \\\\varepsilon is not used), including that cross_covariance_system is computed without exception."),
    "C57": ("partial", "Values are preserved for every regular expression; success is characterised exactly; for every deterministic system nothing raises (C57_never_raises). It does raise RuntimeError when a univariate term of a function that is not the normalised error of a field occurs, as with a random forcing: C57_counterexample."),
    "C53": ("partial", "The numbers of equations are proved for every system; that the systems are computed and the equations are, in order, the trends of the unknowns and are true is proved under the hypotheses of C48 for in_metric and in_aspect, for every true closure. in_diffusion omits the cross-covariance equations of multivariate systems: C53_counterexample."),
    "C52": ("proved", "For every dimension and number of fields, whenever the metric equations are true, the determinant of the tensor is invertible and the substitutions are regular (powers of positive quantities, derivatives along the coordinates)."),
    "C54": ("partial", "Proved for every program with any number of objects in which no dictionary is the closure of two objects and the internal closure and cross-covariances can be computed (which C55_applies proves for every deterministic system). C54_counterexample_shared: objects built with the same dictionary return stale systems; C54_counterexample_argument: set_closure changes the dictionary given to the constructor."),
    "C55": ("partial", "Proved for every history of reads of all properties except subs_tree, when the internal closure and the cross-covariances can be computed, which C55_applies proves for every deterministic system. The counterexamples show that otherwise a second read returns a half-filled closure or list, and that subs_tree depends on the history."),
    "C56": ("proved", "For every system and closure for which in_metric is computed."),
    "C74": ("proved", "For every deterministic evolution system whose Reynolds equations are computed (by the rules of the model for Taylor expansions), whose fields have different names without LaTeX commands, and no random field called like an error (C74_counterexample); the closure of the user replaces expectations of terms by time-free expressions."),
    "C75": ("proved", "Under the conditions of C74; the equivalence in every differential ring in which twice the standard deviations are among the positive quantities and the variance equations are regular; C75_true adds the truth of the equations under the hypotheses of C48."),
    "C76": ("proved", "Under the conditions of C64 (distinct local names that are identifiers, no square roots, polynomials and powers in functions and their derivatives, every differentiated function depends on all the spatial coordinates in their order); exponents natural or base positive."),
    "C77": ("proved", ""),
    "C78": ("proved", "C78_counterexample_advection is the part of the claim about the one-dimensional advection."),
    "C79": ("proved", "The steps of time and space are those of the symbols d+coordinate; C79_counterexample_step_name shows that a constant of that name is captured by the step. An equation that SymPy has already decided raises ValueError (C79_decided)."),
    "C80": ("partial", "Constructor, constants and code are proved. The requested time scheme is honoured only if it is rk4: the template calls super().__init__() without the keywords (C80_counterexample_time_scheme)."),
    "C81": ("proved", "For every finite probability space and smooth random fields; the positive quantities of the setting are positive functions. The name \\\\varepsilon is not used by the dynamics (see C45_counterexample)."),
    "C82": ("proved", "For every deterministic system of evolution equations whose Reynolds equations are computed and whose dynamics does not use the name \\\\varepsilon. C82_counterexample_mean: the equation of the mean can keep E[Derivative(eps, x)**2] although it is the metric (the tree is not used there)."),
    "C83": ("proved", "The hypothesis is about the four systems before the means are replaced by the fields."),
    "C84": ("proved", "Polynomial dynamics and closures (powers allowed, no elementary functions, no explicit space coordinates). That the names of the code are distinct identifiers and that no square root is left are hypotheses: C84_counterexample_names, C84_counterexample_root (systems of several fields contain square roots of the variances, which the generated code cannot evaluate). Without closure no model is generated: C84_counterexample_open. in_diffusion has no cross-covariance equations: C84_counterexample_diffusion."),
    "C85": ("proved", "Composition of C47-C53 (exact trends), C84 (generation) and C76 (second order). Exact real arithmetic. Hypotheses on the random state: C46-C53 and smooth periodic statistics; that the names of the code are distinct identifiers and that no square root is left are hypotheses (C84_counterexample_names, C84_counterexample_root)."),
    "C86": ("proved", "Exact real arithmetic. The vector field is of class C^(p+1) near the trajectory (one more than for the local order C15); the solution extends to a neighbourhood of [a, b]. Times of the window do not decrease."),
    "C87": ("proved", "Trends and increments of class C^2 around the trajectory. The absence of a higher order is a separate counterexample."),
    "C88": ("proved", "Exact real arithmetic, solutions smooth in time and space together. The stability of the Euler step along the solution is a hypothesis here; C89 proves it for two of the systems."),
    "C89": ("proved", "Exact real arithmetic. The example beside the theorem is a non-stationary solution of the Burgers equation (Cole-Hopf)."),
    "C90": ("proved", "Exact arithmetic over any field. The cases are an exchange of components, a subspace and a splitting."),
    "C91": ("proved", "Exact real arithmetic. Derivatives of functions of only some of the coordinates are outside the hypothesis."),
    "C92": ("proved", "Exact real arithmetic. C92_counterexample_diffusion2 shows that the expanded form of diffusion_in_2D does not conserve the total."),
    "C93": ("proved", "Exact real arithmetic. C93_sharp shows that the condition on the time step is needed."),
    "C94": ("partial", "The result is described exactly for every expression without elementary functions (C94_value, C94_equations). Consistency is proved for right-hand sides with derivatives of order one or even and without elementary functions. Both conditions are needed: C73_regularize_value for the orders; C94_counterexample_elementary shows that exp(u(x)) becomes exp(x), and C94_elementary that most elementary functions stop the function with ValueError; C94_elementary_displaced gives the result for a function of a displaced coordinate."),
    "C95": ("proved", "The derivatives must be derivatives of functions of all the spatial coordinates, along them (FullDerivatives), and the powers must be defined at the points of the grid along the solution (PowersDefined): other right-hand sides have no smooth vector field."),
    "C96": ("proved", "Parities of powers are only defined for even bases and exponents or integer exponents (HasParity); without a parity the equation itself is not symmetric."),
    "C97": ("proved", "The hypotheses are those of C82 (EvolutionSystem, ParameterFree, Reynolds equations computed) and a bound on the orders of the derivatives. The bounds are attained in the examples (heat equation, slope)."),
    "C98": ("proved", "The hypotheses are those of C82 and a bound on the number of derivations in the terms. Examples: a conservation law on a plane (closed), slope (two derivations, not closed), carried (two fields, not closed)."),
    "C99": ("proved", "Exact arithmetic. Example: the rotation of the plane, with the bound 2 on the steps of rk4, and growth with the step 3 (C99_rk4_sharp)."),
    "C100": ("proved", "Exact arithmetic and periodic grids; names as in C64. Cases: transport (C100_transport), rotating shallow water with three fields (C100_shallow), diffusion (C100_diffusion)."),
    "C101": ("proved", "Hypotheses on the random state: it solves the equations of the PKF (Dynamics), its closure is exact (Tangent, MeanTrend), its statistics are smooth (Filmed); names as in C64, no square root left, euler stable along the truth (StableAt). C101_logistic: a case where all of them are proved."),
    "C102": ("proved", "C102_rk4 is the abstract statement (any symmetric positive form, any skew-symmetric trend); C102_converges for the generated classes; C102_transport and C102_shallow (with an inertia-gravity wave as example) are cases where all the hypotheses are proved."),
    "C103": ("proved", "C103_loop_ends, C103_loop_value and C103_loop_second_order are about the loop with the substitution inside higher derivatives; C103_loop_stagger shows that the scheme taken derivative by derivative (the model used in C94) has the same value. expand() is not modelled."),
    "C104": ("proved", "A random field is a smooth function to a Hilbert space (scalar product = expectation). The statement includes the wrong factor for mixed derivatives (C104_closure, C104_mixed) and the failures of the local Gaussian prototype (C104_local, C104_local_metric); C104_pure is the part where the closure is exact. A field with the Gaussian correlation is built in Props/TruthCase.lean."),
    "C105": ("proved", "Affine is an inductive predicate on expressions; the functions that the package introduces must have other names than the fields (Apart; true for names that begin neither with a brace nor with V_, apart_of_names). The systems are assumed to be generated without an exception (C57). C105_nonlinear shows that linearity is needed."),
    "C106": ("proved", "C106_kinds and C106_same_function have no hypothesis on the names. C106_distinct needs PlainNames; C106_coordinates_counterexample and C106_codes_counterexample (and C41_counterexample for the covariances) show that the conditions are needed."),
    "C107": ("proved", "The directory is a dictionary from file names to texts; the code texts are arbitrary. str.lower is modelled for ASCII letters. C107_counterexample: names that agree up to case share their file."),
    "C108": ("proved", "The setting is that of C47 and C53 (stochastic differential rings; the name of the small parameter is not used by the dynamics). No tangent-linear hypothesis: C108_linear derives it from the random solution."),
    "C109": ("proved", "No abstract setting: the interpretation is built from the members (Spec/Members.lean), and C109_setting shows that it meets the hypotheses of the other theorems about the parametric Kalman filter."),
    "C110": ("proved", "C109 with C101 and C102; the values of the unknowns on the grid are the statistics of the members, evaluated at the points of the grid. The stability of the Euler steps (StableAt) is a hypothesis of C110_metric and C110_tensors; C110_transport has an explicit condition on the steps instead."),
    "C111": ("partial", "Proved for objects whose attribute expr is not assigned; C111_counterexample_stale: an expression assigned after a read is ignored. The text of an applied function is that of _render_function when no increment occurs in it; C111_counterexample_render otherwise. C111_tag_position: the tag of the time stands after the whole name, not where the documentation puts it."),
    "C112": ("proved", "Proved for systems of different fields in evolution form (hypotheses of C74). C112_variance_rhs and C112_cross_rhs do not assume anything about the evolution of the errors. The cases are two populations with different weights (logistic growth), where the third moment is not zero."),
    "C113": ("proved", "The rounding is any function with the stated error for results of size at most R, where R depends on the solution: overflow and NaN are outside the model. leapfrog needs a constant step (C113_leapfrog_rounded); splitting is covered for fraction steps with euler, rk2 or rk4, not with the key update (C113_splitting_rounded). Times are rounded inside the steps; the times of the window are what they are. C113_accumulates shows that the errors of an arithmetic that rounds upwards add up."),
}
