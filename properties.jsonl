{"id": "C01", "title": "forecast returns exactly the saved trajectory", "statement": "Model.forecast(window, u0, saved_times) returns a dictionary whose keys are exactly the times of the window that belong to saved_times, and the value at each such time is the state obtained by advancing u0 with the selected time scheme through the successive window intervals, each with dt equal to the difference of the two consecutive window times (the last occurrence wins when a time is repeated).", "quantifier": "every non-empty window, state space, initial state, one-step scheme and list of saved times", "why_tests_cant": "windows, states, dynamics and saved-time subsets are unbounded; tests only sample a few short windows", "anchors": ["src/sympkf/model/model.py:Model.forecast"]}
{"id": "C02", "title": "forecasts can be split and restarted", "statement": "Forecasting over a window and forecasting over its tail from the state reached at the cut give the same states: restarting from a saved state continues the same trajectory.", "quantifier": "every way of cutting every window in two, every scheme and initial state", "why_tests_cant": "needs every cut position of every window", "anchors": ["src/sympkf/model/model.py:Model.forecast"]}
{"id": "C03", "title": "predict and forecast agree", "statement": "Model.predict returns, in window order, the states at the saved times of the window; when the window has no repeated time these are exactly the values of the dictionary returned by forecast, in order.", "quantifier": "every window, state, scheme and saved-time list", "why_tests_cant": "the two loops are separate copies of the code; agreement must hold for every window", "anchors": ["src/sympkf/model/model.py:Model.predict", "src/sympkf/model/model.py:Model.forecast"]}
{"id": "C04", "title": "saved_times only selects, it never changes the integration", "statement": "saved_times=None saves the whole window, a float saves that one time, a list saves its members; times that are not in the window are ignored; the value stored at a time does not depend on which other times are saved. An empty window raises IndexError and a non-iterable scalar such as an int raises TypeError instead of returning a trajectory.", "quantifier": "every window and every saved_times argument of each accepted kind", "why_tests_cant": "all kinds of argument combined with all windows", "anchors": ["src/sympkf/model/model.py:Model._check_saved_times", "src/sympkf/model/model.py:Model.forecast"]}
{"id": "C05", "title": "ensemble_forecast is the member-wise forecast", "statement": "ensemble_forecast(window, states, saved_times) has one entry per requested saved time; the entry of a time of the window is the list, in the order of the members, of the value forecast gives for that member at that time, and the entry of a time outside the window is empty. It never raises KeyError.", "quantifier": "every ensemble (any size, also empty), window, scheme and saved-time list", "why_tests_cant": "ensemble sizes, windows and saved times are unbounded", "anchors": ["src/sympkf/model/model.py:Model.ensemble_forecast"]}
{"id": "C06", "title": "parallel and sequential ensembles agree", "statement": "ensemble_forecast gives the same dictionary with parallel=True and parallel=False, whatever the number of pool workers (at least one) and whatever the order in which the workers complete their chunks.", "quantifier": "every ensemble, every pool size >= 1 and every completion order of the chunks", "why_tests_cant": "schedules cannot be enumerated by tests", "anchors": ["src/sympkf/model/model.py:Parallel.run", "src/sympkf/model/model.py:Model.ensemble_forecast"]}
{"id": "C07", "title": "forecast_tl is exact for linear dynamics", "statement": "When the trend is affine in the state, forecast_tl returns at every saved time exactly the linear propagation of each perturbation, whatever the base state and whatever the non-zero step h.", "quantifier": "every affine dynamics, window, base state, list of perturbations, h != 0 and list of saved times", "why_tests_cant": "quantifies over all linear operators and all h", "anchors": ["src/sympkf/model/model.py:Model.forecast_tl"]}
{"id": "C08", "title": "forecast_tl converges to the tangent-linear propagator", "statement": "For a trend differentiable in the state, the perturbations returned by forecast_tl converge, as h tends to 0, to the derivative of the forecast map in the direction of each perturbation.", "quantifier": "every differentiable dynamics on every normed space, every window, saved time, base state and perturbation", "why_tests_cant": "a limit over h for all differentiable dynamics", "anchors": ["src/sympkf/model/model.py:Model.forecast_tl"]}
{"id": "C09", "title": "make_M is the matrix of the propagator", "statement": "For a linear model the matrix M returned by make_M(window) reproduces the forecast at the end of the window: forecast(u)[end] = M @ u for every state u.", "quantifier": "every dimension, linear dynamics, window and state", "why_tests_cant": "all dimensions and all linear maps", "anchors": ["src/sympkf/model/model.py:LinearModel.make_M"]}
{"id": "C10", "title": "window builds the right time axis", "statement": "window(end, start) is the arithmetic progression of step dt from start; when end-start is a multiple n*dt it has exactly n+1 points and finishes on end; in general its last point lies between end-2dt/3 and end+dt/3.", "quantifier": "every start, every end >= start and dt > 0 (exact arithmetic)", "why_tests_cant": "all real end points; the boundary cases are exactly those tests miss", "anchors": ["src/sympkf/model/model.py:Model.window"]}
{"id": "C11", "title": "time-scheme selection is validated and sticky", "statement": "set_time_scheme accepts exactly the five documented names, raises ValueError for any other name and then leaves the scheme in use unchanged; after any history of calls the scheme used by forecast is the last one accepted.", "quantifier": "every string and every sequence of set_time_scheme calls", "why_tests_cant": "all histories of calls", "anchors": ["src/sympkf/model/model.py:Model.set_time_scheme", "src/sympkf/model/model.py:Model.__init__"]}
{"id": "C12", "title": "IdentityModel is stationary", "statement": "An IdentityModel returns the initial state at every saved time, for each of the euler, rk2 and rk4 schemes.", "quantifier": "every window, initial state and saved times", "why_tests_cant": "all windows and states", "anchors": ["src/sympkf/model/model.py:IdentityModel.trend"]}
{"id": "C13", "title": "decoupled schemes on linear dynamics are truncated exponentials", "statement": "On a linear autonomous trend A, one euler, rk2 and rk4 step multiplies the state by the Taylor polynomial of exp(dt*A) of degree 1, 2 and 4 respectively.", "quantifier": "every linear operator on every vector space, every state, time and dt", "why_tests_cant": "identity of operators for all A and dt", "anchors": ["src/sympkf/model/model.py:Model._euler", "src/sympkf/model/model.py:Model._rk2", "src/sympkf/model/model.py:Model._rk4"]}
{"id": "C14", "title": "decoupled schemes integrate time-only trends exactly up to their degree", "statement": "When the trend is the derivative of a polynomial path of degree at most 1 (euler), 2 (rk2) and 4 (rk4) that does not depend on the state, one step lands exactly on the path.", "quantifier": "every polynomial path with vector coefficients, every t, dt", "why_tests_cant": "all polynomials, all t and dt", "anchors": ["src/sympkf/model/model.py:Model._euler", "src/sympkf/model/model.py:Model._rk2", "src/sympkf/model/model.py:Model._rk4"]}
{"id": "C15", "title": "schemes have their nominal order on nonlinear dynamics", "statement": "If y is a smooth solution of y' = f(t,y), one step started on y(t) misses y(t+dt) by O(dt^2) for euler, O(dt^3) for rk2 and leapfrog and O(dt^5) for rk4.", "quantifier": "every smooth vector field on every normed space, every smooth solution and time", "why_tests_cant": "an asymptotic statement over all smooth dynamics", "anchors": ["src/sympkf/model/model.py:Model._euler", "src/sympkf/model/model.py:Model._rk2", "src/sympkf/model/model.py:Model._rk4", "src/sympkf/model/model.py:Model._leapfrog"]}
{"id": "C16", "title": "leapfrog advances pairs and is time-reversible", "statement": "A leapfrog step maps (u_{n-1},u_n) to (u_n,u_{n+1}) with u_{n+1}=u_{n-1}+2dt*trend(t,u_n); swapping the pair and stepping with -dt undoes it, so any leapfrog forecast can be run backwards to its initial pair.", "quantifier": "every trend, state pair, t, dt and every number of steps", "why_tests_cant": "all trends and any number of steps", "anchors": ["src/sympkf/model/model.py:Model._leapfrog"]}
{"id": "C17", "title": "splitting composes its fraction steps", "statement": "The splitting scheme applies its fraction steps one after the other, in order, each over the full dt at the same time; an entry that has an 'update' uses it even if it also has a trend; an empty list leaves the state unchanged; splitting a concatenation is the composition.", "quantifier": "every list of fraction steps, state, t, dt", "why_tests_cant": "lists of any length", "anchors": ["src/sympkf/model/model.py:Model._time_splitting"]}
{"id": "C18", "title": "linear invariants of the trend are preserved by every forecast", "statement": "A linear functional of the state that vanishes on the trend has the same value at every saved time of any euler, rk2, rk4 or leapfrog forecast (for leapfrog when it agrees on the two initial states).", "quantifier": "every linear functional, trend, scheme, window and initial state", "why_tests_cant": "all trends, windows and functionals", "anchors": ["src/sympkf/model/model.py:Model.forecast"]}
{"id": "C19", "title": "randstate returns the end of a spin-up forecast", "statement": "randstate returns the state reached by forecasting the random draw over nstart window points separated by dt; with nstart=0 it raises IndexError.", "quantifier": "every draw, nstart and dt", "why_tests_cant": "all numbers of spin-up iterations", "anchors": ["src/sympkf/model/model.py:Model.randstate"]}
{"id": "C20", "title": "clean_latex_name yields code-safe names", "statement": "clean_latex_name removes every backslash and brace and turns every caret and comma into an underscore, keeps all other characters in order, is idempotent, leaves already clean names unchanged and commutes with concatenation; distinct symbols should keep distinct names.", "quantifier": "every string", "why_tests_cant": "all strings", "anchors": ["src/sympkf/symbolic/tool.py:clean_latex_name"]}
{"id": "C21", "title": "coordinates of a shifted function are recovered", "statement": "For a function evaluated at arguments x or x + k*dx, get_function_coordinates returns the coordinate and its increment in argument order, independently of the iteration order of the set of symbols; an argument with no symbol or more than two raises ValueError.", "quantifier": "every list of arguments, every coordinate name, every set iteration order", "why_tests_cant": "hash-order nondeterminism over all names", "anchors": ["src/sympkf/symbolic/util.py:get_function_coordinates", "src/sympkf/symbolic/util.py:get_coordinates"]}
{"id": "C22", "title": "the code of a shifted function identifies its shift", "statement": "The code generated for a function at integer shifts contains the clean function name, the time tag and the spatial shifts, is just the name for a zero shift, raises AssertionError off the grid, and different shifts of one function give different codes.", "quantifier": "every function name, number of coordinates and vector of shifts (coordinates whose names do not begin with d, see C21)", "why_tests_cant": "all shift vectors in all dimensions", "anchors": ["src/sympkf/symbolic/finite_difference.py:code_regular_function", "src/sympkf/symbolic/finite_difference.py:Code._render_function"]}
{"id": "C23", "title": "rendering a finite difference keeps its tokens intact", "statement": "Rendering a finite-difference expression as code replaces exactly the function occurrences and the grid-step symbols and leaves the rest of the text unchanged.", "quantifier": "every expression, function name and coordinate names", "why_tests_cant": "textual replacement must be safe for all names", "anchors": ["src/sympkf/symbolic/finite_difference.py:code_finite_difference"]}
{"id": "C24", "title": "index() is a periodic shift, independent of the call history", "statement": "In a generated finite-difference model index(coord, step) returns the array i -> (i+step) mod n along that coordinate, whatever sequence of index calls was made before; shifts compose additively, a shift by n is the identity, and each shift is a permutation of the grid.", "quantifier": "every grid size, coordinate, step (positive or negative) and history of calls", "why_tests_cant": "all call histories of a memo table", "anchors": ["src/sympkf/symbolic/templates/body_FDModelBuilder.py:index"]}
{"id": "C25", "title": "the generated constructor validates and fills its geometry and constants", "statement": "A generated model raises ValueError exactly when shape or lengths does not have one entry per coordinate; otherwise dx[k]*shape[k]=lengths[k] and x[k][i]=i*dx[k] with i < shape[k]; each declared constant holds the keyword value when one is given and NaN with a warning otherwise, and keywords that are not declared names set no constant.", "quantifier": "every number of coordinates, shape, lengths and keyword set", "why_tests_cant": "all shapes and keyword sets", "anchors": ["src/sympkf/symbolic/templates/body_FDModelBuilder.py:__init__"]}
{"id": "C26", "title": "the mesh X is aligned with the state arrays", "statement": "X[k] of a generated model has the shape of the state arrays and X[k][i0,i1,..] is the k-th coordinate of grid point (i0,i1,..).", "quantifier": "every number of coordinates and every shape", "why_tests_cant": "all shapes, in particular non square ones", "anchors": ["src/sympkf/symbolic/templates/body_FDModelBuilder.py:__init__"]}
{"id": "C27", "title": "stencils lie on the regular grid", "statement": "The stencil used for a derivative of order o has o+1 distinct integer offsets, symmetric about the point and within [-o,o] (odd offsets for odd o, within [-o/2,o/2] for even o).", "quantifier": "every order o >= 1", "why_tests_cant": "all orders", "anchors": ["src/sympkf/symbolic/finite_difference.py:get_subs_derivative"]}
{"id": "C28", "title": "finite differences are exact on polynomials up to degree order+1", "statement": "The finite difference of the derivative of order o returns the exact derivative of every polynomial of degree at most o+1, for every grid step.", "quantifier": "every order, polynomial of degree <= o+1, point and dx != 0", "why_tests_cant": "all orders and polynomials", "anchors": ["src/sympkf/symbolic/finite_difference.py:get_subs_derivative"]}
{"id": "C29", "title": "finite differences are second-order consistent", "statement": "For every smooth function u of one variable the finite difference of the derivative of order o differs from the derivative by O(dx^2).", "quantifier": "every order o >= 1, every C^(o+2) function and point", "why_tests_cant": "asymptotic statement over all smooth functions; tests check two orders symbolically", "anchors": ["src/sympkf/symbolic/finite_difference.py:finite_difference"]}
{"id": "C30", "title": "mixed derivatives are second-order consistent", "statement": "The finite difference of a mixed derivative, computed one variable after the other, differs from the exact mixed derivative by terms that all carry a square of a grid step, and it does not depend on the order in which the variables are treated.", "quantifier": "every number of variables, multi-index and smooth function, uniformly on bounded sets", "why_tests_cant": "all multi-indices and dimensions", "anchors": ["src/sympkf/symbolic/finite_difference.py:get_subs_derivative", "src/sympkf/symbolic/finite_difference.py:finite_difference_derivative"]}
{"id": "C31", "title": "finite-difference weights are unique and antisymmetric/symmetric", "statement": "The weights on the stencil are the only ones exact on polynomials of degree <= o; they are even in the offset for even o and odd in the offset for odd o, so their code is a centred scheme.", "quantifier": "every order", "why_tests_cant": "all orders", "anchors": ["src/sympkf/symbolic/finite_difference.py:get_subs_derivative"]}
{"id": "C32", "title": "finite_difference removes every derivative and replaces each by its own approximation", "statement": "finite_difference(expr) contains no derivative any more and its value is the value of expr in which every derivative is replaced by its finite difference, independently of the iteration order over the derivatives of equal order.", "quantifier": "every expression and every iteration order of the derivative sets", "why_tests_cant": "all expressions and set orders", "anchors": ["src/sympkf/symbolic/finite_difference.py:finite_difference", "src/sympkf/symbolic/finite_difference.py:finite_difference_derivative"]}
{"id": "C33", "title": "periodic finite differences conserve mass and respect integration by parts", "statement": "On the periodic grid of a generated model the discrete derivative commutes with shifts, vanishes on constants, sums to zero over the grid, and satisfies discrete integration by parts with sign (-1)^o.", "quantifier": "every order, grid size, grid functions", "why_tests_cant": "all grid sizes and grid functions", "anchors": ["src/sympkf/symbolic/templates/body_FDModelBuilder.py:index", "src/sympkf/symbolic/finite_difference.py:get_subs_derivative"]}
{"id": "C34", "title": "the three formats of a partial order are interchangeable", "statement": "A PartialOrderDerivative rebuilt from its as_tuple, as_couples or as_sequence form equals the original (non-negative orders, distinct coordinates).", "quantifier": "every coordinate tuple and every multi-index", "why_tests_cant": "all dimensions and orders", "anchors": ["src/sympkf/symbolic/pkfcas.py:PartialOrderDerivative"]}
{"id": "C35", "title": "invalid partial orders are rejected", "statement": "PartialOrderDerivative raises TypeError exactly when the argument is in none of the three formats; sequences may list coordinates in any order and couples may repeat a coordinate, in which case the orders add up.", "quantifier": "every argument built from coordinates, foreign symbols and integers", "why_tests_cant": "all malformed inputs", "anchors": ["src/sympkf/symbolic/pkfcas.py:PartialOrderDerivative._builder"]}
{"id": "C36", "title": "all_of_degree enumerates every multi-index once", "statement": "all_of_degree(coordinates, d) yields each multi-index of total degree d exactly once, independently of set iteration order; their number is binomial(n+d-1, d).", "quantifier": "every number of coordinates >= 1 and degree d", "why_tests_cant": "all n and d", "anchors": ["src/sympkf/symbolic/pkfcas.py:PartialOrderDerivative.all_of_degree"]}
{"id": "C37", "title": "the univariate substitution tree is correct", "statement": "Every substitution E[D^a eps D^b eps] -> expression of the tree is an identity for every random field eps.", "quantifier": "every dimension, degree, multi-indices and every random field", "why_tests_cant": "an unbounded family of identities", "anchors": ["src/sympkf/symbolic/pkfcas.py:UnivariateTree._add_tree_level"]}
{"id": "C38", "title": "the univariate substitution tree is complete and reduced", "statement": "At degree d the tree has an entry for every product E[D^a eps D^b eps] with a,b != 0 and |a|+|b| <= d, and the substituted expressions only contain terms E[eps D^c eps] and their derivatives.", "quantifier": "every dimension, degree and multi-indices", "why_tests_cant": "all degrees", "anchors": ["src/sympkf/symbolic/pkfcas.py:UnivariateTree"]}
{"id": "C39", "title": "the tree of a given degree does not depend on earlier requests", "statement": "UnivariateTree(degree) returns the same tree whatever degrees were requested before.", "quantifier": "every history of calls", "why_tests_cant": "all call histories", "anchors": ["src/sympkf/symbolic/pkfcas.py:UnivariateTree.__call__"]}
{"id": "C40", "title": "the internal closure of a field is mathematically valid", "statement": "For a normalised random field (E eps=0, E eps^2=1, error = eps*sqrt(V)) with metric g_ij=E[d_i eps d_j eps], every entry of Field.internal_closure is an identity: centred error, variance, flat correlation, metric, and the skewness terms in derivatives of the metric; the metric is symmetric.", "quantifier": "every normalised random field, dimension and indices", "why_tests_cant": "identities over all random fields", "anchors": ["src/sympkf/symbolic/pkfcas.py:Field.internal_closure", "src/sympkf/symbolic/pkfcas.py:skewness_subs", "src/sympkf/symbolic/pkfcas.py:gamma_subs"]}
{"id": "C41", "title": "multivariate couples and covariance labels", "statement": "multivariate_couples lists each unordered pair of distinct fields exactly once; the internal closure maps E[e1 e2] to a covariance V12 and E[eps1 eps2] to V12/(std1*std2), which is an identity; distinct couples have distinct covariance functions; asking for the covariance of a non-prognostic field raises ValueError and of fields with different coordinates AssertionError.", "quantifier": "every list of fields and names", "why_tests_cant": "all systems and names", "anchors": ["src/sympkf/symbolic/pkfcas.py:SymbolicPKF.multivariate_couples", "src/sympkf/symbolic/pkfcas.py:SymbolicPKF.internal_closure", "src/sympkf/symbolic/pkfcas.py:SymbolicPKF.get_covariance"]}
{"id": "C42", "title": "israndom detects dependence on omega outside expectations", "statement": "israndom(expr) is True exactly when omega occurs in expr outside every Expectation (and outside the differentiation variables), for every supported expression.", "quantifier": "every supported expression", "why_tests_cant": "all expression trees", "anchors": ["src/sympkf/symbolic/random.py:israndom"]}
{"id": "C43", "title": "Expectation is mathematically sound", "statement": "The expression produced by Expectation(arg) has the value of the mathematical expectation of arg, in every probabilistic interpretation (E linear over deterministic quantities, commuting with derivatives and integrals).", "quantifier": "every supported expression and every interpretation", "why_tests_cant": "all expressions and all probability models", "anchors": ["src/sympkf/symbolic/random.py:Expectation.eval"]}
{"id": "C44", "title": "Expectation is fully reduced and idempotent", "statement": "The result of Expectation is never random; every remaining expectation node has a random argument that is neither a sum nor a product with a deterministic factor nor a derivative; Expectation of a non-random expression returns it, expanded, so applying Expectation twice changes nothing.", "quantifier": "every supported expression", "why_tests_cant": "all expression trees", "anchors": ["src/sympkf/symbolic/random.py:Expectation.eval", "src/sympkf/symbolic/random.py:Expectation.has"]}
{"id": "C45", "title": "Reynolds systems are the Taylor truncations of the dynamics", "statement": "The second-order (first-order) Reynolds system is the dynamics evaluated at E[u]+eps*e, Taylor-truncated at degree 2 (1) in eps, at eps=1.", "quantifier": "every differential system whose right-hand sides have a Taylor expansion (sums, products, powers, exp, sin, cos, tan, sinh, cosh, tanh, log, atan of fields and derivatives), with any number of fields", "why_tests_cant": "all systems", "anchors": ["src/sympkf/symbolic/pkfcas.py:SymbolicPKF._compute_reynolds_system"]}
{"id": "C46", "title": "error_system is the tangent-linear dynamics", "statement": "The right-hand side of error_system is the derivative of the dynamics at the mean state in the direction of the error, and the equation is d_t e = that.", "quantifier": "every differential system whose right-hand sides have a Taylor expansion", "why_tests_cant": "all systems", "anchors": ["src/sympkf/symbolic/pkfcas.py:SymbolicPKF.error_system"]}
{"id": "C47", "title": "expectation_system is exact for quadratic dynamics", "statement": "For dynamics of degree at most two in the fields and their derivatives expectation_system holds exactly for every random solution; for other dynamics it is the average of the second-order Taylor expansion.", "quantifier": "every system, every random solution", "why_tests_cant": "all systems and probability laws", "anchors": ["src/sympkf/symbolic/pkfcas.py:SymbolicPKF.expectation_system"]}
{"id": "C48", "title": "variance_system is satisfied by the variance of the tangent-linear errors", "statement": "If the errors follow error_system and V=E[e^2], then V satisfies variance_system.", "quantifier": "every system, every random error field", "why_tests_cant": "all systems and laws", "anchors": ["src/sympkf/symbolic/pkfcas.py:SymbolicPKF.variance_system"]}
{"id": "C49", "title": "epsilon_system is satisfied by the normalised errors", "statement": "If the errors follow error_system and V its variance equation then eps=e/sqrt(V) satisfies epsilon_system.", "quantifier": "every system and random error", "why_tests_cant": "all systems and laws", "anchors": ["src/sympkf/symbolic/pkfcas.py:SymbolicPKF.epsilon_system"]}
{"id": "C50", "title": "metric_system is satisfied by the metric of the normalised errors", "statement": "If eps follows epsilon_system and g_ij=E[d_i eps d_j eps] then g satisfies metric_system.", "quantifier": "every system, dimension and random error", "why_tests_cant": "all systems and laws", "anchors": ["src/sympkf/symbolic/pkfcas.py:SymbolicPKF.metric_system"]}
{"id": "C51", "title": "cross_covariance_system is satisfied by the cross-covariances", "statement": "If the errors follow error_system and V12=E[e1 e2] then V12 satisfies cross_covariance_system; a univariate system has none.", "quantifier": "every multivariate system and random errors", "why_tests_cant": "all systems and laws", "anchors": ["src/sympkf/symbolic/pkfcas.py:SymbolicPKF.cross_covariance_system"]}
{"id": "C52", "title": "in_aspect and in_diffusion are the metric dynamics in the other variables", "statement": "If g satisfies its metric equation and s=g^-1 (nu=g^-1/2) then s (nu) satisfies the equation produced by in_aspect (in_diffusion), in any dimension; the two agree through s=2 nu.", "quantifier": "every dimension, every invertible symmetric metric field", "why_tests_cant": "matrix identities in all dimensions", "anchors": ["src/sympkf/symbolic/pkfcas.py:SymbolicPKF.in_aspect", "src/sympkf/symbolic/pkfcas.py:SymbolicPKF.in_diffusion"]}
{"id": "C53", "title": "the PKF systems have one equation per unknown", "statement": "in_metric, in_aspect and in_diffusion list, in this order, one equation per mean field, per variance, per cross-covariance and per upper-triangular tensor component, so that every unknown has a trend.", "quantifier": "every number of fields and of coordinates", "why_tests_cant": "all systems", "anchors": ["src/sympkf/symbolic/pkfcas.py:SymbolicPKF.in_metric", "src/sympkf/symbolic/pkfcas.py:SymbolicPKF.in_aspect", "src/sympkf/symbolic/pkfcas.py:SymbolicPKF.in_diffusion"]}
{"id": "C54", "title": "closures are always taken into account", "statement": "After any sequence of set_closure calls and reads, in_metric/in_diffusion/in_aspect are what a fresh SymbolicPKF built with the accumulated closure would return, closures accumulate with later entries winning, and set_closure changes nothing but this object's closure.", "quantifier": "every history of set_closure calls and property reads, on any number of SymbolicPKF objects", "why_tests_cant": "all histories and aliasing patterns", "anchors": ["src/sympkf/symbolic/pkfcas.py:SymbolicPKF.set_closure", "src/sympkf/symbolic/pkfcas.py:SymbolicPKF.closure"]}
{"id": "C55", "title": "lazy properties do not depend on the order in which they are read", "statement": "Every property of SymbolicPKF that is computed on demand returns the same system whatever was read before it.", "quantifier": "every sequence of reads", "why_tests_cant": "all read orders", "anchors": ["src/sympkf/symbolic/pkfcas.py:SymbolicPKF"]}
{"id": "C56", "title": "unclosed_terms lists the expectations left", "statement": "unclosed_terms is the set of expectations in the right-hand sides of in_metric other than the means of the fields; it is empty exactly when the dynamics is closed.", "quantifier": "every system and closure", "why_tests_cant": "all systems", "anchors": ["src/sympkf/symbolic/pkfcas.py:SymbolicPKF.unclosed_terms"]}
{"id": "C57", "title": "applying the internal closure never fails and preserves values", "statement": "_apply_internal_closure, as used for every statistical equation, replaces terms by equal ones and does not raise.", "quantifier": "every expression", "why_tests_cant": "all expressions", "anchors": ["src/sympkf/symbolic/pkfcas.py:SymbolicPKF._apply_internal_closure", "src/sympkf/symbolic/pkfcas.py:UnivariateTerm.is_univariate"]}
{"id": "C58", "title": "Closure gives the Taylor coefficients of the correlation", "statement": "closure(order) maps E[eps D^a eps] to a! times the coefficient of dx^a of the Taylor expansion of the correlation function, for every |a| <= order.", "quantifier": "every dimension and multi-index", "why_tests_cant": "all multi-indices", "anchors": ["src/sympkf/symbolic/pkfcas.py:Closure.closure_by_order"]}
{"id": "C59", "title": "Closure results do not depend on the call history", "statement": "closure_by_order(n), closure(n) and taylor(n) return the same thing whatever was called before on the object.", "quantifier": "every history of calls", "why_tests_cant": "all call histories", "anchors": ["src/sympkf/symbolic/pkfcas.py:Closure.closure_by_order", "src/sympkf/symbolic/pkfcas.py:Closure.taylor", "src/sympkf/symbolic/pkfcas.py:Closure.in_metric_by_order"]}
{"id": "C60", "title": "in_metric_by_order associates each second-order term with its metric component", "statement": "in_metric_by_order identifies E[eps d_i d_j eps] with -g_ij for every pair of coordinates.", "quantifier": "every dimension", "why_tests_cant": "all dimensions", "anchors": ["src/sympkf/symbolic/pkfcas.py:Closure.in_metric_by_order"]}
{"id": "C61", "title": "the prototype correlations are correlations with the announced tensor", "statement": "The prototype correlation functions equal 1 at zero separation, are symmetric, bounded by 1 and positive semidefinite, and for a homogeneous tensor their second derivative at the origin is minus the metric.", "quantifier": "every aspect/diffusion/metric tensor value and separation", "why_tests_cant": "all real parameters", "anchors": ["src/sympkf/symbolic/pkfcas.py:Closure.correlation", "src/sympkf/symbolic/pkfcas.py:Closure.correlation_in_diffusion", "src/sympkf/symbolic/pkfcas.py:LocGaussianClosure.correlation"]}
{"id": "C62", "title": "PDESystem partitions its functions", "statement": "Every function of the system is prognostic, constant or exogenous, and only one of them; prognostic are those with a time derivative, constant those that do not depend on time.", "quantifier": "every system", "why_tests_cant": "all systems", "anchors": ["src/sympkf/symbolic/util.py:PDESystem"]}
{"id": "C63", "title": "PDESystem constants and coordinates", "statement": "constants are exactly the symbols of the right-hand sides that are neither coordinates nor trainable; coordinates are the arguments of the prognostic function with most arguments, time first, otherwise the construction fails; spatial_derivatives are the derivatives of the right-hand sides, each once, and derivative_max_order is their largest total order.", "quantifier": "every system", "why_tests_cant": "all systems", "anchors": ["src/sympkf/symbolic/util.py:PDESystem._get_constants", "src/sympkf/symbolic/util.py:PDESystem._get_coordinates", "src/sympkf/symbolic/util.py:PDESystem._get_spatial_derivatives"]}
{"id": "C64", "title": "the generated trend computes the right-hand sides", "statement": "The trend method generated for a system of evolution equations writes in slot k the right-hand side of equation k, with every derivative replaced by its discretisation, every function by its slot and every constant by its value.", "quantifier": "every prognostic system and every state", "why_tests_cant": "all systems and states", "anchors": ["src/sympkf/symbolic/model_builder.py:ModelBuilder._make_pseudo_algebaraic_system", "src/sympkf/symbolic/model_builder.py:ModelBuilder._make_trend_code", "src/sympkf/symbolic/templates/footer.py:trend"]}
{"id": "C65", "title": "non-evolution equations are rejected", "statement": "Code generation raises ValueError for an equation whose left-hand side is not the only first-order time derivative of the equation.", "quantifier": "every equation", "why_tests_cant": "all equations", "anchors": ["src/sympkf/symbolic/model_builder.py:ModelBuilder._make_pseudo_algebaraic_system", "src/sympkf/symbolic/util.py:get_trend"]}
{"id": "C66", "title": "generated names of derivatives are distinct", "statement": "Two different derivatives (function, multi-index) have different variable names in the generated code, different from the names of functions and constants.", "quantifier": "every set of derivatives", "why_tests_cant": "all names", "anchors": ["src/sympkf/symbolic/model_builder.py:MetaDerivative._set_as_keyvar"]}
{"id": "C67", "title": "Eq arithmetic preserves solutions", "statement": "Sum, difference, negation and multiplication of equations act on both sides, so any valuation satisfying the operands satisfies the result; a op on equations never crashes.", "quantifier": "every equation and valuation", "why_tests_cant": "all equations", "anchors": ["src/sympkf/symbolic/util.py:Eq"]}
{"id": "C68", "title": "isolate solves for the requested term", "statement": "isolate(expr) returns expr = value, equivalent to the original equation when the equation is linear in expr with invertible coefficient.", "quantifier": "every linear equation and valuation", "why_tests_cant": "all equations", "anchors": ["src/sympkf/symbolic/util.py:Eq.isolate"]}
{"id": "C69", "title": "CompareExpression splits terms into common and specific ones", "statement": "common and the two specific sets are pairwise disjoint, each expression's terms are common plus specific, and both specific sets are empty exactly when the expressions have the same terms.", "quantifier": "every pair of expressions", "why_tests_cant": "all expressions", "anchors": ["src/sympkf/symbolic/util.py:CompareExpression"]}
{"id": "C70", "title": "gradient and divergence of a coordinate system", "statement": "gradient lists the derivatives with respect to each coordinate in order, div sums the derivative of each component with respect to its coordinate, div(gradient) is the Laplacian, and fields that lack a coordinate raise ValueError.", "quantifier": "every coordinate system, field and vector", "why_tests_cant": "all dimensions", "anchors": ["src/sympkf/symbolic/util.py:CoordinateSystem"]}
{"id": "C71", "title": "upper_triangle lists the independent components of a symmetric tensor", "statement": "upper_triangle lists entries (i,j), i<=j, row by row; n(n+1)/2 of them for a square matrix; a symmetric matrix is determined by it.", "quantifier": "every matrix", "why_tests_cant": "all sizes", "anchors": ["src/sympkf/symbolic/util.py:upper_triangle"]}
{"id": "C72", "title": "total order of a derivative", "statement": "get_total_order is the sum of the partial orders, get_derivative_partial_orders maps each variable to its order.", "quantifier": "every derivative", "why_tests_cant": "all derivatives", "anchors": ["src/sympkf/symbolic/util.py:get_total_order", "src/sympkf/symbolic/util.py:get_derivative_partial_orders"]}
{"id": "C73", "title": "regularising a staggered finite difference keeps it consistent", "statement": "regularize_finite_difference turns the staggered stencil of a derivative, mixed or not, into one on the regular grid that approximates the same derivative.", "quantifier": "every mixed derivative with respect to any number of coordinates, every order of the set of functions", "why_tests_cant": "all orders and coordinates", "anchors": ["src/sympkf/symbolic/finite_difference.py:regularize_finite_difference", "src/sympkf/symbolic/finite_difference.py:_sympy_finite_difference"]}
{"id": "C74", "title": "the derived systems are evolution equations", "statement": "For deterministic evolution equations (trends of the fields on the left, no trend on the right) each system derived by SymbolicPKF (means, errors, variances, normalised errors, metrics, cross-covariances, and the complete systems in metric, aspect and diffusion form with a closure) has on the left exactly the trends of its unknowns, once and in order, and no derivative with respect to time on the right, so it can be integrated in time.", "quantifier": "every deterministic evolution system with any number of fields and dimensions, every closure", "why_tests_cant": "all systems, in any order of substitution", "anchors": ["src/sympkf/symbolic/pkfcas.py:SymbolicPKF"]}
{"id": "C75", "title": "the equations of the standard deviations follow from those of the variances", "statement": "std_system of deterministic evolution equations gives, in the order of the fields, the trend of each standard deviation by a right-hand side without trends; where std^2 is the variance, each equation is equivalent to the variance equation, 2 std rhs being the trend of the variance.", "quantifier": "every deterministic evolution system, every differential ring, every order of the set of derivatives", "why_tests_cant": "all systems; the choice of the trend iterates over a set and compares a symbol with a tuple", "anchors": ["src/sympkf/symbolic/pkfcas.py:SymbolicPKF.std_system", "src/sympkf/symbolic/util.py:Eq.isolate"]}
{"id": "C76", "title": "the generated finite-difference model is a second-order discretisation", "statement": "For a system of evolution equations whose functions are smooth and periodic, the trend of the generated finite-difference class, applied to the values of the functions on the grid, differs from the right-hand sides of the equations by at most a constant times the sum of the squares of the grid steps, uniformly on the grid.", "quantifier": "every system, every dimension, every smooth periodic function, every sufficiently fine grid", "why_tests_cant": "tests compare at one resolution; the claim is about all grids and composes code generation, coding rules, weights and periodic indexing", "anchors": ["src/sympkf/symbolic/model_builder_FD.py:FDModelBuilder", "src/sympkf/symbolic/finite_difference.py:finite_difference", "src/sympkf/symbolic/model_builder.py:ModelBuilder._make_trend_code", "src/sympkf/symbolic/templates/body_FDModelBuilder.py"]}
{"id": "C77", "title": "the Burgers module generates a model of its closed parametric Kalman filter", "statement": "The parametric Kalman filter of the Burgers equation has exactly one unclosed term; the closure given in terms of the aspect tensor equals the closure in terms of the metric tensor; the closed system has no expectation left and the generated finite-difference class is a second-order discretisation of the closed equations of mean, variance and aspect, for all smooth periodic fields and whatever the order of the sets.", "quantifier": "every smooth periodic mean, positive variance and positive aspect, every grid, every iteration order of sets", "why_tests_cant": "all fields and grids; the module takes an element of a set", "anchors": ["src/sympkf/dynamics/burgers.py:Burgers", "src/sympkf/symbolic/model_builder_FD.py:FDModelBuilder"]}
{"id": "C78", "title": "the predefined dynamics generate models of the equations they stand for", "statement": "For each of the predefined systems burgers, kuramoto, diffusion, advection_in_2D, advection_in_3D the constructor succeeds with the expected unknown, coordinates, constants and stationary functions, and the generated trend is the right-hand side of the equation, whatever the order of the sets; the right-hand side of diffusion_in_2D is the divergence of the flux and its generated finite-difference class is a second-order discretisation of it; advection (1D) gives two functions the same name and its generated trend does not depend on the state.", "quantifier": "every iteration order of sets, every state, attribute value and discretisation; every smooth periodic field and grid for diffusion_in_2D", "why_tests_cant": "all states and orders; the systems are only displayed in the notebooks", "anchors": ["src/sympkf/symbolic/dynamics.py:burgers", "src/sympkf/symbolic/dynamics.py:advection", "src/sympkf/symbolic/dynamics.py:diffusion_in_2D", "src/sympkf/symbolic/model_builder.py:ModelBuilder"]}
{"id": "C79", "title": "converting a system of equations to finite differences", "statement": "finite_difference_system (and PDESystem.finite_difference) gives one equation for each equation, in their order, with the same left-hand side and a right-hand side without derivatives; for smooth functions each new right-hand side differs from the exact one by at most a constant times the sum of the squares of the grid steps, uniformly on every cube, provided no constant has the name of a grid step. A result is a truth value exactly when SymPy decides the new equation.", "quantifier": "every list of equations with any operations, powers and elementary functions, every enumeration of the set of derivatives, every dimension, every smooth function", "why_tests_cant": "all systems and all small steps; the order of substitution depends on a set", "anchors": ["src/sympkf/symbolic/finite_difference.py:finite_difference_system", "src/sympkf/symbolic/util.py:PDESystem.finite_difference"]}
{"id": "C80", "title": "the generated manifold model", "statement": "The constructor of a class generated by ManifoldModelBuilder raises AssertionError exactly when the dimension of the base space is not the number of coordinates; declared constants hold the keyword value or NaN with a warning, other keywords set nothing; the time scheme is the requested one; different derivatives have different code.", "quantifier": "every class, base space, keyword arguments and derivative", "why_tests_cant": "all names and arguments", "anchors": ["src/sympkf/symbolic/templates/body_ManifoldModelBuilder.py", "src/sympkf/symbolic/model_builder_manifold.py:MetaDerivative._set_as_code", "src/sympkf/symbolic/model_builder.py:MetaDerivative._set_as_partial_orders"]}
{"id": "C81", "title": "the Reynolds systems are Taylor polynomials in the sense of real analysis", "statement": "When the fields of a smooth random state take the values E[f] + eps e_f for a real number eps, each right-hand side of the dynamics is c0 + c1 eps + c2 eps^2 + O(eps^3) at every event and position, where c0 + c1 + c2 is the value of the right-hand side of the second-order Reynolds system, c0 + c1 that of the first-order system and c1 that of the error system; its mean is m0 + m2 eps^2 + O(eps^3), where m0 + m2 is the value of the right-hand side of the expectation system.", "quantifier": "every finite probability space, every smooth random state, every dynamics built of fields, derivatives, elementary functions (whose domain contains the mean) and powers (positive at the mean unless natural) that does not use the name of the small parameter", "why_tests_cant": "all states and dynamics; the error of the expansion is a limit", "anchors": ["src/sympkf/symbolic/pkfcas.py:SymbolicPKF._compute_reynolds_system", "src/sympkf/symbolic/pkfcas.py:SymbolicPKF.error_system", "src/sympkf/symbolic/pkfcas.py:SymbolicPKF.expectation_system"]}
{"id": "C82", "title": "which expectations the internal closure leaves open", "statement": "For deterministic evolution equations, the only expectations left in the equations of the variances, cross-covariances and metrics are the means of the fields, expectations of a normalised error times one of its spatial derivatives of order four or more, and expectations of products of (derivatives of) the normalised errors of two different fields, at least one of them differentiated; in the equations of the means also expectations of products of two spatial derivatives of one normalised error can be left. unclosed_terms lists nothing else.", "quantifier": "every deterministic evolution system with any number of fields and dimensions, every order of substitution and iteration", "why_tests_cant": "all systems; the closure has to reach every product of derivatives of any order that the dynamics generates", "anchors": ["src/sympkf/symbolic/pkfcas.py:SymbolicPKF._apply_internal_closure", "src/sympkf/symbolic/pkfcas.py:SymbolicPKF.unclosed_terms", "src/sympkf/symbolic/pkfcas.py:UnivariateTerm.is_univariate", "src/sympkf/symbolic/pkfcas.py:UnivariateTree"]}
{"id": "C83", "title": "a closure of all open terms closes the system", "statement": "When the dictionary given to set_closure has, for every expectation that is left in the systems of the means, variances, cross-covariances and metrics and that is not the mean of a field, an entry whose value has no expectation, then unclosed_terms is empty.", "quantifier": "every deterministic evolution system, every dictionary with such entries, every order of substitution", "why_tests_cant": "all systems and closures", "anchors": ["src/sympkf/symbolic/pkfcas.py:SymbolicPKF.set_closure", "src/sympkf/symbolic/pkfcas.py:SymbolicPKF.unclosed_terms", "src/sympkf/symbolic/pkfcas.py:SymbolicPKF.in_metric"]}
{"id": "C84", "title": "closed systems generate models", "statement": "When a polynomial dynamics is closed by the user (unclosed_terms is empty for in_metric; the closure covers the open terms for in_aspect and in_diffusion), the equations of the system are accepted by PDESystem: its prognostic functions are the means, variances, cross-covariances and tensors in this order (without cross-covariances for in_diffusion), its coordinates are those of the fields, its other functions occur in the dynamics or in the closure (or are cross-covariances, for in_diffusion), and when the names of the generated code are distinct identifiers and no square root is left the generated trend returns the values of the right-hand sides.", "quantifier": "every deterministic evolution system with polynomial right-hand sides, every covering closure, every order of sets and substitutions, every arithmetic", "why_tests_cant": "all systems, closures, orders and arithmetics", "anchors": ["src/sympkf/symbolic/pkfcas.py:SymbolicPKF.in_metric", "src/sympkf/symbolic/pkfcas.py:SymbolicPKF.in_aspect", "src/sympkf/symbolic/pkfcas.py:SymbolicPKF.in_diffusion", "src/sympkf/symbolic/util.py:PDESystem.__init__", "src/sympkf/symbolic/model_builder.py:ModelBuilder"]}
{"id": "C85", "title": "the generated PKF model computes the trends of the true statistics", "statement": "End to end: when a random state on a periodic domain satisfies the dynamics and the closure holds for it, the finite-difference model that FDModelBuilder generates from the closed in_metric, in_aspect or in_diffusion system, given the true means, variances, cross-covariances and tensors on a grid, returns arrays that differ from the true time derivatives of these statistics by at most a constant times the sum of the squared steps, on every fine enough grid (when the names of the generated code are distinct identifiers and no square root is left in the closed system).", "quantifier": "every polynomial evolution system, every random state with smooth periodic statistics, every true closure, every fine enough grid", "why_tests_cant": "all dynamics, random states, closures and grids", "anchors": ["src/sympkf/symbolic/pkfcas.py:SymbolicPKF.in_metric", "src/sympkf/symbolic/pkfcas.py:SymbolicPKF.in_aspect", "src/sympkf/symbolic/pkfcas.py:SymbolicPKF.in_diffusion", "src/sympkf/symbolic/util.py:PDESystem.__init__", "src/sympkf/symbolic/model_builder_FD.py:FDModelBuilder", "src/sympkf/symbolic/finite_difference.py:finite_difference"]}
{"id": "C86", "title": "forecasts converge to the solution with the nominal order of the scheme", "statement": "If y solves y' = f(t, y) around [a, b] and f is smooth around the trajectory, then the forecasts of a Model with the scheme euler, rk2 or rk4, over any window of [a, b] with steps at most eta (regular or not), started near y(a), exist and stay within C (eta^p + initial error) of y at all saved times, with p = 1, 2, 4; with leapfrog, on windows of constant step dt and from a pair near (y(a - dt), y(a)), both members stay within C (dt^2 + initial error). The constants depend neither on the window nor on the initial state. On Model.window(stop, start) from the exact state the error is at most C dt^p. No global Lipschitz bound is assumed.", "quantifier": "every normed state space, every vector field smooth around the trajectory, every window with small steps, every initial state near the solution, every selection of saved times", "why_tests_cant": "global error over all windows, fields and initial states", "anchors": ["src/sympkf/model/model.py:Model.forecast", "src/sympkf/model/model.py:Model._euler", "src/sympkf/model/model.py:Model._rk2", "src/sympkf/model/model.py:Model._rk4", "src/sympkf/model/model.py:Model._leapfrog", "src/sympkf/model/model.py:Model._time_splitting", "src/sympkf/model/model.py:Model.window"]}
{"id": "C87", "title": "the splitting scheme converges with order one to the sum of the trends", "statement": "With a list of fraction steps, each one being a trend with the scheme euler, rk2 or rk4, or an update u + dt w(t, u, dt) with w smooth and w(t, u, 0) = f(t, u), the forecasts of the scheme splitting exist and stay within C (eta + initial error) of the solution of y' = sum of the trends, on all windows with steps at most eta and whatever the order of the list. The order is not two in general, even with rk4 for each fraction step.", "quantifier": "every list of fraction steps, every smooth trends, every window with small steps, every initial state near the solution", "why_tests_cant": "global error over all lists of fraction steps and windows", "anchors": ["src/sympkf/model/model.py:Model._time_splitting", "src/sympkf/model/model.py:Model.forecast"]}
{"id": "C88", "title": "consistency and stability imply that forecasts with the generated classes converge", "statement": "For every evolution system accepted by the builder and every smooth periodic solution of it on [a, b], the method trend of the generated class is a vector field on the grid states; if the explicit Euler steps with it are stable along the solution (the distance to the sampled solution grows by at most the factor 1 + K dt for states within r of it), then the forecasts with the scheme euler over the windows of [a, b] with steps at most eta differ from the sampled solution, at all saved times and everywhere on the grid, by at most C (eta + sum of the squared grid steps + initial error), with C independent of the grid, of the window and of the initial state.", "quantifier": "every accepted evolution system, every smooth periodic solution, every fine grid, every window with small steps, every initial state near the solution, every selection of saved times", "why_tests_cant": "relates the generated numerical code to the solutions of partial differential equations, uniformly in the discretisation", "anchors": ["src/sympkf/symbolic/model_builder_FD.py:FDModelBuilder", "src/sympkf/symbolic/finite_difference.py:finite_difference", "src/sympkf/model/model.py:Model.forecast", "src/sympkf/model/model.py:Model._euler"]}
{"id": "C89", "title": "forecasts of the generated diffusion and Burgers models converge to the solutions", "statement": "For every smooth space-periodic solution of the diffusion equation, or of the Burgers equation, with a diffusion coefficient kappa > 0, the forecasts with the scheme euler of the class generated from sympkf's definition of the equation, on all fine grids and all windows with 2 kappa dt <= dx^2, differ from the solution at all the saved times and grid points by at most C (dx^2 + initial error). No stability is assumed: it is proved, from a discrete maximum principle.", "quantifier": "every smooth periodic solution, every kappa > 0, every fine grid, every window satisfying the stability condition, every initial state near the solution", "why_tests_cant": "end-to-end convergence of generated code to solutions of nonlinear equations", "anchors": ["src/sympkf/symbolic/dynamics.py:burgers", "src/sympkf/symbolic/dynamics.py:diffusion", "src/sympkf/symbolic/model_builder_FD.py:FDModelBuilder", "src/sympkf/model/model.py:Model.forecast"]}
{"id": "C90", "title": "forecasts respect the linear relations that the trends respect", "statement": "Let R be a linear relation between the states of two models (for instance the graph of a linear map, a symmetry, or a subspace). If the trends send related states to related states (for splitting: the fraction steps, one by one), then with each of the schemes euler, rk2, rk4, leapfrog, splitting, over every window and selection of saved times, the forecasts and predictions from related states raise the same exception or save the same times with related states. In particular a linear map that intertwines the trends intertwines the forecasts, and a subspace stable under the trend is stable under forecasts.", "quantifier": "every field, every pair of state spaces, every linear relation, every pair of trends preserving it, every scheme, window, saved times, initial states", "why_tests_cant": "quantifies over all models and all symmetries; a test would have to fix one", "anchors": ["src/sympkf/model/model.py:Model.forecast", "src/sympkf/model/model.py:Model.predict", "src/sympkf/model/model.py:Model._euler", "src/sympkf/model/model.py:Model._rk2", "src/sympkf/model/model.py:Model._rk4", "src/sympkf/model/model.py:Model._leapfrog", "src/sympkf/model/model.py:Model._time_splitting"]}
{"id": "C91", "title": "the generated models are equivariant under the translations of the periodic grid", "statement": "For every evolution system accepted by the builder whose derivatives are derivatives of functions of all the coordinates, on every periodic grid: if the stationary functions, constants and exogenous functions of two objects of the generated class are translated from each other by z grid steps, then the trend of a translated state is the translated trend, and with every scheme the forecast from a translated state is the translated forecast (same saved times, or same exception).", "quantifier": "every accepted evolution system, every grid and grid steps, every translation, every state, scheme, window and saved times", "why_tests_cant": "quantifies over all equations and grids; the periodic index computations must all agree", "anchors": ["src/sympkf/symbolic/model_builder_FD.py:FDModelBuilder", "src/sympkf/symbolic/finite_difference.py:finite_difference", "src/sympkf/symbolic/templates/body_FDModelBuilder.py:index", "src/sympkf/model/model.py:Model.forecast"]}
{"id": "C92", "title": "the generated models conserve the total of equations in conservation form", "statement": "For every accepted evolution system and every equation of it whose right-hand side is a linear combination, with numbers and scalar constants, of derivatives of functions and of products of a function by one of its derivatives of odd order (as u u_x), the sum over the grid of the generated trend is zero for every state, and with every scheme the forecasts conserve the sum over the grid, exactly. This covers burgers, kuramoto and diffusion of sympkf.dynamics. It fails for diffusion_in_2D, whose flux divergence is written in expanded form (counterexample).", "quantifier": "every accepted evolution system with an equation in conservation form, every periodic grid, every state, scheme, window and saved times", "why_tests_cant": "exact cancellation over the whole grid for all equations of a class; floating-point tests only see it approximately", "anchors": ["src/sympkf/symbolic/model_builder_FD.py:FDModelBuilder", "src/sympkf/symbolic/finite_difference.py:finite_difference", "src/sympkf/symbolic/dynamics.py:burgers", "src/sympkf/symbolic/dynamics.py:kuramoto", "src/sympkf/model/model.py:Model.forecast"]}
{"id": "C93", "title": "discrete maximum principle for the generated diffusion and Burgers models", "statement": "Forecasts with the scheme euler of the class generated from sympkf's diffusion equation, with kappa >= 0 and a window whose steps satisfy 2 kappa dt <= dx^2, stay at all saved times and grid points between every lower and upper bound of the initial state; the same holds for the Burgers equation if moreover dx times the bounds is at most 2 kappa. The condition on the steps is sharp: if 2 kappa dt > dx^2, on every grid of at least two points one step from a state with values zero and one gives a negative value.", "quantifier": "every grid size, dx > 0, kappa, window satisfying the condition, initial state and saved times", "why_tests_cant": "an inequality for all states and all grids with a sharp threshold", "anchors": ["src/sympkf/symbolic/dynamics.py:burgers", "src/sympkf/symbolic/dynamics.py:diffusion", "src/sympkf/symbolic/model_builder_FD.py:FDModelBuilder", "src/sympkf/model/model.py:Model._euler", "src/sympkf/model/model.py:Model.forecast"]}
{"id": "C94", "title": "regularising the staggered discretisation of a system keeps it consistent", "statement": "regularize_finite_difference_system keeps the number, the order and the left-hand sides of the equations and moves every function of the right-hand sides to the regular grid; when a right-hand side is the staggered discretisation (_sympy_finite_difference) of an expression, its regularised form differs from the expression by a constant times the squares of the grid steps, uniformly on bounded sets.", "quantifier": "every system of any number of equations and coordinates, every smooth function, every order of the sets of functions and symbols", "why_tests_cant": "all right-hand sides, all steps, all iteration orders of two sets", "anchors": ["src/sympkf/symbolic/finite_difference.py:regularize_finite_difference_system", "src/sympkf/symbolic/finite_difference.py:regularize_finite_difference", "src/sympkf/symbolic/finite_difference.py:_sympy_finite_difference"]}
{"id": "C95", "title": "on a fixed grid the forecasts of the generated classes converge in time with the order of the scheme", "statement": "At the points of the grid the generated trend depends on the values at these points only. From every state in which the powers of the right-hand sides are defined, the differential system in time has a solution for some time. Around any solution, the forecasts with euler, rk2, rk4 exist and differ from it, at every saved time and point of the grid, by at most C (step^p + initial error), p = 1, 2, 4; with leapfrog, on windows of constant step, the same holds with p = 2 for both arrays of the state.", "quantifier": "every system of evolution equations (any number of unknowns, coordinates, exogenous functions smooth in time), every grid, every solution, every window", "why_tests_cant": "the order of convergence quantifies over all windows with small steps, all initial states and all right-hand sides", "anchors": ["src/sympkf/symbolic/templates/body_FDModelBuilder.py:trend", "src/sympkf/model/model.py:Model.forecast", "src/sympkf/symbolic/model_builder_FD.py:FDModelBuilder"]}
{"id": "C96", "title": "the generated finite-difference classes commute with reflections of the grid", "statement": "Reflect the periodic grid along some axes (around a point or the middle of two points) and give every function and constant a parity. If the right-hand side of the equation of each unknown has the parity of this unknown (derivatives change it once per order along a reflected axis), then the trend and, with every scheme, the whole forecast (or exception) from reflected data is the reflected one. States that are their own reflection stay so: odd states of the Burgers, Kuramoto-Sivashinsky and diffusion equations of sympkf stay odd.", "quantifier": "every system of evolution equations with derivatives of functions of all the coordinates, every grid, set of axes, centre, parities, scheme, window", "why_tests_cant": "a statement about all systems, all grids and all states; the centred schemes of sympkf are what makes it true", "anchors": ["src/sympkf/symbolic/templates/body_FDModelBuilder.py:trend", "src/sympkf/symbolic/finite_difference.py:finite_difference", "src/sympkf/model/model.py:Model.forecast", "src/sympkf/symbolic/dynamics.py:burgers"]}
{"id": "C97", "title": "the order of the dynamics bounds the order of the open expectations", "statement": "For a deterministic evolution system whose derivatives are of order at most p (nested derivatives added), the open expectations of C82 have at most p derivations in the equations of the variances and cross-covariances, at most p + 2 in the equations of the metrics and at most 2p in those of the means; unclosed_terms lists nothing else. With one field the variance equation is therefore closed by the package alone for p <= 3, and the metric equations for p <= 1.", "quantifier": "every deterministic evolution system with any number of fields and coordinates whose Reynolds equations are computed, every p", "why_tests_cant": "tests compute a handful of systems; a lost or doubled derivative in one substitution only shows as another open term", "anchors": ["src/sympkf/symbolic/pkfcas.py:SymbolicPKF._compute_reynolds_system", "src/sympkf/symbolic/pkfcas.py:SymbolicPKF._apply_internal_closure", "src/sympkf/symbolic/pkfcas.py:SymbolicPKF.unclosed_terms", "src/sympkf/symbolic/pkfcas.py:UnivariateTerm"]}
{"id": "C98", "title": "the number of derivations in the terms of the dynamics bounds the open expectations of the means; first-order laws need no closure", "statement": "When each term of the right-hand sides contains at most k derivations altogether (none inside functions, integrals or powers other than natural ones), the open expectations in the equations of the means have at most k derivations. With one field and k <= 1 (advection, inviscid Burgers, conservation laws f(u) Derivative(u, x), in any number of dimensions) the package closes the equations alone: unclosed_terms is empty and no expectation is left in in_metric.", "quantifier": "every deterministic evolution system whose Reynolds equations are computed, every k; for the second part every such system with one field", "why_tests_cant": "tests run single equations; that a whole class of dynamics never leaves an open term is a statement about all of them", "anchors": ["src/sympkf/symbolic/pkfcas.py:SymbolicPKF._compute_reynolds_system", "src/sympkf/symbolic/pkfcas.py:SymbolicPKF.in_metric", "src/sympkf/symbolic/pkfcas.py:SymbolicPKF.unclosed_terms"]}
{"id": "C99", "title": "energy of the forecasts of skew-symmetric dynamics", "statement": "When the trend is skew-symmetric for a symmetric bilinear form B and does not depend on time, one step changes the energy E(u) = B(u, u) by exactly dt^2 E(f u) with euler, by dt^4/4 E(f f u) with rk2, by -dt^6/72 E(f^3 u) + dt^8/576 E(f^4 u) with rk4, and leapfrog conserves E(u) + E(v) - 2 dt B(f u, v). So forecasts with euler and rk2 never lose energy, forecasts with rk4 never gain energy when dt^2 E(f u) <= 8 E(u), and those of leapfrog with equal steps stay bounded when dt^2 E(f u) <= c^2 E(u) with c < 1.", "quantifier": "every module over an ordered field, every bilinear form and skew-symmetric trend, every window, all saved times", "why_tests_cant": "tests integrate a few oscillators for a few steps; a stability bound is about all steps and all initial states", "anchors": ["src/sympkf/model/model.py:Model._euler", "src/sympkf/model/model.py:Model._rk2", "src/sympkf/model/model.py:Model._rk4", "src/sympkf/model/model.py:Model._leapfrog", "src/sympkf/model/model.py:Model.forecast"]}
{"id": "C100", "title": "generated classes of skew-symmetric linear systems: energy of the forecasts", "statement": "For a linear system with scalar constants in which what the equation of f takes from g is the opposite of the adjoint of what the equation of g takes from f (transport, waves, rotation, dispersion, with any number of fields and dimensions), the trend of the generated class is skew-symmetric for the scalar product of the grid. So with rk4 the sum of the squares never grows when dt^2 E(F U) <= 8 E(U), with euler and rk2 it never decreases, with leapfrog it stays bounded. Transport with velocity c and rk4 is stable when (c dt)^2 <= 8 dx^2. The predefined diffusion with euler never gains energy when 2 kappa dt <= dx^2.", "quantifier": "every such system accepted by the builder, every grid, every window, every initial state", "why_tests_cant": "stability is about all the states and all the steps; a test sees a few runs", "anchors": ["src/sympkf/symbolic/templates/body_FDModelBuilder.py:trend", "src/sympkf/symbolic/finite_difference.py:finite_difference", "src/sympkf/model/model.py:Model.forecast", "src/sympkf/symbolic/dynamics.py:diffusion"]}
{"id": "C101", "title": "PKF forecasts converge to the true statistics", "statement": "Take a random state that solves its equations and is observed on a periodic domain, and the class generated from the PKF system of these equations (metric, aspect or diffusion). On every interval of time [a, b], when the tangent-linear closure is exact, no expectation is left open and the steps of euler are stable, the forecast from an initial state close to the true means, variances, cross-covariances and tensors does not raise and stays close to the true statistics: the error is at most c (dt + sum of dx_i^2 + initial error). For the logistic equation u_t = u - u^2 with a random population all the hypotheses hold, with no condition between dt and dx.", "quantifier": "every PKF system without open expectations, every random solution of its equations, every grid and window", "why_tests_cant": "the claim links the random solution, the symbolic derivation, the generated code and the time integration, in a limit; a test sees one grid and one ensemble", "anchors": ["src/sympkf/symbolic/pkfcas.py:SymbolicPKF", "src/sympkf/symbolic/templates/body_FDModelBuilder.py:trend", "src/sympkf/symbolic/finite_difference.py:finite_difference", "src/sympkf/model/model.py:Model.forecast"]}
{"id": "C102", "title": "rk4 converges for skew-symmetric systems", "statement": "Let a linear system have skew-symmetric equations (transport, waves, rotation: C100) and smooth periodic solutions. The forecasts of the generated class with rk4 converge to the solution: for all grids with small steps and all windows whose steps dt <= 1 satisfy dt^2 E(F U) <= 8 E(U), the root mean square over the grid of the error at all the saved times is at most C (dt^4 + sum of dx_i^2 + initial error), where C depends neither on the grid nor on the window nor on the initial state. For transport with the constant velocity c, (c dt)^2 <= 8 dx^2 is enough and the limit is v(x - c t), for every smooth periodic v. For rotating shallow water in two dimensions (rotation f, waves of velocity c) dt^2 (f^2 + (c/dx)^2 + (c/dy)^2) <= 4 is enough.", "quantifier": "every skew-symmetric linear system, every smooth solution, every grid, window and initial state", "why_tests_cant": "fourth order in time, with a constant that does not depend on the grid, under the stability bound of rk4: a test sees finitely many grids", "anchors": ["src/sympkf/symbolic/templates/body_FDModelBuilder.py:trend", "src/sympkf/symbolic/finite_difference.py:finite_difference", "src/sympkf/model/model.py:RK4", "src/sympkf/model/model.py:Model.forecast"]}
{"id": "C103", "title": "_sympy_finite_difference gives second-order staggered schemes", "statement": "The loop of _sympy_finite_difference ends for every expression and every iteration order of the sets of derivatives, although replacing a derivative also rewrites the higher derivatives of the same function. The result contains no derivative and does not depend on the order in value: each derivative stands for the central differences with the full step along its variables, i.e. the scheme of finite_difference with the steps of the variables of odd order halved. For smooth functions it is consistent at second order, for derivatives of all orders and inside elementary functions (before the regularization, C73, C94).", "quantifier": "every expression, every order of the sets, every order of derivation, all smooth functions and steps", "why_tests_cant": "Python iterates sets in an order that changes from run to run, and the loop passes through different intermediate expressions; a test sees one of them", "anchors": ["src/sympkf/symbolic/finite_difference.py:_sympy_finite_difference"]}
{"id": "C104", "title": "closures of Closure against the true expectations", "statement": "Let a random field have the correlations of which a Closure takes the Taylor expansion, and have derivatives in mean square. closure(n) replaces E(eps D^a eps), for every a of degree at most n, with |a|!/a! times its true value: the true value for derivatives along one coordinate (every derivative in one dimension), and a wrong value for the other derivatives wherever the expectation is not zero. For the local Gaussian prototype in one dimension, made with the aspect tensor of a normalised field, the expectations of orders zero, one and two are true, and the one of order three exactly where the derivative of the metric is zero; with metric=True the expectation of order two is twice the true one.", "quantifier": "every dimension, order and multi-index; every mean-square smooth random field", "why_tests_cant": "the expectations are limits over infinite ensembles of fields; the tests compare printed formulas of one-dimensional closures", "anchors": ["src/sympkf/symbolic/pkfcas.py:Closure.closure", "src/sympkf/symbolic/pkfcas.py:Closure.closure_by_order", "src/sympkf/symbolic/pkfcas.py:LocGaussianClosure.correlation"]}
{"id": "C105", "title": "linear dynamics decouple the statistics of the errors from the mean", "statement": "When the right-hand sides of a deterministic system are affine in the fields (sums of fields, of their derivatives, of products with coefficients without fields, and of sources without fields), no field and no mean of a field occurs in the generated equations of the errors, of the variances, of the normalised errors, of the covariances and of the metrics; hence in in_metric, in_aspect and in_diffusion only the equations of the means, which come first, contain the fields, whatever closure without fields the user gives. For the Burgers equation these equations do contain the mean.", "quantifier": "every system with affine right-hand sides and every set of coordinates; every order in which SymPy takes the substitutions; every closure of the user without fields", "why_tests_cant": "the terms with the mean have to cancel between an expression and its expectation after expansion, for every dynamics; tests print a few systems", "anchors": ["src/sympkf/symbolic/pkfcas.py:SymbolicPKF.error_system", "src/sympkf/symbolic/pkfcas.py:SymbolicPKF.tl_expectation_system", "src/sympkf/symbolic/pkfcas.py:SymbolicPKF.variance_system", "src/sympkf/symbolic/pkfcas.py:SymbolicPKF.metric_system", "src/sympkf/symbolic/pkfcas.py:SymbolicPKF.cross_covariance_system", "src/sympkf/symbolic/pkfcas.py:SymbolicPKF.in_metric", "src/sympkf/symbolic/pkfcas.py:SymbolicPKF.in_aspect"]}
{"id": "C106", "title": "the unknowns of the generated systems are different functions", "statement": "The functions that the package introduces for a field (error, normalised error, variance, standard deviation, components of the metric, of the aspect tensor and of the diffusion tensor) never coincide when they are of different kinds, whatever the fields and the names are. Two of the same kind coincide exactly when the names of the fields without LaTeX characters, the coordinates and, for components, the texts of the two coordinates are the same. Hence no two equations of in_metric, in_aspect and in_diffusion are for the same unknown, when the names of different fields and coordinates can be told apart. Otherwise unknowns collide: coordinates a, aa, aaa share a component of the metric, and with the fields u^1 (growing) and u_1 (decaying) both variance equations have the trend of the second field.", "quantifier": "all fields, names, coordinates and indices; every system of evolution equations with such names and every closure of the user", "why_tests_cant": "the functions are built from text; a collision needs particular names, that no test uses, and gives wrong equations without an error", "anchors": ["src/sympkf/symbolic/pkfcas.py:Field", "src/sympkf/symbolic/pkfcas.py:Field.index_code", "src/sympkf/symbolic/pkfcas.py:Field.metric_func", "src/sympkf/symbolic/pkfcas.py:Field.aspect_func", "src/sympkf/symbolic/pkfcas.py:Field.nu_func", "src/sympkf/symbolic/pkfcas.py:SymbolicPKF.in_metric", "src/sympkf/symbolic/tool.py:clean_latex_name"]}
{"id": "C107", "title": "written modules contain the code of their class", "statement": "The class of a builder is the given name, else the name of the PDE system, else NumModel. write_module writes the licence and the code to the file with the lower-case name of the class. After any sequence of calls, the file of a builder contains the text of the last builder whose class name differs at most in the case of the letters, and other files are unchanged; hence every module contains its own code when no two class names agree up to case. Otherwise modules are lost without an error: PKF and pkf, or two systems without a name, share a file.", "quantifier": "every content of the directory, every list of builders, all class names (ASCII case), all code texts", "why_tests_cant": "the loss happens only for particular combinations of names, and leaves a valid module of another class", "anchors": ["src/sympkf/symbolic/model_builder.py:ModelBuilder.write_module", "src/sympkf/symbolic/model_builder.py:ModelBuilder.__init__"]}
{"id": "C108", "title": "for linear dynamics the parametric Kalman filter is exact", "statement": "For dynamics of degree at most one in the fields and their derivatives, with any coefficients, the errors of every random solution follow the tangent-linear dynamics and the means follow the dynamics themselves; hence all equations of in_metric, in_aspect and in_diffusion are true of the means, variances, covariances and tensors of the random solution, for every true closure. For dynamics of degree two the errors follow the tangent-linear dynamics exactly when the quadratic parts of the trends are not random.", "quantifier": "every linear system, any number of fields and coordinates; every stochastic differential ring and every random solution; every true closure", "why_tests_cant": "the statement is about all random solutions; tests compare single printed systems", "anchors": ["src/sympkf/symbolic/pkfcas.py:SymbolicPKF.in_metric", "src/sympkf/symbolic/pkfcas.py:SymbolicPKF.in_aspect", "src/sympkf/symbolic/pkfcas.py:SymbolicPKF.in_diffusion", "src/sympkf/symbolic/pkfcas.py:SymbolicPKF.error_system", "src/sympkf/symbolic/pkfcas.py:SymbolicPKF.expectation_system"]}
{"id": "C109", "title": "the generated equations are true of ensembles of smooth solutions", "statement": "Take finitely many members with weights of sum one, each a smooth solution of the dynamics in real coordinates, whose variances are positive. If the right-hand sides are linear in the fields and their derivatives, with coefficients made of parameters, given functions and entire functions, then in_metric succeeds and both sides of each of its equations are, for every true closure, the derivative with respect to the time of the statistic of the ensemble that the equation is for: the weighted means, variances, covariances, and metrics. So do in_aspect and in_diffusion, when the metrics can be inverted, for the inverses of the metrics and half of them (in_diffusion without the covariances). For quadratic right-hand sides the equations of expectation_system are true, and there is an ensemble of logistic growths for which the equation of the variance is false everywhere.", "quantifier": "every polynomial system whose names can be told apart, any number of fields and coordinates; every finite ensemble of smooth solutions; every true closure", "why_tests_cant": "a test samples a few members at a few points; here the equations are identities between smooth functions, for all solutions", "anchors": ["src/sympkf/symbolic/pkfcas.py:SymbolicPKF.in_metric", "src/sympkf/symbolic/pkfcas.py:SymbolicPKF.expectation_system", "src/sympkf/symbolic/pkfcas.py:SymbolicPKF.variance_system", "src/sympkf/symbolic/pkfcas.py:SymbolicPKF.metric_system", "src/sympkf/symbolic/pkfcas.py:SymbolicPKF.in_aspect", "src/sympkf/symbolic/pkfcas.py:SymbolicPKF.in_diffusion"]}
{"id": "C110", "title": "forecasts of the generated model and ensembles of solutions", "statement": "Take finitely many members with weights of sum one, each a smooth solution of linear dynamics, periodic in space, whose variances are positive, and a closure that is true of them and leaves no unclosed term. The class that FDModelBuilder generates from in_metric (in_aspect, in_diffusion when the metrics are invertible and the closure covers the systems) gives, where the steps of explicit Euler are stable, forecasts that converge to the weighted means, variances, covariances and tensors of the members with the order of the step in time plus the squares of the steps in space. For transport with a constant velocity c on a circle of length L no stability is assumed: with rk4 and (c eta)^2 <= 8 (L/n)^2, from the statistics of the members at the time a, the root mean square of the error of mean, variance and metric is at all saved times at most C (eta^4 + (L/n)^2).", "quantifier": "every linear system whose names can be told apart, any number of fields and coordinates; every finite ensemble of smooth periodic solutions; every true closure that closes the equations; all grids, windows and initial errors that are small enough", "why_tests_cant": "the claim goes through the whole package, from the dynamics to the arrays that forecast returns, and its constants do not depend on the grid; a test sees one grid and one ensemble", "anchors": ["src/sympkf/symbolic/pkfcas.py:SymbolicPKF.in_metric", "src/sympkf/symbolic/pkfcas.py:SymbolicPKF.in_aspect", "src/sympkf/symbolic/pkfcas.py:SymbolicPKF.in_diffusion", "src/sympkf/symbolic/model_builder_FD.py:FDModelBuilder", "src/sympkf/model/model.py:Model.forecast"]}
{"id": "C111", "title": "objects of the class Code return the code of their own expression", "statement": "Code(expr).code (and repr) is the text of its own expression whatever was read before on this and other objects, a failed read leaves no trace, and for an applied function it is what _render_function gives.", "quantifier": "every program that creates, reads and assigns any number of objects, every iteration order of the sets of functions at each read", "why_tests_cant": "the cache and the iteration order of sets make the result depend on the whole history of a program; tests read a fresh object once", "anchors": ["src/sympkf/symbolic/finite_difference.py:Code", "src/sympkf/symbolic/finite_difference.py:code_finite_difference"]}
{"id": "C112", "title": "what the equations of variances and covariances leave out", "statement": "The right-hand sides of variance_system and cross_covariance_system are 2 E[e_f T_f] and E[T_f e_g] + E[T_g e_f], with T the tangent-linear trend, however the errors evolve; for random solutions of quadratic dynamics they differ from the trends of the true variances and covariances by exactly 2 E[e_f Q_f] and E[Q_f e_g] + E[Q_g e_f], with Q the quadratic part of the trend, so that an equation of a variance is true exactly when that third moment vanishes.", "quantifier": "every deterministic system of evolution equations, every interpretation, every random solution of quadratic dynamics", "why_tests_cant": "the claim concerns the truth of equations for all ensembles, including those that do not satisfy the hypotheses of the filter; a test can only compare a printed equation", "anchors": ["src/sympkf/symbolic/pkfcas.py:SymbolicPKF.variance_system", "src/sympkf/symbolic/pkfcas.py:SymbolicPKF.cross_covariance_system", "src/sympkf/symbolic/pkfcas.py:SymbolicPKF.error_system"]}
{"id": "C113", "title": "forecasts in rounded arithmetic with an approximate trend", "statement": "If every arithmetic operation of forecast and of the schemes euler, rk2, rk4 (order p) is rounded with an error at most eps (1 + size of the result), and the trend is computed with an error at most kappa, then the state saved after i steps differs from the solution by at most C (step^p + initial error + kappa + i eps), with constants that depend only on the solution; on the windows of Model.window this is C (dt^p + kappa + eps / dt). With leapfrog on a window of constant step dt both members of the saved pair have an error at most C (dt^2 + initial error + kappa + i eps). With splitting into steps of euler, rk2, rk4 the bound is C (step + initial error + kappa + i eps). The term i eps cannot be removed.", "quantifier": "every smooth vector field and solution, every rounding, every approximate trend, every window with small steps, every initial state near the solution", "why_tests_cant": "the claim bounds the effect of all rounding functions and of all approximate trends at once; a test runs one arithmetic on one case", "anchors": ["src/sympkf/model/model.py:Model.forecast", "src/sympkf/model/model.py:Model._euler", "src/sympkf/model/model.py:Model._rk2", "src/sympkf/model/model.py:Model._rk4", "src/sympkf/model/model.py:Model._leapfrog", "src/sympkf/model/model.py:Model._time_splitting", "src/sympkf/model/model.py:Model.window"]}
