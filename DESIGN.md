# Formal model of opannekoucke/sympkf

## 1. Approach

`/verif/lean/Verif/` holds

* `Model/*.lean` – executable definitions mirroring the Python, each with a comment citing file and lines;
* `Spec/*.lean`  – small specifications, written without the model's helpers;
* `Lemmas/*.lean` – helper lemmas;
* `Props/*.lean` – the property theorems (named `C01_…`, `C02_…`), each followed (or in `Props/Cases.lean`) by `example`s showing that
  concrete non-trivial data meets its hypotheses, and, where the code violates the property, by a theorem that
  proves the negation with a concrete witness (`C.._counterexample…`).

Exceptions are values (`Except PyErr α`).  Mutable objects become state passed and returned.  Sets whose iteration
order is arbitrary in Python are lists quantified over up to permutation.

Names: a theorem called `…_partial` proves a statement weaker than the English property; its comment says what is missing and
the note in MANIFEST.json gives the reason, which in most cases is that the full statement is false of the code
(a counterexample theorem stands next to it).

## 2. Trusted base

1. The kernel of Lean 4.33.0 and the definitions and theorems of the Mathlib that comes with it (checked by the same kernel).
2. Axioms: no axiom is declared here; each theorem depends on at most `propext`, `Classical.choice` and `Quot.sound`
   (section 6 lists them theorem by theorem).
3. The reading of `/repo` recorded in the comments of the model, with the simplifications of section 3.
4. Behaviour of other programs that the code calls, taken from their documentation:
   * Python: dictionaries keep insertion order, `str.replace`, `zip` stops at the shorter list, sets are iterated in any order,
     integer and list semantics;
   * SymPy: `solve` of an equation linear in the unknown; `series` (Taylor coefficients); `as_finite_difference`
     (the weights of Fornberg 1988, written out and proved to be interpolation weights); `subs` with a dictionary replaces one key
     after the other in some order (all orders are quantified over); `doit` and `expand` compute the normal form of
     `Model/Poly.lean`; `Derivative._eval_subs` also replaces inside derivatives of higher order; `Eq` may evaluate to a truth
     value (a parameter); `str` of an expression is read back by Python as the same expression;
   * NumPy: `arange`, modular indexing, `meshgrid` with `xy` indexing, `ix_`, in exact arithmetic;
   * `multiprocessing.Pool.map`: any completion order, results placed by index.
5. Floating point is not modelled, except in C113, where every operation of the time schemes is rounded by an arbitrary
   function with bounded error: elsewhere numbers are elements of an arbitrary field, of `ℚ` or of `ℝ`.

## 3. What is modelled, file by file

| file in `/repo/src/sympkf` | modelled in | not modelled |
|---|---|---|
| `model/model.py` (39–324) | `Model/Integrator.lean`: time schemes, `forecast`, `predict`, `ensemble_forecast`, `_check_saved_times`, `window`, `forecast_tl`, `make_M`, splitting, identity model, pool | logging, timing, pickling |
| `symbolic/tool.py` | `Model/Text.lean` (`clean_latex_name`) | – |
| `symbolic/random.py` | `Model/Random.lean`: `israndom`, `Expectation.eval`, `has`, `_eval_derivative`, on trees | LaTeX printing |
| `symbolic/util.py` 55–156, 507–636 | `Model/Util.lean`: `upper_triangle`, `Eq`, partial orders, `CoordinateSystem`, comparisons | `_repr_latex_`, `remove_eval_derivative` |
| `symbolic/util.py` 159–353, 493–505 | `Model/PDESystem.lean`: classification of functions, constants, coordinates; `get_trend`; `Model/FDSystem.lean`: `finite_difference` | `__repr__` |
| `symbolic/util.py` 371–449 | `Model/Text.lean`: `get_function_coordinates` (and `get_coordinates`, the same loop) | – |
| `symbolic/finite_difference.py` | `Model/FiniteDiff.lean`, `FDExpr.lean` (`finite_difference`), `Regularize.lean` (155–185, 232–271), `Stagger.lean` (155–185), `RegularizeSystem.lean` (232–282), `Text.lean` (coding rules, `code_finite_difference`), `Model/FDSystem.lean` (189–209), `Model/CodeObject.lean` (the class `Code`, 376–465) | – |
| `symbolic/pkfcas.py` 30–837 | `Model/Pkf.lean`: Reynolds systems, expectation, tangent-linear, error, variance, epsilon, cross-covariance and metric systems, `in_metric`, `in_aspect`, `in_diffusion`, closures, `unclosed_terms`; `Model/Std.lean`: `std_system`; `Model/PkfObject.lean`: caches, shared closures, several objects | display methods |
| `symbolic/pkfcas.py` 838–1016 | `Model/Field.lean`: `Field`, internal closure, covariances | – |
| `symbolic/pkfcas.py` 1019–1190 | `Model/PartialOrder.lean` | – |
| `symbolic/pkfcas.py` 1192–1270 | `Model/Tree.lean` | – |
| `symbolic/pkfcas.py` 1273–1473 | `Model/Closure.lean`, `Model/Correlation.lean` | the two methods that only raise `NotImplementedError` |
| `dynamics/burgers.py` | `Model/Burgers.lean` | – |
| `symbolic/dynamics.py` | `Model/Dynamics.lean` | – |
| `symbolic/model_builder.py`, `templates/*` | `Model/Builder.lean` (code generation and execution of `trend`), `Model/FDModel.lean` (constructor, `index`), `Model/FDBuilder.lean` (execution of the finite-difference code on arrays), `Model/Manifold.lean` (manifold class), `Model/WriteModule.lean` (`write_module`, class names) | `exec`, printing; errors of the file system |

## 4. Simplifications that matter

* **Expressions** (`Model/Random.lean`): sums and products are binary; undefined functions have symbols as arguments; exponents are
  rational; elementary functions have one argument.  The meaning of an expression is its value in a *stochastic differential ring*
  (`Spec/Random.lean`, `Spec/Calculus.lean`): a commutative `ℚ`-algebra with commuting derivations, an expectation that is linear over
  its fixed subring, and powers of positive elements.  Random trigonometric waves are given as a concrete ring in which all
  hypotheses hold.
* **`doit().expand()`** (`Model/Poly.lean`): always the normal form as a sum of monomials, also where Python calls only one of the
  two.  Sums are not cancelled against denominators.
* **Taylor expansion** (`Model/Pkf.lean`, `expansion`): the rules of the truncated power series for sums, products, powers and `exp`,
  `sin`, `cos`, `sinh`, `cosh`, `tan`, `tanh`, `log`, `atan` (the theorems assume that the mean is in the domain of the function); coefficients may contain anything.  Where the small parameter occurs at another place (another
  elementary function, an integral), or a power or a logarithm is expanded around `0`, the model raises `NotImplementedError` and no theorem speaks
  about the result.  `expand()` does not split `exp(a + b)` or `log(a b)` in the model.  The specification of the expansion is the value of the
  right-hand side in the ring of jets `R[X]/(X^3)` (`Spec/Jet.lean`).
* **Generated code** (`Model/Builder.lean`): a list of assignments on a memory of local names; the text itself is not parsed.  SymPy's
  printing is modelled as far as it changes what the text means: the powers `1/2` and `-1/2` are printed as calls of `sqrt`, and a name
  that is a keyword or contains other characters than letters, digits and underscores makes the module unreadable (`SyntaxError`).
  Identifiers beyond ASCII are taken for unreadable.  Functions called `self`, `np`, `state`, `dstate`, `exogenous` are excluded by
  hypothesis (`WellNamed`).
* **Closure** (`Model/Closure.lean`): an expression in the increments is identified with its Taylor series.
* **Objects** (`Model/PkfObject.lean`): the lists that the properties return are not modified by the caller.
* **Regularization.** `_sympy_finite_difference` is modelled as a loop (`Model/Stagger.lean`) without `expand()`; the derivative at a
  displaced point (`Subs`) is the derivative of the displaced expression. For C94 each derivative is replaced by its own staggered scheme
  (`stagger`), which has the same value (C103_loop_stagger). The coefficients of the arguments of elementary functions come from SymPy
  (`SymPy.coeff`).

## 5. Conformance with real runs

`/repo/example/*.ipynb` keep the formulas that the program displayed.  `tools/notebooks.py` translates them
(`Spec/Notebooks.lean`), and `Props/Conformance.lean` compares them with what the model computes from the same dynamics: 2D
advection, 1D and 2D oscillators, chemical transport, Burgers, advection and diffusion alone, substitution tree, unclosed terms,
closed system.  All agree.  The one output left out is the aspect tensor of the 2D oscillator, where SymPy cancels denominators.
The unit tests of `src/sympkf/symbolic/test` for random expressions, equations, coordinates, partial orders, code and the PKF systems
are run on the model in the same file.  Four comparisons are kernel-checked theorems, the others are `#guard` commands run by the
interpreter at each build; nothing depends on them.

## 6. Axioms of each theorem

Produced by `tools/axioms.py` (`#print axioms` for every theorem of MANIFEST.json):

* **none** (2 theorems): `C06_no_worker`, `C36_no_coordinate`
* **propext** (6 theorems): `C04_saved_times_forms`, `C04_rejections`, `C05_ensemble_saved_forms`, `C11_set_time_scheme`, `C17_fraction_step`, `C38_no_coordinate`
* **Quot.sound, propext** (29 theorems): `C10_window_progression`, `C12_identity_other_schemes`, `C16_leapfrog_step`, `C16_leapfrog_reversible`, `C17_splitting`, `C17_splitting_fold`, `C21_coordinates_partial`, `C21_displacement_partial`, `C21_counterexample_d_name`, `C24_shift_compose`, `C24_shift_period`, `C24_shift_zero`, `C41_couples`, `C41_covariance_errors`, `C41_same_function`, `C41_distinct_partial`, `C67_crash`, `C68_absent`, `C68_solved`, `C71_upper_triangle`, `C71_determined`, `C72_partial_orders`, `C72_total_order`, `C90_forecast`, `C90_predict`, `C90_linear_map`, `C90_subspace`, `C99_leapfrog`, `C113_exact`
* **Classical.choice, Quot.sound, propext** (387 theorems): `C01_forecast_sound`, `C01_forecast_complete`, `C01_trajectory_unique`, `C01_trajectory_exists`, `C01_forecast_order`, `C01_forecast_scheme`, `C02_restart`, `C03_predict`, `C03_predict_eq_forecast`, `C04_none_saves_all`, `C04_selection_only`, `C05_ensemble_sound`, `C05_ensemble_succeeds_iff`, `C06_parallel_eq`, `C06_parallel_run_order`, `C07_tl_exact_partial`, `C07_tl_repeated`, `C07_counterexample_repeated`, `C08_tl_converges_partial`, `C08_tl_diverges`, `C09_makeM_rows_partial`, `C09_makeM_vecMul_partial`, `C09_counterexample_transposed`, `C10_window_multiple`, `C10_window_last`, `C11_history`, `C11_constructor`, `C12_identity`, `C13_truncated_exponential`, `C14_quadrature`, `C14_degrees_sharp`, `C15_euler_order`, `C15_rk2_order`, `C15_leapfrog_order`, `C15_rk4_order`, `C16_leapfrog_forecast`, `C18_linear_invariant`, `C18_linear_invariant_leapfrog`, `C19_randstate`, `C20_clean_spec`, `C20_clean_no_special`, `C20_clean_fixed`, `C20_clean_idempotent`, `C20_clean_append`, `C20_clean_injective_partial`, `C20_counterexample_collision`, `C21_value_error`, `C22_code_time`, `C22_code_space`, `C22_code_zero`, `C22_off_grid`, `C22_time_first`, `C22_code_injective`, `C22_code_injective_space`, `C22_limitation_two_functions`, `C23_render_partial`, `C23_counterexample_order`, `C23_counterexample_index`, `C23_counterexample_name`, `C23_counterexample_suffix`, `C24_index`, `C24_index_unknown`, `C24_shift_perm`, `C25_valueError_iff`, `C25_zero_shape`, `C25_grid_partial`, `C25_constants`, `C25_counterexample_reserved`, `C26_mesh_partial`, `C26_mesh_transposed`, `C26_counterexample_two_coordinates`, `C27_stencil`, `C28_polynomial_exact`, `C29_second_order`, `C30_order_independent`, `C30_mixed_second_order`, `C30_exact_order_independent`, `C31_weights_unique`, `C31_weights_parity`, `C32_no_derivative`, `C32_value`, `C32_order_independent`, `C33_commutes_with_shifts`, `C33_constants`, `C33_integration_by_parts`, `C33_sum_zero`, `C34_formats`, `C35_build_iff`, `C35_unambiguous`, `C35_any_order`, `C36_all_of_degree`, `C36_order_independent`, `C37_tree_sound`, `C37_isolate`, `C38_tree_complete`, `C38_reduced`, `C39_tree_history`, `C40_internal_closure`, `C40_metric_symmetric`, `C40_gamma`, `C40_keys`, `C40_no_coordinate`, `C41_couples_once`, `C41_internal_closure`, `C41_counterexample`, `C42_israndom`, `C42_error`, `C42_israndom_eq`, `C42_deterministic`, `C42_expectation_has`, `C43_expectation_partial`, `C43_simple`, `C43_mixed`, `C43_expectation_eq_partial`, `C43_expectation_matrix_partial`, `C43_counterexample`, `C44_terminates`, `C44_reduced`, `C44_nonrandom`, `C44_expand_idempotent`, `C44_idempotent`, `C45_reynolds_partial`, `C45_counterexample`, `C46_error_partial`, `C47_expectation_partial`, `C47_exact_partial`, `C48_variance_partial`, `C49_epsilon_partial`, `C50_metric_partial`, `C51_cross_partial`, `C52_aspect`, `C52_diffusion`, `C52_agree`, `C53_in_metric_partial`, `C53_in_aspect_partial`, `C53_in_diffusion_partial`, `C53_count_metric`, `C53_count_aspect`, `C53_count_diffusion`, `C53_counterexample`, `C54_fresh_partial`, `C54_accumulates_partial`, `C54_frame_partial`, `C54_counterexample_shared`, `C54_counterexample_argument`, `C55_order_partial`, `C55_value_partial`, `C55_applies`, `C55_counterexample_closure`, `C55_counterexample_cross`, `C55_counterexample_subs_tree`, `C56_unclosed`, `C56_closed`, `C56_autonomous`, `C57_apply_internal_partial`, `C57_never_raises`, `C57_counterexample`, `C58_by_order`, `C58_closure`, `C58_closure_partial`, `C58_counterexample`, `C59_exact`, `C59_closure_partial`, `C59_superset_partial`, `C59_counterexample_taylor`, `C59_counterexample_larger`, `C59_counterexample_in_metric`, `C60_exact`, `C60_in_metric_partial`, `C60_counterexample_2d`, `C60_counterexample_3d`, `C61_aspect`, `C61_aspect_metric`, `C61_diffusion`, `C61_diffusion_metric`, `C61_local`, `C61_local_symmetric_partial`, `C61_local_metric_partial`, `C61_local_twice`, `C61_counterexample_local_metric`, `C61_counterexample_local_symmetric`, `C61_aspect_semidefinite`, `C61_diffusion_semidefinite`, `C61_local_semidefinite_partial`, `C62_partition`, `C62_only_functions`, `C62_prognostic_partial`, `C62_constant_partial`, `C62_no_argument`, `C62_counterexample_prognostic`, `C62_counterexample_constant`, `C63_max_order`, `C63_spatial_derivatives`, `C63_constants`, `C63_constants_once`, `C63_trainable`, `C63_coordinates`, `C63_failure`, `C64_slots`, `C64_trend_partial`, `C64_exogenous_default`, `C64_syntax`, `C64_square_root`, `C64_counterexample_alias`, `C64_counterexample_function`, `C64_counterexample_coordinate`, `C64_counterexample_trainable`, `C64_counterexample_root`, `C64_counterexample_keyword`, `C64_counterexample_exogenous`, `C65_rejected`, `C65_only_valueError`, `C65_no_trend`, `C65_rejected_partial`, `C65_counterexample_mixed`, `C66_distinct_partial`, `C66_other_names_partial`, `C66_counterexample`, `C67_arithmetic_partial`, `C67_transform`, `C67_counterexample_crash`, `C68_isolate`, `C69_compare`, `C69_equal`, `C70_gradient`, `C70_div`, `C70_laplacian`, `C70_truncation`, `C71_length`, `C73_regularize_value`, `C73_regularize_partial`, `C73_counterexample_third_order`, `C73_mixed_value`, `C73_mixed_partial`, `C73_mixed_excess`, `C74_evolution`, `C74_complete`, `C74_counterexample`, `C75_std_system`, `C75_equivalent`, `C75_true`, `C76_consistent`, `C77_unclosed`, `C77_p18`, `C77_model`, `C78_burgers`, `C78_kuramoto`, `C78_diffusion`, `C78_advection2`, `C78_advection3`, `C78_diffusion2`, `C78_counterexample_advection`, `C79_outcomes`, `C79_decided_result`, `C79_equations`, `C79_second_order`, `C79_decided`, `C79_counterexample_step_name`, `C80_dimension`, `C80_attributes`, `C80_time_scheme_partial`, `C80_counterexample_time_scheme`, `C80_code_distinct`, `C81_taylor`, `C81_mean`, `C82_systems`, `C82_unclosed`, `C82_counterexample_mean`, `C83_closure_complete`, `C84_metric`, `C84_aspect`, `C84_diffusion`, `C84_counterexample_open`, `C84_counterexample_diffusion`, `C84_counterexample_root`, `C84_counterexample_names`, `C85_metric`, `C85_aspect`, `C85_diffusion`, `C86_forecast_converges`, `C86_window_converges`, `C86_leapfrog_converges`, `C87_splitting_converges`, `C87_splitting_not_second_order`, `C88_vector_field`, `C88_converges`, `C89_diffusion`, `C89_burgers`, `C91_trend`, `C91_forecast`, `C92_trend`, `C92_forecast`, `C92_one_dimension`, `C92_counterexample_diffusion2`, `C93_diffusion`, `C93_burgers`, `C93_sharp`, `C94_value`, `C94_decided`, `C94_equations`, `C94_second_order_partial`, `C94_counterexample_elementary`, `C94_elementary`, `C94_elementary_displaced`, `C95_grid_only`, `C95_forecast`, `C95_leapfrog`, `C95_solution`, `C96_trend`, `C96_forecast`, `C96_symmetric`, `C96_one_dimension`, `C97_order`, `C97_unclosed`, `C97_closed`, `C98_mean`, `C98_closed`, `C99_step`, `C99_rk4`, `C99_growth`, `C99_leapfrog_bounded`, `C99_rk4_sharp`, `C100_transport`, `C100_shallow`, `C100_diffusion`, `C100_skew`, `C100_forecast`, `C101_logistic`, `C101_metric`, `C101_aspect`, `C101_diffusion`, `C102_rk4`, `C102_converges`, `C102_shallow`, `C102_transport`, `C103_loop_value`, `C103_loop_ends`, `C103_loop_stagger`, `C103_loop_second_order`, `C103_value`, `C103_second_order`, `C104_closure`, `C104_pure`, `C104_mixed`, `C104_local`, `C104_local_metric`, `C105_decouples`, `C105_forecast`, `C105_nonlinear`, `C106_kinds`, `C106_same_function`, `C106_distinct`, `C106_coordinates_counterexample`, `C106_codes_counterexample`, `C107_same_file`, `C107_written`, `C107_all`, `C107_class_name`, `C107_counterexample`, `C108_linear`, `C108_exact`, `C108_quadratic`, `C109_setting`, `C109_linear`, `C109_tensors`, `C109_mean`, `C109_counterexample`, `C110_metric`, `C110_tensors`, `C110_transport`, `C111_own_expression_partial`, `C111_stable`, `C111_failure`, `C111_function_partial`, `C111_counterexample_stale`, `C111_counterexample_render`, `C111_tag_position`, `C112_variance_rhs`, `C112_cross_rhs`, `C112_variance`, `C112_cross`, `C112_true_iff`, `C113_forecast_rounded`, `C113_window_rounded`, `C113_accumulates`, `C113_splitting_rounded`, `C113_leapfrog_rounded`

## 7. Plan per property

| id | what is modelled | how it is proved |
|----|------------------|------------------|
| C01–C05 | `forecast`, `predict`, `ensemble_forecast`, `_check_saved_times` as folds over the window with a Python-dict model | induction over the window against a trajectory specification |
| C06 | `Parallel.run`: chunks completed in any order, written by chunk index | permutation-invariance of slice writes |
| C07, C08 | `forecast_tl` including the in-place dictionary update | linearity resp. differentiability of the iterated map |
| C09 | `make_M` (active branch) | expansion on the canonical basis; negation for the transposed reading |
| C10 | `np.arange` in exact arithmetic | ceil arithmetic |
| C11, C12, C17, C19 | scheme table, identity model, splitting fold, spin-up | case analysis / induction |
| C13, C14 | the four schemes over a module | module algebra |
| C15 | schemes over a normed space | big-O calculus with Taylor expansions |
| C16, C18 | leapfrog, linear invariants | induction |
| C20–C23 | strings as character lists, Python `str.replace` | induction on strings |
| C24–C26 | generated FD class: index memo table, constructor, meshgrid | invariant over call histories; modular arithmetic |
| C27–C33 | stencil points, interpolation weights, periodic grid operators | Lagrange interpolation, symmetry, Taylor |
| C34–C36 | `PartialOrderDerivative` | list induction, generations argument |
| C37–C41 | `UnivariateTree`, `Field.internal_closure`, couples | differential algebra with an expectation operator |
| C42–C44 | expression trees, `israndom`, `Expectation.eval` | structural induction, denotational semantics |
| C45–C57 | `SymbolicPKF` pipeline on expression trees, caches as a state machine | denotational soundness, invariants |
| C58–C61 | `Closure` | Taylor coefficients, history counterexamples |
| C62–C66 | `PDESystem`, `ModelBuilder` on abstract equations | set algebra, semantics of generated code |
| C67–C73 | utilities | direct |
| C74 | evolution form of the derived systems | left sides followed through each substitution (`Lemmas/Inert`), right sides by a predicate preserved by the canonical form (`Lemmas/TimeFreeSubst`) |
| C75 | `std_system` | the substitution in the left side computed in the normal form, `isolate` of a linear equation |
| C76 | trend of the generated finite-difference class | functions as smooth periodic functions, grid arrays as functions of multi-indices; composition of C22–C24, C30, C33, C64 |
| C77 | the Burgers module | computed systems (kernel reduction), then C76 |
| C78 | predefined dynamics | systems computed by the kernel, then C64 and C76 |
| C79 | finite differences of systems | C32 and C30 through a calculus of second-order approximations, `lipschitz_near` for elementary functions |
| C80 | manifold class | as C25; cancellation of separators |
| C81 | Taylor polynomials in the sense of analysis | family of smooth states in `(ε, p)` (`Spec/Family`); the jets of C45 are its expansions, by induction on the expression with the chain rule and the symmetry of second derivatives; Taylor's theorem |
| C82 | what the internal closure leaves open | the systems are in the normal form (`Lemmas/Canon`, `Normal`, `NormalSystem`); weight of an expectation = number of errors plus derivatives (`Lemmas/Weight`); an expectation not matched by an entry of the tree is classified (`Lemmas/Classify`) |
| C83 | a closure that covers the open terms is complete | C82, then the substitution of the closure removes every listed expectation |
| C84 | closed systems generate models | the symbols and functions of every system are followed through the derivation (`Plain`, `Neat`), the degree in the noise is zero (`Po`), no expectation is left (C83); then C62, C63, C64 for the equations |
| C85 | the generated PKF model computes the trends of the true statistics | the semantics of the derivation (`Trends`) and the semantics of the generated code meet in `Observation`: a ring homomorphism from the fields to the functions on space at a given time that carries derivatives to partial derivatives and powers to powers; then C47-C53, C84 and C76; the case is two transported waves on the circle |
| C86 | forecasts converge with the nominal order | the pointwise local error of C15 is made uniform in time by compactness (`uniform_local_error`), the increment is Lipschitz in a tube around the trajectory (`uniform_lipschitz`), the errors propagate by a discrete Gronwall argument that keeps the forecast in the tube (`error_propagation`); the cases are `y' = y²`, which blows up, with the four schemes |
| C87 | splitting converges with order one | the composition of increments is an increment (`splitting_method`), then as C86 |
| C88 | consistency and stability imply convergence | C76 is made uniform in time (`closeOn_rhs`: the functions are lifted to one more coordinate, `lift`), a Taylor formula in time with a uniform remainder (`time_taylor`) gives the local error of the Euler step along the sampled solution, which is propagated with the stability (`lax`) |
| C89 | the diffusion and Burgers models converge | the Euler step with centred differences is a combination with nonnegative coefficients when `2 kappa dt ≤ dx²` and the transport is small (`centred_stable`); the derivative of the solution bounds the growth; then C88. The cases are a decaying wave and the Cole–Hopf transform of `8 + exp (-t) cos x` |
| C90 | linear relations preserved by trends are preserved by forecasts | the steps of the schemes are linear combinations (`step_rel`); the loops of `forecast` and `predict` for a relation on states (`forecast_rel`, `predict_rel`) |
| C91 | translations of the grid | the code of a derivative is `gridMixed` (`fdDiff_grid`), which commutes with translations; induction on the right-hand side; then C90 |
| C92 | conservation of the total | sums over the grid of shifted arrays are equal; odd differences are antisymmetric (`total_zero`); counterexample for the expanded form of `diffusion_in_2D` |
| C93 | discrete maximum principle | the Euler step is a mean of neighbouring values (`centred_mean`), induction along the window (`euler_induct`); sharpness with a spike |
| C94 | regularization of systems | one substitution replaces one function and fixes those already replaced (`subsF_replF`); the value of the regularized staggered scheme is that of the regular one (`rvalue_staggeredExpr`); then C79's estimate |
| C95 | convergence in time on a fixed grid | states restricted to the grid form a finite-dimensional normed space; the generated trend induces a vector field there (C91 with the zero translation), smooth by induction on the right-hand side; C90 transports the forecasts, C86 bounds the error, Picard-Lindelöf gives solutions |
| C96 | reflection symmetry of generated classes | the weights have the parity of the order and the points are symmetric (C31), hence discrete derivatives of reflected arrays; induction on the right-hand side with parities, then C90 |
| C97 | order of the open expectations | a second grading: a random function differentiated n times weighs 1 + n, a derivation along time weighs p, expectations bound the weight of their argument; all the substitutions of the pipeline respect it (the tree of C37-C39 keeps the total order), then C82 |
| C98 | derivations of the terms, closed first-order laws | the weight of the derivations alone is additive on products; it is kept by normal forms, substitutions and Taylor expansions, and adds up with the degree in the errors (two in the equations of the means) |
| C99 | energy of the schemes on skew-symmetric dynamics | expansion of a step seen through the bilinear form; the moments B(f^i u, f^j u) vanish when i + j is odd; induction on the trajectory |
| C100 | energy of the generated classes | the right-hand sides as lists of terms, sorted by the function they act on; discrete integration by parts (C33) for each pair of equations; then C99. Diffusion: convexity of the square |
| C101 | PKF forecasts converge to the true statistics | the true statistics solve the generated system (C45-C51 and C84), the class is consistent with it (C97), the forecast of a consistent and stable scheme converges (C88). Case: a random logistic population, where the truncated expansion is exact |
| C102 | rk4 converges for skew-symmetric systems | rk4 does not increase the energy of the error (C100); one step from the sampled solution makes an error `dt (rho + M dt⁴)`, as the time derivatives of a solution of a linear system with constant coefficients solve the same system; consistency in space as in C88. Cases: transport, rotating shallow water |
| C103 | staggered schemes | the weights of SymPy's stencils are binomial coefficients (`unitWeight_binomial`), so that each stencil is an iterated central difference (`stencil_delta`); central differences commute, so every replacement keeps the value; the loop ends because the longest chain of nested derivatives gets shorter at each pass (`Pending`) |
| C104 | closures and true expectations | a random field is a smooth map to a Hilbert space (`Spec/Truth.lean`); the derivatives of `⟪e x, e y⟫` in `y` are `⟪e x, D^a e y⟫` because the scalar product is a continuous linear map; C58 gives the entries; a field with Gaussian correlation is a power series in `ℓ²` |
| C105 | linear dynamics | affine right-hand sides stay affine through the Reynolds substitution and the Taylor expansion (`Lemmas/AffineForm.lean`); the expanded form is canonical and reading it again gives it back (`Lemmas/Idem.lean`), so the terms with a field keep their coefficients in the expectation and in the closure and cancel in the difference (`Lemmas/Cancel.lean`) |
| C106 | distinct unknowns | prefixes of the names of different kinds differ; the cleaned names contain no comma (C20), so the name of a component splits at the comma; the list of unknowns comes from C74 |
| C107 | written modules | the loop over the characters appends to the emptied file; `toLower` identifies exactly the pairs of the alphabet |
| C108 | exact for linear dynamics | the trend of an error of a random solution is the tangent-linear one plus the quadratic part of the expansion without its mean; it vanishes in degree one; then C53 |
| C109 | ensembles of smooth solutions | the symbols of the package stand for the weighted statistics of the members, which is well defined as the names can be told apart (C106); smooth functions of the coordinates, one for each member, are a stochastic differential ring; then C108 and C47. Counterexample: two logistic growths with different weights |
| C110 | from ensembles of smooth periodic solutions to forecasts | evaluation of the members at the points of space and time is an observation in the sense of C81/C101; the statistics are periodic as translations commute with sums, products, derivatives, powers and inverses of matrices; then C101 for any linear dynamics, and C102 for the three transports that in_metric generates from transport with a constant velocity |
| C111 | objects of the class `Code` | programs over any number of objects with caches; induction over programs: a filled cache never changes and holds the text of the own expression; the text of one function by C23 |
| C112 | what the equations of second moments leave out | values of polynomials in which the trends of the errors are replaced by expressions of other values (`Lemmas/TrendValue.lean`); the error of a random solution of quadratic dynamics by C108 |
| C113 | rounded arithmetic and approximate trends | second model of the schemes with a rounding after every operation (`Model/Rounding.lean`), compared with the exact schemes along families of computations whose errors and steps tend to zero (`Lemmas/Rounding.lean`), then accumulated over the window; the pairs of leapfrog in `Props/RoundingTwo.lean`, lists of fraction steps by induction in `Props/RoundingSplit.lean` |

None of the properties is declared inexpressible.

## 8. What the proofs found in the code

Each item is a counterexample theorem in `Props/`.

* `make_M` returns the transpose of the propagator (C09); `forecast_tl` multiplies twice at a repeated saved time (C07).
* `clean_latex_name` is not injective (C20), a field called `V_u` has the name of the variance of `u` in generated code (C84); coordinates whose name begins with `d` are confused with increments (C21); textual
  replacement corrupts generated code when names overlap (C23).
* FD template: declared constants may overwrite grid attributes, a zero shape divides by zero (C25), meshes in two dimensions are
  transposed (C26), staggered derivatives of odd order ≥ 3 are off by `2^(o-1)` (C73), their regularization replaces `exp(u(x))` by `exp(x)` (C94); a constant called `dx` is taken for the grid step (C79).  Manifold template: the requested time
  scheme is ignored (C80).
* `Expectation` of a mixed derivative loses all variables but the first (C43).
* Covariance functions of different couples may share a name (C41); a parameter called `\varepsilon` is taken for the small
  parameter (C45); `in_diffusion` omits the cross-covariance equations (C53), which become exogenous functions of the generated model (C84); a random forcing raises `RuntimeError` (C57); a
  field called like the error of another one loses its mean equation (C74).
* The mean equations are closed with the internal closure only, not with the substitution tree: they keep
  `E[(∂ₓε)²]` although it is the metric (C82).
* `set_closure` changes the dictionary given to the constructor, objects sharing it return stale systems (C54); an exception leaves
  half-filled caches, `subs_tree` depends on the history (C55).
* `Closure`: factor `|a|!` instead of `a!` for mixed derivatives (C58), results depend on earlier calls (C59), `in_metric_by_order`
  fails in two and three dimensions (C60), the local Gaussian prototype is not symmetric (C61).
* `PDESystem`: mixed derivatives and argument order change the classification (C62, C65).  Generated code fails for equal names,
  elementary functions, explicit coordinates, square roots (printed as `sqrt`, which the generated module does not import: closed systems of several
  fields contain square roots of variances, C84), names such as `lambda`, and a field `el`, whose trend is called `del` (C64), derivative names may collide (C66); the tracer and the velocity of the predefined 1D `advection` are both called `u` (C78); the predefined
  `diffusion_in_2D` is discretised in a form that does not conserve the mean (C92).
* `Eq`: `subs`, `doit`, `expand`, `+` crash when SymPy decides the equation (C67); `div` silently truncates (C70).

## 9. Mutation tests

`seeded/LOG.jsonl` has one line per wrong program: the definition edited, the edit, the claim it breaks, the theorems that failed to
build and what was tightened when a wrong program survived.
