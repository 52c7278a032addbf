{
 "claims": [
  {
   "property": "C01",
   "status": "proved",
   "theorems": [
    "Sympkf.Integrator.C01_forecast_sound",
    "Sympkf.Integrator.C01_forecast_complete",
    "Sympkf.Integrator.C01_trajectory_unique",
    "Sympkf.Integrator.C01_trajectory_exists",
    "Sympkf.Integrator.C01_forecast_order",
    "Sympkf.Integrator.C01_forecast_scheme"
   ],
   "note": ""
  },
  {
   "property": "C02",
   "status": "proved",
   "theorems": [
    "Sympkf.Integrator.C02_restart"
   ],
   "note": ""
  },
  {
   "property": "C03",
   "status": "proved",
   "theorems": [
    "Sympkf.Integrator.C03_predict",
    "Sympkf.Integrator.C03_predict_eq_forecast"
   ],
   "note": ""
  },
  {
   "property": "C04",
   "status": "proved",
   "theorems": [
    "Sympkf.Integrator.C04_saved_times_forms",
    "Sympkf.Integrator.C04_none_saves_all",
    "Sympkf.Integrator.C04_selection_only",
    "Sympkf.Integrator.C04_rejections"
   ],
   "note": ""
  },
  {
   "property": "C05",
   "status": "proved",
   "theorems": [
    "Sympkf.Integrator.C05_ensemble_sound",
    "Sympkf.Integrator.C05_ensemble_succeeds_iff",
    "Sympkf.Integrator.C05_ensemble_saved_forms"
   ],
   "note": ""
  },
  {
   "property": "C06",
   "status": "proved",
   "theorems": [
    "Sympkf.Integrator.C06_parallel_eq",
    "Sympkf.Integrator.C06_parallel_run_order",
    "Sympkf.Integrator.C06_no_worker"
   ],
   "note": ""
  },
  {
   "property": "C07",
   "status": "partial",
   "theorems": [
    "Sympkf.Integrator.C07_tl_exact_partial",
    "Sympkf.Integrator.C07_tl_repeated",
    "Sympkf.Integrator.C07_counterexample_repeated"
   ],
   "note": "Proved for saved_times without repeated entries. For arbitrary saved_times C07_tl_repeated gives the exact result: the quotient is applied once per occurrence of the time. C07_counterexample_repeated shows that the full statement is then false."
  },
  {
   "property": "C08",
   "status": "partial",
   "theorems": [
    "Sympkf.Integrator.C08_tl_converges_partial",
    "Sympkf.Integrator.C08_tl_diverges"
   ],
   "note": "Proved for every saved time that is listed once. C08_tl_diverges: when a time is listed twice or more, the returned perturbation tends to infinity as h tends to 0, unless the derivative happens to be the forecast itself."
  },
  {
   "property": "C09",
   "status": "partial",
   "theorems": [
    "Sympkf.Integrator.C09_makeM_rows_partial",
    "Sympkf.Integrator.C09_makeM_vecMul_partial",
    "Sympkf.Integrator.C09_counterexample_transposed"
   ],
   "note": "The rows of the returned matrix are proved to be the images of the basis vectors, so v @ M is the propagator. The stated M @ v is false in general: C09_counterexample_transposed."
  },
  {
   "property": "C10",
   "status": "proved",
   "theorems": [
    "Sympkf.Integrator.C10_window_progression",
    "Sympkf.Integrator.C10_window_multiple",
    "Sympkf.Integrator.C10_window_last"
   ],
   "note": ""
  },
  {
   "property": "C11",
   "status": "proved",
   "theorems": [
    "Sympkf.Integrator.C11_set_time_scheme",
    "Sympkf.Integrator.C11_history",
    "Sympkf.Integrator.C11_constructor"
   ],
   "note": ""
  },
  {
   "property": "C12",
   "status": "proved",
   "theorems": [
    "Sympkf.Integrator.C12_identity",
    "Sympkf.Integrator.C12_identity_other_schemes"
   ],
   "note": ""
  },
  {
   "property": "C13",
   "status": "proved",
   "theorems": [
    "Sympkf.Integrator.C13_truncated_exponential"
   ],
   "note": ""
  },
  {
   "property": "C14",
   "status": "proved",
   "theorems": [
    "Sympkf.Integrator.C14_quadrature",
    "Sympkf.Integrator.C14_degrees_sharp"
   ],
   "note": ""
  },
  {
   "property": "C15",
   "status": "proved",
   "theorems": [
    "Sympkf.Integrator.C15_euler_order",
    "Sympkf.Integrator.C15_rk2_order",
    "Sympkf.Integrator.C15_leapfrog_order",
    "Sympkf.Integrator.C15_rk4_order"
   ],
   "note": ""
  },
  {
   "property": "C16",
   "status": "proved",
   "theorems": [
    "Sympkf.Integrator.C16_leapfrog_step",
    "Sympkf.Integrator.C16_leapfrog_reversible",
    "Sympkf.Integrator.C16_leapfrog_forecast"
   ],
   "note": ""
  },
  {
   "property": "C17",
   "status": "proved",
   "theorems": [
    "Sympkf.Integrator.C17_fraction_step",
    "Sympkf.Integrator.C17_splitting",
    "Sympkf.Integrator.C17_splitting_fold"
   ],
   "note": ""
  },
  {
   "property": "C18",
   "status": "proved",
   "theorems": [
    "Sympkf.Integrator.C18_linear_invariant",
    "Sympkf.Integrator.C18_linear_invariant_leapfrog"
   ],
   "note": ""
  },
  {
   "property": "C19",
   "status": "proved",
   "theorems": [
    "Sympkf.Integrator.C19_randstate"
   ],
   "note": ""
  },
  {
   "property": "C20",
   "status": "partial",
   "theorems": [
    "Sympkf.Text.C20_clean_spec",
    "Sympkf.Text.C20_clean_no_special",
    "Sympkf.Text.C20_clean_fixed",
    "Sympkf.Text.C20_clean_idempotent",
    "Sympkf.Text.C20_clean_append",
    "Sympkf.Text.C20_clean_injective_partial",
    "Sympkf.Text.C20_counterexample_collision"
   ],
   "note": "All clauses except the last are proved for every string. Distinctness of clean names is proved for names without LaTeX characters only; C20_counterexample_collision shows it is false in general."
  },
  {
   "property": "C21",
   "status": "partial",
   "theorems": [
    "Sympkf.Text.C21_coordinates_partial",
    "Sympkf.Text.C21_displacement_partial",
    "Sympkf.Text.C21_value_error",
    "Sympkf.Text.C21_counterexample_d_name"
   ],
   "note": "Proved for every iteration order when no shifted coordinate name begins with d; C21_counterexample_d_name shows the order dependence for all other names."
  },
  {
   "property": "C22",
   "status": "proved",
   "theorems": [
    "Sympkf.Text.C22_code_time",
    "Sympkf.Text.C22_code_space",
    "Sympkf.Text.C22_code_zero",
    "Sympkf.Text.C22_off_grid",
    "Sympkf.Text.C22_time_first",
    "Sympkf.Text.C22_code_injective",
    "Sympkf.Text.C22_code_injective_space",
    "Sympkf.Text.C22_limitation_two_functions"
   ],
   "note": ""
  },
  {
   "property": "C23",
   "status": "partial",
   "theorems": [
    "Sympkf.Text.C23_render_partial",
    "Sympkf.Text.C23_counterexample_order",
    "Sympkf.Text.C23_counterexample_index",
    "Sympkf.Text.C23_counterexample_name",
    "Sympkf.Text.C23_counterexample_suffix"
   ],
   "note": "Proved under the stated separation conditions (no increment text inside another token, no function name a suffix of another one); four counterexamples show that the conditions cannot be dropped."
  },
  {
   "property": "C24",
   "status": "proved",
   "theorems": [
    "Sympkf.FD.C24_index",
    "Sympkf.FD.C24_index_unknown",
    "Sympkf.FD.C24_shift_compose",
    "Sympkf.FD.C24_shift_period",
    "Sympkf.FD.C24_shift_zero",
    "Sympkf.FD.C24_shift_perm"
   ],
   "note": ""
  },
  {
   "property": "C25",
   "status": "partial",
   "theorems": [
    "Sympkf.FD.C25_valueError_iff",
    "Sympkf.FD.C25_zero_shape",
    "Sympkf.FD.C25_grid_partial",
    "Sympkf.FD.C25_constants",
    "Sympkf.FD.C25_counterexample_reserved"
   ],
   "note": "The ValueError clause and the constants are proved in full. The grid clause is proved when no dimension is 0 (C25_zero_shape: ZeroDivisionError) and no declared constant has the name of a grid attribute; C25_counterexample_reserved shows that a constant named dx replaces the grid step."
  },
  {
   "property": "C26",
   "status": "partial",
   "theorems": [
    "Sympkf.FD.C26_mesh_partial",
    "Sympkf.FD.C26_mesh_transposed",
    "Sympkf.FD.C26_counterexample_two_coordinates"
   ],
   "note": "Proved for one coordinate. For two or more coordinates the mesh is transposed: C26_mesh_transposed describes it exactly and C26_counterexample_two_coordinates refutes the full statement."
  },
  {
   "property": "C27",
   "status": "proved",
   "theorems": [
    "Sympkf.FinDiff.C27_stencil"
   ],
   "note": ""
  },
  {
   "property": "C28",
   "status": "proved",
   "theorems": [
    "Sympkf.FinDiff.C28_polynomial_exact"
   ],
   "note": ""
  },
  {
   "property": "C29",
   "status": "proved",
   "theorems": [
    "Sympkf.FinDiff.C29_second_order"
   ],
   "note": ""
  },
  {
   "property": "C30",
   "status": "proved",
   "theorems": [
    "Sympkf.FinDiff.C30_order_independent",
    "Sympkf.FinDiff.C30_mixed_second_order",
    "Sympkf.FinDiff.C30_exact_order_independent"
   ],
   "note": ""
  },
  {
   "property": "C31",
   "status": "proved",
   "theorems": [
    "Sympkf.FinDiff.C31_weights_unique",
    "Sympkf.FinDiff.C31_weights_parity"
   ],
   "note": ""
  },
  {
   "property": "C32",
   "status": "proved",
   "theorems": [
    "Sympkf.FinDiff.C32_no_derivative",
    "Sympkf.FinDiff.C32_value",
    "Sympkf.FinDiff.C32_order_independent"
   ],
   "note": ""
  },
  {
   "property": "C33",
   "status": "proved",
   "theorems": [
    "Sympkf.FinDiff.C33_commutes_with_shifts",
    "Sympkf.FinDiff.C33_constants",
    "Sympkf.FinDiff.C33_integration_by_parts",
    "Sympkf.FinDiff.C33_sum_zero"
   ],
   "note": ""
  },
  {
   "property": "C34",
   "status": "proved",
   "theorems": [
    "Sympkf.POD.C34_formats"
   ],
   "note": ""
  },
  {
   "property": "C35",
   "status": "proved",
   "theorems": [
    "Sympkf.POD.C35_build_iff",
    "Sympkf.POD.C35_unambiguous",
    "Sympkf.POD.C35_any_order"
   ],
   "note": ""
  },
  {
   "property": "C36",
   "status": "proved",
   "theorems": [
    "Sympkf.POD.C36_all_of_degree",
    "Sympkf.POD.C36_order_independent",
    "Sympkf.POD.C36_no_coordinate"
   ],
   "note": ""
  },
  {
   "property": "C37",
   "status": "proved",
   "theorems": [
    "Sympkf.Tree.C37_tree_sound",
    "Sympkf.Tree.C37_isolate"
   ],
   "note": ""
  },
  {
   "property": "C38",
   "status": "proved",
   "theorems": [
    "Sympkf.Tree.C38_tree_complete",
    "Sympkf.Tree.C38_reduced",
    "Sympkf.Tree.C38_no_coordinate"
   ],
   "note": ""
  },
  {
   "property": "C39",
   "status": "proved",
   "theorems": [
    "Sympkf.Tree.C39_tree_history"
   ],
   "note": ""
  },
  {
   "property": "C40",
   "status": "proved",
   "theorems": [
    "Sympkf.PKF.C40_internal_closure",
    "Sympkf.PKF.C40_metric_symmetric",
    "Sympkf.PKF.C40_gamma",
    "Sympkf.PKF.C40_keys",
    "Sympkf.PKF.C40_no_coordinate"
   ],
   "note": ""
  },
  {
   "property": "C41",
   "status": "partial",
   "theorems": [
    "Sympkf.PKF.C41_couples",
    "Sympkf.PKF.C41_couples_once",
    "Sympkf.PKF.C41_covariance_errors",
    "Sympkf.PKF.C41_internal_closure",
    "Sympkf.PKF.C41_same_function",
    "Sympkf.PKF.C41_distinct_partial",
    "Sympkf.PKF.C41_counterexample"
   ],
   "note": "Couples, entries, identities and errors are proved in full. C41_same_function tells exactly when two couples share their covariance function; distinctness follows when no field name is a proper prefix of another one. C41_counterexample shows that the couples (h, uh) and (hu, h) share the function V_huh."
  },
  {
   "property": "C42",
   "status": "proved",
   "theorems": [
    "Sympkf.Rand.C42_israndom",
    "Sympkf.Rand.C42_error",
    "Sympkf.Rand.C42_israndom_eq",
    "Sympkf.Rand.C42_deterministic",
    "Sympkf.Rand.C42_expectation_has"
   ],
   "note": ""
  },
  {
   "property": "C43",
   "status": "partial",
   "theorems": [
    "Sympkf.Rand.C43_expectation_partial",
    "Sympkf.Rand.C43_simple",
    "Sympkf.Rand.C43_mixed",
    "Sympkf.Rand.C43_expectation_eq_partial",
    "Sympkf.Rand.C43_expectation_matrix_partial",
    "Sympkf.Rand.C43_counterexample"
   ],
   "note": "Proved, in every stochastic differential ring, for the expressions in which no random mixed derivative stands alone in a term (Lossless); derivatives with a single pair (variable, order) are a special case (C43_simple). Expectation keeps only the first pair of such a mixed derivative (C43_mixed), so the full statement is false: C43_counterexample."
  },
  {
   "property": "C44",
   "status": "proved",
   "theorems": [
    "Sympkf.Rand.C44_terminates",
    "Sympkf.Rand.C44_reduced",
    "Sympkf.Rand.C44_nonrandom",
    "Sympkf.Rand.C44_expand_idempotent",
    "Sympkf.Rand.C44_idempotent"
   ],
   "note": ""
  },
  {
   "property": "C45",
   "status": "partial",
   "theorems": [
    "Sympkf.PKF.C45_reynolds_partial",
    "Sympkf.PKF.C45_counterexample"
   ],
   "note": "Proved for any number of fields and dimension and for dynamics built with sums, products, rational powers (of quantities positive at the mean) and exp, sin, cos, tan, sinh, cosh, tanh, log, atan (the mean in their domain) of fields and derivatives, that do not use the name \\\\varepsilon; C45_counterexample shows that a parameter of that name is taken for the small parameter and the error is lost. Other functions of the fields, and integrals of fields, are not modelled."
  },
  {
   "property": "C46",
   "status": "partial",
   "theorems": [
    "Sympkf.PKF.C46_error_partial"
   ],
   "note": "Proved under the hypotheses of C45 (the name \\\\varepsilon is not used)."
  },
  {
   "property": "C47",
   "status": "partial",
   "theorems": [
    "Sympkf.PKF.C47_expectation_partial",
    "Sympkf.PKF.C47_exact_partial"
   ],
   "note": "Proved under the hypotheses of C45: the mean of the second-order Taylor expansion; exact for every random solution of polynomial dynamics of degree at most two."
  },
  {
   "property": "C48",
   "status": "partial",
   "theorems": [
    "Sympkf.PKF.C48_variance_partial"
   ],
   "note": "Proved under the hypotheses of C45 (the name \\\\varepsilon is not used), including that variance_system is computed without exception."
  },
  {
   "property": "C49",
   "status": "partial",
   "theorems": [
    "Sympkf.PKF.C49_epsilon_partial"
   ],
   "note": "Proved under the hypotheses of C45 (the name \\\\varepsilon is not used), including that epsilon_system is computed without exception."
  },
  {
   "property": "C50",
   "status": "partial",
   "theorems": [
    "Sympkf.PKF.C50_metric_partial"
   ],
   "note": "Proved under the hypotheses of C45 (the name \\\\varepsilon is not used), in any dimension, including that metric_system is computed without exception."
  },
  {
   "property": "C51",
   "status": "partial",
   "theorems": [
    "Sympkf.PKF.C51_cross_partial"
   ],
   "note": "Proved under the hypotheses of C45 (the name \\\\varepsilon is not used), including that cross_covariance_system is computed without exception."
  },
  {
   "property": "C52",
   "status": "proved",
   "theorems": [
    "Sympkf.PKF.C52_aspect",
    "Sympkf.PKF.C52_diffusion",
    "Sympkf.PKF.C52_agree"
   ],
   "note": "For every dimension and number of fields, whenever the metric equations are true, the determinant of the tensor is invertible and the substitutions are regular (powers of positive quantities, derivatives along the coordinates)."
  },
  {
   "property": "C53",
   "status": "partial",
   "theorems": [
    "Sympkf.PKF.C53_in_metric_partial",
    "Sympkf.PKF.C53_in_aspect_partial",
    "Sympkf.PKF.C53_in_diffusion_partial",
    "Sympkf.PKF.C53_count_metric",
    "Sympkf.PKF.C53_count_aspect",
    "Sympkf.PKF.C53_count_diffusion",
    "Sympkf.PKF.C53_counterexample"
   ],
   "note": "The numbers of equations are proved for every system; that the systems are computed and the equations are, in order, the trends of the unknowns and are true is proved under the hypotheses of C48 for in_metric and in_aspect, for every true closure. in_diffusion omits the cross-covariance equations of multivariate systems: C53_counterexample."
  },
  {
   "property": "C54",
   "status": "partial",
   "theorems": [
    "Sympkf.PKF.C54_fresh_partial",
    "Sympkf.PKF.C54_accumulates_partial",
    "Sympkf.PKF.C54_frame_partial",
    "Sympkf.PKF.C54_counterexample_shared",
    "Sympkf.PKF.C54_counterexample_argument"
   ],
   "note": "Proved for every program with any number of objects in which no dictionary is the closure of two objects and the internal closure and cross-covariances can be computed (which C55_applies proves for every deterministic system). C54_counterexample_shared: objects built with the same dictionary return stale systems; C54_counterexample_argument: set_closure changes the dictionary given to the constructor."
  },
  {
   "property": "C55",
   "status": "partial",
   "theorems": [
    "Sympkf.PKF.Pkf.C55_order_partial",
    "Sympkf.PKF.Pkf.C55_value_partial",
    "Sympkf.PKF.C55_applies",
    "Sympkf.PKF.C55_counterexample_closure",
    "Sympkf.PKF.C55_counterexample_cross",
    "Sympkf.PKF.C55_counterexample_subs_tree"
   ],
   "note": "Proved for every history of reads of all properties except subs_tree, when the internal closure and the cross-covariances can be computed, which C55_applies proves for every deterministic system. The counterexamples show that otherwise a second read returns a half-filled closure or list, and that subs_tree depends on the history."
  },
  {
   "property": "C56",
   "status": "proved",
   "theorems": [
    "Sympkf.PKF.C56_unclosed",
    "Sympkf.PKF.C56_closed",
    "Sympkf.PKF.C56_autonomous"
   ],
   "note": "For every system and closure for which in_metric is computed."
  },
  {
   "property": "C57",
   "status": "partial",
   "theorems": [
    "Sympkf.PKF.C57_apply_internal_partial",
    "Sympkf.PKF.C57_never_raises",
    "Sympkf.PKF.C57_counterexample"
   ],
   "note": "Values are preserved for every regular expression; success is characterised exactly; for every deterministic system nothing raises (C57_never_raises). It does raise RuntimeError when a univariate term of a function that is not the normalised error of a field occurs, as with a random forcing: C57_counterexample."
  },
  {
   "property": "C58",
   "status": "partial",
   "theorems": [
    "Sympkf.Clo.C58_by_order",
    "Sympkf.Clo.C58_closure",
    "Sympkf.Clo.C58_closure_partial",
    "Sympkf.Clo.C58_counterexample"
   ],
   "note": "The dictionary is proved exactly in every dimension: the value is |a|! times the coefficient (C58_closure). It is the claimed a! for derivatives in one coordinate; C58_counterexample refutes the claim for mixed derivatives."
  },
  {
   "property": "C59",
   "status": "partial",
   "theorems": [
    "Sympkf.Clo.C59_exact",
    "Sympkf.Clo.C59_closure_partial",
    "Sympkf.Clo.C59_superset_partial",
    "Sympkf.Clo.C59_counterexample_taylor",
    "Sympkf.Clo.C59_counterexample_larger",
    "Sympkf.Clo.C59_counterexample_in_metric"
   ],
   "note": "Every result is characterised for every history of taylor, closure_by_order and closure (C59_exact). Independence is proved for histories with orders at most n; larger orders, taylor and in_metric_by_order change the results (three counterexamples)."
  },
  {
   "property": "C60",
   "status": "partial",
   "theorems": [
    "Sympkf.Clo.C60_exact",
    "Sympkf.Clo.C60_in_metric_partial",
    "Sympkf.Clo.C60_counterexample_2d",
    "Sympkf.Clo.C60_counterexample_3d"
   ],
   "note": "Proved in one dimension, for any sound solver. In two dimensions the method always raises IndexError and in three it associates the terms with other components (counterexamples)."
  },
  {
   "property": "C61",
   "status": "partial",
   "theorems": [
    "Sympkf.Cor.C61_aspect",
    "Sympkf.Cor.C61_aspect_metric",
    "Sympkf.Cor.C61_diffusion",
    "Sympkf.Cor.C61_diffusion_metric",
    "Sympkf.Cor.C61_local",
    "Sympkf.Cor.C61_local_symmetric_partial",
    "Sympkf.Cor.C61_local_metric_partial",
    "Sympkf.Cor.C61_local_twice",
    "Sympkf.Cor.C61_counterexample_local_metric",
    "Sympkf.Cor.C61_counterexample_local_symmetric",
    "Sympkf.Cor.C61_aspect_semidefinite",
    "Sympkf.Cor.C61_diffusion_semidefinite",
    "Sympkf.Cor.C61_local_semidefinite_partial"
   ],
   "note": "Proved in every dimension for the aspect and diffusion prototypes. Positive semidefiniteness is C61_aspect_semidefinite and C61_diffusion_semidefinite. For the local Gaussian the symmetry and the semidefiniteness need a homogeneous tensor and the metric needs metric=False; counterexamples refute both otherwise."
  },
  {
   "property": "C62",
   "status": "partial",
   "theorems": [
    "Sympkf.Props.C62_partition",
    "Sympkf.Props.C62_only_functions",
    "Sympkf.Props.C62_prognostic_partial",
    "Sympkf.Props.C62_constant_partial",
    "Sympkf.Props.C62_no_argument",
    "Sympkf.Props.C62_counterexample_prognostic",
    "Sympkf.Props.C62_counterexample_constant"
   ],
   "note": "The partition is proved for every system and every iteration order of sets. That prognostic means 'has a time derivative' is proved when the time is the first variable of every mixed derivative, and that constant means 'does not depend on time' when the time is the first argument; the counterexamples show both conditions are needed."
  },
  {
   "property": "C63",
   "status": "proved",
   "theorems": [
    "Sympkf.Props.C63_max_order",
    "Sympkf.Props.C63_spatial_derivatives",
    "Sympkf.Props.C63_constants",
    "Sympkf.Props.C63_constants_once",
    "Sympkf.Props.C63_trainable",
    "Sympkf.Props.C63_coordinates",
    "Sympkf.Props.C63_failure"
   ],
   "note": ""
  },
  {
   "property": "C64",
   "status": "partial",
   "theorems": [
    "Sympkf.Props.C64_slots",
    "Sympkf.Props.C64_trend_partial",
    "Sympkf.Props.C64_exogenous_default",
    "Sympkf.Props.C64_syntax",
    "Sympkf.Props.C64_square_root",
    "Sympkf.Props.C64_counterexample_alias",
    "Sympkf.Props.C64_counterexample_function",
    "Sympkf.Props.C64_counterexample_coordinate",
    "Sympkf.Props.C64_counterexample_trainable",
    "Sympkf.Props.C64_counterexample_root",
    "Sympkf.Props.C64_counterexample_keyword",
    "Sympkf.Props.C64_counterexample_exogenous"
   ],
   "note": "Proved for systems of evolution equations whose right-hand sides are built from symbols, functions and derivatives of functions with sums, products and powers other than square roots, when the local names are distinct identifiers that are not used by the template. The counterexamples show that equal names, elementary functions, square roots, names that are keywords, explicit coordinates, trainable scalars and default exogenous functions do fail; C64_square_root and C64_syntax prove that every square root and every name that is not an identifier fails."
  },
  {
   "property": "C65",
   "status": "partial",
   "theorems": [
    "Sympkf.Props.C65_rejected",
    "Sympkf.Props.C65_only_valueError",
    "Sympkf.Props.C65_no_trend",
    "Sympkf.Props.C65_rejected_partial",
    "Sympkf.Props.C65_counterexample_mixed"
   ],
   "note": "The rejection criterion of the code is proved exactly (C65_rejected). It is the claimed criterion for systems without mixed derivatives in time; C65_counterexample_mixed is accepted wrongly."
  },
  {
   "property": "C66",
   "status": "partial",
   "theorems": [
    "Sympkf.Props.C66_distinct_partial",
    "Sympkf.Props.C66_other_names_partial",
    "Sympkf.Props.C66_counterexample"
   ],
   "note": "Proved for coordinates without underscore and functions whose code name does not end like a derivative; C66_counterexample shows collisions otherwise."
  },
  {
   "property": "C67",
   "status": "partial",
   "theorems": [
    "Sympkf.Util.C67_arithmetic_partial",
    "Sympkf.Util.C67_transform",
    "Sympkf.Util.C67_crash",
    "Sympkf.Util.C67_counterexample_crash"
   ],
   "note": "Arithmetic is proved to preserve solutions for every equation. C67_crash tells exactly when an operation raises. The clause that no operation crashes is false: subs, doit and expand raise TypeError and addition raises IndexError on an equation that sympy decides (C67_counterexample_crash)."
  },
  {
   "property": "C68",
   "status": "proved",
   "theorems": [
    "Sympkf.Util.C68_isolate",
    "Sympkf.Util.C68_absent",
    "Sympkf.Util.C68_solved"
   ],
   "note": ""
  },
  {
   "property": "C69",
   "status": "proved",
   "theorems": [
    "Sympkf.Util.C69_compare",
    "Sympkf.Util.C69_equal"
   ],
   "note": ""
  },
  {
   "property": "C70",
   "status": "proved",
   "theorems": [
    "Sympkf.Util.C70_gradient",
    "Sympkf.Util.C70_div",
    "Sympkf.Util.C70_laplacian",
    "Sympkf.Util.C70_truncation"
   ],
   "note": ""
  },
  {
   "property": "C71",
   "status": "proved",
   "theorems": [
    "Sympkf.Util.C71_upper_triangle",
    "Sympkf.Util.C71_length",
    "Sympkf.Util.C71_determined"
   ],
   "note": ""
  },
  {
   "property": "C72",
   "status": "proved",
   "theorems": [
    "Sympkf.Util.C72_partial_orders",
    "Sympkf.Util.C72_total_order"
   ],
   "note": ""
  },
  {
   "property": "C73",
   "status": "partial",
   "theorems": [
    "Sympkf.FinDiff.C73_regularize_value",
    "Sympkf.FinDiff.C73_regularize_partial",
    "Sympkf.FinDiff.C73_counterexample_third_order",
    "Sympkf.FinDiff.C73_mixed_value",
    "Sympkf.FinDiff.C73_mixed_partial",
    "Sympkf.FinDiff.C73_mixed_excess"
   ],
   "note": "The regularized scheme is described exactly for every derivative, mixed or not: it is the regular one, times 2^(o-1) for every variable of odd order o (C73_regularize_value, C73_mixed_value). The statement is therefore proved for the derivatives whose orders are 1 or even, and false for the others (C73_counterexample_third_order, C73_mixed_excess)."
  },
  {
   "property": "C74",
   "status": "proved",
   "theorems": [
    "Sympkf.PKF.C74_evolution",
    "Sympkf.PKF.C74_complete",
    "Sympkf.PKF.C74_counterexample"
   ],
   "note": "For every deterministic evolution system whose Reynolds equations are computed (by the rules of the model for Taylor expansions), whose fields have different names without LaTeX commands, and no random field called like an error (C74_counterexample); the closure of the user replaces expectations of terms by time-free expressions."
  },
  {
   "property": "C75",
   "status": "proved",
   "theorems": [
    "Sympkf.PKF.C75_std_system",
    "Sympkf.PKF.C75_equivalent",
    "Sympkf.PKF.C75_true"
   ],
   "note": "Under the conditions of C74; the equivalence in every differential ring in which twice the standard deviations are among the positive quantities and the variance equations are regular; C75_true adds the truth of the equations under the hypotheses of C48."
  },
  {
   "property": "C76",
   "status": "proved",
   "theorems": [
    "Sympkf.Props.C76_consistent"
   ],
   "note": "Under the conditions of C64 (distinct local names that are identifiers, no square roots, polynomials and powers in functions and their derivatives, every differentiated function depends on all the spatial coordinates in their order); exponents natural or base positive."
  },
  {
   "property": "C77",
   "status": "proved",
   "theorems": [
    "Sympkf.Burgers.C77_unclosed",
    "Sympkf.Burgers.C77_p18",
    "Sympkf.Burgers.C77_model"
   ],
   "note": ""
  },
  {
   "property": "C78",
   "status": "proved",
   "theorems": [
    "Sympkf.Dynamics.C78_burgers",
    "Sympkf.Dynamics.C78_kuramoto",
    "Sympkf.Dynamics.C78_diffusion",
    "Sympkf.Dynamics.C78_advection2",
    "Sympkf.Dynamics.C78_advection3",
    "Sympkf.Dynamics.C78_diffusion2",
    "Sympkf.Dynamics.C78_counterexample_advection"
   ],
   "note": "C78_counterexample_advection is the part of the claim about the one-dimensional advection."
  },
  {
   "property": "C79",
   "status": "proved",
   "theorems": [
    "Sympkf.FinDiff.C79_outcomes",
    "Sympkf.FinDiff.C79_decided_result",
    "Sympkf.FinDiff.C79_equations",
    "Sympkf.FinDiff.C79_second_order",
    "Sympkf.FinDiff.C79_decided",
    "Sympkf.FinDiff.C79_counterexample_step_name"
   ],
   "note": "The steps of time and space are those of the symbols d+coordinate; C79_counterexample_step_name shows that a constant of that name is captured by the step. An equation that SymPy has already decided raises ValueError (C79_decided)."
  },
  {
   "property": "C80",
   "status": "partial",
   "theorems": [
    "Sympkf.FD.C80_dimension",
    "Sympkf.FD.C80_attributes",
    "Sympkf.FD.C80_time_scheme_partial",
    "Sympkf.FD.C80_counterexample_time_scheme",
    "Sympkf.FD.C80_code_distinct"
   ],
   "note": "Constructor, constants and code are proved. The requested time scheme is honoured only if it is rk4: the template calls super().__init__() without the keywords (C80_counterexample_time_scheme)."
  },
  {
   "property": "C81",
   "status": "proved",
   "theorems": [
    "Sympkf.PKF.C81_taylor",
    "Sympkf.PKF.C81_mean"
   ],
   "note": "For every finite probability space and smooth random fields; the positive quantities of the setting are positive functions. The name \\\\varepsilon is not used by the dynamics (see C45_counterexample)."
  },
  {
   "property": "C82",
   "status": "proved",
   "theorems": [
    "Sympkf.PKF.C82_systems",
    "Sympkf.PKF.C82_unclosed",
    "Sympkf.PKF.C82_counterexample_mean"
   ],
   "note": "For every deterministic system of evolution equations whose Reynolds equations are computed and whose dynamics does not use the name \\\\varepsilon. C82_counterexample_mean: the equation of the mean can keep E[Derivative(eps, x)**2] although it is the metric (the tree is not used there)."
  },
  {
   "property": "C83",
   "status": "proved",
   "theorems": [
    "Sympkf.PKF.C83_closure_complete"
   ],
   "note": "The hypothesis is about the four systems before the means are replaced by the fields."
  },
  {
   "property": "C84",
   "status": "proved",
   "theorems": [
    "Sympkf.PKF.C84_metric",
    "Sympkf.PKF.C84_aspect",
    "Sympkf.PKF.C84_diffusion",
    "Sympkf.PKF.C84_counterexample_open",
    "Sympkf.PKF.C84_counterexample_diffusion",
    "Sympkf.PKF.C84_counterexample_root",
    "Sympkf.PKF.C84_counterexample_names"
   ],
   "note": "Polynomial dynamics and closures (powers allowed, no elementary functions, no explicit space coordinates). That the names of the code are distinct identifiers and that no square root is left are hypotheses: C84_counterexample_names, C84_counterexample_root (systems of several fields contain square roots of the variances, which the generated code cannot evaluate). Without closure no model is generated: C84_counterexample_open. in_diffusion has no cross-covariance equations: C84_counterexample_diffusion."
  },
  {
   "property": "C85",
   "status": "proved",
   "theorems": [
    "Sympkf.PKF.C85_metric",
    "Sympkf.PKF.C85_aspect",
    "Sympkf.PKF.C85_diffusion"
   ],
   "note": "Composition of C47-C53 (exact trends), C84 (generation) and C76 (second order). Exact real arithmetic. Hypotheses on the random state: C46-C53 and smooth periodic statistics; that the names of the code are distinct identifiers and that no square root is left are hypotheses (C84_counterexample_names, C84_counterexample_root)."
  },
  {
   "property": "C86",
   "status": "proved",
   "theorems": [
    "Sympkf.Integrator.C86_forecast_converges",
    "Sympkf.Integrator.C86_window_converges",
    "Sympkf.Integrator.C86_leapfrog_converges"
   ],
   "note": "Exact real arithmetic. The vector field is of class C^(p+1) near the trajectory (one more than for the local order C15); the solution extends to a neighbourhood of [a, b]. Times of the window do not decrease."
  },
  {
   "property": "C87",
   "status": "proved",
   "theorems": [
    "Sympkf.Integrator.C87_splitting_converges",
    "Sympkf.Integrator.C87_splitting_not_second_order"
   ],
   "note": "Trends and increments of class C^2 around the trajectory. The absence of a higher order is a separate counterexample."
  },
  {
   "property": "C88",
   "status": "proved",
   "theorems": [
    "Sympkf.Props.C88_vector_field",
    "Sympkf.Props.C88_converges"
   ],
   "note": "Exact real arithmetic, solutions smooth in time and space together. The stability of the Euler step along the solution is a hypothesis here; C89 proves it for two of the systems."
  },
  {
   "property": "C89",
   "status": "proved",
   "theorems": [
    "Sympkf.Dynamics.C89_diffusion",
    "Sympkf.Dynamics.C89_burgers"
   ],
   "note": "Exact real arithmetic. The example beside the theorem is a non-stationary solution of the Burgers equation (Cole-Hopf)."
  },
  {
   "property": "C90",
   "status": "proved",
   "theorems": [
    "Sympkf.Integrator.C90_forecast",
    "Sympkf.Integrator.C90_predict",
    "Sympkf.Integrator.C90_linear_map",
    "Sympkf.Integrator.C90_subspace"
   ],
   "note": "Exact arithmetic over any field. The cases are an exchange of components, a subspace and a splitting."
  },
  {
   "property": "C91",
   "status": "proved",
   "theorems": [
    "Sympkf.Props.C91_trend",
    "Sympkf.Props.C91_forecast"
   ],
   "note": "Exact real arithmetic. Derivatives of functions of only some of the coordinates are outside the hypothesis."
  },
  {
   "property": "C92",
   "status": "proved",
   "theorems": [
    "Sympkf.Props.C92_trend",
    "Sympkf.Props.C92_forecast",
    "Sympkf.Dynamics.C92_one_dimension",
    "Sympkf.Dynamics.C92_counterexample_diffusion2"
   ],
   "note": "Exact real arithmetic. C92_counterexample_diffusion2 shows that the expanded form of diffusion_in_2D does not conserve the total."
  },
  {
   "property": "C93",
   "status": "proved",
   "theorems": [
    "Sympkf.Dynamics.C93_diffusion",
    "Sympkf.Dynamics.C93_burgers",
    "Sympkf.Dynamics.C93_sharp"
   ],
   "note": "Exact real arithmetic. C93_sharp shows that the condition on the time step is needed."
  },
  {
   "property": "C94",
   "status": "partial",
   "theorems": [
    "Sympkf.FinDiff.C94_value",
    "Sympkf.FinDiff.C94_decided",
    "Sympkf.FinDiff.C94_equations",
    "Sympkf.FinDiff.C94_second_order_partial",
    "Sympkf.FinDiff.C94_counterexample_elementary",
    "Sympkf.FinDiff.C94_elementary",
    "Sympkf.FinDiff.C94_elementary_displaced"
   ],
   "note": "The result is described exactly for every expression without elementary functions (C94_value, C94_equations). Consistency is proved for right-hand sides with derivatives of order one or even and without elementary functions. Both conditions are needed: C73_regularize_value for the orders; C94_counterexample_elementary shows that exp(u(x)) becomes exp(x), and C94_elementary that most elementary functions stop the function with ValueError; C94_elementary_displaced gives the result for a function of a displaced coordinate."
  },
  {
   "property": "C95",
   "status": "proved",
   "theorems": [
    "Sympkf.Props.C95_grid_only",
    "Sympkf.Props.C95_forecast",
    "Sympkf.Props.C95_leapfrog",
    "Sympkf.Props.C95_solution"
   ],
   "note": "The derivatives must be derivatives of functions of all the spatial coordinates, along them (FullDerivatives), and the powers must be defined at the points of the grid along the solution (PowersDefined): other right-hand sides have no smooth vector field."
  },
  {
   "property": "C96",
   "status": "proved",
   "theorems": [
    "Sympkf.Props.C96_trend",
    "Sympkf.Props.C96_forecast",
    "Sympkf.Props.C96_symmetric",
    "Sympkf.Dynamics.C96_one_dimension"
   ],
   "note": "Parities of powers are only defined for even bases and exponents or integer exponents (HasParity); without a parity the equation itself is not symmetric."
  },
  {
   "property": "C97",
   "status": "proved",
   "theorems": [
    "Sympkf.PKF.C97_order",
    "Sympkf.PKF.C97_unclosed",
    "Sympkf.PKF.C97_closed"
   ],
   "note": "The hypotheses are those of C82 (EvolutionSystem, ParameterFree, Reynolds equations computed) and a bound on the orders of the derivatives. The bounds are attained in the examples (heat equation, slope)."
  },
  {
   "property": "C98",
   "status": "proved",
   "theorems": [
    "Sympkf.PKF.C98_mean",
    "Sympkf.PKF.C98_closed"
   ],
   "note": "The hypotheses are those of C82 and a bound on the number of derivations in the terms. Examples: a conservation law on a plane (closed), slope (two derivations, not closed), carried (two fields, not closed)."
  },
  {
   "property": "C99",
   "status": "proved",
   "theorems": [
    "Sympkf.Integrator.C99_step",
    "Sympkf.Integrator.C99_leapfrog",
    "Sympkf.Integrator.C99_rk4",
    "Sympkf.Integrator.C99_growth",
    "Sympkf.Integrator.C99_leapfrog_bounded",
    "Sympkf.Integrator.C99_rk4_sharp"
   ],
   "note": "Exact arithmetic. Example: the rotation of the plane, with the bound 2 on the steps of rk4, and growth with the step 3 (C99_rk4_sharp)."
  },
  {
   "property": "C100",
   "status": "proved",
   "theorems": [
    "Sympkf.Dynamics.C100_transport",
    "Sympkf.Dynamics.C100_shallow",
    "Sympkf.Dynamics.C100_diffusion",
    "Sympkf.Props.C100_skew",
    "Sympkf.Props.C100_forecast"
   ],
   "note": "Exact arithmetic and periodic grids; names as in C64. Cases: transport (C100_transport), rotating shallow water with three fields (C100_shallow), diffusion (C100_diffusion)."
  },
  {
   "property": "C101",
   "status": "proved",
   "theorems": [
    "Sympkf.PKF.C101_logistic",
    "Sympkf.PKF.C101_metric",
    "Sympkf.PKF.C101_aspect",
    "Sympkf.PKF.C101_diffusion"
   ],
   "note": "Hypotheses on the random state: it solves the equations of the PKF (Dynamics), its closure is exact (Tangent, MeanTrend), its statistics are smooth (Filmed); names as in C64, no square root left, euler stable along the truth (StableAt). C101_logistic: a case where all of them are proved."
  },
  {
   "property": "C102",
   "status": "proved",
   "theorems": [
    "Sympkf.Integrator.C102_rk4",
    "Sympkf.Props.C102_converges",
    "Sympkf.Dynamics.C102_shallow",
    "Sympkf.Dynamics.C102_transport"
   ],
   "note": "C102_rk4 is the abstract statement (any symmetric positive form, any skew-symmetric trend); C102_converges for the generated classes; C102_transport and C102_shallow (with an inertia-gravity wave as example) are cases where all the hypotheses are proved."
  },
  {
   "property": "C103",
   "status": "proved",
   "theorems": [
    "Sympkf.FinDiff.C103_loop_value",
    "Sympkf.FinDiff.C103_loop_ends",
    "Sympkf.FinDiff.C103_loop_stagger",
    "Sympkf.FinDiff.C103_loop_second_order",
    "Sympkf.FinDiff.C103_value",
    "Sympkf.FinDiff.C103_second_order"
   ],
   "note": "C103_loop_ends, C103_loop_value and C103_loop_second_order are about the loop with the substitution inside higher derivatives; C103_loop_stagger shows that the scheme taken derivative by derivative (the model used in C94) has the same value. expand() is not modelled."
  },
  {
   "property": "C104",
   "status": "proved",
   "theorems": [
    "Sympkf.Clo.C104_closure",
    "Sympkf.Clo.C104_pure",
    "Sympkf.Clo.C104_mixed",
    "Sympkf.Clo.C104_local",
    "Sympkf.Clo.C104_local_metric"
   ],
   "note": "A random field is a smooth function to a Hilbert space (scalar product = expectation). The statement includes the wrong factor for mixed derivatives (C104_closure, C104_mixed) and the failures of the local Gaussian prototype (C104_local, C104_local_metric); C104_pure is the part where the closure is exact. A field with the Gaussian correlation is built in Props/TruthCase.lean."
  },
  {
   "property": "C105",
   "status": "proved",
   "theorems": [
    "Sympkf.PKF.C105_decouples",
    "Sympkf.PKF.C105_forecast",
    "Sympkf.PKF.C105_nonlinear"
   ],
   "note": "Affine is an inductive predicate on expressions; the functions that the package introduces must have other names than the fields (Apart; true for names that begin neither with a brace nor with V_, apart_of_names). The systems are assumed to be generated without an exception (C57). C105_nonlinear shows that linearity is needed."
  },
  {
   "property": "C106",
   "status": "proved",
   "theorems": [
    "Sympkf.PKF.C106_kinds",
    "Sympkf.PKF.C106_same_function",
    "Sympkf.PKF.C106_distinct",
    "Sympkf.PKF.C106_coordinates_counterexample",
    "Sympkf.PKF.C106_codes_counterexample"
   ],
   "note": "C106_kinds and C106_same_function have no hypothesis on the names. C106_distinct needs PlainNames; C106_coordinates_counterexample and C106_codes_counterexample (and C41_counterexample for the covariances) show that the conditions are needed."
  },
  {
   "property": "C107",
   "status": "proved",
   "theorems": [
    "Sympkf.Write.C107_same_file",
    "Sympkf.Write.C107_written",
    "Sympkf.Write.C107_all",
    "Sympkf.Write.C107_class_name",
    "Sympkf.Write.C107_counterexample"
   ],
   "note": "The directory is a dictionary from file names to texts; the code texts are arbitrary. str.lower is modelled for ASCII letters. C107_counterexample: names that agree up to case share their file."
  },
  {
   "property": "C108",
   "status": "proved",
   "theorems": [
    "Sympkf.PKF.C108_linear",
    "Sympkf.PKF.C108_exact",
    "Sympkf.PKF.C108_quadratic"
   ],
   "note": "The setting is that of C47 and C53 (stochastic differential rings; the name of the small parameter is not used by the dynamics). No tangent-linear hypothesis: C108_linear derives it from the random solution."
  },
  {
   "property": "C109",
   "status": "proved",
   "theorems": [
    "Sympkf.PKF.C109_setting",
    "Sympkf.PKF.C109_linear",
    "Sympkf.PKF.C109_tensors",
    "Sympkf.PKF.C109_mean",
    "Sympkf.PKF.C109_counterexample"
   ],
   "note": "No abstract setting: the interpretation is built from the members (Spec/Members.lean), and C109_setting shows that it meets the hypotheses of the other theorems about the parametric Kalman filter."
  },
  {
   "property": "C110",
   "status": "proved",
   "theorems": [
    "Sympkf.PKF.C110_metric",
    "Sympkf.PKF.C110_tensors",
    "Sympkf.PKF.C110_transport"
   ],
   "note": "C109 with C101 and C102; the values of the unknowns on the grid are the statistics of the members, evaluated at the points of the grid. The stability of the Euler steps (StableAt) is a hypothesis of C110_metric and C110_tensors; C110_transport has an explicit condition on the steps instead."
  },
  {
   "property": "C111",
   "status": "partial",
   "theorems": [
    "Sympkf.Text.C111_own_expression_partial",
    "Sympkf.Text.C111_stable",
    "Sympkf.Text.C111_failure",
    "Sympkf.Text.C111_function_partial",
    "Sympkf.Text.C111_counterexample_stale",
    "Sympkf.Text.C111_counterexample_render",
    "Sympkf.Text.C111_tag_position"
   ],
   "note": "Proved for objects whose attribute expr is not assigned; C111_counterexample_stale: an expression assigned after a read is ignored. The text of an applied function is that of _render_function when no increment occurs in it; C111_counterexample_render otherwise. C111_tag_position: the tag of the time stands after the whole name, not where the documentation puts it."
  },
  {
   "property": "C112",
   "status": "proved",
   "theorems": [
    "Sympkf.PKF.C112_variance_rhs",
    "Sympkf.PKF.C112_cross_rhs",
    "Sympkf.PKF.C112_variance",
    "Sympkf.PKF.C112_cross",
    "Sympkf.PKF.C112_true_iff"
   ],
   "note": "Proved for systems of different fields in evolution form (hypotheses of C74). C112_variance_rhs and C112_cross_rhs do not assume anything about the evolution of the errors. The cases are two populations with different weights (logistic growth), where the third moment is not zero."
  },
  {
   "property": "C113",
   "status": "proved",
   "theorems": [
    "Sympkf.Integrator.C113_exact",
    "Sympkf.Integrator.C113_forecast_rounded",
    "Sympkf.Integrator.C113_window_rounded",
    "Sympkf.Integrator.C113_accumulates",
    "Sympkf.Integrator.C113_splitting_rounded",
    "Sympkf.Integrator.C113_leapfrog_rounded"
   ],
   "note": "The rounding is any function with the stated error for results of size at most R, where R depends on the solution: overflow and NaN are outside the model. leapfrog needs a constant step (C113_leapfrog_rounded); splitting is covered for fraction steps with euler, rk2 or rk4, not with the key update (C113_splitting_rounded). Times are rounded inside the steps; the times of the window are what they are. C113_accumulates shows that the errors of an arithmetic that rounds upwards add up."
  }
 ]
}