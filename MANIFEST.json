{"claims": [
 {"property": "C01", "status": "partial", "theorems": ["B2.C01_differentiate_partial", "B2.C01_differentiate_refuted", "B2.C01_power_rule_only"], "note": "Holds for all trees without the variable in the exponent of a general power; refuted for variable exponents."},
 {"property": "C02", "status": "partial", "theorems": ["B2.C02_degree_partial", "B2.C02_degree_zero_partial", "B2.C02_degree_refuted"], "note": "Holds when exponents of general powers keep their value and near-integers are integers; refuted for x^y with a varying exponent."},
 {"property": "C03", "status": "partial", "theorems": ["B2.C03_group_degree_partial", "B2.C03_group_degree_single", "B2.C03_sum_of_monomials_exact", "B2.C03_group_degree_overestimates", "B2.C03_group_degree_refuted"], "note": "Refuted: -(exp(x)+y^2) is given degree 1. Holds for one-variable groups, for trees with non-negative per-variable degrees; exact on sums of monomials."},
 {"property": "C04", "status": "proved", "theorems": ["B2.C04_homogenize_dehomogenize"], "note": "Tree model (no sharing); see C67 for shared subexpressions."},
 {"property": "C05", "status": "partial", "theorems": ["B2.C05_homogenize_partial", "B2.C05_homogenize_single", "B2.C05_homogenize_refuted"], "note": "Refuted on -(x+y)+1; holds for one-variable groups and when negations/powers have operands whose group degree is the sum of variable degrees."},
 {"property": "C06", "status": "partial", "theorems": ["B2.C06_isHomogeneous_partial", "B2.C06_isHomogeneous_single", "B2.C06_isHomogeneous_refuted", "B2.C06_quotient_degree"], "note": "Refuted on (x+y)^2+x^4; same fragment as C05."},
 {"property": "C07", "status": "partial", "theorems": ["B2.C07_isPolynomial_partial", "B2.C07_isPolynomial_single", "B2.C07_isPolynomial_refuted"], "note": "Refuted for groups of two or more variables; holds for one-variable groups and for trees accepted in each variable."},
 {"property": "C08", "status": "partial", "theorems": ["B2.C08_multidegree_partial", "B2.C08_multidegree_refuted"], "note": "Refuted on 1/x; holds when no variable has negative degree."},
 {"property": "C09", "status": "proved", "theorems": ["B2.C09_reduceDepth_value"], "note": "all trees, both evaluation orders of the two passes"},
 {"property": "C10", "status": "partial", "theorems": ["B2.C10_simplify_refuted", "B2.C10_simplify_partial", "B2.C10_simplify_current_partial"], "note": "full statement refuted: x+y simplified while x holds 0 becomes y. Proved when no operand is accidentally 0/1 at the current values"},
 {"property": "C11", "status": "proved", "theorems": ["B2.C11_simplify_terminates"], "note": "termination with bound 3*nodes, uniqueness, node count"},
 {"property": "C12", "status": "partial", "theorems": ["B2.Cache.C12_cache_refuted", "B2.Cache.C12_reset_eval_partial", "B2.Cache.C12_no_reset_same_value", "B2.Cache.C12_evalJ_fresh"], "note": "full statement refuted by Reset(f);Eval(g sharing a node);set;Eval(f); proved for Reset, sets, then any resets/evals"},
 {"property": "C13", "status": "partial", "theorems": ["B2.C13_operators_refuted", "B2.C13_operators_partial", "B2.C13_operators_small_partial"], "note": "full statement refuted only by exponent overflow (INT_MAX) when powers of one node are merged"},
 {"property": "C14", "status": "partial", "theorems": ["B2.C14_value", "B2.C14_derivative_partial", "B2.C14_derivative_refuted", "B2.C14_hom_derivative", "B2.C14_select", "B2.C14_plain_eval_zero", "B2.C14_homogenize"], "note": "value proved; derivative proved except by the homogenizing variable, where it is refuted (the code gives the derivative by the last variable of the group)"},
 {"property": "C15", "status": "partial", "theorems": ["B2.SLP.C15_compile_correct_partial", "B2.SLP.C15_foreign", "B2.SLP.C15_compiles", "B2.SLP.C15_double", "B2.SLP.C15_forward_reference_refuted", "B2.SLP.C15_duplicate_function_refuted", "B2.SLP.C15_foreign_variable_refuted", "B2.SLP.C15_compile_refuted"], "note": "Compile+execute equals direct evaluation for systems whose functions are distinct, use only declared variables, and are listed after the functions they use. The full claim is false: forward references between named functions, a function added twice and variables in no group give wrong values (witnesses). C15_foreign: with variables in no group the program computes the functions with these read as the first variable."},
 {"property": "C16", "status": "partial", "theorems": ["B2.SLP.C16_instructions_partial", "B2.SLP.C16_refuted"], "note": "Instruction count bounded by operand edges of distinct reachable nodes, and single assignment, when no function is added twice; adding a function twice writes a location twice (refuted)."},
 {"property": "C17", "status": "partial", "theorems": ["B2.SLP.C17_current_partial", "B2.SLP.C17_after_set", "B2.SLP.C17_evaluate_twice", "B2.SLP.C17_two_types_refuted", "B2.SLP.C17_precision_refuted", "B2.SLP.C17_refuted"], "note": "Holds for all histories in which the flag is not left set by the other number type or by a precision change (exact automaton); refuted otherwise: one is_evaluated flag is shared by both types and precision() does not clear it."},
 {"property": "C18", "status": "proved", "theorems": ["B2.Sys.C18_variables", "B2.Sys.C18_each_once"], "note": "For every history of additions, Homogenize and queries, Variables() is the concatenation of the blocks in order of addition (homogenizing variable first), each variable once."},
 {"property": "C19", "status": "proved", "theorems": ["B2.Sys.C19_groupSizes"], "note": "Sizes are the block lengths in order of addition for every consistent history."},
 {"property": "C20", "status": "partial", "theorems": ["B2.Sys.C20_partial", "B2.Sys.C20_rejects", "B2.Sys.C20_refuted", "B2.Sys.C20_refuted_copy", "B2.Sys.C20_refuted_method", "B2.Sys.C20_refuted_unpatched"], "note": "Value of Eval at the current functions, for histories without in-place edits of functions while a system using them is differentiated; wrong sizes rejected. Refuted in full: a product or sum elsewhere edits shared Function nodes of an already compiled system; a copy carries is_differentiated_ but no compiled program; changing the evaluation method; removing the patch by adding variables."},
 {"property": "C21", "status": "partial", "theorems": ["B2.Sys.C21_partial", "B2.Sys.C21_refuted"], "note": "Jacobian entries are the partial derivatives of the current functions plus the patch rows, under the same restriction on histories."},
 {"property": "C22", "status": "partial", "theorems": ["B2.Sys.C22_partial", "B2.Sys.C22_refuted"], "note": "Derivatives after edits; refuted because += / *= do not reset is_differentiated_ of other systems sharing the functions."},
 {"property": "C23", "status": "partial", "theorems": ["B2.Sys.C23_partial", "B2.Sys.C23_scaling", "B2.Sys.C23_sum", "B2.Sys.C23_left_operand", "B2.Sys.C23_refuted"], "note": "The result is right; systems sharing no function with the left operand are unchanged. The left operand itself is changed (copies share Function nodes): proved for all systems, and the full claim refuted."},
 {"property": "C24", "status": "proved", "theorems": ["B2.Sys.C24_decreasing", "B2.Sys.C24_increasing", "B2.Sys.C24_total"], "note": "For every outcome std::sort allows (ties in any order)."},
 {"property": "C25", "status": "partial", "theorems": ["B2.Sys.C25_dehomogenize_partial", "B2.Sys.C25_round_trip_partial", "B2.Sys.C25_refuted", "B2.Sys.C25_affine_refuted"], "note": "Holds when all homogeneous groups have equal size (the code reads the size of the first one) and, for unhomogenized systems, affine groups likewise; refuted otherwise."},
 {"property": "C26", "status": "partial", "theorems": ["B2.Sys.C26_structure", "B2.Sys.C26_partial", "B2.Sys.C26_refuted"], "note": "Structure in full. Idempotence when negations, powers and elementary functions are applied to sum-free trees; refuted for x-(x+1)."},
 {"property": "C27", "status": "partial", "theorems": ["B2.Sys.C27_partial", "B2.Sys.C27_rejects", "B2.Sys.C27_second_patched", "B2.Sys.C27_refuted"], "note": "All cases except only the second system patched, where Concatenate always throws (CopyPatches(sys1))."},
 {"property": "C28", "status": "proved", "theorems": ["B2.Patch.C28_rescale", "B2.Patch.C28_on_patch", "B2.Patch.C28_scalar", "B2.Patch.C28_idempotent", "B2.Patch.C28_outside"], "note": "All group-size lists, coefficients and points over any field."},
 {"property": "C29", "status": "proved", "theorems": ["B2.Patch.C29_values", "B2.Patch.C29_rejects", "B2.Patch.C29_jacobian", "B2.Patch.C29_jacobian_overwrite", "B2.Patch.C29_consistent"], "note": "Rows are zero outside the block only if the caller's matrix was (C29_jacobian); in general the old entries are kept (C29_jacobian_overwrite)."},
 {"property": "C30", "status": "partial", "theorems": ["B2.Patch.Prec.C30_stored", "B2.Patch.Prec.C30_raise_partial", "B2.Patch.Prec.C30_precision_partial", "B2.Patch.Prec.C30_error", "B2.Patch.Prec.C30_copy_refuted", "B2.Patch.Prec.C30_lowering_refuted", "B2.Patch.Prec.C30_refuted"], "note": "Stored coefficients never change, raising is exact after any history, error stays below 2 eps(p) after any history. Exact equality with a single rounding is refuted (copy constructor does not round; two lowerings round twice)."},
 {"property": "C31", "status": "proved", "theorems": ["B2.Start.C31_bijection", "B2.Start.C31_injective"], "note": "integer type unbounded in the model (code: size_t)"},
 {"property": "C32", "status": "proved", "theorems": ["B2.Start.C32_zero", "B2.Start.C32_total", "B2.Start.C32_distinct", "B2.Start.C32_count"], "note": "exact complex arithmetic; targets affine and unpatched or homogenized and patched, without ungrouped variables (see C33 for the rest); C32_total in the patched case needs the raw point not at infinity for the patch"},
 {"property": "C33", "status": "partial", "theorems": ["B2.Start.C33_rejects", "B2.Start.C33_variables", "B2.Start.C33_partial", "B2.Start.C33_refuted"], "note": "full statement C33_full is refuted: ungrouped variables are accepted and give a non-square start system"},
 {"property": "C34", "status": "partial", "theorems": ["B2.Start.C34_atMost", "B2.Start.C34_partial", "B2.Start.C34_refuted"], "note": "for every degree matrix: exactly when the sizes add up to the number of functions; otherwise the code enumerates 'at most size_j times' and the full statement C34_full is refuted"},
 {"property": "C35", "status": "proved", "theorems": ["B2.Start.C35_count", "B2.Start.C35_bijection", "B2.Start.C35_bezout"], "note": "integers unbounded in the model; the Bezout number is the coefficient of prod alpha_j^size_j in prod_i sum_j d_ij alpha_j"},
 {"property": "C36", "status": "partial", "theorems": ["B2.Start.C36_never_returns", "B2.Start.C36_refuted"], "note": "full statement C36_full is refuted: operator*= calls itself forever"},
 {"property": "C37", "status": "partial", "theorems": ["B2.Track.C37_partial", "B2.Track.C37_amp_partial", "B2.Track.C37_truncated", "B2.Track.C37_refuted"], "note": "Proved for every return code except GoingToInfinity, for fixed-precision and adaptive trackers. Refuted for GoingToInfinity: current_space_ is already overwritten while current_time_ is not advanced (C37_refuted; C37_truncated says exactly what is left behind). Exact arithmetic."},
 {"property": "C38", "status": "proved", "theorems": ["B2.Track.C38_time", "B2.Track.C38_amp_time"], "note": "For both tracker families, any initial step, positive min_step_size. Exact arithmetic (rounding of times not modelled)."},
 {"property": "C39", "status": "proved", "theorems": ["B2.Track.C39_bound", "B2.Track.C39_terminates"], "note": "Explicit bound max_num_steps + F + 1; the corrector inside is the modelled Newton corrector."},
 {"property": "C40", "status": "partial", "theorems": ["B2.Track.C40_partial", "B2.Track.C40_refuted"], "note": "Refuted: the fixed-precision tracker never increases its step size. C40_partial: the step is exactly initial * fail_factor^failures."},
 {"property": "C41", "status": "proved", "theorems": ["B2.Track.C41_terminates", "B2.Track.C41_cap", "B2.Track.C41_initial"], "note": "Lexicographic ranking (remaining successes, remaining precision, remaining shrinks). Configurations with maximum_precision <= MaxPrecisionAllowed() (asserted by the code), positive min step, fail factor in (0,1)."},
 {"property": "C42", "status": "partial", "theorems": ["B2.Track.C42_partial", "B2.Track.C42_refuted"], "note": "Precision always strictly increases (proved). The 'at least the required digits' half is refuted: the incompatible-step branch ignores the criteria, and MinimizeTrackingCost rounds the requirement down to a multiple of 10."},
 {"property": "C43", "status": "partial", "theorems": ["B2.Track.C43_partial", "B2.Track.C43_matrixFailure", "B2.Track.C43_precision", "B2.Track.C43_refuted"], "note": "Full iff for min >= 1; refuted for min = 0 (unsigned wrap-around of min-1)."},
 {"property": "C44", "status": "proved", "theorems": ["B2.Predict.C44_polynomial", "B2.Predict.C44_linear", "B2.Predict.C44_estimate", "B2.Predict.C44_estimateLinear"], "note": "Exact rational tables transcribed from the source (column-major), field arithmetic; the right-hand side is an arbitrary partial function. Embedded order of HeunEuler is 1."},
 {"property": "C45", "status": "partial", "theorems": ["B2.Predict.C45_partial", "B2.Predict.C45_refuted"], "note": "Full statement C45_full refuted: Heun and RKNorsett34 throw in PredictorMethod; odepredictor 1, 3, 4 select them."},
 {"property": "C46", "status": "partial", "theorems": ["B2.Endgame.C46_partial", "B2.Endgame.C46_table", "B2.Endgame.C46_value", "B2.Endgame.C46_error_two", "B2.Endgame.C46_refuted"], "note": "The divided-difference table is the confluent table for every number of samples, and the value returned is computed exactly for all data: Newton's form with the nodes y(j/4) instead of y(j/2). Hence exact for degree at most 2; refuted for higher degrees, with the exact error for n = 2."},
 {"property": "C47", "status": "partial", "theorems": ["B2.Endgame.C47_ps_partial", "B2.Endgame.C47_ps_refuted", "B2.Endgame.C47_cauchy_partial", "B2.Endgame.C47_cauchy_refuted"], "note": "Power-series endgame: proved for final tolerance below 1 up to non-numbers; refuted in general (NaN difference counts as converged; tolerance 1 succeeds after one approximation). Cauchy endgame: proved for the second and later approximations; refuted for the first, which is compared with the start point."},
 {"property": "C48", "status": "partial", "theorems": ["B2.Endgame.C48_partial", "B2.Endgame.C48_bound_partial", "B2.Endgame.C48_refuted"], "note": "Terminates with explicit bound for target 0 or factor 1/2; refuted for other targets (sample times do not approach the target)."},
 {"property": "C49", "status": "partial", "theorems": ["B2.Endgame.C49_rule", "B2.Endgame.C49_ps_partial", "B2.Endgame.C49_ps_refuted", "B2.Endgame.C49_cauchy", "B2.Endgame.C49_cauchy_refuted"], "note": "Both endgames: the rule (target - t) * factor + t contracts by 1 - factor (Cauchy) or by the factor only for factor 1/2 or target 0 (power series); exact theorems and refutations."},
 {"property": "C50", "status": "partial", "theorems": ["B2.Endgame.C50_partial", "B2.Endgame.C50_refuted"], "note": "Window invariant for loop states and success; after a failed refinement n+2 entries remain."},
 {"property": "C51", "status": "proved", "theorems": ["B2.Endgame.C51", "B2.Endgame.C51_size", "B2.Endgame.mean_roots"], "note": "Exact arithmetic; tracker exact on the path (Ideal)."},
 {"property": "C52", "status": "partial", "theorems": ["B2.Endgame.C52_time", "B2.Endgame.C52_circle", "B2.Endgame.C52_loops_partial", "B2.Endgame.C52_loops_refuted"], "note": "Circle proved; loop bound holds for later loops, initial loops may take one more than the maximum (refuted)."},
 {"property": "C53", "status": "partial", "theorems": ["B2.Endgame.C53_ps", "B2.Endgame.C53_cauchy_partial", "B2.Endgame.C53_cauchy_refuted", "B2.Endgame.C53_disagree"], "note": "Power-series endgame proved; Cauchy endgame refuted (level 0 goes on; level 1 reads unset norm) with the fragment that holds."},
 {"property": "C54", "status": "partial", "theorems": ["B2.Alg.C54_partial", "B2.Alg.C54_refuted"], "note": "Exact characterisation of what the check computes after any history; refuted as stated: pairs with different start points are not marked (comparison inverted) and an earlier failure makes every later check fail."},
 {"property": "C55", "status": "partial", "theorems": ["B2.Alg.C55_partial", "B2.Alg.C55_refuted"], "note": "Holds after the first Solve; each further Solve adds to the stored multiplicities (refuted). The partner lists are discarded by the code."},
 {"property": "C56", "status": "proved", "theorems": ["B2.Alg.C56", "B2.Alg.C56_count"], "note": "All outcomes, any number of Solve calls. Precision handling and observers not modelled."},
 {"property": "C57", "status": "partial", "theorems": ["B2.Parse.C57_partial", "B2.Parse.C57_minus", "B2.Parse.C57_literal", "B2.Parse.C57_refuted", "B2.Parse.C57_refuted_literal"], "note": "Holds for all texts where nothing follows a negated term; refuted in full: -x+y is read as -(x+y), -2^2 as (-2)^2. The specification is the grammar Conv."},
 {"property": "C58", "status": "partial", "theorems": ["B2.Parse.C58_partial", "B2.Parse.C58_rational", "B2.Parse.C58_arc", "B2.Parse.C58_refuted", "B2.Parse.C58_negated", "B2.Parse.C58_subtracted"], "note": "Round trip of the actual print functions for integer coefficients and all operators the grammar knows; rational numbers and inverse trigonometric functions print in a form that never parses; a negated first summand changes the value; a sum whose first operand is subtracted comes back as the negative of the whole sum."},
 {"property": "C59", "status": "partial", "theorems": ["B2.Parse.C59_partial", "B2.Parse.C59_letters", "B2.Parse.C59_order", "B2.Parse.C59_refuted"], "note": "Exact characterisation: rejected iff a known or earlier name is a prefix. Refuted in full: x, x1 is rejected; no name starting with e, E, i, I can be declared."},
 {"property": "C60", "status": "partial", "theorems": ["B2.Parse.C60_partial", "B2.Parse.C60_newline", "B2.Parse.C60_refuted"], "note": "Equal up to blank lines and leading white space; refuted exactly: always appends a newline."},
 {"property": "C61", "status": "proved", "theorems": ["B2.Infra.C61", "B2.Infra.C61_calls"], "note": "All histories of add/remove; passive observers."},
 {"property": "C62", "status": "partial", "theorems": ["B2.Infra.C62_partial", "B2.Infra.C62_refuted", "B2.Infra.C62_raw"], "note": "Self-removal during notification is undefined behaviour (refuted); exact condition under which a notification is defined; C62_raw gives the deliveries with in-place erasure."},
 {"property": "C63", "status": "partial", "theorems": ["B2.Infra.C63_partial", "B2.Infra.C63_refuted", "B2.Infra.C63_make"], "note": "PurgeCache discards the result of remove_if and never shortens the pool (refuted)."},
 {"property": "C64", "status": "partial", "theorems": ["B2.Infra.C64_partial", "B2.Infra.C64_refuted"], "note": "Index equal to the degree passes the check (refuted)."},
 {"property": "C65", "status": "proved", "theorems": ["B2.Infra.C65"], "note": "Exact arithmetic."},
 {"property": "C66", "status": "partial", "theorems": ["B2.Infra.C66_partial", "B2.Infra.C66_refuted"], "note": "Multiprecision random units are divided by sqrt(abs) (refuted); the double version is right."},
 {"property": "C67", "status": "partial", "theorems": ["B2.Sys.C67_partial", "B2.Sys.C67_refuted"], "note": "Holds when no Function is listed twice."},
 {"property": "C68", "status": "partial", "theorems": ["B2.Sys.C68_partial", "B2.Sys.C68_clear_refuted", "B2.Sys.C68_never", "B2.Sys.C68_count", "B2.Sys.C68_homVars", "B2.Sys.C68_stale"], "note": "Refuted: the recorded order of groups and the cached ordering are not cleared. Exact extent: once anything was added before clearing, adding anything makes Variables() fail for ever (C68_never); counters are right; holds when nothing was added before."},
 {"property": "C69", "status": "partial", "theorems": ["B2.Sys.C69_partial", "B2.Sys.C69_refuted"], "note": "Holds when ungrouped variables come after all groups."},
 {"property": "C70", "status": "partial", "theorems": ["B2.Sys.C70_partial", "B2.Sys.C70_refuted"], "note": "Time derivative entries; same restriction."},
 {"property": "C71", "status": "partial", "theorems": ["B2.Start.C71_partial", "B2.Start.C71_refuted"], "note": "holds for affine groups, not homogenized; full statement refuted for two homogeneous groups"},
 {"property": "C72", "status": "partial", "theorems": ["B2.Start.C72_partial", "B2.Start.C72_short", "B2.Start.C72_refuted", "B2.Start.C72_homogeneous"], "note": "holds for affine, not homogenized targets whose first group has at least two variables, with an exact linear solve; refuted for a first group of one variable; for homogenized targets the vector is always too short; start functions are homogeneous in every homogeneous group"},
 {"property": "C73", "status": "partial", "theorems": ["B2.Track.C73_partial", "B2.Track.C73_refuted"], "note": "Refuted: the step grows when it is below the bound for the current precision."},
 {"property": "C74", "status": "partial", "theorems": ["B2.Track.C74_partial", "B2.Track.C74_refuted", "B2.Track.C74_noChoice"], "note": "Refuted below the required digits (unsigned wrap-around); C74_noChoice shows the search then never varies the step."},
 {"property": "C75", "status": "proved", "theorems": ["B2.Endgame.C75", "B2.Endgame.C75_bound"], "note": "All environments; at least three sample points; security level 0 (at level 1 the code reads an unset variable, see C53)."},
 {"property": "C76", "status": "partial", "theorems": ["B2.Alg.C76_partial", "B2.Alg.C76_refuted"], "note": "Holds after the first Solve; later calls keep the endgame code of the call before (refuted)."},
 {"property": "C77", "status": "proved", "theorems": ["B2.Infra.C77", "B2.Infra.C77_code"], "note": ""},
 {"property": "C78", "status": "partial", "theorems": ["B2.Infra.C78_partial", "B2.Infra.C78_refuted", "B2.Infra.C78_jacobian"], "note": "Homogeneous slices of positive dimension fail the last assertion (refuted)."},
 {"property": "C79", "status": "proved", "theorems": ["B2.Infra.C79"], "note": ""},
 {"property": "C80", "status": "partial", "theorems": ["B2.Infra.C80_partial", "B2.Infra.C80_refuted"], "note": "serialize omits constants, dimension and homogeneity (refuted)."},
 {"property": "C81", "status": "partial", "theorems": ["B2.Parse.C81_partial", "B2.Parse.C81_no_end", "B2.Parse.C81_no_input", "B2.Parse.C81_input_first", "B2.Parse.C81_config_only", "B2.Parse.C81_input_only", "B2.Parse.C81_refuted"], "note": "Holds when no marker occurs inside the sections even as part of a word, for each of the six forms of a file with a configuration; refuted: 'function legend;' ends the section."},
 {"property": "C82", "status": "partial", "theorems": ["B2.C82_degree_partial", "B2.C82_degree_exact", "B2.C82_multidegree", "B2.C82_homogeneous", "B2.C82_degree_refuted", "B2.C82_homogenize_other"], "note": "Degree bounds the joint degree for groups without the homogenizing variable (exact when every factor contains the variable), IsHomogeneous is sound, Homogenize leaves foreign groups alone. Refuted in full: Degree reports 0 for the homogenizing variable of a homogenized product."},
 {"property": "C83", "status": "proved", "theorems": ["B2.Predict.C83_path", "B2.Predict.C83_order", "B2.Predict.C83_estimate"], "note": "Exact arithmetic; the right-hand side is any function that near the point succeeds and solves J k = -dH/dt."},
 {"property": "C84", "status": "proved", "theorems": ["B2.Track.C84_newton"], "note": "Exact arithmetic over the complex numbers, any complete normed space."},
 {"property": "C85", "status": "proved", "theorems": ["B2.Track.C85_follows"], "note": "Exact arithmetic; the fixed-precision tracker; evaluations and linear solves exact near the path."},
 {"property": "C86", "status": "proved", "theorems": ["B2.Track.C86_fixed", "B2.Track.C86_amp"], "note": "Exact arithmetic where solves answer; solves may fail at any call. Adaptive: up to 1000 digits, step settings at most h0. A run ended by GoingToInfinity is excluded (truncation returns the infinite point)."},
 {"property": "C87", "status": "partial", "theorems": ["B2.C87_recognised_partial", "B2.C87_recognised_single", "B2.C87_recognised_refuted"], "note": "Refuted on (x+y)^2+x*y (group degree of the power is computed as 4); holds for one-variable groups and when negations/powers have operands whose group degree is the sum of variable degrees."},
 {"property": "C88", "status": "proved", "theorems": ["B2.Track.C88_fixed", "B2.Track.C88_amp"], "note": "For both kinds of tracker, for the state TrackPath starts from; the pass that ends the call is not counted."},
 {"property": "C89", "status": "partial", "theorems": ["B2.Track.C89_fixed_partial", "B2.Track.C89_amp_partial", "B2.Track.C89_refuted"], "note": "max_step_size is not consulted when the step size is initialised: false if initial_step_size exceeds it. Holds if it does not; for the adaptive tracker also 10^-13 times the path length must not exceed it."},
 {"property": "C90", "status": "partial", "theorems": ["B2.Track.C90_fixed_partial", "B2.Track.C90_refuted"], "note": "Holds at fixed precision (for end time 0; both trackers only use min_num_steps to bound the first step). The adaptive tracker enlarges its steps and finishes in fewer: refuted."},
 {"property": "C91", "status": "partial", "theorems": ["B2.Track.C91_optimal_partial", "B2.Track.C91_refuted"], "note": "The minimum is attained, ties go to the least precision, and the failure value is returned only if no cost fits a double; but the minimum precision is first rounded down to a multiple of ten, so the result may be below it (refuted). Costs are exact reals instead of doubles."},
 {"property": "C92", "status": "partial", "theorems": ["B2.Track.C92_partial", "B2.Track.C92_refuted"], "note": "Holds for calls started in double precision or at a multiple of ten digits. From any other start precision the rounding in MinimizeTrackingCost lowers the precision at the first accepted step: refuted."},
 {"property": "C93", "status": "proved", "theorems": ["B2.Track.C93"], "note": "For every start precision of at least 16 digits; configured maximum precision at most 1000 (MaxPrecisionAllowed)."},
 {"property": "C94", "status": "partial", "theorems": ["B2.Track.C94_partial", "B2.Track.C94_refuted"], "note": "Only up to rounding the demanded digits down to a multiple of ten (25 asked for, 20 used: refuted)."},
 {"property": "C95", "status": "partial", "theorems": ["B2.Parse.C95_partial", "B2.Parse.C95_refuted"], "note": "Literals with a point (with or without exponent) and integers without leading zeros. Missing: integers in scientific notation (rejected by the code, refuted) and leading zeros."},
 {"property": "C96", "status": "partial", "theorems": ["B2.C96_bound_partial", "B2.C96_exact", "B2.C96_refuted"], "note": "Bound for all trees whose near-integer exponents are integers; exact for expressions without cancellation. x^(2+2^-60) refutes the full claim."},
 {"property": "C97", "status": "partial", "theorems": ["B2.Track.C97_enough_partial", "B2.Track.C97_needed", "B2.Track.C97_refuted"], "note": "All precisions and step sizes; missing: double precision with steps below 1e-150, which the code refuses (refuted)."},
 {"property": "C98", "status": "partial", "theorems": ["B2.Endgame.C98_search_partial", "B2.Endgame.C98_bound", "B2.Endgame.C98_range", "B2.Endgame.C98_refuted"], "note": "Smallest minimiser over the computed range for all data; the range is 1 or ends at max_cycle_number or later, so max_cycle_number is not a maximum (refuted)."},
 {"property": "C99", "status": "partial", "theorems": ["B2.Endgame.C99_found_partial", "B2.Endgame.C99_exact_partial", "B2.Endgame.C99_refuted"], "note": "Degrees up to two, every cycle number, ray and sample times. Missing: higher degrees, where the interpolation routine is wrong (refuted with t^3)."},
 {"property": "C100", "status": "proved", "theorems": ["B2.Track.C100_matrix", "B2.Track.C100_newton", "B2.Track.C100_criterion"], "note": "Step size and precision after each kind of failed step, for all states; the criterion case in which the reduced step is permitted is in C93/C94 (cost minimiser)."},
 {"property": "C101", "status": "partial", "theorems": ["B2.Parse.Config.C101_partial", "B2.Parse.Config.C101_exact", "B2.Parse.Config.C101_refuted", "B2.Parse.Config.C101_refuted_fraction", "B2.Parse.Config.C101_refuted_silent", "B2.Parse.Config.C101_defaults", "B2.Parse.Config.C101_settings"], "note": "Full claim C101_full is refuted: a statement whose identifier merely ends with a setting name assigns it (SliceFinalTol sets FinalTol), fractions are rejected, invalid MPType with a space before the colon is ignored. Proved: exact behaviour (C101_exact) and the claim for all structs when names occur only as whole identifiers and values are not fractions."},
 {"property": "C102", "status": "partial", "theorems": ["B2.Parse.Config.C102_partial", "B2.Parse.Config.C102_exact", "B2.Parse.Config.C102_refuted"], "note": "Full claim refuted: text of other settings since the last recognised one is prepended to the name. Proved: the exact name for every section; the claim when the statement is first or directly follows a setting of the same struct."},
 {"property": "C103", "status": "partial", "theorems": ["B2.Parse.Config.C103_partial", "B2.Parse.Config.C103_default", "B2.Parse.Config.C103_exact", "B2.Parse.Config.C103_refuted"], "note": "Full claim refuted for adaptive precision (epsilon, Phi, Psi), sharpening and regeneration. Proved for all other structs and all texts; exact description of the uninitialised members for these three."},
 {"property": "C104", "status": "partial", "theorems": ["B2.Start.C104_sound_partial", "B2.Start.C104_complete_partial", "B2.Start.C104_affine", "B2.Start.C104_exact", "B2.Start.C104_refuted"], "note": "Full iff refuted by (x+y)^2+x^4 (the degree rule of powers of sums, see C06). Sound and complete where that rule is exact; negative for affine systems unconditionally."},
 {"property": "C105", "status": "proved", "theorems": ["B2.Sys.C105_points", "B2.Sys.C105_outputs"], "note": "All states, not only reachable ones."},
 {"property": "C106", "status": "partial", "theorems": ["B2.Endgame.C106_test", "B2.Endgame.C106_partial", "B2.Endgame.C106_refuted"], "note": "Holds with the square of the radius compared with ratio_cutoff_time (std::norm semantics of the code); the claim for the radius itself is refuted."},
 {"property": "C107", "status": "partial", "theorems": ["B2.Endgame.C107_partial", "B2.Endgame.C107_refuted"], "note": "Holds for the estimates without the newest one; full claim refuted: the newest estimate is never compared."},
 {"property": "C108", "status": "proved", "theorems": ["B2.C108_tidy", "B2.C108_again"], "note": "Under: no empty sums or products (no API call builds them), expression defined at the current values."},
 {"property": "C109", "status": "partial", "theorems": ["B2.C109_partial", "B2.C109_unchanged", "B2.C109_refuted", "B2.C109_silent"], "note": "Never more than the nodes eliminated; exact if only leaves were dropped; 0 exactly if unchanged for EliminateOnes and ReduceDepth. Full claim refuted: a dropped subtree counts once, and EliminateZeros may change a tree and return 0."},
 {"property": "C110", "status": "partial", "theorems": ["B2.Alg.Rec.C110_partial", "B2.Alg.Rec.C110_single", "B2.Alg.Rec.C110_refuted"], "note": "The full claim is false in the code (C110_refuted): the maximum runs over all paths and ignores start precisions. Proved: the exact value reported, for every history."},
 {"property": "C111", "status": "partial", "theorems": ["B2.Alg.Rec.C111_partial", "B2.Alg.Rec.C111_refuted"], "note": "The full claim is false in the code (C111_refuted): the flag is never reset. Proved: the exact condition of the mark, and when the time is right."},
 {"property": "C112", "status": "partial", "theorems": ["B2.Alg.C112_partial", "B2.Alg.C112_refuted"], "note": "The full claim is false in the code after a second Solve (C112_refuted); proved for the first, and soundness of the result for every call."},
 {"property": "C113", "status": "partial", "theorems": ["B2.Alg.C113_partial", "B2.Alg.C113_refuted"], "note": "The full claim is false in the code (C113_refuted): the extraction throws if a path never reached the endgame. Proved: exact condition and result."},
 {"property": "C114", "status": "proved", "theorems": ["B2.Alg.C114"], "note": "Every reachable state of the solver; endgames that never answer NeverStarted."},
 {"property": "C115", "status": "proved", "theorems": ["B2.Track.Crit.C115", "B2.Track.Crit.C115_mono"], "note": "Exact meaning of the three criteria over the reals, including zero arguments of the logarithm."},
 {"property": "C116", "status": "partial", "theorems": ["B2.Track.Crit.C116_partial", "B2.Track.Crit.C116_refuted"], "note": "The full claim is false in the code (off by one, C116_refuted). Proved with the true number of remaining iterations."},
 {"property": "C117", "status": "partial", "theorems": ["B2.Track.Crit.C117_partial", "B2.Track.Crit.C117_refuted"], "note": "The full claim is false in the code (truncation against strict inequality, C117_refuted). Proved for every larger precision, with the lower bound."},
 {"property": "C118", "status": "proved", "theorems": ["B2.Parse.Numbers.C118"], "note": "Acceptance, value, precision and exceptions, as equivalences. The value is the exact decimal; rounding not modelled."},
 {"property": "C119", "status": "partial", "theorems": ["B2.Parse.Numbers.C119_partial", "B2.Parse.Numbers.C119_refuted"], "note": "The full claim is false (no separator needed, C119_refuted). Proved: separated pairs are read; everything read is a pair."},
 {"property": "C120", "status": "partial", "theorems": ["B2.Parse.Numbers.C120_partial", "B2.Parse.Numbers.C120_refuted"], "note": "The full claim is false for numbers of size at least 10^digits (written with e+, refused). Proved for all others. The format written by the number library's str() is modelled from its documentation."},
 {"property": "C121", "status": "partial", "theorems": ["B2.Infra.Arch.C121_partial", "B2.Infra.Arch.C121_values_partial", "B2.Infra.Arch.C121_refuted", "B2.Infra.Arch.C121_values_refuted", "B2.Infra.Arch.C121_linear_lost"], "note": "Proved for systems without LinearProduct and Differential nodes; refuted in general."},
 {"property": "C122", "status": "partial", "theorems": ["B2.Infra.Arch.C122_partial", "B2.Infra.Arch.C122_refuted", "B2.Infra.Arch.C122_mhom_empty", "B2.Infra.Arch.C122_user_refuted", "B2.Infra.Arch.C122_user_mp", "B2.Infra.Arch.C122_user_dbl", "B2.Infra.Arch.C122_user_points"], "note": "Proved for total degree; refuted for multihomogeneous and user-defined start systems."},
 {"property": "C123", "status": "partial", "theorems": ["B2.Alg.Blackbox.C123_partial", "B2.Alg.Blackbox.C123_always_cauchy", "B2.Alg.Blackbox.C123_refuted"], "note": "Tracker, start system and policy as asked for. Refuted: the endgame choice is ignored, Cauchy is always used."},
 {"property": "C124", "status": "partial", "theorems": ["B2.Endgame.Refine.C124_partial", "B2.Endgame.Refine.C124_fixed", "B2.Endgame.Refine.C124_refuted", "B2.Endgame.Refine.C124_inPlace_refuted"], "note": "Holds for the adaptive precision endgame refining into another object. Refuted for fixed precision endgames (always Success) and for refining in place (second attempt starts from the failed iterate)."},
 {"property": "C125", "status": "partial", "theorems": ["B2.Endgame.Refine.C125_partial", "B2.Endgame.Refine.C125_refuted"], "note": "Holds for samples of uniform precision. Refuted: the version with derivatives does not test the times; only first coordinates count; fixed precision versions change nothing."},
 {"property": "C126", "status": "proved", "theorems": ["B2.Track.Coh.C126"], "note": "Invariant over all runs; numbers represented by their precision."},
 {"property": "C127", "status": "partial", "theorems": ["B2.Track.Coh.C127_partial", "B2.Track.Coh.C127_cut", "B2.Track.Coh.C127_refuted"], "note": "Holds for end times representable in the precision of the start point. Refuted otherwise: the end time is cut to the start point's digits."},
 {"property": "C128", "status": "partial", "theorems": ["B2.Track.Coh.C128_partial", "B2.Track.Coh.C128_refuted", "B2.Track.Coh.C128_default_refuted"], "note": "Everything returns to the start point's precision when switched on. Refuted: previous default precision, precision of the solution, and the documented default."},
 {"property": "C129", "status": "partial", "theorems": ["B2.Track.Coh.C129_partial", "B2.Track.Coh.C129_refuted"], "note": "Holds after any TrackPath. Refuted on a fresh tracker."},
 {"property": "C130", "status": "partial", "theorems": ["B2.Tree.Prec.C130_partial", "B2.Tree.Prec.C130_refuted", "B2.Tree.Prec.C130_linear_refuted"], "note": "Holds for any history if the system has no linear products and shares no function and no constant with others. Violated by shared constants and by linear products."},
 {"property": "C131", "status": "partial", "theorems": ["B2.Tree.Prec.C131_partial", "B2.Tree.Prec.C131_refuted", "B2.Tree.Prec.C131_stuck", "B2.Tree.Prec.C131_late"], "note": "Holds if default precision and system precision are always changed together. Violated otherwise."},
 {"property": "C132", "status": "partial", "theorems": ["B2.Tree.Prec.C132_partial", "B2.Tree.Prec.C132_refuted"], "note": "Violated for linear products made from a matrix of coefficients."},
 {"property": "C133", "status": "partial", "theorems": ["B2.Tree.Prec.C133_partial", "B2.Tree.Prec.C133_refuted"], "note": "The setter ignores its argument: the flag is never set."},
 {"property": "C134", "status": "partial", "theorems": ["B2.Parse.SysFile.C134_partial", "B2.Parse.SysFile.C134_refuted"], "note": "A file is accepted exactly if no reserved name and no name introduced earlier is a prefix of a name introduced; then every member of the system is as described. Full claim refuted: x and x1 cannot be declared in one file. Expressions as in C57_partial."},
 {"property": "C135", "status": "partial", "theorems": ["B2.Parse.SysFile.C135_partial", "B2.Parse.SysFile.C135_constants", "B2.Parse.SysFile.ev_unique", "B2.Parse.SysFile.C135_refuted"], "note": "Holds if no name is assigned twice. Refuted in general: assigning a subfunction again changes the functions that used it before."},
 {"property": "C136", "status": "partial", "theorems": ["B2.Parse.SysFile.C136_partial", "B2.Parse.SysFile.C136_undefined", "B2.Parse.SysFile.C136_cycle", "B2.Parse.SysFile.C136_refuted"], "note": "Exact criterion for a symbol to have a value. Full claim refuted: declared functions that are never assigned, and functions defined by themselves, are accepted."},
 {"property": "C137", "status": "partial", "theorems": ["B2.Alg.Md.C137_partial", "B2.Alg.Md.C137_refuted"], "note": "Exact members set per path; refuted in full: the three flags are never assigned, failed paths keep zero or stale data. With a fixed precision tracker the Newton residual copied into the metadata was itself never written (C169)."},
 {"property": "C138", "status": "partial", "theorems": ["B2.Alg.Md.C138_first", "B2.Alg.Md.C138_partial", "B2.Alg.Md.C138_refuted"], "note": "Holds for the first Solve; exact step sizes for any number of Solves; refuted for a second Solve."},
 {"property": "C139", "status": "partial", "theorems": ["B2.Alg.Htp.C139_partial", "B2.Alg.Htp.C139_values", "B2.Alg.Htp.C139_residual", "B2.Alg.Htp.C139_refuted"], "note": "Refuted: the target's functions become those of the homotopy and the start system's are multiplied by gamma t. Proved: what stays (variables, patches, unrelated systems), what both evaluate to, and what the reported residual is at an exact solution."},
 {"property": "C140", "status": "proved", "theorems": ["B2.Alg.Htp.C140", "B2.Alg.Htp.C140_forms", "B2.Alg.Htp.C140_ends"], "note": "Exact arithmetic. Hypotheses: no function twice or in both systems, equal numbers of functions, fresh path variable, variables can be listed, point fits the patch; gamma nonzero for the start end."},
 {"property": "C141", "status": "proved", "theorems": ["B2.Alg.Htp.C141"], "note": "Exact arithmetic; for targets that are affine and unpatched, or homogenized with one patch (as in C32), with distinct variables."},
 {"property": "C142", "status": "partial", "theorems": ["B2.Sys.C142_partial", "B2.Sys.C142_zeros_partial", "B2.Sys.C142_refuted"], "note": "Refuted in full: the degree of a negated sum is counted as the sum of the degrees in its variables, so Homogenize pads wrongly. Partial for expanded functions with exact unary degrees."},
 {"property": "C143", "status": "partial", "theorems": ["B2.Alg.Htp.C143_partial", "B2.Alg.Htp.C143_any", "B2.Alg.Htp.C143_refuted"], "note": "Refuted in full: after Homogenize, IsHomogeneous is false for x-(x+1), and AutoPatch throws. Partial for syntactic polynomials; any patch that fits can be drawn."},
 {"property": "C144", "status": "proved", "theorems": ["B2.Alg.Htp.C144", "B2.Alg.Htp.C144_solutions"], "note": "For syntactic polynomials (sums and products of monomials) in one affine group; total degree start system."},
 {"property": "C145", "status": "partial", "theorems": ["B2.Alg.Htp.C145_never", "B2.Alg.Htp.C145_refuted"], "note": "The full statement is false: PrepareTarget always homogenizes and GenerateStartPoint of MHomogeneous returns only the natural grouped variables (no homogenizing coordinates, no rescaling to the patch), so evaluating the homotopy at a start point throws for every target with an affine group (C145_never). C145_refuted gives the target x^2, y^3."},
 {"property": "C146", "status": "partial", "theorems": ["B2.Sys.C146_move_partial", "B2.Sys.C146_swap_partial", "B2.Sys.C146_refuted"], "note": "False in general: swap exchanges is_differentiated_ but not slp_, so a system evaluated by straight line program and then moved evaluates an empty program (C146_refuted: the result is uninitialised memory). Proved for systems that are not differentiated or are evaluated by function trees."},
 {"property": "C147", "status": "proved", "theorems": ["B2.Alg.Htp.C147", "B2.Alg.Htp.C147_count", "B2.Alg.Htp.C147_sharp"], "note": "Single variable group, homogenized and patched by the solve; exact arithmetic. Finitely many rays, so all but a null set of gamma."},
 {"property": "C148", "status": "proved", "theorems": ["B2.Alg.Htp.C148", "B2.Alg.Htp.C148_all"], "note": "Fixed precision, no truncation at infinity, linear solves exact where the Jacobian is invertible."},
 {"property": "C149", "status": "proved", "theorems": ["B2.Alg.Htp.C149"], "note": "Exact arithmetic, fixed-precision tracker, endgame as an accurate oracle; first call of Solve."},
 {"property": "C150", "status": "partial", "theorems": ["B2.Endgame.C150_accurate_partial", "B2.Endgame.C150_succeeds_partial", "B2.Endgame.C150_refuted"], "note": "Exact tracking, exact arithmetic, real sample times, target time 0. Accuracy for all start times within a radius that depends on the path and the accuracy; success from any start time if min_track_time is small enough. The full claim (success implies accuracy, from any start time) is refuted: two successive extrapolations may agree and miss the limit."},
 {"property": "C151", "status": "proved", "theorems": ["B2.Alg.Htp.C151", "B2.Alg.Htp.C151_series", "B2.Alg.Htp.C151_endgame"], "note": "Exact arithmetic, fixed-precision tracker, exact tracking inside the endgame; single variable group; first call of Solve."},
 {"property": "C152", "status": "partial", "theorems": ["B2.Endgame.C152_accurate_partial", "B2.Endgame.C152_succeeds_partial", "B2.Endgame.C152_refuted"], "note": "Exact tracking, exact arithmetic, target time 0; the estimates of c/k are arbitrary. Accuracy for all start times within a radius that depends on the path, the accuracy, the final tolerance and the cutoffs; success from any start time if min_track_time is small enough and the security check is not made. The full claim (success implies accuracy, from any start time) is refuted."},
 {"property": "C153", "status": "proved", "theorems": ["B2.Alg.Htp.C153", "B2.Alg.Htp.C153_endgame"], "note": "Exact arithmetic, fixed-precision tracker, exact tracking inside the endgame; single variable group; first call of Solve; fail_safe_maximum_cycle_number at least the number of paths."},
 {"property": "C154", "status": "proved", "theorems": ["B2.Alg.Htp.C154_limits", "B2.Alg.Htp.C154_bound", "B2.Alg.Htp.C154"], "note": "All solutions, singular or not, are exactly the dehomogenized finite limits of the paths, and are reported; exact arithmetic, no zeros of the target at infinity for the patch."},
 {"property": "C155", "status": "proved", "theorems": ["B2.Alg.Htp.C155_paths", "B2.Alg.Htp.C155"], "note": "One variable; exact arithmetic; no zeros of the target at infinity for the patch."},
 {"property": "C156", "status": "proved", "theorems": ["B2.Alg.Htp.C156"], "note": "Bad random choices lie in finitely many hyperplanes (patch) and rays (gamma), when the homogenized target has finitely many zeros."},
 {"property": "C157", "status": "proved", "theorems": ["B2.Alg.Htp.C157", "B2.Alg.Htp.C157_paths", "B2.Alg.Htp.C157_exists", "B2.Alg.Htp.C157_unique"], "note": "Assumes what C153/C154 assume (fine tracker, Cauchy endgame as modelled, no zero at infinity for the patch). HasMultiplicity is defined by perturbation of coefficients only."},
 {"property": "C158", "status": "proved", "theorems": ["B2.Alg.Htp.C158", "B2.Alg.Htp.C158_values", "B2.Alg.Htp.C158_generic", "B2.Alg.Htp.C158_paths", "B2.Alg.Htp.C158_crossed", "B2.Alg.Htp.C158_sphere"], "note": "Whole solve under the assumptions of C153/C154."},
 {"property": "C159", "status": "partial", "theorems": ["B2.Infra.Rnd.C159_partial", "B2.Infra.Rnd.C159_default", "B2.Infra.Rnd.C159_correlated", "B2.Infra.Rnd.C159_refuted"], "note": "Documented bound holds exactly when 2^(1000d/301) <= 10^d (true for the default, false for 59); RandomRat throws when the denominator drawn is 0; RandomInt and RandomRat give correlated numbers."},
 {"property": "C160", "status": "partial", "theorems": ["B2.Infra.Rnd.C160_partial", "B2.Infra.Rnd.C160_rand", "B2.Infra.Rnd.C160_sequence", "B2.Infra.Rnd.C160_refuted", "B2.Infra.Rnd.pick_spec"], "note": "Holds up to 40000 digits; beyond, an exception which leaves the default precision changed. Calls in a row use the successive numbers of the generator."},
 {"property": "C161", "status": "proved", "theorems": ["B2.Alg.UserH.C161", "B2.Alg.UserH.C161_ps"], "note": "Exact arithmetic; tracker and endgame as in C152-C154 (fine enough, accurate enough). The homotopy need not be polynomial."},
 {"property": "C162", "status": "partial", "theorems": ["B2.Alg.Wire.C162_partial", "B2.Alg.Wire.C162_again", "B2.Alg.Wire.C162_setTracker", "B2.Alg.Wire.C162_stale", "B2.Alg.Wire.C162_copy", "B2.Alg.Wire.C162_refuted"], "note": "False as stated: after Homotopy(h) or StartSystem(s) the tracker and the number of start points are the old ones, and the endgame of a copied solver refers to the tracker of the original. True until such a call (C162_partial), after DefaultSetup (C162_again), and after SetTracker exactly if the tracker given tracks the homotopy (C162_setTracker)."},
 {"property": "C163", "status": "partial", "theorems": ["B2.Alg.Wire.C163_partial", "B2.Alg.Wire.C163_copies", "B2.Alg.Wire.C163_refuted"], "note": "False as stated: copies of a tracker share predictor and corrector. True for programs without copies of trackers (C163_partial)."},
 {"property": "C164", "status": "partial", "theorems": ["B2.Alg.Conf.C164_partial", "B2.Alg.Conf.C164_unused", "B2.Alg.Conf.C164_defaults", "B2.Alg.Conf.C164_rejected", "B2.Alg.Conf.C164_path", "B2.Alg.Conf.C164_refuted"], "note": "Refuted in full: Tolerances.final_tolerance never reaches the endgame. The settings that do reach the solve do so after every program; the others have no influence at all; Default...Setup gives the documented values."},
 {"property": "C165", "status": "partial", "theorems": ["B2.SLP.C165_partial", "B2.SLP.C165_stale", "B2.SLP.C165_same_twice", "B2.SLP.C165_refuted"], "note": "Each program is right when no two of the systems share an exponent of an integer power; refuted otherwise, since Clear does not forget the integer table."},
 {"property": "C166", "status": "partial", "theorems": ["B2.Sys.C166_partial", "B2.Sys.C166_at_most", "B2.Sys.C166_linear", "B2.Sys.C166_possible", "B2.Sys.C166_refuted"], "note": "Exact arithmetic. The bound is attained by something seen at the draws; it is not a bound of the coefficients for every draw (refuted by x^2-2xy+y^2), it is for some draw of every system."},
 {"property": "C167", "status": "partial", "theorems": ["B2.Sys.C167_partial", "B2.Sys.C167_nonpolynomial", "B2.Sys.C167_refuted"], "note": "Degree bound proved; Phi and Psi are bounds provided the coefficient bound is at least the coefficient sum, which CoefficientBound does not guarantee (refuted)."},
 {"property": "C168", "status": "partial", "theorems": ["B2.Track.Fix.C168_partial", "B2.Track.Fix.C168_new", "B2.Track.Fix.C168_start", "B2.Track.Fix.C168_step", "B2.Track.Fix.C168_digits", "B2.Track.Fix.C168_first_step", "B2.Track.Fix.C168_checked", "B2.Track.Fix.C168_table_checked", "B2.Track.Fix.C168_refuted", "B2.Track.Fix.C168_table_refuted"], "note": "Uniform use is never refused and stays at the tracker's precision. An end time or step size with more digits is noticed only at the first step that would succeed. Refuted in general: only the first coordinate of the start point is checked, and the predictor's table has the default precision of the moment it was chosen, which is noticed only when assertions are compiled in."},
 {"property": "C169", "status": "partial", "theorems": ["B2.Track.Stat.C169_partial", "B2.Track.Stat.C169_cond", "B2.Track.Stat.C169_amp", "B2.Track.Stat.C169_read", "B2.Track.Stat.C169_fixed_unwritten", "B2.Track.Stat.C169_frequency_refuted", "B2.Track.Stat.C169_refuted", "B2.Track.Stat.C169_step_refuted"], "note": "Refuted: the counter of SetNormsCond is passed by value, so the condition number is estimated at every prediction whatever frequency_of_CN_estimation is; a fixed precision tracker never writes norm_delta_z_, so newton_residual in the metadata is uninitialised. Proved: which step the reported condition number belongs to, for every history; the step length and error estimate of an adaptive tracker; what its precision logic reads was written during the step."},
 {"property": "C170", "status": "proved", "theorems": ["B2.Infra.Permute.C170_accepted", "B2.Infra.Permute.C170_filled", "B2.Infra.Permute.C170_order"], "note": "For distinct settings types, which the static_assert enforces."},
 {"property": "C171", "status": "partial", "theorems": ["B2.Sys.C171_differential", "B2.Sys.C171_partial", "B2.Sys.C171_agree", "B2.Sys.C171_time_zero", "B2.Sys.C171_refuted", "B2.Sys.C171_stale_refuted", "B2.Sys.C171_get_refuted", "B2.Sys.C171_copy_refuted", "B2.Sys.C171_time_refuted"], "note": "Holds for every choice of the two methods as long as methods are changed, derivatives requested and copies made before the system is differentiated (DSafe), except the time derivative of a compiled system with JacobianNode, which is always 0: Compile calls GetTimeDerivatives twice and gets different nodes. Refuted for switching DerivMethod afterwards (out of range or stale derivatives), for GetSpaceDerivatives on a fresh system (uninitialised Jacobian), for copies."},
 {"property": "C172", "status": "partial", "theorems": ["B2.Track.Tol.C172_partial", "B2.Track.Tol.C172_digits", "B2.Track.Tol.C172_precision", "B2.Track.Tol.C172_refuted"], "note": "Holds for tolerances below ten and positive thresholds. Refuted in general: Setup does not check the truncation threshold, it has changed the predictor when it throws, and a tolerance of ten or more is converted from a negative number to unsigned. After an accepted step the precision may be up to nine digits short (C94)."},
 {"property": "C173", "status": "partial", "theorems": ["B2.Alg.Report.C173_partial", "B2.Alg.Report.C173_main", "B2.Alg.Report.C173_refuted"], "note": "The layout can always be read back; integers, coordinates and times exactly, doubles up to the precision of the stream (relative error at most 5e-6 by default). Refuted: doubles are not exact, 1048577 is printed as 1.04858e+06."},
 {"property": "C174", "status": "partial", "theorems": ["B2.Fresh.C174_partial", "B2.Fresh.C174_refuted"], "note": "Proved for expressions built with sums, products, quotients, integer powers, exp, sin, cos and constants, for every law of the angles with a density. Refuted in general: with branch cuts, (sqrt(x^2)-x)*x is simplified to 0 for half of the angles. Missing: tan; floating point."},
 {"property": "C175", "status": "proved", "theorems": ["B2.Track.C175_fixed", "B2.Track.C175_amp"], "note": "For every tracker state at the start of a call, after any number of passes. Exact numbers; notifications from inside an iteration (predictions, corrections, precision changes) and of the initialisation are not modelled."},
 {"property": "C176", "status": "partial", "theorems": ["B2.Infra.C176_partial", "B2.Infra.C176_copy_partial", "B2.Infra.C176_multi_partial", "B2.Infra.C176_order_partial", "B2.Infra.C176_dangling", "B2.Infra.C176_refuted"], "note": "Refuted: copying (or moving) an observable copies its list of observers, so an observer receives events of copies it was never added to, and stays referenced there after being removed from its own object. Proved when no observed object is copied or assigned to, and the exact behaviour in general."},
 {"property": "C177", "status": "partial", "theorems": ["B2.Track.C177_amp_partial", "B2.Track.C177_fixed_partial", "B2.Track.C177_success_partial", "B2.Track.C177_call_partial", "B2.Track.C177_refuted", "B2.Track.C177_solve_refuted"], "note": "Refuted: a correction that does not converge is announced as a failed linear solve by both trackers (solves may all succeed), and the fixed precision tracker announces every failed prediction as a failure of the first solve. Proved: the exact notifications for every outcome, and that SuccessfulCorrect and SingularStartPoint are sent exactly when they should."},
 {"property": "C178", "status": "partial", "theorems": ["B2.Endgame.C178_ps_partial", "B2.Endgame.C178_cauchy_partial", "B2.Endgame.C178_advance_partial", "B2.Endgame.C178_silent", "B2.Endgame.C178_twice", "B2.Endgame.C178_refuted", "B2.Endgame.C178_ps_refuted"], "note": "A success is announced as stated by both endgames. Failures: the power series endgame announces some twice, the Cauchy endgame does not announce all of them."},
 {"property": "C179", "status": "partial", "theorems": ["B2.Patch.C179_partial", "B2.Patch.C179_refuted"], "note": "Comparison proved for the stored coefficients. Missing: equal patches at the same working precision may hold different working coefficients."},
 {"property": "C180", "status": "proved", "theorems": ["B2.Patch.C180_real"], "note": ""},
 {"property": "C181", "status": "partial", "theorems": ["B2.Parse.Doubles.C181_partial", "B2.Parse.Doubles.C181_real", "B2.Parse.Doubles.C181_refuted"], "note": "Proved: complex numbers in double precision are read back in both formats, for all values. Refuted for real numbers in the classic format: Classic::generate writes a number and a zero, which classic::parse for double refuses, for every double (C181_real)."},
 {"property": "C182", "status": "proved", "theorems": ["B2.Parse.Doubles.C182_real", "B2.Parse.Doubles.C182_classic", "B2.Parse.Doubles.C182_cpp"], "note": "Real and C++ format: exact characterisation of the accepted texts and values. Classic complex: accepted texts are one or two numbers, and every such text with white space between the numbers is accepted."},
 {"property": "C183", "status": "partial", "theorems": ["B2.C183_partial", "B2.C183_hom", "B2.C183_diff", "B2.C183_refuted"], "note": "Proved for products that were not homogenized by a variable, and for differentials. Refuted for homogenized products: the homogenizing variable is missing in the text, which denotes the value where this variable is 1 (C183_hom)."},
 {"property": "C184", "status": "partial", "theorems": ["B2.C184_partial", "B2.C184_false", "B2.C184_refuted"], "note": "Proved for every variable except the homogenizing one, and for all variables together. Refuted: IsHomogeneous(h) answers true for the homogenizing variable h of 2x+3h."},
 {"property": "C185", "status": "partial", "theorems": ["B2.SLP.C185_partial", "B2.SLP.C185_listing", "B2.SLP.C185_same_text", "B2.SLP.C185_refuted"], "note": "Listing in order, no access out of range, and equal text plus equal exponent table gives equal results. Refuted in full: integers_ is not printed, so programs for 3^0+x and 3^1+x print alike and compute differently. Decimal rounding of printed numbers not modelled."},
 {"property": "C186", "status": "partial", "theorems": ["B2.Infra.Mat.C186_partial", "B2.Infra.Mat.C186_uniform", "B2.Infra.Mat.C186_throws", "B2.Infra.Mat.C186_set", "B2.Infra.Mat.C186_empty", "B2.Infra.Mat.C186_refuted"], "note": "PrecisionRequireUniform characterised outright, setting reaches every entry. Refuted in full: Precision(v) returns the precision of the first entry only; on an empty matrix PrecisionRequireUniform accesses v(0,0)."},
 {"property": "C187", "status": "proved", "theorems": ["B2.Infra.Mat.C187_entries", "B2.Infra.Mat.C187_det", "B2.Infra.Mat.C187_invertible"], "note": "Entries, determinant and invertibility for all sizes, in exact arithmetic."},
 {"property": "C188", "status": "partial", "theorems": ["B2.Sys.C188_partial", "B2.Sys.C188_same", "B2.Sys.C188_affine", "B2.Sys.C188_counts", "B2.Sys.C188_derivatives", "B2.Sys.C188_hom_missing", "B2.Sys.C188_order_lost", "B2.Sys.C188_refuted"], "note": "Proved: without homogeneous groups all variables are named, and the text with the kinds of blocks determines Variables(); functions, parameters, constants, path variable always; counts, numbering and labels of derivatives. Refuted in full: homogeneous groups and the interleaving of groups and ungrouped variables are not printed."},
 {"property": "C189", "status": "partial", "theorems": ["B2.Parse.C189_partial", "B2.Parse.C189_parse", "B2.Parse.C189_layout", "B2.Parse.C189_comment", "B2.Parse.C189_refuted"], "note": "Proved for ParseInputFile on all files, and for SplitIntoConfigAndInput on files without comments. Missing: SplitIntoConfigAndInput on files with comments, where it is false (C189_refuted): it does not strip them."},
 {"property": "C190", "status": "proved", "theorems": ["B2.Alg.Md.C190", "B2.Alg.Md.C190_eq", "B2.Alg.Md.C190_ne", "B2.Alg.Md.C190_readable", "B2.Alg.Md.C190_print", "B2.Alg.Md.C190_boundary", "B2.Alg.Md.C190_local"], "note": "For records in the vectors of the solver. Numbers are not NaN; printed values are taken in full."},
 {"property": "C191", "status": "proved", "theorems": ["B2.Infra.Herm.C191", "B2.Infra.Herm.C191_rounded", "B2.Infra.Herm.C191_definite"], "note": "The loops of the matrix library are taken to add from left to right; all parts of one precision."},
 {"property": "C192", "status": "partial", "theorems": ["B2.Tree.Share.C192_partial", "B2.Tree.Share.C192_nodes", "B2.Tree.Share.C192_push", "B2.Tree.Share.C192_cycle", "B2.Tree.Share.C192_shared", "B2.Tree.Share.C192_refuted"], "note": "Proved for pointers to nodes, all graphs. Refuted for pointers to products and for sums: the shared node is changed. Proved there for expressions in which the node does not occur; if it occurs on the right, evaluation does not end afterwards (C192_cycle)."},
 {"property": "C193", "status": "partial", "theorems": ["B2.SLP.C193_partial", "B2.SLP.C193_nodes", "B2.SLP.C193_compiled", "B2.SLP.C193_refuted"], "note": "Node values are set exactly; in a compiled system (the default) every implicit parameter is read as the first variable, so the full claim is refuted; correct for functions without parameters or where they equal the first variable."}
]}
