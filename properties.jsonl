{"id": "C01", "title": "Differentiate returns the true partial derivative", "statement": "For every expression built from the node API (constants, variables, +, -, *, /, negation, integer and general powers, sqrt, exp, log, sin, cos, tan, asin, acos, atan) and every variable v, evaluating the expression returned by Differentiate(v) at a point gives exactly the partial derivative with respect to v of the function computed by the original expression at that point, at every point where the expression is defined and smooth (no zero denominator, no branch cut).", "quantifier": "all expression trees, all variables v, all complex points in the open domain of the expression", "why_tests_cant": "A test differentiates a handful of fixed expressions at fixed points; the claim is about every nesting of the operators and every point, including quotients inside products inside powers.", "anchors": ["core/src/function_tree/operators/arithmetic.cpp: SumOperator/MultOperator/PowerOperator/IntegerPowerOperator/SqrtOperator/ExpOperator/LogOperator::Differentiate", "core/src/function_tree/operators/trig.cpp: *Operator::Differentiate"]}
{"id": "C02", "title": "A non-negative Degree(v) certifies a polynomial of at most that degree in v", "statement": "If Degree(v) of an expression returns d >= 0, then with all other variables frozen the expression is a polynomial function of v of degree at most d; in particular Degree(v)=0 certifies that the value does not depend on v.", "quantifier": "all expression trees, all variables, all values of the other variables at which the expression is defined", "why_tests_cant": "The start system, the Bezout count and the homogenization all trust this integer for whatever expression the user types; tests sample a few expressions.", "anchors": ["core/src/function_tree/operators/arithmetic.cpp: *Operator::Degree(v)", "core/src/function_tree/operators/operator.cpp: UnaryOperator::Degree", "core/src/function_tree/symbols/variable.cpp: Variable::Degree"]}
{"id": "C03", "title": "Degree(group) is the total degree in the group", "statement": "If Degree(vars) returns d >= 0 then the expression is a polynomial of total degree at most d jointly in the variables of the group, and for a sum-of-monomials expression it returns exactly the largest monomial degree; a negative answer is returned whenever a subexpression is not polynomial in the group.", "quantifier": "all expression trees, all variable groups", "why_tests_cant": "Joint degree in many variables is a claim about all scalings of all points; tests check a list of literal expressions and miss operators whose group degree is computed by a different rule.", "anchors": ["core/src/function_tree/operators/arithmetic.cpp: SumOperator::Degree(vars), MultOperator::Degree(vars), PowerOperator::Degree(vars)", "core/src/function_tree/operators/operator.cpp: UnaryOperator::Degree(VariableGroup)"]}
{"id": "C04", "title": "Setting the homogenizing variable to 1 recovers the original function", "statement": "After a successful Homogenize(vars, h), evaluating the homogenized expression at any point with h = 1 gives the value the original expression had at that point.", "quantifier": "all expression trees on which Homogenize does not throw, all groups, all homogenizing variables, all points with h=1", "why_tests_cant": "The claim ranges over every expression and every point; a counterexample would be a lost or duplicated term in one operator combination.", "anchors": ["core/src/function_tree/operators/arithmetic.cpp: SumOperator::Homogenize, MultOperator::Homogenize, PowerOperator::Homogenize", "core/src/function_tree/operators/operator.cpp: UnaryOperator::Homogenize"]}
{"id": "C05", "title": "Homogenize produces a homogeneous function", "statement": "After a successful Homogenize(vars, h), the expression is homogeneous jointly in vars and h: scaling all of them by lambda multiplies the value by lambda^d, with d the degree in the group reported before homogenizing.", "quantifier": "all polynomial expression trees, all groups, all scalings lambda, all points", "why_tests_cant": "Homogeneity is an identity in all lambda and all points, and must survive arbitrary nesting; tests call IsHomogeneous on a few results, which shares the degree computation under test.", "anchors": ["core/src/function_tree/operators/arithmetic.cpp: SumOperator::Homogenize", "core/src/function_tree/operators/operator.cpp: UnaryOperator::Homogenize, Degree(VariableGroup)"]}
{"id": "C06", "title": "IsHomogeneous(vars)=true is sound", "statement": "If IsHomogeneous(vars) returns true then scaling all variables of the group by lambda multiplies the value of the expression by lambda^Degree(vars).", "quantifier": "all expression trees, all groups, all lambda, all points", "why_tests_cant": "A universally quantified functional identity; a sample of literals cannot show it and the wrong degree rule for powers and unary operators only shows for multi-variable operands.", "anchors": ["core/src/function_tree/operators/arithmetic.cpp: SumOperator::IsHomogeneous, MultOperator::IsHomogeneous, PowerOperator::IsHomogeneous", "core/include/bertini2/function_tree/operators/arithmetic.hpp: IntegerPowerOperator::IsHomogeneous"]}
{"id": "C07", "title": "IsPolynomial(vars)=true is sound", "statement": "If IsPolynomial(vars) returns true then the expression is a polynomial function of the variables in the group, jointly, with the other variables frozen.", "quantifier": "all expression trees, all groups", "why_tests_cant": "The solver admits or rejects systems on this answer; the unsound cases need a particular operator wrapped around a sum that mixes polynomial and non-polynomial parts in different variables.", "anchors": ["core/src/function_tree/node.cpp: Node::IsPolynomial", "core/src/function_tree/operators/operator.cpp: UnaryOperator::Degree(VariableGroup)", "core/src/system/system.cpp: System::IsPolynomial"]}
{"id": "C08", "title": "MultiDegree lists the degree in each variable", "statement": "MultiDegree(vars) returns a list of the same length as vars whose k-th entry is Degree(vars[k]).", "quantifier": "all expression trees, all variable groups", "why_tests_cant": "Agreement of two separately implemented recursive computations on every tree.", "anchors": ["core/src/function_tree/operators/arithmetic.cpp: SumOperator::MultiDegree, MultOperator::MultiDegree", "core/src/function_tree/operators/operator.cpp: UnaryOperator::MultiDegree"]}
{"id": "C09", "title": "ReduceDepth never changes the value", "statement": "Flattening nested sums and products (ReduceDepth) leaves the value of the expression unchanged at every point, including signs and multiply/divide flags of the spliced operands.", "quantifier": "all expression trees, all points", "why_tests_cant": "Sign and division flags combine by XNOR at every level of arbitrary nesting; a test covers a few sign patterns.", "anchors": ["core/src/function_tree/operators/arithmetic.cpp: SumOperator::ReduceSubSums, ReduceSubMults, ReduceDepth; MultOperator::ReduceSubSums, ReduceSubMults, ReduceDepth"]}
{"id": "C10", "title": "Simplify preserves the function", "statement": "Simplify(expr) (ReduceDepth + EliminateOnes + EliminateZeros to a fixed point) leaves the value of the expression unchanged at every point, whatever values the variables hold when Simplify is called.", "quantifier": "all expression trees, all current variable values, all evaluation points", "why_tests_cant": "The result depends on hidden state (the variables' current values) at the time of the call; a test fixes one state.", "anchors": ["core/src/function_tree/simplify.cpp: Simplify", "core/src/function_tree/operators/arithmetic.cpp: SumOperator::EliminateZeros, MultOperator::EliminateZeros, MultOperator::EliminateOnes"]}
{"id": "C11", "title": "Simplify terminates", "statement": "The fixed-point loop of Simplify stops after finitely many rounds for every expression, and the result has no more nodes than the input.", "quantifier": "all expression trees, all current variable values", "why_tests_cant": "Termination is a statement about all inputs; a test only sees those that stopped.", "anchors": ["core/src/function_tree/simplify.cpp: Simplify", "core/src/function_tree/operators/arithmetic.cpp: ReduceDepth/EliminateZeros/EliminateOnes return counts"]}
{"id": "C12", "title": "Evaluation after Reset is never stale", "statement": "In any history of setting variable values, resetting and evaluating expressions that share subexpressions, an Eval performed after Reset on that expression returns the value determined by the current variable values, and repeated Evals without changes return the same value; without a Reset the value returned is the one from the last evaluation since the last Reset.", "quantifier": "all expression graphs with sharing, all histories of set/reset/eval operations", "why_tests_cant": "Caching bugs depend on the interleaving of sets, partial resets and evaluations on shared subexpressions.", "anchors": ["core/src/function_tree/node.cpp: Node::EvalInPlace, Node::ResetStoredValues", "core/src/function_tree/operators/operator.cpp: *::Reset", "core/include/bertini2/system/system.hpp: System::ResetFunctions"]}
{"id": "C13", "title": "Operator overloads build expressions with the intended value", "statement": "The value of an expression assembled with the overloaded operators (+, -, *, /, unary minus, pow with integer exponent, and the compound forms) is the corresponding arithmetic combination of the operands' values, including the case where two integer powers of the same expression are merged into one.", "quantifier": "all operand expressions, all exponents, all points", "why_tests_cant": "The merge and flag handling are special cases triggered by operand shape, over all exponents.", "anchors": ["core/include/bertini2/function_tree/operators/arithmetic.hpp: operator+=, operator-=, operator*=, operator/=, pow"]}
{"id": "C14", "title": "A product of linears evaluates to the product of its linear forms and differentiates by the product rule", "statement": "A LinearProduct node evaluates to the product over its factors of (sum of coefficient*variable + constant*homogenizing variable), and its derivative evaluates to the true derivative with respect to any of its variables, including the homogenizing variable.", "quantifier": "all numbers of factors and variables, all coefficients, all points, all differentiation variables", "why_tests_cant": "Index arithmetic over arbitrary matrix shapes; the homogenizing column is a boundary case.", "anchors": ["core/src/function_tree/linear_product.cpp: LinearProduct::Differentiate, GetLinears", "core/include/bertini2/function_tree/symbols/linear_product.hpp: FreshEval_d, DiffLinear::FreshEval_d"]}
{"id": "C15", "title": "A compiled straight-line program computes exactly what the expression trees compute", "statement": "For every system, the straight-line program obtained by compiling it returns, for every assignment of the variables and path variable, the same function values, Jacobian entries and time derivatives as evaluating the expression trees, and every instruction reads only memory already written.", "quantifier": "all systems (arbitrarily shared expression graphs), all inputs", "why_tests_cant": "Compiler correctness over all programs and inputs; tests compile a few systems.", "anchors": ["core/src/system/straight_line_program.cpp: SLPCompiler::Visit, Compile; StraightLineProgram::Eval, AddInstruction", "core/include/bertini2/system/straight_line_program.hpp: GetFuncValsInPlace, GetJacobianInPlace"]}
{"id": "C16", "title": "Compilation emits each shared subexpression once", "statement": "The number of arithmetic instructions emitted is bounded by the number of operand edges of distinct nodes reachable in the system, never by the size of the expanded tree; no memory location is written twice.", "quantifier": "all expression graphs", "why_tests_cant": "Sharing can be exponential; tests use small graphs.", "anchors": ["core/src/system/straight_line_program.cpp: SLPCompiler::Visit (locations_encountered_nodes_)"]}
{"id": "C17", "title": "SLP results reflect the most recent inputs and precision", "statement": "After setting variable values (or the path variable, or the precision) on a straight-line program, the next evaluation recomputes every output from the new inputs; evaluating twice without a change returns the same outputs.", "quantifier": "all programs, all histories of set/evaluate/precision operations in either number type", "why_tests_cant": "The stale-flag protocol involves two number types and several entry points; failures need a particular order of calls.", "anchors": ["core/src/system/straight_line_program.cpp: StraightLineProgram::Eval, precision", "core/include/bertini2/system/straight_line_program.hpp: SetVariableValues, SetPathVariable"]}
{"id": "C18", "title": "Variable ordering lists every variable exactly once, grouped, with homogenizing variables first", "statement": "Variables() returns each variable of the system exactly once; its length is NumVariables(); each variable group occupies a contiguous block in the order the groups were added; after homogenizing, each affine group's block starts with its homogenizing variable.", "quantifier": "all histories of adding ungrouped variables, affine groups and homogeneous groups, before and after Homogenize", "why_tests_cant": "Depends on the whole construction history; tests use two or three groups.", "anchors": ["core/src/system/system.cpp: System::VariableOrdering, Variables, AddVariableGroup, AddHomVariableGroup, AddUngroupedVariable, Homogenize"]}
{"id": "C19", "title": "VariableGroupSizes agrees with the ordering and drives patch and dehomogenization blocks", "statement": "VariableGroupSizes() lists, in order of addition, the sizes of the blocks the groups occupy in Variables(), and the sizes sum to NumVariables() minus the number of ungrouped variables.", "quantifier": "all construction histories", "why_tests_cant": "Three lists and a time-order list must stay in step over every history.", "anchors": ["core/src/system/system.cpp: System::VariableGroupSizesFIFO, VariableOrdering, AutoPatchFIFO"]}
{"id": "C20", "title": "Evaluation binds coordinate k of the point to variable k of the ordering", "statement": "Eval(x) equals the vector of function values with the k-th variable of Variables() bound to x(k), followed by the patch values when the system is patched; a point of the wrong length is rejected.", "quantifier": "all systems, all points, all previous evaluations", "why_tests_cant": "Independence from everything evaluated before is a claim about all histories.", "anchors": ["core/include/bertini2/system/system.hpp: System::EvalInPlace, SetVariables"]}
{"id": "C21", "title": "Jacobian entry (i,j) is the derivative of function i in variable j", "statement": "Jacobian(x)(i,j) is the partial derivative at x of the i-th function with respect to the j-th variable of the ordering, with the patch rows appended, irrespective of the number of functions and variables.", "quantifier": "all systems, all shapes, all points", "why_tests_cant": "The derivative list is stored flat; a transposed index only shows for non-square shapes or particular sizes.", "anchors": ["core/src/system/system.cpp: System::DifferentiateUsingDerivatives", "core/include/bertini2/system/system.hpp: System::JacobianInPlace", "core/include/bertini2/system/straight_line_program.hpp: GetJacobianInPlace"]}
{"id": "C22", "title": "Derivatives always belong to the current functions", "statement": "After any sequence of edits to a system (adding functions or variables, adding or scaling systems, reordering, homogenizing), the Jacobian subsequently computed is that of the current functions.", "quantifier": "all histories of edits and Jacobian evaluations", "why_tests_cant": "Requires every mutating entry point to invalidate the stored derivatives; a missed one needs the right order of calls to show.", "anchors": ["core/src/system/system.cpp: System::operator+=, operator*=, ReorderFunctionsByDegreeDecreasing, AddFunction, Homogenize, Differentiate"]}
{"id": "C23", "title": "Adding or scaling systems does not change the operands", "statement": "Computing a+b or n*s, or modifying a copy of a system, leaves the values of a, b and s unchanged.", "quantifier": "all systems, all histories of copies and arithmetic", "why_tests_cant": "Aliasing between copies is invisible unless the original is re-evaluated after the operation.", "anchors": ["core/src/system/system.cpp: System::System(System const&), operator+=, operator*=, operator+, operator*"]}
{"id": "C24", "title": "Reordering by degree sorts and permutes", "statement": "ReorderFunctionsByDegreeDecreasing (Increasing) leaves the multiset of functions unchanged and makes the list of degrees non-increasing (non-decreasing).", "quantifier": "all systems", "why_tests_cant": "A permutation/sortedness claim for all lengths and ties.", "anchors": ["core/src/system/system.cpp: System::ReorderFunctionsByDegreeDecreasing, ReorderFunctionsByDegreeIncreasing"]}
{"id": "C25", "title": "Dehomogenizing inverts homogenizing, blockwise", "statement": "DehomogenizePoint divides, in each affine group's block, every coordinate by the block's homogenizing coordinate and drops the latter, copies homogeneous groups' and ungrouped coordinates unchanged, and returns one coordinate per natural variable; inserting ones and dehomogenizing gives the point back.", "quantifier": "all group structures in all orders of addition, all points with nonzero homogenizing coordinates", "why_tests_cant": "The output offset depends on the sequence of preceding groups; tests have one or two groups.", "anchors": ["core/include/bertini2/system/system.hpp: System::DehomogenizePointFIFO", "core/src/system/system.cpp: System::VariableGroupSizesFIFO"]}
{"id": "C26", "title": "System homogenization adds one variable per affine group and is idempotent", "statement": "Homogenize() adds exactly one homogenizing variable per affine group, leaves homogeneous groups alone, and calling it again changes nothing; NumHomVariables() then equals the number of affine groups.", "quantifier": "all construction histories", "why_tests_cant": "Idempotence over all group structures.", "anchors": ["core/src/system/system.cpp: System::Homogenize, IsHomogeneous, NumHomVariables"]}
{"id": "C27", "title": "Concatenate stacks functions and keeps the patch", "statement": "Concatenate(a,b) has a's functions followed by b's, a's variable structure, and the patch of whichever operand is patched; it throws when the variables differ or both are patched differently.", "quantifier": "all pairs of systems", "why_tests_cant": "Patch selection has four cases per pair; the result's patch is only observable through later evaluation.", "anchors": ["core/src/system/system.cpp: Concatenate, System::CopyPatches"]}
{"id": "C28", "title": "Rescaling a point satisfies the patch and changes each block only by a scalar", "statement": "RescalePointToFit returns a point on which every patch equation vanishes, each group block being a scalar multiple of the input block, provided no block is orthogonal to its patch coefficients; rescaling again changes nothing; coordinates outside the blocks are untouched.", "quantifier": "all group-size lists, all coefficients, all points", "why_tests_cant": "Block offsets accumulate over arbitrary group lists.", "anchors": ["core/include/bertini2/system/patch.hpp: Patch::RescalePointToFitInPlace, EvalInPlace"]}
{"id": "C29", "title": "Patch values and Jacobian occupy the last rows and are consistent", "statement": "EvalInPlace writes, in the last NumVariableGroups entries and nowhere else, (coefficients . block) - 1; JacobianInPlace writes the corresponding constant derivative in the last rows, with zeros outside the block.", "quantifier": "all group-size lists, all output sizes, all points", "why_tests_cant": "Offset arithmetic for every shape.", "anchors": ["core/include/bertini2/system/patch.hpp: Patch::EvalInPlace, JacobianInPlace"]}
{"id": "C30", "title": "Precision changes of a patch are lossless round trips", "statement": "Lowering and raising the precision of a patch any number of times never degrades the coefficients: whenever the precision is p, the working coefficients equal the stored highest-precision coefficients rounded to p digits.", "quantifier": "all sequences of precision changes and copies", "why_tests_cant": "Loss accumulates over sequences; the up/down paths differ.", "anchors": ["core/include/bertini2/system/patch.hpp: Patch::Precision, Patch(Patch const&)"]}
{"id": "C31", "title": "Index-to-subscript is a bijection", "statement": "For every list of positive dimensions, converting indices 0..N-1 (N the product) to subscripts is a bijection onto the box, matches mixed-radix notation, and any index >= N is rejected.", "quantifier": "all dimension lists, all indices", "why_tests_cant": "All sizes at once; wrong radix order or boundary shows only for particular shapes.", "anchors": ["core/include/bertini2/system/start/utility.hpp: IndexToSubscript"]}
{"id": "C32", "title": "Total-degree start points solve the start system and are distinct", "statement": "For every list of degrees and nonzero random constants, each of the prod(degrees) start points is a zero of the start system and different indices give different points.", "quantifier": "all degree lists, all nonzero constants, all indices", "why_tests_cant": "Distinctness and exact vanishing for all degree lists cannot be sampled.", "anchors": ["core/src/system/start/total_degree.cpp: TotalDegree::GenerateStartPoint, GenerateFunctions, NumStartPoints"]}
{"id": "C33", "title": "Total-degree start system accepts exactly the systems it can handle", "statement": "Construction throws unless the target has exactly one affine group, no homogeneous group, no path variable, as many functions as variables, and is polynomial; whenever it does not throw, the start system has one function per variable and the same variable structure.", "quantifier": "all target systems", "why_tests_cant": "Guard completeness over all variable structures.", "anchors": ["core/src/system/start/total_degree.cpp: TotalDegree::SanityChecks, TotalDegree(System const&)"]}
{"id": "C34", "title": "Multihomogeneous partitions are enumerated without omission or repetition", "statement": "For every degree matrix and list of group sizes, the enumerated partitions are exactly the assignments of a variable group to each function that use group j exactly size_j times and only where the degree is nonzero, each exactly once.", "quantifier": "all degree matrices, all group sizes", "why_tests_cant": "Completeness of a backtracking search for all inputs.", "anchors": ["core/src/system/start/mhom.cpp: MHomogeneous::GenerateValidPartitions, ChooseColumnInRow"]}
{"id": "C35", "title": "Multihomogeneous start-point indexing is a bijection", "statement": "NumStartPoints() equals the sum over partitions of the product of degrees (the multihomogeneous Bezout number) and every index below it denotes a distinct (partition, subscript) pair.", "quantifier": "all degree matrices, all partitions, all indices", "why_tests_cant": "Cumulative index search over arbitrary partitions.", "anchors": ["core/src/system/start/mhom.cpp: MHomogeneous::NumStartPoints, GenerateStartPoint, NumStartPointsForPartition"]}
{"id": "C36", "title": "Multiplying a start system by a node returns", "statement": "start *= node multiplies each function by the node and returns, for the total-degree and multihomogeneous start systems, as it does for a general system.", "quantifier": "all start systems and nodes", "why_tests_cant": "Divergence: a test either never calls it or crashes.", "anchors": ["core/src/system/start/total_degree.cpp: TotalDegree::operator*=", "core/src/system/start/mhom.cpp: MHomogeneous::operator*="]}
{"id": "C37", "title": "TrackPath success means the end time was reached with an accepted point", "statement": "If TrackPath returns Success, the tracker's time equals the requested end time up to the termination tolerance, and the returned point is the start point (if no step was needed) or the output of the last successful corrector call at that time; on any other code the returned time and point are those of the last accepted step.", "quantifier": "all predictor/corrector outcomes, all start/end times, all configurations", "why_tests_cant": "Ranges over every sequence of step outcomes; a test sees one path.", "anchors": ["core/include/bertini2/trackers/base_tracker.hpp: Tracker::TrackPath, IncrementBaseCountersSuccess", "core/include/bertini2/trackers/fixed_precision_tracker.hpp: TrackerIteration"]}
{"id": "C38", "title": "Tracked time moves monotonically along the segment and never overshoots", "statement": "At every moment of a TrackPath call the current time lies on the segment between start and end time, successful steps move it strictly toward the end, failed steps leave it unchanged, and no step passes the end time.", "quantifier": "all outcome sequences, all times and step sizes", "why_tests_cant": "Invariant of every reachable tracker state.", "anchors": ["core/include/bertini2/trackers/base_tracker.hpp: Tracker::TrackPath"]}
{"id": "C39", "title": "Fixed-precision tracking terminates", "statement": "For every system behaviour (any sequence of predictor and corrector outcomes) TrackPath of a fixed-precision tracker stops, with the number of iterations bounded in terms of the step limits.", "quantifier": "all infinite sequences of predictor/corrector outcomes, all configurations with positive minimum step and failure factor in (0,1)", "why_tests_cant": "Non-termination is a property of infinite executions.", "anchors": ["core/include/bertini2/trackers/fixed_precision_tracker.hpp: PreIterationCheck, TrackerIteration", "core/include/bertini2/trackers/base_tracker.hpp: TrackPath"]}
{"id": "C40", "title": "Fixed-precision step size recovers after failures", "statement": "After enough consecutive successful steps the step size grows again (up to the maximum), as configured by step_size_success_factor and consecutive_successful_steps_before_stepsize_increase.", "quantifier": "all outcome sequences and stepping configurations", "why_tests_cant": "A liveness statement about all executions.", "anchors": ["core/include/bertini2/trackers/fixed_precision_tracker.hpp: TrackerIteration, OnStepSuccess", "core/include/bertini2/trackers/config.hpp: SteppingConfig"]}
{"id": "C41", "title": "Adaptive-precision tracking terminates and respects the precision cap", "statement": "For every sequence of predictor and corrector outcomes the adaptive-precision tracker stops, and the working precision never exceeds the configured maximum by the time a step is attempted.", "quantifier": "all outcome sequences, all AMP configurations", "why_tests_cant": "Precision and step size trade off in a loop; termination needs a ranking argument over infinite executions.", "anchors": ["core/include/bertini2/trackers/amp_tracker.hpp: AMPTracker::TrackerIteration, AMPCriterionError, NewtonConvergenceError, AdjustAMPStepSuccess"]}
{"id": "C42", "title": "AMP never steps with precision below the criteria it enforces", "statement": "When a step fails the precision criteria, the next attempt uses strictly higher precision or strictly smaller step size, and the chosen pair satisfies the criterion (precision lies between the required minimum and the configured maximum).", "quantifier": "all criterion values, all configurations", "why_tests_cant": "Numeric search over all candidate precisions; corner cases at interval ends and unsigned wrap-around.", "anchors": ["core/include/bertini2/trackers/amp_tracker.hpp: MinimizeTrackingCost, AMPCriterionError, StepsizeSatisfyingCriterionB, MinDigitsForLogOfStepsize"]}
{"id": "C43", "title": "Newton correction succeeds exactly when a step within tolerance is taken in range", "statement": "Correct returns Success iff some iteration k with min <= k <= max produced an update of norm below tolerance (the first such), the returned point then being the iterate after that update; otherwise it returns FailedToConverge or MatrixSolveFailure; at most max iterations are performed.", "quantifier": "all update sequences, all tolerances and iteration limits", "why_tests_cant": "All sequences of update norms and solver outcomes.", "anchors": ["core/include/bertini2/trackers/newton_corrector.hpp: NewtonCorrector::Correct"]}
{"id": "C44", "title": "Explicit Runge-Kutta predictors have their advertised order", "statement": "For each available predictor method of order p, one step integrates every right-hand side that is a polynomial in t of degree < p exactly, and for every linear equation x' = a x reproduces the Taylor polynomial of exp to order p; the embedded error estimate vanishes for the problems integrated exactly by both formulas.", "quantifier": "all polynomial right-hand sides, all linear equations, all step sizes", "why_tests_cant": "Order is an identity in all right-hand sides and steps; numeric tests check one ODE to a tolerance.", "anchors": ["core/include/bertini2/trackers/explicit_predictors.hpp: ExplicitRKPredictor::FullStep, SetErrorEstimate, Order", "core/src/tracking/explicit_predictors.cpp: Butcher tables"]}
{"id": "C45", "title": "Every selectable predictor can be used", "statement": "Each predictor that can be selected (through the enumeration or the odepredictor setting) can be installed and used without an exception.", "quantifier": "all predictor choices, all setting values", "why_tests_cant": "Requires the parser table and the dispatch table to cover each other.", "anchors": ["core/include/bertini2/trackers/explicit_predictors.hpp: PredictorMethod", "core/include/bertini2/io/parsing/settings_parsers/tracking.hpp: predictor map"]}
{"id": "C46", "title": "Hermite extrapolation reproduces polynomials", "statement": "Given samples and derivatives at n distinct times, HermiteInterpolateAndSolve returns at the target time exactly the value of the unique polynomial of degree < 2n matching the data; in particular a path that is polynomial of degree < 2n is extrapolated exactly.", "quantifier": "all n, all sample times, all data, all target times", "why_tests_cant": "An identity over all node sets and data; the test checks one function to a loose tolerance.", "anchors": ["core/include/bertini2/endgames/interpolation.hpp: HermiteInterpolateAndSolve"]}
{"id": "C47", "title": "Endgame success means two consecutive approximations agree within tolerance", "statement": "If the power-series or Cauchy endgame returns Success, the last two successive approximations of the limit differ by at most the final tolerance, and the returned approximation is the latest.", "quantifier": "all tracking outcomes and samples, all configurations", "why_tests_cant": "Over all executions of the refinement loop.", "anchors": ["core/include/bertini2/endgames/powerseries.hpp: PowerSeriesEndgame::RunImpl", "core/include/bertini2/endgames/cauchy.hpp: CauchyEndgame::RunImpl"]}
{"id": "C48", "title": "The power-series endgame terminates", "statement": "For every behaviour of the tracker the power-series endgame stops: success, a tracking failure, the security cut-off, or the minimum track time, after at most a number of advances bounded by log(min_track_time)/log(sample_factor).", "quantifier": "all tracker outcomes, all sample values, all configurations with sample factor in (0,1)", "why_tests_cant": "Infinite executions.", "anchors": ["core/include/bertini2/endgames/powerseries.hpp: PowerSeriesEndgame::RunImpl, AdvanceTime"]}
{"id": "C49", "title": "Sample times approach the target geometrically", "statement": "Successive endgame sample times approach the target time: each new sample is at distance sample_factor times the previous distance from the target, for every target time and sample factor.", "quantifier": "all target times, start times, sample factors", "why_tests_cant": "Tests use target 0 and factor 1/2 where wrong formulas coincide with right ones.", "anchors": ["core/include/bertini2/endgames/base_endgame.hpp: ComputeInitialSamples", "core/include/bertini2/endgames/powerseries.hpp: AdvanceTime", "core/include/bertini2/endgames/cauchy.hpp: AdvanceTime"]}
{"id": "C50", "title": "Sample windows stay aligned and bounded", "statement": "Throughout the power-series endgame the lists of times and of samples have equal length, never exceed num_sample_points+1, and hold the most recent accepted samples in order.", "quantifier": "all tracker outcomes", "why_tests_cant": "Invariant over all loop iterations and failure exits.", "anchors": ["core/include/bertini2/endgames/powerseries.hpp: AdvanceTime"]}
{"id": "C51", "title": "The Cauchy mean recovers the constant term", "statement": "For a path that around the target is a Puiseux polynomial with cycle number c and terms of fractional degree less than the number of samples, averaging the c*N samples of the closed loop gives exactly the limit value; the routine throws unless exactly c*N+1 samples are present.", "quantifier": "all c, N, coefficients, radii", "why_tests_cant": "An exact identity of roots of unity for all c, N.", "anchors": ["core/include/bertini2/endgames/cauchy.hpp: ComputeCauchyApproximationOfXAtT0, CircleTrack"]}
{"id": "C52", "title": "Cauchy circles return to their starting time", "statement": "CircleTrack visits N equally spaced times on the circle through the starting time centred at the target, all at the same distance from it, the last being the starting time; the number of loops never exceeds the configured maximum cycle number.", "quantifier": "all starting times, targets, N, tracking outcomes", "why_tests_cant": "All loop counts and radii; boundary of the maximum.", "anchors": ["core/include/bertini2/endgames/cauchy.hpp: CircleTrack, InitialCauchyLoops, ComputeCauchySamples"]}
{"id": "C53", "title": "Security truncation is applied as configured", "statement": "With the security level enabled, an endgame run whose last two approximations both exceed the security norm stops with SecurityMaxNormReached, and with it disabled it never does; both endgames interpret the level the same way.", "quantifier": "all approximations, all security configurations", "why_tests_cant": "A branch on configuration and data; both endgames must agree.", "anchors": ["core/include/bertini2/endgames/powerseries.hpp: RunImpl", "core/include/bertini2/endgames/cauchy.hpp: RunImpl", "core/include/bertini2/endgames/config.hpp: SecurityConfig"]}
{"id": "C54", "title": "The midpath check reports exactly the crossed paths", "statement": "After a midpath check, the check fails iff two successfully tracked paths with different start points coincide (within tolerance) at the endgame boundary, and precisely the members of such pairs are scheduled for re-running; the verdict depends only on the current boundary data, not on earlier checks.", "quantifier": "all sets of boundary points, all histories of checks", "why_tests_cant": "Pairs over arbitrary numbers of paths and state kept between checks.", "anchors": ["core/include/bertini2/nag_algorithms/midpath_check.hpp: MidpathChecker::Check"]}
{"id": "C55", "title": "Multiplicities count coincident endpoints symmetrically", "statement": "After a solve, the multiplicity of each successful endpoint is one plus the number of other successful endpoints within tolerance; coincident endpoints name each other; solving again gives the same multiplicities.", "quantifier": "all endpoint sets, all tolerances, all numbers of Solve calls", "why_tests_cant": "Pair counting for any number of solutions and repeated calls.", "anchors": ["core/include/bertini2/nag_algorithms/zero_dim_solve.hpp: ZeroDim::ComputeMultiplicities, PreSolveSetup"]}
{"id": "C56", "title": "Every path gets exactly one verdict and failed paths are not endgamed", "statement": "The solve loop tracks every start point once to the boundary, re-tracks crossed paths at most the configured number of times, runs the endgame exactly on paths that reached the boundary successfully, and leaves one metadata record per start point.", "quantifier": "all numbers of paths, all outcomes", "why_tests_cant": "All outcome combinations over all path counts.", "anchors": ["core/include/bertini2/nag_algorithms/zero_dim_solve.hpp: TrackBeforeEG, EGBoundaryAction, MidpathResolve, TrackDuringEG"]}
{"id": "C57", "title": "The expression parser follows conventional precedence", "statement": "Parsing an expression string yields the expression with the usual meaning: ^ binds tighter than unary minus and * /, which bind tighter than binary + -; * / + - associate to the left; unary minus applies to the term it precedes.", "quantifier": "all expression strings", "why_tests_cant": "All strings; the minus rule only goes wrong when something follows the negated term.", "anchors": ["core/include/bertini2/io/parsing/function_rules.hpp: FunctionParser grammar"]}
{"id": "C58", "title": "Printed polynomials parse back", "statement": "For expressions built without leading signs, writing the expression in the input syntax with full parentheses and parsing it returns an expression with the same value, consuming the whole string.", "quantifier": "all expression trees of the fragment", "why_tests_cant": "Round trip over all trees.", "anchors": ["core/include/bertini2/io/parsing/function_rules.hpp: FunctionParser grammar"]}
{"id": "C59", "title": "Any fresh identifier can be declared", "statement": "A valid variable name that differs from every declared name and keyword can be declared, regardless of whether an existing name is a prefix of it.", "quantifier": "all sets of declared names, all new names", "why_tests_cant": "Over all name sets; tests use names without prefix relations.", "anchors": ["core/include/bertini2/io/parsing/system_rules.hpp: unencountered_symbol_, valid_variable_name_"]}
{"id": "C60", "title": "Comment stripping removes exactly the comments", "statement": "Stripping comments removes every character from a % to the end of its line and nothing else; stripping twice is the same as stripping once.", "quantifier": "all input texts", "why_tests_cant": "All texts incl. empty lines, last line without newline.", "anchors": ["core/include/bertini2/io/parsing/classic_utilities.hpp: CommentStripper"]}
{"id": "C61", "title": "Observers are notified exactly once, in order of registration", "statement": "Registering an observer twice has no extra effect, removing it removes exactly it, and each notification reaches every registered observer exactly once in registration order.", "quantifier": "all histories of add/remove/notify", "why_tests_cant": "All histories of registration.", "anchors": ["core/include/bertini2/detail/observable.hpp: Observable::AddObserver, RemoveObserver, NotifyObservers"]}
{"id": "C62", "title": "An observer may remove itself while being notified", "statement": "When an observer unregisters itself during a notification (as the first-precision recorder does), the remaining observers still receive the event exactly once.", "quantifier": "all observer lists, all positions of the removing observer", "why_tests_cant": "Iterator invalidation often appears to work; it is position dependent undefined behaviour.", "anchors": ["core/include/bertini2/detail/observable.hpp: NotifyObservers", "core/include/bertini2/trackers/observers.hpp: FirstPrecisionRecorder::Observe"]}
{"id": "C63", "title": "Purging a pool removes exactly the unused objects", "statement": "PurgeCache removes from the pool every object not referenced elsewhere and keeps every other object, and a freshly made object is held exactly once.", "quantifier": "all pool contents, all reference patterns", "why_tests_cant": "All patterns of which objects are in use.", "anchors": ["core/include/bertini2/pool/pool.hpp: Pool::Make, PurgeCache"]}
{"id": "C64", "title": "Witness-set point access is bounds checked", "statement": "GetPoint(i) returns the i-th point for i < Degree() and throws for every i >= Degree().", "quantifier": "all witness sets, all indices", "why_tests_cant": "Boundary value for all sizes.", "anchors": ["core/include/bertini2/nag_datatypes/witness_set.hpp: WitnessSet::GetPoint"]}
{"id": "C65", "title": "Integer powers of doubles are computed correctly by repeated squaring", "statement": "pow(z,n) returns z^n (in exact arithmetic) for every integer exponent, negative exponents giving the inverse power.", "quantifier": "all integers n except the most negative int, all z (nonzero when n<0)", "why_tests_cant": "All exponents; loop invariant.", "anchors": ["core/include/bertini2/double_extensions.hpp: pow"]}
{"id": "C66", "title": "Random unit complex numbers have modulus one", "statement": "rand_unit / RandomUnit return a number of modulus 1.", "quantifier": "all random draws", "why_tests_cant": "All draws; a test with loose or no modulus check does not see it.", "anchors": ["core/include/bertini2/random.hpp: RandomUnitAssign, rand_unit"]}
{"id": "C68", "title": "A system whose variables were cleared can be rebuilt", "statement": "After ClearVariables() and adding new variable groups, Variables() lists exactly the newly added variables.", "quantifier": "all systems, all later additions", "why_tests_cant": "ClearVariables must reset every piece of ordering bookkeeping; a leftover is only visible for particular later histories.", "anchors": ["core/src/system/system.cpp: System::ClearVariables, VariableOrdering, Variables"]}
{"id": "C67", "title": "A function listed twice is homogenized once", "statement": "After a successful System::Homogenize every function of the system is homogeneous in each affine group with its new homogenizing variable, also when the same Function is in the system more than once.", "quantifier": "all systems, all histories of edits", "why_tests_cant": "Homogenize changes nodes in place; with a shared node it acts on its own output, which only shows for particular sharing.", "anchors": ["core/src/system/system.cpp: System::Homogenize", "core/src/function_tree/operators/arithmetic.cpp: SumOperator::Homogenize"]}
{"id": "C69", "title": "Patches line up with variable groups", "statement": "The k-th block of coordinates used by the patch made by AutoPatchFIFO is exactly the k-th variable group (with its homogenizing variable) in the order of Variables().", "quantifier": "all variable structures", "why_tests_cant": "Depends on the order in which groups and ungrouped variables were added; tests use one order.", "anchors": ["core/src/system/system.cpp: AutoPatchFIFO, VariableGroupSizesFIFO, VariableOrdering", "core/include/bertini2/system/patch.hpp"]}
{"id": "C70", "title": "Time derivative belongs to the current functions", "statement": "TimeDerivative(x,t) has as i-th entry the derivative of the i-th current function with respect to the path variable at (x,t), and zero for patch entries, whatever was computed before.", "quantifier": "all systems, all histories of edits and evaluations, all points and times", "why_tests_cant": "Stale derivatives depend on the whole history of edits and evaluations.", "anchors": ["core/include/bertini2/system/system.hpp: TimeDerivative, TimeDerivativeInPlace", "core/src/system/system.cpp: Differentiate"]}
{"id": "C71", "title": "Multihomogeneous partitions use each variable group as often as its dimension", "statement": "For every target system accepted by MHomogeneous, the valid partitions are exactly the assignments of a variable group to each function in which each group occurs as often as its dimension (number of variables of an affine group, one less for a homogeneous group), so that NumStartPoints() is the multihomogeneous Bezout number of the target.", "quantifier": "all accepted target systems (any groups, homogenized or not)", "why_tests_cant": "The group sizes come from the target's variable structure, which can be built in any order and may or may not be homogenized; tests use affine groups.", "anchors": ["core/src/system/start/mhom.cpp: MHomogeneous::MHomogeneous, CreateDegreeMatrix, GenerateValidPartitions", "core/src/system/system.cpp: VariableGroupSizesFIFO"]}
{"id": "C72", "title": "Multihomogeneous start points exist and solve the start system", "statement": "For every target system accepted by MHomogeneous and every index below NumStartPoints(), GenerateStartPoint returns a vector with NumVariables() entries which, in the order of Variables(), is a zero of every function of the start system.", "quantifier": "all accepted target systems, all indices, all random coefficients", "why_tests_cant": "Depends on the sizes and kinds of the variable groups and on whether the target is homogenized.", "anchors": ["core/src/system/start/mhom.cpp: MHomogeneous::GenerateStartPointT"]}
{"id": "C73", "title": "A precision-criterion failure always shrinks the step", "statement": "When AMPTracker handles a step that failed a precision criterion, the step size used for the next attempt is strictly smaller than the failed one (documented: 'Stepsize is REQUIRED to decrease').", "quantifier": "all tracker states, criterion values and configurations", "why_tests_cant": "The two branches depend on how the step compares with a precision-dependent bound; sampled states do not reach the other branch.", "anchors": ["core/include/bertini2/trackers/amp_tracker.hpp: AMPTracker::AMPCriterionError, MinStepSizeForPrecision"]}
{"id": "C74", "title": "The step size proposed for a precision satisfies criterion B", "statement": "StepsizeSatisfyingCriterionB(p, digits_B, n, order) is at most 10^((p - digits_B) n / (order+1)), so a precision below the required digits forces a step below 1.", "quantifier": "all precisions, digit requirements, iteration counts and predictor orders", "why_tests_cant": "Unsigned wrap-around only appears for one sign of the difference; all four parameters vary.", "anchors": ["core/include/bertini2/trackers/amp_tracker.hpp: StepsizeSatisfyingCriterionB, MinimizeTrackingCost"]}
{"id": "C75", "title": "The Cauchy endgame always stops", "statement": "Running the Cauchy endgame from any start time, target and start point ends after finitely many steps with a success code or a failure code, whatever the tracker, refiner and norms answer: the sampling radius shrinks by a fixed factor each time, the minimum track time stops it, and every inner loop is bounded by the fail-safe cycle number.", "quantifier": "all start times, targets, start points, tracker outcomes, and settings with sample factor strictly between 0 and 1 (or 0 and 2) and positive minimum track time", "why_tests_cant": "Termination over all tracker behaviours, including ones that never close a loop or never reach the operating zone.", "anchors": ["core/include/bertini2/endgames/cauchy.hpp: RunImpl, InitialCauchyLoops, GetIntoEGZone, ComputeCauchySamples, AdvanceTime"]}
{"id": "C76", "title": "A repeated Solve does not report stale successes", "statement": "After any call of Solve, a path that did not reach the endgame boundary in that call is not reported with a successful endgame code.", "quantifier": "all numbers of Solve calls, all tracker and endgame outcomes", "why_tests_cant": "State kept between Solve calls under all outcome combinations.", "anchors": ["core/include/bertini2/nag_algorithms/zero_dim_solve.hpp: PreSolveSetup, TrackDuringEG"]}
{"id": "C77", "title": "The check of an LU decomposition accepts exactly well-scaled diagonals", "statement": "LUPartialPivotDecompositionSuccessful returns Success exactly when no diagonal entry is small and no diagonal entry exceeds its successor by the large factor; Success implies that the upper triangular factor is nonsingular; otherwise the lowest offending row decides which code is returned.", "quantifier": "all square non-empty matrices, all thresholds", "why_tests_cant": "All sizes and all positions of the offending entry; the loop runs downwards on an unsigned counter and treats entry (0,0) separately.", "anchors": ["core/include/bertini2/eigen_extensions.hpp: LUPartialPivotDecompositionSuccessful, IsSmallValue, IsLargeChange"]}
{"id": "C78", "title": "Linear slices are made with the requested shape", "statement": "LinearSlice::RandomReal/RandomComplex (Make) yields a slice with the requested number of linear functions in the given variables, homogeneous or not, that can be evaluated at every point of the right size; its Jacobian is the linear part of its values.", "quantifier": "all numbers of variables and dimensions, both flags", "why_tests_cant": "All combinations of sizes and flags.", "anchors": ["core/include/bertini2/system/slice.hpp: LinearSlice::Make, Eval, Jacobian"]}
{"id": "C79", "title": "Consistency of a witness set", "statement": "WitnessSet::IsConsistent returns true exactly when the number of variables equals the number of functions plus the dimension of the slice.", "quantifier": "all sizes that fit their types", "why_tests_cant": "The subtraction is unsigned and wraps when there are more functions than variables.", "anchors": ["core/include/bertini2/nag_datatypes/witness_set.hpp: WitnessSet::IsConsistent"]}
{"id": "C80", "title": "A saved and loaded slice evaluates as before", "statement": "Serializing a LinearSlice and loading it into another one gives a slice with the same values and the same dimension.", "quantifier": "all slices, all points", "why_tests_cant": "All slices; a field missing from the archive shows only where it matters.", "anchors": ["core/include/bertini2/system/slice.hpp: LinearSlice::serialize"]}
{"id": "C81", "title": "An input file is split into its two sections", "statement": "An input file with the markers CONFIG, END;, INPUT, END; (in any case) is split into exactly the text between CONFIG and END; and the text between INPUT and END;, whatever stands before, between and after the sections.", "quantifier": "all section texts that do not contain a marker as a word", "why_tests_cant": "All texts; names inside the sections may end like a marker.", "anchors": ["core/include/bertini2/io/parsing/classic_utilities.hpp: SplitInputFileParser, SplitIntoConfigAndInput"]}
{"id": "C82", "title": "Degree and homogeneity reported for a product of linears are true", "statement": "Degree(vars) (and Degree(v), MultiDegree) of a LinearProduct bounds the degree of its value in the group; if IsHomogeneous(vars) answers true then scaling the variables of the group by c multiplies the value by c^Degree(vars); Homogenize with respect to a group it does not contain leaves it unchanged and a partial overlap is refused.", "quantifier": "all numbers of factors and variables, all coefficients, all groups, all points, all scalars", "why_tests_cant": "Quantifies over coefficient matrices, overlaps between groups and scalars.", "anchors": ["core/src/function_tree/linear_product.cpp: LinearProduct::Degree, MultiDegree, IsHomogeneous, Homogenize"]}
{"id": "C83", "title": "A predictor step stays on a solution path up to its advertised order", "statement": "Let H be a homotopy, analytic near a point (x,t) on a solution path y with H(y(s),s)=0, with invertible Jacobian there. One step of an available predictor of advertised order p, of small enough size d, succeeds and lands within O(d^(p+1)) of y(t+d); for methods with an embedded formula the error estimate is O(d^(q+1)), q the smaller of the two orders.", "quantifier": "all available methods, all analytic homotopies over the real or complex numbers, all nonsingular points, all sufficiently small steps", "why_tests_cant": "An asymptotic statement about all nonlinear problems; it needs every rooted-tree order condition of the tables, not one measured convergence rate.", "anchors": ["core/include/bertini2/trackers/explicit_predictors.hpp: ExplicitRKPredictor::Predict, FullStep, SetErrorEstimate, EvalRHS, Order", "core/src/tracking/explicit_predictors.cpp: Butcher tables"]}
{"id": "C84", "title": "The corrector converges quadratically near a nonsingular solution", "statement": "At a nonsingular solution w of H(., t) there are a radius and a constant C such that every Newton update from within the radius squares the distance to w up to C; hence a correction started there with tolerance tol succeeds, within the number of iterations that quadratic convergence predicts (never more than the maximum), and returns a point within 4*C*tol^2 of w.", "quantifier": "all analytic systems, all nonsingular solutions, all start points in the neighbourhood, all tolerances and iteration limits", "why_tests_cant": "A statement about every system and a whole neighbourhood of start points.", "anchors": ["core/include/bertini2/trackers/newton_corrector.hpp: NewtonCorrector::Correct"]}
{"id": "C85", "title": "A small enough step follows the path to its end", "statement": "On a nonsingular solution path y of H from t0 to t1, for every eps and tolerance there are a step size h0 and a radius rho such that the fixed-precision tracker, started within rho of y(t0) with step size at most h0 (and enough steps allowed), has no failed step, stays within eps of y, and TrackPath returns Success with a point within eps of the path at the end time.", "quantifier": "all analytic homotopies, all nonsingular paths, all predictors, all settings in range, all start points close to the path", "why_tests_cant": "An existence statement over all homotopies; tests track a few.", "anchors": ["core/include/bertini2/trackers/base_tracker.hpp: Tracker::TrackPath", "core/include/bertini2/trackers/fixed_precision_tracker.hpp: FixedPrecisionTracker::TrackerIteration"]}
{"id": "C86", "title": "A small step never jumps to another path", "statement": "On a nonsingular solution path y of H, for every eps there are a step size h0 and a radius rho such that a tracker (fixed or adaptive precision) started within rho of y(t0) with step sizes at most h0 is, at every moment and in particular when it returns Success, within eps of y at its current time, whatever predictions, corrections and linear solves fail on the way.", "quantifier": "all analytic homotopies, all nonsingular paths, all predictors, all tolerances, all patterns of failures, all precision decisions", "why_tests_cant": "Path jumping is a rare event; the claim covers all failure patterns and all homotopies.", "anchors": ["core/include/bertini2/trackers/base_tracker.hpp: Tracker::TrackPath", "core/include/bertini2/trackers/fixed_precision_tracker.hpp: FixedPrecisionTracker::TrackerIteration", "core/include/bertini2/trackers/amp_tracker.hpp: AMPTracker::TrackerIteration"]}
{"id": "C87", "title": "Homogeneous polynomials are recognised", "statement": "For every expression built as a homogeneous polynomial in the variables of a group (numbers, variables, products, sums of terms of one degree, negations, non-negative integer powers, functions of constants), IsHomogeneous(vars) answers true and Degree(vars) is its degree.", "quantifier": "all such expressions, all groups", "why_tests_cant": "Quantifies over all expressions; the rule for powers goes wrong only for operands mixing variables of the group inside a larger sum.", "anchors": ["core/src/function_tree/operators/arithmetic.cpp: SumOperator::IsHomogeneous, MultOperator::IsHomogeneous, PowerOperator::IsHomogeneous", "core/include/bertini2/function_tree/operators/arithmetic.hpp: NegateOperator::IsHomogeneous, IntegerPowerOperator::IsHomogeneous"]}
{"id": "C88", "title": "Step counters are exact", "statement": "At every moment of a TrackPath call the number of successful steps is the number of accepted steps, together with the failed steps it is the number of passes made, the consecutive counters are the lengths of the latest unbroken runs of accepted and of rejected steps, never more than max_num_steps steps are accepted, and MaxNumStepsTaken is returned only after exactly that many.", "quantifier": "all systems, all patterns of failures, both kinds of tracker", "why_tests_cant": "The counters depend on the whole history of successes and failures.", "anchors": ["core/include/bertini2/trackers/base_tracker.hpp: Tracker::TrackPath, IncrementBaseCountersSuccess, IncrementBaseCountersFail", "core/include/bertini2/trackers/fixed_precision_tracker.hpp: PreIterationCheck", "core/include/bertini2/trackers/amp_tracker.hpp: PreIterationCheck"]}
{"id": "C89", "title": "No step is longer than max_step_size", "statement": "Whenever a tracker attempts a step, the time increment has modulus at most max_step_size, the largest allowed step size.", "quantifier": "all systems, settings and failure patterns, both kinds of tracker", "why_tests_cant": "The step size evolves with the history of the run; settings interact (initial_step_size may exceed max_step_size).", "anchors": ["core/include/bertini2/trackers/config.hpp: SteppingConfig", "core/include/bertini2/trackers/base_tracker.hpp: Tracker::TrackPath", "core/include/bertini2/trackers/fixed_precision_tracker.hpp: TrackerLoopInitialization", "core/include/bertini2/trackers/amp_tracker.hpp: AMPTracker::AdjustAMPStepSuccess"]}
{"id": "C90", "title": "min_num_steps is honoured", "statement": "A call tracking to time 0 from a nonzero time that returns Success has accepted at least min_num_steps steps.", "quantifier": "all systems, settings and failure patterns, both kinds of tracker", "why_tests_cant": "The number of steps depends on the whole run; a short path finished in fewer steps after step size increases looks like any other success.", "anchors": ["core/include/bertini2/trackers/config.hpp: SteppingConfig", "core/include/bertini2/trackers/fixed_precision_tracker.hpp: TrackerLoopInitialization", "core/include/bertini2/trackers/amp_tracker.hpp: AMPTracker::TrackerLoopInitialization, AdjustAMPStepSuccess"]}
{"id": "C91", "title": "MinimizeTrackingCost minimises the cost", "statement": "The precision and step size returned have least arithmetic cost per unit of time among all considered precisions (double, and multiples of ten between the given bounds), each with the step criterion B permits there, and the precision is at least the minimum passed in.", "quantifier": "all bounds, step sizes, digit demands, iteration counts and predictor orders", "why_tests_cant": "A minimum over all considered precisions, for all real step sizes.", "anchors": ["core/include/bertini2/trackers/amp_tracker.hpp: MinimizeTrackingCost, ArithmeticCost, StepsizeSatisfyingCriterionB"]}
{"id": "C92", "title": "Precision is lowered rarely", "statement": "The adaptive tracker lowers its precision only on accepted steps, each time after consecutive_successful_steps_before_precision_decrease accepted steps in a row that did not lower it, at most max_num_precision_decreases times per call, and its counter counts exactly these.", "quantifier": "all systems, all start precisions, all failure patterns", "why_tests_cant": "History dependent; needs runs mixing successes, failures and precision changes in all orders.", "anchors": ["core/include/bertini2/trackers/amp_tracker.hpp: AMPTracker::AdjustAMPStepSuccess, OnStepFail, UpdatePrecisionAndStepsize", "core/include/bertini2/trackers/config.hpp: AdaptiveMultiplePrecisionConfig"]}
{"id": "C93", "title": "The step size is raised rarely and moderately", "statement": "The adaptive tracker raises its step size after an accepted step only if the consecutive_successful_steps_before_stepsize_increase passes before it were accepted and neither raised the step size nor lowered the precision; then at most by step_size_success_factor and at most to max_step_size.", "quantifier": "all systems, all failure patterns", "why_tests_cant": "History dependent, as C92.", "anchors": ["core/include/bertini2/trackers/amp_tracker.hpp: AMPTracker::AdjustAMPStepSuccess, OnStepFail", "core/include/bertini2/trackers/config.hpp: SteppingConfig"]}
{"id": "C94", "title": "Enough digits after an accepted step", "statement": "The precision chosen after an accepted step is at least the number of digits asked for by criteria B and C and the tracking tolerance, and no higher than these or the current precision require.", "quantifier": "all states, all digit demands", "why_tests_cant": "All combinations of demands, current precision and counters.", "anchors": ["core/include/bertini2/trackers/amp_tracker.hpp: AMPTracker::AdjustAMPStepSuccess, MinRequiredPrecision_BCTol, MinimizeTrackingCost"]}
{"id": "C95", "title": "Decimal literals", "statement": "Every literal of the input language (digits, optionally a point and digits, optionally an exponent e or E) is accepted by the function parser and denotes the rational number it spells, exactly and independently of the working precision.", "quantifier": "all literals, all symbol tables", "why_tests_cant": "Infinitely many literals; the parser has four competing alternatives for numbers and a failure in one depends on the text seen by another.", "anchors": ["core/include/bertini2/io/parsing/number_rules.hpp", "core/include/bertini2/io/parsing/function_parsers.hpp", "core/src/function_tree/symbols/number.cpp"]}
{"id": "C96", "title": "Degree() is the total degree", "statement": "A non-negative answer d of Degree() means that the expression is a polynomial of total degree at most d in all its variables, whatever the values of the variables at the call; for expressions in which nothing can cancel the answer is exactly the total degree. The Bezout count of the total degree start system rests on it.", "quantifier": "all expression trees, all current values", "why_tests_cant": "The claim is about all points and all trees; the answer depends on current values of exponents through a tolerance.", "anchors": ["core/src/function_tree/operators/arithmetic.cpp: SumOperator::Degree, MultOperator::Degree, PowerOperator::Degree", "core/src/function_tree/symbols/variable.cpp: Variable::Degree", "core/src/system/system.cpp: System::Degrees"]}
{"id": "C97", "title": "Digits for a range of step sizes", "statement": "With at least the number of digits computed for a range of step sizes, every step size of the range is permitted at that precision for the time remaining; with two digits fewer the smallest one is not.", "quantifier": "all ranges of step sizes, all times to go, all precisions", "why_tests_cant": "Real logarithms and ceilings over a continuum; a wrong sign shows only for particular combinations of time to go and step size.", "anchors": ["core/include/bertini2/trackers/amp_tracker.hpp: MinDigitsForLogOfStepsize, MinDigitsForStepsizeInterval, MinTimeForCurrentPrecision, MinStepSizeForPrecision"]}
{"id": "C98", "title": "Search for the cycle number", "statement": "The power series endgame returns, for the current samples, the smallest cycle number in its search range minimising the distance between the latest sample and its prediction from the earlier ones; the range ends at max_cycle_number, and it contains the true cycle number whenever the differences of the samples shrink as those of a fractional power series.", "quantifier": "all samples, times, derivatives, random vectors and configurations", "why_tests_cant": "The minimisation is over data from arbitrary paths; whether the range contains the true number depends on logarithms of differences.", "anchors": ["core/include/bertini2/endgames/powerseries.hpp: ComputeBoundOnCycleNumber, ComputeCycleNumber"]}
{"id": "C99", "title": "Power series extrapolation is exact on fractional power series", "statement": "If the samples and derivatives are those of a fractional power series in t with cycle number c and few terms, taken on a ray into t0, and c is in the search range, then the endgame finds a cycle number predicting the latest sample exactly and the approximation at t0 is the true value.", "quantifier": "all fractional power series of degree below the interpolation order, all rays, all sample times, all cycle numbers", "why_tests_cant": "A claim about all analytic branches; a wrong factor in the change of variables only lowers the order of convergence.", "anchors": ["core/include/bertini2/endgames/powerseries.hpp: TransformToSPlane, ComputeCycleNumber, ComputeApproximationOfXAtT0", "core/include/bertini2/endgames/interpolation.hpp: HermiteInterpolateAndSolve"]}
{"id": "C100", "title": "What a failed step does to step size and precision", "statement": "After a failed step of the adaptive precision tracker: if the linear solve failed at once in the predictor, the step size is kept and the precision goes up by one place plus one for each failure immediately before (from double precision: to the lowest multiple precision); if Newton's method did not converge, the step size is multiplied by step_size_fail_factor and the precision becomes the lowest, from the current one up, at which this step size is permitted for the time remaining; if a precision criterion was violated and the reduced step size is not permitted at the current precision, the precision goes up as for the linear solve and the step size becomes the mean of the old and reduced one, but at least the smallest permitted.", "quantifier": "all states of the tracker, all configurations, all systems", "why_tests_cant": "Failures of each kind occur at precisions and step sizes which no test reaches deliberately.", "anchors": ["core/include/bertini2/trackers/amp_tracker.hpp: InitialMatrixSolveError, NewtonConvergenceError, AMPCriterionError, TrackerIteration"]}
{"id": "C101", "title": "A configuration section sets what it says", "statement": "Reading a configuration struct from a configuration section succeeds exactly if every statement `name: value;` whose identifier is the name (in any case) of a setting of that struct has a value of the right kind, and no setting of the struct is assigned twice. Then every member has the value its statement says, members without statement keep their default, and statements for other structs, the order of statements and white space have no influence.", "quantifier": "all configuration structs of the library, all sections made of well formed statements, all white space", "why_tests_cant": "Infinitely many sections: any number of statements in any order, with arbitrary other settings between them; a test reads a few settings of one struct at a time.", "anchors": ["core/include/bertini2/io/parsing/settings_parsers.hpp", "core/include/bertini2/io/parsing/settings_parsers/tracking.hpp", "core/include/bertini2/io/parsing/settings_parsers/endgames.hpp", "core/include/bertini2/io/parsing/settings_parsers/algorithm.hpp", "FillConfigStruct", "ConfigSettingParser", "ConfigParser::Parse"]}
{"id": "C102", "title": "The path variable has the name given in the file", "statement": "If the configuration section of a zero dimensional run contains `PathVarName: n;` with a valid name n and reading succeeds, the path variable name of the configuration is n, whatever other settings the section contains.", "quantifier": "all sections, all valid names, all positions of the statement", "why_tests_cant": "The outcome depends on all statements before the setting; tests use a section with this setting alone.", "anchors": ["core/include/bertini2/io/parsing/settings_parsers.hpp", "core/include/bertini2/io/parsing/settings_parsers/tracking.hpp", "core/include/bertini2/io/parsing/settings_parsers/endgames.hpp", "core/include/bertini2/io/parsing/settings_parsers/algorithm.hpp", "FillConfigStruct", "ConfigSettingParser", "ConfigParser::Parse"]}
{"id": "C103", "title": "Every setting has a value after reading", "statement": "After a configuration struct was read successfully from any text, every member that a setting can assign has a definite value: the one from the file or a default; no member is left uninitialised.", "quantifier": "all configuration structs, all texts", "why_tests_cant": "Uninitialised memory often holds harmless values in tests, and the members affected depend on which settings are absent.", "anchors": ["core/include/bertini2/io/parsing/settings_parsers.hpp", "core/include/bertini2/io/parsing/settings_parsers/tracking.hpp", "core/include/bertini2/io/parsing/settings_parsers/endgames.hpp", "core/include/bertini2/io/parsing/settings_parsers/algorithm.hpp", "FillConfigStruct", "ConfigSettingParser", "ConfigParser::Parse", "AdaptiveMultiplePrecisionConfig", "SharpeningConfig", "RegenerationConfig"]}
{"id": "C104", "title": "The homogeneity test of a system is right", "statement": "System::IsHomogeneous() answers true exactly if every affine variable group has its homogenizing variable and every function is homogeneous, of some degree, in every block of variables: each affine group together with its homogenizing variable, each projective group, and the ungrouped variables.", "quantifier": "all systems of functions polynomial in their variables, all groupings", "why_tests_cant": "Homogeneity is an identity over all points and all scalings; the answer is computed from degrees by rules, which tests exercise on a handful of monomials.", "anchors": ["core/src/system/system.cpp", "System::IsHomogeneous", "IsHomogeneous"]}
{"id": "C105", "title": "Evaluation refuses wrong sizes and wrong times", "statement": "Evaluating a system or its derivatives at a point answers only if the point has one entry per variable and a time is given exactly if the system has a path variable; the functions that fill a container answer only if its size fits. In every other case they throw.", "quantifier": "all systems in all states, all points, times and containers", "why_tests_cant": "Tests try one wrong size for one function; the claim is about every entry point in every state.", "anchors": ["core/include/bertini2/system/system.hpp", "EvalInPlace", "Eval", "JacobianInPlace", "Jacobian", "TimeDerivativeInPlace", "SetVariables", "SetPathVariable"]}
{"id": "C106", "title": "The first closed loop lies in the Cauchy endgame operating zone", "statement": "When InitialCauchyLoops succeeds, the circle of the accepted loop has a radius below the ratio cutoff time, or the norms of its samples are negligible, or differ by no more than the tolerance, or have a ratio above the allowed maximum.", "quantifier": "all paths, trackers and settings", "why_tests_cant": "Whether a loop is accepted depends on radii and norms met while tracking; tests use polynomials whose loops are accepted at once.", "anchors": ["core/include/bertini2/endgames/cauchy.hpp", "InitialCauchyLoops", "RatioEGOperatingZoneTest"]}
{"id": "C107", "title": "The operating zone is entered with stable cycle number estimates", "statement": "When ComputeInitialSamples of the Cauchy endgame finds the operating zone, the latest num_needed_for_stabilization estimates of the cycle number quotient c/k agree with each other, or the time has come within the cutoff of the target.", "quantifier": "all paths, trackers and settings", "why_tests_cant": "The sequence of estimates is produced by tracking; the newest estimate matters only when it disagrees, which test problems do not show.", "anchors": ["core/include/bertini2/endgames/cauchy.hpp", "CheckForCOverKStabilization", "ComputeCOverK", "InitialPowerSeriesSamples"]}
{"id": "C108", "title": "Simplify leaves nothing to simplify", "statement": "After Simplify returns, the expression is in reduced form at the current variable values: no sum inside a sum, no product inside a product, no one-operand product inside a sum or one-operand sum inside a product, no term of value 0 in a sum of several terms, no factor of value 1 in a product of several factors, and a product with a factor of value 0 is the constant 0. Simplifying it again changes nothing.", "quantifier": "all expressions without empty operators that are defined at the current values, both evaluation orders of the reduction passes", "why_tests_cant": "The passes create new opportunities for each other; that the loop stops only when none is left is a statement about every tree.", "anchors": ["core/src/function_tree/simplify.cpp", "core/src/function_tree/operators/arithmetic.cpp", "Simplify", "ReduceDepth", "EliminateOnes", "EliminateZeros"]}
{"id": "C109", "title": "The elimination passes report the number of nodes eliminated", "statement": "EliminateZeros and EliminateOnes return the number of nodes they eliminated from the tree, as documented; a pass that returns 0 left the tree alone.", "quantifier": "all expressions without empty operators, all current values", "why_tests_cant": "Tests check the returned number on two or three trees whose dropped operands are leaves.", "anchors": ["core/include/bertini2/function_tree/node.hpp", "core/src/function_tree/operators/arithmetic.cpp", "EliminateZeros", "EliminateOnes", "ReduceDepth"]}
{"id": "C110", "title": "Largest precision reported for a path", "statement": "After any sequence of path runs of a zero-dimensional solve with the adaptive tracker (first attempts, re-tracks, endgames, repeated solves), max_precision_used in the metadata of a path that was run is the largest precision in which the tracker worked on that path.", "quantifier": "For all histories of runs, all precisions of start points and all sequences of precision changes", "why_tests_cant": "The recorder is reset by an event, TrackingStarted; whether it is right depends on what every earlier path did, so a test with one path or with paths of equal precision cannot tell.", "anchors": ["core/include/bertini2/trackers/observers.hpp:110-163", "core/include/bertini2/nag_algorithms/zero_dim_solve.hpp:608-653", "core/include/bertini2/trackers/amp_tracker.hpp:1301-1343"]}
{"id": "C111", "title": "First precision increase reported for a path", "statement": "After any sequence of path runs of a zero-dimensional solve with the adaptive tracker, precision_changed in the metadata of a path is set exactly when precision rose in a run on that path, and time_of_first_prec_increase is then the time of such a rise.", "quantifier": "For all histories of runs, all precisions of start points, all sequences of precision changes and all initial contents of the recorder", "why_tests_cant": "The state of the recorder is carried from path to path and is initially indeterminate; a test sees one order of paths and one initial memory content.", "anchors": ["core/include/bertini2/trackers/observers.hpp:46-107", "core/include/bertini2/nag_algorithms/zero_dim_solve.hpp:608-653", "core/include/bertini2/nag_algorithms/zero_dim_solve.hpp:710-758"]}
{"id": "C112", "title": "Extraction of nonsingular solutions", "statement": "After any call of Solve, NonsingularSolutions::Extract returns, dehomogenized and in the order of the paths, exactly the endpoints of successful paths that no other successful endpoint approaches within the tolerance; in particular no solution is returned twice.", "quantifier": "For all tracker and endgame outcomes, tolerances, numbers of start points and numbers of Solve calls", "why_tests_cant": "Depends on all endpoints and on the multiplicities left by earlier calls; tests solve once and with well separated solutions.", "anchors": ["core/include/bertini2/nag_algorithms/output.hpp:226-256", "core/include/bertini2/nag_algorithms/zero_dim_solve.hpp:797-821"]}
{"id": "C113", "title": "Extraction of all solutions", "statement": "After any call of Solve, AllSolutions::Extract returns one dehomogenized point per start point, in order.", "quantifier": "For all tracker and endgame outcomes, numbers of start points and numbers of Solve calls", "why_tests_cant": "Needs a path that fails before the endgame, which tests with benign systems do not have.", "anchors": ["core/include/bertini2/nag_algorithms/output.hpp:259-287", "core/include/bertini2/system/system.hpp:1286-1302", "core/include/bertini2/nag_algorithms/zero_dim_solve.hpp:573-582"]}
{"id": "C114", "title": "Printed endpoints", "statement": "After any number of calls of Solve, the classic reports (MainData, RawData) print, in order and once each, exactly the paths for which an endgame run stored an endpoint; they never touch an endpoint that was never computed.", "quantifier": "For all tracker and endgame outcomes, numbers of start points and numbers of Solve calls", "why_tests_cant": "Needs all combinations of failing paths and repeated solves.", "anchors": ["core/include/bertini2/nag_algorithms/output.hpp:70-114", "core/include/bertini2/nag_algorithms/zero_dim_solve.hpp:695-738"]}
{"id": "C115", "title": "Meaning of the criteria of adaptive precision", "statement": "Criterion A holds exactly when |J^-1| eps (|J| + Phi) < 10^(p - safety_1); criterion C exactly when |J^-1| Psi + |z| < tol 10^(p - safety_2); criterion B exactly when n Newton steps, each shrinking the residual by 10^(safety_1 - p) (|J^-1| ((2+eps)|J| + eps Phi) + 1), bring it below the tolerance. Hence all are preserved by more digits and by a smaller |J^-1|.", "quantifier": "For all norms, error bounds, safety digits, tolerances, iteration counts and precisions, including zero norms and zero residuals", "why_tests_cant": "An equivalence over all real inputs.", "anchors": ["core/include/bertini2/trackers/amp_criteria.hpp:44-205"]}
{"id": "C116", "title": "Criterion B promises convergence of the corrector", "statement": "If criterion B (and C) holds after an iteration of the adaptive corrector and the further iterations shrink the residual by the factor the criterion assumes, the corrector returns Success.", "quantifier": "For all iteration limits, all iterations, all norms, residual sequences, tolerances and precisions", "why_tests_cant": "The off-by-one between iterations done and iterations remaining shows only for residuals in a narrow range.", "anchors": ["core/include/bertini2/trackers/newton_corrector.hpp:289-320", "core/include/bertini2/trackers/amp_criteria.hpp:106-138"]}
{"id": "C117", "title": "The smallest sufficient precision satisfies the criteria", "statement": "The precision the adaptive tracker computes as minimally required (MinRequiredPrecision_BCTol) satisfies criteria B and C in the state it is computed from, and no precision below the digits of a criterion satisfies that criterion.", "quantifier": "For all norms, tolerances, size proportions, iteration limits and settings", "why_tests_cant": "Concerns truncation of a real number against a strict inequality, for all states.", "anchors": ["core/include/bertini2/trackers/amp_tracker.hpp:897-1003", "core/include/bertini2/trackers/amp_criteria.hpp:106-205"]}
{"id": "C118", "title": "Reading real numbers in the classic format", "statement": "parsing::classic::parse for mpfr_float accepts exactly the decimal numbers (optional minus sign, digits with optional point, optional exponent) with white space around them. The value is that number; its precision is the default precision, but at least 20 and at least the length of the number. It throws exactly for texts beginning with two minus signs and a digit, and returns false for all others.", "quantifier": "For all texts and all default precisions", "why_tests_cant": "Infinitely many texts; two competing rules for numbers.", "anchors": ["core/include/bertini2/io/parsing/number_parsers.hpp:36-90", "core/include/bertini2/io/parsing/number_parsers.hpp:176-200", "core/include/bertini2/io/parsing/number_rules.hpp:62-165"]}
{"id": "C119", "title": "Reading complex numbers in the classic format", "statement": "parsing::classic::parse for mpfr_complex accepts exactly two decimal numbers separated by white space, with white space around them, and returns them as real and imaginary part at a common precision.", "quantifier": "For all texts and all default precisions", "why_tests_cant": "Infinitely many texts; what may be glued together depends on where the first number ends.", "anchors": ["core/include/bertini2/io/parsing/number_parsers.hpp:92-125", "core/include/bertini2/io/parsing/number_parsers.hpp:207-232"]}
{"id": "C120", "title": "Written numbers are read back", "statement": "The text that generators::Classic::generate writes for an mpfr_float or mpfr_complex is accepted by parsing::classic::parse and denotes the number written.", "quantifier": "For all finite numbers and precisions", "why_tests_cant": "The notation depends on the size of the number relative to its precision; only large numbers are affected.", "anchors": ["core/include/bertini2/io/generators.hpp:138-174", "core/include/bertini2/io/parsing/number_parsers.hpp:176-232", "core/include/bertini2/io/parsing/number_rules.hpp:140-153"]}
{"id": "C121", "title": "Clone makes a faithful copy", "statement": "Clone(sys) gives a system with nodes of its own that is the same as sys: all members agree, corresponding nodes have the same class and data, nodes that are shared in sys are shared in the clone and different nodes stay different. Its functions and derivatives have the same values as those of sys for all values of the variables.", "quantifier": "For all systems, node graphs and values of variables", "why_tests_cant": "The copy is made through an archive; a member forgotten in the serialize function of one node class shows only for systems containing it.", "anchors": ["core/src/system/system.cpp:1381-1446", "core/include/bertini2/system/system.hpp:1797-1866", "core/include/bertini2/function_tree/symbols/differential.hpp:142-164", "core/include/bertini2/function_tree/symbols/linear_product.hpp:729-732", "core/include/bertini2/function_tree/operators/operator.hpp:151-219"]}
{"id": "C122", "title": "Start systems can be archived", "statement": "A start system (total degree, multihomogeneous, user-defined) written to an archive is read back as the same start system: same system, same number of start points, same data from which the points are made.", "quantifier": "For all start systems and node graphs", "why_tests_cant": "Holds or fails per class for all data; a test comparing the functions of the system does not see lost start points.", "anchors": ["core/include/bertini2/system/start/total_degree.hpp:128-141", "core/include/bertini2/system/start/mhom.hpp:92-139", "core/include/bertini2/system/start/user.hpp:104-157", "core/src/system/start/user.cpp:35-91"]}
{"id": "C123", "title": "Run time options select the algorithm asked for", "statement": "MakeZeroDim and MakeUserHom, given a choice of start system, tracker and endgame, construct the zero-dimensional algorithm with exactly these parts, copying the given systems except for user homotopies; MakeZeroDim refuses user homotopies.", "quantifier": "For all option values", "why_tests_cant": "The choices differ in types hidden behind AnyZeroDim: a test that only solves a system does not see that another endgame was used.", "anchors": ["core/include/bertini2/blackbox/switches_zerodim.hpp:44-129", "core/include/bertini2/blackbox/user_homotopy.hpp:48-58", "core/include/bertini2/blackbox/config.hpp:37-70"]}
{"id": "C124", "title": "Refining a sample reports success only if it succeeded", "statement": "RefineSample of an endgame returns Success only if Newton's method, started from the sample in at least its precision, succeeded with the point returned; if more precision is needed (or no convergence) there is a second attempt with more digits.", "quantifier": "For all behaviours of Newton's method, samples and tracker states", "why_tests_cant": "Failures of refinement depend on conditioning and precision; that a failure is passed on must hold for all outcomes.", "anchors": ["core/include/bertini2/endgames/amp_endgame.hpp:94-148", "core/include/bertini2/endgames/fixed_prec_endgame.hpp:77-90", "core/include/bertini2/endgames/base_endgame.hpp:168-200"]}
{"id": "C125", "title": "EnsureAtUniformPrecision makes precision uniform", "statement": "After EnsureAtUniformPrecision all times, samples and derivatives passed have the precision returned, which is the default precision, and none has lost digits.", "quantifier": "For all precisions of times, samples and derivatives", "why_tests_cant": "Mixed precisions arise only during adaptive runs, in combinations a test does not enumerate.", "anchors": ["core/include/bertini2/trackers/adaptive_precision_utilities.hpp:48-177", "core/include/bertini2/trackers/fixed_precision_utilities.hpp:35-98", "core/include/bertini2/eigen_extensions.hpp:290-298"]}
{"id": "C126", "title": "Precision is coherent during adaptive tracking", "statement": "From the initialisation of TrackPath of the adaptive precision tracker on, after every pass of its loop and after the call, the default precision, the precision of the system and CurrentPrecision agree, and above double precision all numbers held by tracker, predictor (including its Butcher table) and corrector have that precision; so has the solution returned.", "quantifier": "For all previous states, start points, and all sequences of outcomes and precision changes", "why_tests_cant": "The internal assertion checks only first coordinates at some places of the runs made; the claim is an invariant over all runs.", "anchors": ["core/include/bertini2/trackers/amp_tracker.hpp:427-592", "core/include/bertini2/trackers/amp_tracker.hpp:604-725", "core/include/bertini2/trackers/amp_tracker.hpp:1303-1603", "core/include/bertini2/trackers/base_tracker.hpp:232-290"]}
{"id": "C127", "title": "The path is tracked to the end time asked for", "statement": "While the adaptive precision tracker is working in p digits, the time at which it will stop is the end time passed to TrackPath, rounded to p digits.", "quantifier": "For all end times, roundings and sequences of precision changes", "why_tests_cant": "Tests use end times such as 0 that are exact in every precision.", "anchors": ["core/include/bertini2/trackers/amp_tracker.hpp:445-455", "core/include/bertini2/trackers/amp_tracker.hpp:1533-1547"]}
{"id": "C128", "title": "Preservation of precision", "statement": "With PrecisionPreservation on (documented as the default) the precision of the ambient workspace is returned to its previous state after tracking, and the solution returned has the initial precision.", "quantifier": "For all states and runs", "why_tests_cant": "Depends on how precision moves during a run and on the default precision before it.", "anchors": ["core/include/bertini2/trackers/amp_tracker.hpp:383-392", "core/include/bertini2/trackers/amp_tracker.hpp:557-592", "core/include/bertini2/trackers/amp_tracker.hpp:1620"]}
{"id": "C129", "title": "A tracker can refine points of any precision", "statement": "Refine of the adaptive precision tracker works for a point of any precision (time and point having the same); default precision and system are then at that precision.", "quantifier": "For all tracker states, system precisions and point precisions", "why_tests_cant": "Whether it throws depends on the default precision at construction, the precision of the system and the history of the tracker.", "anchors": ["core/include/bertini2/trackers/amp_tracker.hpp:363-366", "core/include/bertini2/trackers/amp_tracker.hpp:1199-1275", "core/include/bertini2/system/system.hpp:965-980"]}
{"id": "C130", "title": "Evaluation at a precision uses constants of that precision", "statement": "After DefaultPrecision(p) and sys.precision(p), a system evaluated through its function trees at a point of precision p gives the values computed with p digits throughout, constants included, and of precision p, whatever was evaluated before at other precisions, in this or in other systems.", "quantifier": "For all expression graphs (with sharing), all sequences of uses of systems at any precisions and points", "why_tests_cant": "Constants are cached in the nodes and survive Reset; a stale constant needs a particular sequence of precisions and shared nodes and then changes only trailing digits.", "anchors": ["core/src/function_tree/roots/function.cpp:187-197", "core/src/function_tree/symbols/number.cpp:34-47", "core/src/function_tree/operators/operator.cpp:122-184", "core/include/bertini2/function_tree/symbols/linear_product.hpp:319-329", "core/include/bertini2/function_tree/symbols/linear_product.hpp:735-753", "core/src/system/system.cpp:238-320", "core/src/function_tree/node.cpp:70-88"]}
{"id": "C131", "title": "Constants of a straight line program have its precision", "statement": "Whenever a system has a straight line program, the constants in the program's multiple precision memory are the constants computed with as many digits as the program's precision says.", "quantifier": "For all expression graphs and all sequences of DefaultPrecision, System::precision and Differentiate", "why_tests_cant": "Depends on the order in which default precision and precision of the system are changed and on what nodes have cached; the program's own precision checks pass.", "anchors": ["core/src/system/straight_line_program.cpp:68-91", "core/src/system/straight_line_program.cpp:319-326", "core/src/system/straight_line_program.cpp:715-866", "core/src/system/system.cpp:238-356"]}
{"id": "C132", "title": "Changing the precision accesses only what exists", "statement": "Changing the precision of a system and evaluating it never reads elements of matrices that have none.", "quantifier": "For all expression graphs and sequences of uses", "why_tests_cant": "An out of range read need not show in a test's result.", "anchors": ["core/include/bertini2/function_tree/symbols/linear_product.hpp:149-193", "core/include/bertini2/function_tree/symbols/linear_product.hpp:735-753"]}
{"id": "C133", "title": "Assuming uniform precision", "statement": "IsAssumingUniformPrecision() tells what was asked for by the last call of PleaseAssumeUniformPrecision, DontAssumeUniformPrecision or AssumeUniformPrecision.", "quantifier": "For all sequences of calls", "why_tests_cant": "The flag only saves work; results do not show whether it is on.", "anchors": ["core/include/bertini2/system/system.hpp:1504-1530", "core/src/system/system.cpp:238-241"]}
{"id": "C134", "title": "A system file is read as the system it describes", "statement": "Constructing a System from the text of a file with the usual syntax (declarations of variable groups, variables, functions, constants, parameters and the path variable, and assignments), in which the names introduced are distinct and not reserved, succeeds; the system has the declared groups, functions, constants, parameters and path variable in the order of the file, and every function has the expression last assigned to it.", "quantifier": "For all files, with any white space", "why_tests_cant": "Combinations of names, keywords and orders of statements are unbounded; names that are prefixes of others or of keywords matter only in particular combinations.", "anchors": ["core/include/bertini2/io/parsing/system_rules.hpp:82-301", "core/include/bertini2/io/parsing/system_rules.hpp:348-363", "core/include/bertini2/io/parsing/system_parsers.hpp:45-92", "core/src/system/system.cpp:585-744"]}
{"id": "C135", "title": "Functions of a system file have the values the file gives them", "statement": "In a file that uses functions only after assigning them, every declared function evaluates, at every point, to the value obtained by carrying out the assignments from top to bottom.", "quantifier": "For all files and all values of the variables", "why_tests_cant": "A name assigned again later changes earlier functions silently; the parser accepts it and the values look plausible.", "anchors": ["core/include/bertini2/io/parsing/system_rules.hpp:159-163", "core/include/bertini2/io/parsing/system_rules.hpp:226-246", "core/src/function_tree/roots/function.cpp:49-85"]}
{"id": "C136", "title": "A system that was read can be evaluated", "statement": "If a text is accepted, all declared functions of the resulting system can be evaluated at every point.", "quantifier": "For all accepted texts and all points", "why_tests_cant": "The failure (null pointer or endless recursion) comes only when the system is used, long after it was read without complaint.", "anchors": ["core/include/bertini2/io/parsing/system_rules.hpp:141-163", "core/include/bertini2/io/parsing/system_rules.hpp:226-246", "core/src/function_tree/roots/function.cpp:49-124"]}
{"id": "C137", "title": "Metadata of every path are complete", "statement": "After Solve of a ZeroDim algorithm, every path has complete metadata: path and solution index, condition number, Newton residual, final time, accuracy estimates, cycle number and function residual from its run in this call, and the flags is_real, is_finite, is_singular.", "quantifier": "For all numbers of paths, outcomes of trackers and endgames, and numbers of earlier calls of Solve", "why_tests_cant": "Members never assigned read as zero, a plausible value, and which of them are assigned depends on the outcome of the paths and on earlier calls.", "anchors": ["core/include/bertini2/nag_algorithms/zero_dim_solve.hpp:109-146", "core/include/bertini2/nag_algorithms/zero_dim_solve.hpp:611-653", "core/include/bertini2/nag_algorithms/zero_dim_solve.hpp:712-791"]}
{"id": "C138", "title": "Every path starts with the configured initial step size", "statement": "In any call of Solve every path tracked from the start time (also again because of crossed paths) begins with the initial step size of the settings, and every endgame run begins with the step size with which the path arrived at the endgame boundary.", "quantifier": "For all numbers of paths and calls of Solve, and all outcomes", "why_tests_cant": "The tracker is shared by all paths; the flag that switches re-initialisation off is changed in one phase and matters in another, and only in the second call.", "anchors": ["core/include/bertini2/nag_algorithms/zero_dim_solve.hpp:634-653", "core/include/bertini2/nag_algorithms/zero_dim_solve.hpp:712-740", "core/include/bertini2/trackers/base_tracker.hpp:404-407", "core/include/bertini2/trackers/fixed_precision_tracker.hpp:450-467"]}
{"id": "C139", "title": "Setting up a solve leaves target and start system what they were", "statement": "After a ZeroDim algorithm formed its homotopy, TargetSystem() and StartSystem() still evaluate to the functions of the target and of the start system; in particular function_residual, the norm of TargetSystem().Eval at the endpoint, is the residual of the target and vanishes at exact solutions.", "quantifier": "For all targets, start systems, random constants and points", "why_tests_cant": "Systems share their Function objects when copied; a test that looks at the homotopy, or at the target before the homotopy is formed, sees the right values.", "anchors": ["core/include/bertini2/nag_algorithms/common/policies.hpp:197-226", "core/src/system/system.cpp:95-148", "core/src/system/system.cpp:1295-1353", "core/include/bertini2/nag_algorithms/zero_dim_solve.hpp:763-765"]}
{"id": "C140", "title": "The homotopy is the straight line from start system to target", "statement": "The homotopy formed from target f and start system g with random gamma evaluates at (x,s) to (1-s) f(x) + gamma s g(x), followed by the values of the target's patch; it has the target's variables and patch, and the new path variable. At time 0 its common zeros are those of the target, at time 1 those of the start system.", "quantifier": "For all systems without common functions, all gamma, points and times", "why_tests_cant": "The products and the sum modify functions in place while they are still shared by target, start system and temporaries; whether all terms survive depends on the order of these modifications.", "anchors": ["core/include/bertini2/nag_algorithms/common/policies.hpp:197-204", "core/src/system/system.cpp:1295-1353"]}
{"id": "C141", "title": "Every start point lies on the homotopy", "statement": "After the total degree start system was made from the prepared target and the homotopy was formed, evaluating the homotopy at any generated start point at time 1 gives the zero vector, patch equations included.", "quantifier": "For all prepared targets, degrees, random constants, gamma and start point indices", "why_tests_cant": "Needs the constructor, the rescaling to the patch, in place arithmetic on shared functions and evaluation to agree for every degree and index; tests try a few small systems.", "anchors": ["core/include/bertini2/nag_algorithms/common/policies.hpp:192-226", "core/src/system/start/total_degree.cpp:37-128", "core/src/system/system.cpp:1295-1353"]}
{"id": "C142", "title": "Homogenizing keeps the solutions", "statement": "Homogenize() turns a system of polynomials into one whose functions vanish, at a point with nonzero homogenizing coordinates, exactly when the original functions vanish at the point divided by those coordinates.", "quantifier": "For all systems of polynomials after any history, all groups and points", "why_tests_cant": "Homogenize rewrites the shared expression trees from degrees computed by several hand written rules; that no term is padded by a wrong power cannot be seen from finitely many expressions.", "anchors": ["core/src/system/system.cpp:409-486", "core/src/function_tree/operators/arithmetic.cpp:264-343", "core/src/function_tree/operators/operator.cpp:53-113"]}
{"id": "C143", "title": "Preparing the target of a solve never throws", "statement": "When a system without ungrouped variables can be homogenized, AutoPatch succeeds afterwards: the homogenized system is recognised as homogeneous, and the patch has the sizes of the groups.", "quantifier": "For all systems after any history, all random coefficients", "why_tests_cant": "AutoPatch relies on IsHomogeneous, an independent computation, agreeing with what Homogenize made; tests only homogenize expanded polynomials.", "anchors": ["core/include/bertini2/nag_algorithms/common/policies.hpp:184-190", "core/src/system/system.cpp:409-527", "core/src/system/system.cpp:900-908"]}
{"id": "C144", "title": "The homotopy of a solve leads from the start points to the solutions of the user's system", "statement": "For a square system of polynomials in one variable group, each written with sums and products of numbers and variables and with powers and negations of monomials (not of sums), SystemSetup of a zero-dimensional solve with the total degree start system succeeds; all generated start points are zeros of the homotopy at time 1; at time 0 the homotopy vanishes at a point with nonzero homogenizing coordinate exactly when it is on the patch and the user's own functions vanish at the dehomogenized point; and every solution of the user's system not orthogonal to the patch arises so.", "quantifier": "For all such systems after any history of safe operations, all random choices, indices and points", "why_tests_cant": "Composition of homogenization, patching, degree computation, start system construction, in place arithmetic on shared functions, straight line program evaluation and dehomogenization.", "anchors": ["core/include/bertini2/nag_algorithms/common/policies.hpp:184-226", "core/src/system/system.cpp:409-527", "core/src/system/system.cpp:900-908", "core/src/system/start/total_degree.cpp:37-176", "core/include/bertini2/system/system.hpp:1677-1732"]}
{"id": "C145", "title": "The homotopy of a multihomogeneous solve can be evaluated at its start points", "statement": "When SystemSetup of a zero-dimensional solve uses the MHomogeneous start system, the homotopy can be evaluated at every start point the start system generates from the prepared target.", "quantifier": "For all systems of polynomials, all random coefficients, all linear solvers, all start functions, times and start point indices", "why_tests_cant": "The tests of the multihomogeneous start system never form a homotopy with a homogenized target; the composition of PrepareTarget, GenerateStartPoint and Eval is not exercised.", "anchors": ["core/include/bertini2/nag_algorithms/common/policies.hpp:184-226", "core/src/system/start/mhom.cpp:40-100", "core/src/system/start/mhom.cpp:343-417"]}
{"id": "C146", "title": "Moving a system keeps what it evaluates to", "statement": "A System built by the move constructor returns, at every point, the values of the system it was built from, which is left empty; two systems exchanged by swap return each other's values.", "quantifier": "For all systems after any history of safe operations, all points, times and result memory", "why_tests_cant": "swap lists the members by hand; whether a forgotten member matters depends on the whole history of the object (whether and how it was evaluated before). The tests never move a system after evaluating it.", "anchors": ["core/src/system/system.cpp:56-91", "core/include/bertini2/system/system.hpp:125-131", "core/include/bertini2/pool/pool.hpp:42-50"]}
{"id": "C147", "title": "The gamma trick: the homotopy of a total degree solve is regular for all but finitely many directions of gamma", "statement": "For a square polynomial system solved with the TotalDegree start system, and generic random constants and patch, the homotopy formed by SystemSetup has, for every gamma outside finitely many rays from the origin, only nonsingular zeros at times in (0,1]. Its zeros at time 1 are exactly the generated start points, as many as the product of the degrees. Paths through its zeros exist over all of (0,1] and never meet. Every nonsingular solution of the user's system is the dehomogenized end of exactly one path from a start point.", "quantifier": "For all systems of polynomials after any history of safe operations, all random constants and patches satisfying the genericity condition, all gamma outside the finite set of rays", "why_tests_cant": "The claim is about all gamma and all zeros of the homotopy at all times of a continuous interval. A test tracks a few paths of one system for one gamma and cannot show that a path is never lost.", "anchors": ["core/include/bertini2/nag_algorithms/common/policies.hpp:184-226", "core/src/system/start/total_degree.cpp:37-190", "core/src/system/system.cpp:1295-1350", "core/include/bertini2/system/system.hpp:1286-1310"]}
{"id": "C148", "title": "Every nonsingular solution is found by a fine enough track from some start point", "statement": "When the homotopy of a total degree solve is regular (C147), for every nonsingular solution of the user's system there is a start point index, and for every predictor, tracking tolerance and accuracy a step size, such that each fixed-precision track from that start point to time 0 with steps at most this size and exact linear solves succeeds without a failed step and its dehomogenized result has the asked accuracy. One step size serves all start points for tracks to a positive time.", "quantifier": "For all regular total degree solves, nonsingular solutions, Butcher tables, tolerances, accuracies, tracker configurations and start states within the stated bounds", "why_tests_cant": "The claim joins system setup, start points, predictor, corrector, step control and dehomogenization, for all systems and all small steps. Tests track fixed systems with fixed steps.", "anchors": ["core/include/bertini2/nag_algorithms/common/policies.hpp:184-226", "core/include/bertini2/trackers/base_tracker.hpp:232-330", "core/include/bertini2/trackers/fixed_precision_tracker.hpp:165-250", "core/include/bertini2/system/system.hpp:1286-1310"]}
{"id": "C149", "title": "A whole zero-dimensional solve reports every nonsingular solution once, with multiplicity one", "statement": "When the homotopy of a total degree solve is regular (C147) and the homogenized target has no zero at infinity for the patch, ZeroDim::Solve with fine enough tracks to the endgame boundary, small enough tolerances and an accurate endgame tracks every path exactly once, passes the midpath check, and ends every path with success. The reported multiplicity of an endpoint is the number of paths with the same limit. Every nonsingular solution of the user's system is reported by exactly one path, with multiplicity 1.", "quantifier": "For all regular total degree solves, Butcher tables, endgame boundaries, trackers and endgames within the stated bounds", "why_tests_cant": "The claim joins system setup, start points, tracking, midpath check, endgame and multiplicity computation for all systems. Tests solve a few systems, with fixed settings, and look at the number of solutions.", "anchors": ["core/include/bertini2/nag_algorithms/zero_dim_solve.hpp:524-821", "core/include/bertini2/nag_algorithms/midpath_check.hpp:133-199", "core/include/bertini2/nag_algorithms/common/policies.hpp:184-226"]}
{"id": "C150", "title": "The power-series endgame finds the limit of a path that is a fractional power series", "statement": "Let the path, near time 0, be a convergent power series in t^(1/c) for some cycle number c, and let tracking, refinement and derivatives be exact. When PowerSeriesEndgame::Run reports success, FinalApproximation is within the final tolerance of the limit of the path.", "quantifier": "For all fractional power series paths (any dimension, any cycle number), settings with at least three sample points and a sample factor in (0,1), random projections, stored cycle numbers, start times", "why_tests_cant": "Convergence concerns a limit: for every accuracy there is a start time, which no finite set of runs shows. Tests run the endgame on a few systems from time 0.1 and compare with known roots.", "anchors": ["core/include/bertini2/endgames/powerseries.hpp:317-741", "core/include/bertini2/endgames/interpolation.hpp:62-128", "core/include/bertini2/endgames/base_endgame.hpp:342-373"]}
{"id": "C151", "title": "A whole solve with the power-series endgame finds all solutions, singular ones included", "statement": "When the homotopy of a total degree solve is regular (C147) and the homogenized target has no zero at infinity for the patch, every path is a convergent power series in t^(1/c) near time 0, with cycle number c at most the number of paths. For every accuracy there is a radius such that ZeroDim::Solve with the power-series endgame, an endgame boundary inside this radius and fine enough tracks to it ends every path with success and within the accuracy of the limit of that path. Reported multiplicities are the numbers of paths with the same limit, and every nonsingular solution is reported by exactly one path.", "quantifier": "For all regular total degree solves, Butcher tables, tolerances, endgame settings with at least three sample points and a sample factor in (0,1), random projections, accuracies, endgame boundaries within the radius", "why_tests_cant": "The claim joins setup, tracking, midpath check, endgame and multiplicities for all systems, with paths of any cycle number. Tests solve a few systems with fixed settings.", "anchors": ["core/include/bertini2/nag_algorithms/zero_dim_solve.hpp:524-821", "core/include/bertini2/endgames/powerseries.hpp:317-741", "core/include/bertini2/nag_algorithms/common/policies.hpp:184-226"]}
{"id": "C152", "title": "The Cauchy endgame finds the limit of a path that is a fractional power series", "statement": "Let the path, near time 0, be a convergent power series in t^(1/c) for some cycle number c not above fail_safe_maximum_cycle_number, and let tracking along straight lines (also around circles) and refinement be exact. When CauchyEndgame::Run reports success, FinalApproximation is within the final tolerance of the limit of the path.", "quantifier": "For all fractional power series paths (any dimension, any cycle number up to the configured maximum), settings with at least three sample points and a sample factor in (0,1), complex start times, estimates of c/k", "why_tests_cant": "Convergence concerns a limit: for every accuracy there is a start time, which no finite set of runs shows. Tests run the endgame on a few systems from time 0.1 and compare with known roots.", "anchors": ["core/include/bertini2/endgames/cauchy.hpp:280-420", "core/include/bertini2/endgames/cauchy.hpp:560-1153", "core/include/bertini2/endgames/base_endgame.hpp:342-373"]}
{"id": "C153", "title": "A whole solve with the Cauchy endgame finds all solutions, singular ones included", "statement": "When the homotopy of a total degree solve is regular (C147), the homogenized target has no zero at infinity for the patch, and fail_safe_maximum_cycle_number is at least the number of paths, then for every accuracy there is a radius such that ZeroDim::Solve with the Cauchy endgame (the default), an endgame boundary inside this radius and fine enough tracks to it ends every path with success and within the accuracy of the limit of that path. Reported multiplicities are the numbers of paths with the same limit, and every nonsingular solution is reported by exactly one path.", "quantifier": "For all regular total degree solves, Butcher tables, tolerances, Cauchy endgame settings with at least three sample points and a sample factor in (0,1), accuracies, endgame boundaries within the radius, estimates of c/k", "why_tests_cant": "The claim joins setup, tracking, midpath check, endgame (loops around the target time included) and multiplicities for all systems, with paths of any cycle number. Tests solve a few systems with fixed settings.", "anchors": ["core/include/bertini2/nag_algorithms/zero_dim_solve.hpp:524-821", "core/include/bertini2/endgames/cauchy.hpp:280-1153", "core/include/bertini2/nag_algorithms/common/policies.hpp:184-226"]}
{"id": "C154", "title": "The solutions of the user's system are exactly the finite limits of the paths", "statement": "When the homotopy of a total degree solve is regular (C147) and the homogenized target has no zero at infinity for the patch: a point is a solution of the user's system, singular or not, exactly when it is the dehomogenized limit of one of the paths; there are at most as many solutions as paths; and ZeroDim::Solve with the Cauchy endgame (settings as in C153) reports for each solution an end of any prescribed accuracy, with multiplicity the number of paths that lead to the solution.", "quantifier": "For all square polynomial systems in one variable group, generic random choices, all gamma off finitely many rays, all solutions (singular and nonsingular), all settings as in C153", "why_tests_cant": "That no solution is missed is a statement about all polynomial systems; tests compare the ends with known solutions of a few systems. That a singular solution is the limit of at least one path is a theorem of algebraic geometry (dimension of fibres, integral extensions).", "anchors": ["core/include/bertini2/nag_algorithms/zero_dim_solve.hpp:524-821", "core/include/bertini2/nag_algorithms/common/policies.hpp:184-226", "core/src/system/start/total_degree.cpp:38-178"]}
{"id": "C155", "title": "In one variable the reported multiplicity is the multiplicity of the root", "statement": "For one polynomial p in one variable, a regular homotopy (C147) and no zero of the target at infinity for the patch: the number of paths of the total degree solve that end at a root a is the multiplicity of a as a root of p, and ZeroDim::Solve with the Cauchy endgame (settings as in C153) reports each of these ends with success, any prescribed accuracy, and metadata multiplicity equal to the multiplicity of a.", "quantifier": "For all polynomials in one variable, all their roots, all generic random choices, all settings as in C153", "why_tests_cant": "Tests check multiplicities of a few known roots; the statement links the number of paths, counted by comparing computed ends, to an algebraic notion, for all polynomials.", "anchors": ["core/include/bertini2/nag_algorithms/zero_dim_solve.hpp:524-821", "core/include/bertini2/nag_algorithms/zero_dim_solve.hpp:797-821"]}
{"id": "C156", "title": "Almost all random choices are good", "statement": "For a square system of non-constant polynomials in one variable group whose homogenization has finitely many zeros (up to multiples), and nonzero constants of the start system: outside finitely many hyperplanes for the coefficients of the random patch, and for gamma off finitely many rays (depending on the patch), the setup of ZeroDim succeeds and the homotopy is regular (C147) with no zero of the target at infinity for the patch, so that C148 to C155 apply.", "quantifier": "For all systems made by any history of evaluation-safe operations, all patches outside the hyperplanes, all gamma off the rays", "why_tests_cant": "Which random choices are bad cannot be found by sampling: the bad set has measure zero. A statement about all choices outside an explicit finite union of hyperplanes and rays is needed.", "anchors": ["core/include/bertini2/nag_algorithms/common/policies.hpp:184-226", "core/include/bertini2/system/patch.hpp:140-200", "core/src/system/start/total_degree.cpp:38-178"]}
{"id": "C157", "title": "The reported multiplicity is the number of solutions that have come together, whatever the random choices", "statement": "For a square system of polynomials, a regular homotopy (C147) and no zero of the target at infinity for the patch: the metadata multiplicity which ZeroDim::Solve with the Cauchy endgame (settings as in C153) reports at each end belonging to a solution a is the multiplicity of a, that is, the number of solutions near a of every system obtained by a small enough change of the coefficients (degrees not raised) that has only nonsingular solutions near a. Such changes exist arbitrarily near, so the number is determined by the system alone and does not depend on gamma, patch and start constants.", "quantifier": "For all systems made by any history of evaluation-safe operations, all their solutions, all generic random choices, all settings as in C153, all polynomial perturbations", "why_tests_cant": "Tests compare multiplicities for a few systems with known answers and one draw of random numbers. The claim ranges over all perturbations and all draws.", "anchors": ["core/include/bertini2/nag_algorithms/zero_dim_solve.hpp:524-821", "core/include/bertini2/nag_algorithms/zero_dim_solve.hpp:740-821", "core/include/bertini2/nag_algorithms/common/policies.hpp:184-226"]}
{"id": "C158", "title": "The predefined systems are what their comments say; solving Griewank-Osborn finds 3 ends at the origin and 3 at infinity", "statement": "Called in any state reached by evaluation-safe operations, system::Precon::GriewankOsborn() evaluates to (29/16 x^3 - 2xy, y - x^2), CrossedPaths() to (x^3+2, y^2+1/2), Sphere() to x^2+y^2+z^2-1. Griewank-Osborn 'has multiplicity 3 root at origin, and 3 infinite roots': the origin is its only solution and has multiplicity 3; for almost all random choices the setup of ZeroDim succeeds and gives a regular homotopy whose six paths end three at the origin and three at one point at infinity; Solve() with the Cauchy endgame (settings as in C153) reports all six with success, any prescribed accuracy and multiplicity 3. CrossedPaths: on the straight line from (x^3-1, y^2-1) the six paths meet at t=1/3 and t=2/3 and at no other time.", "quantifier": "For all prior histories, all variables, all patches and gammas off finitely many hyperplanes and rays, all settings as in C153, all (complex) times t", "why_tests_cant": "The test can_run_griewank_osborn runs one random draw and checks nothing of the result; multiplicity and behaviour for all draws are statements about infinitely many runs.", "anchors": ["core/src/system/precon.cpp:33-83", "core/include/bertini2/system/precon.hpp:40-72", "core/test/nag_algorithms/zero_dim.cpp:44-79"]}
{"id": "C159", "title": "Random integers and rationals are in the documented range", "statement": "RandomInt<d>() is between -10^d and 10^d; RandomRat<d>() always returns a number, with numerator and denominator between -10^d and 10^d; the two functions draw from generators of their own.", "quantifier": "For all numbers of digits d, all states of the generators, everything the distributions may draw", "why_tests_cant": "The failing draws are rare (a zero denominator) or need a particular number of digits (59: 2^196 > 10^59); a test sees only the draws of the fixed seed.", "anchors": ["core/include/bertini2/random.hpp:43-67"]}
{"id": "C160", "title": "Random multiprecision numbers have the requested precision and range and leave the default precision alone", "statement": "RandomMp(n) is in [0,1], RandomReal(n) in [-1,1], RandomComplex(n) and these have precision n, for every n; the default precision after the call is the one before it.", "quantifier": "For all n, all draws, all roundings, all default precisions", "why_tests_cant": "All draws and all precisions; beyond 40000 digits the functions throw, after changing the default precision.", "anchors": ["core/src/basics/random.cpp:35-140", "core/include/bertini2/random.hpp:82-249"]}
{"id": "C161", "title": "A solve with a homotopy supplied by the user reports the ends of the paths from its start points", "statement": "ZeroDim with policy RefToGiven, on a target, a start system with N points and a homotopy given by the user whose zeros at times in (0,1] and near 0 are nonsingular and bounded: Solve() tracks every path and passes the midpath check; each path ends near the limit of the path of its start point; a point is reported with multiplicity the number of paths with the same limit; nonsingular solutions at time 0 have multiplicity 1; if the start points are all zeros at time 1, every isolated solution at time 0 is near a reported point.", "quantifier": "For all homotopies with these properties (any dimension, not necessarily polynomial), start points, fine enough trackers, accurate enough endgames (Cauchy or power series), in exact arithmetic", "why_tests_cant": "Concerns all homotopies and the limits of their paths; a test runs one homotopy and cannot tell an accidental result from the limit.", "anchors": ["core/include/bertini2/nag_algorithms/zero_dim_solve.hpp:421-700", "core/include/bertini2/nag_algorithms/common/policies.hpp:258-323"]}
{"id": "C162", "title": "A solver is always set up for the systems its getters return", "statement": "In a ZeroDim with policy RefToGiven, the tracker tracks the system returned by Homotopy(), the endgame uses the solver's own tracker, and as many start points are taken as StartSystem() has, after any program of constructions, copies and setters.", "quantifier": "For all programs over any number of systems, trackers and solvers", "why_tests_cant": "Needs all interleavings of setters, copies and constructions; a test makes one solver and solves once.", "anchors": ["core/include/bertini2/nag_algorithms/zero_dim_solve.hpp:216-417", "core/include/bertini2/nag_algorithms/common/policies.hpp:81-140", "core/include/bertini2/trackers/base_tracker.hpp:120-170"]}
{"id": "C163", "title": "Operations on one tracker do not change another", "statement": "After SetTracker or copying, SetSystem, SetPredictor and Setup on one tracker leave what another tracker tracks, with which predictor and on which dimensions, as they were.", "quantifier": "For all programs over any number of trackers and solvers", "why_tests_cant": "Depends on sharing through shared_ptr between copies, visible only when copies are used after the original is changed.", "anchors": ["core/include/bertini2/trackers/base_tracker.hpp:120-170,344-368,573-576", "core/include/bertini2/nag_algorithms/zero_dim_solve.hpp:360-417"]}
{"id": "C164", "title": "Settings made by the user are the settings of the solve", "statement": "For a ZeroDim solver: every value set with Set(TolerancesConfig), Set(PostProcessingConfig), Set(ZeroDimConfig) and on the tracker and endgame is what Solve() then works with: the tracking tolerances of the tracker, the final tolerance and the truncation threshold of the endgame and tracker, the thresholds used to classify solutions, and the name of the path variable; the last value set counts, and settings of different kinds do not disturb each other.", "quantifier": "For all programs of Set, Get, Default...Setup and Solve, and all values", "why_tests_cant": "Each setting has its own way to the code that uses it (or none); a test compares one setting with one outcome.", "anchors": ["core/include/bertini2/nag_algorithms/zero_dim_solve.hpp:341-417,485-505,520-821", "core/include/bertini2/detail/configured.hpp:88-110", "core/include/bertini2/nag_algorithms/common/config.hpp:57-141", "core/include/bertini2/trackers/base_tracker.hpp:171-218"]}
{"id": "C165", "title": "A compiler can be used for one system after another", "statement": "SLPCompiler::Compile may be called for one system after another on the same compiler object (Clear is documented to reset the compiler for the next system): each straight line program it returns is the one a new compiler would return, and computes the functions and derivatives of its system.", "quantifier": "For all finite sequences of systems compiled with one compiler, all variable values and all previous memory contents", "why_tests_cant": "What is left over from earlier systems matters only when a later system shares something with an earlier one, e.g. the exponent of a power; a test compiles one system, or a few unrelated ones.", "anchors": ["core/src/system/straight_line_program.cpp:739-876", "core/include/bertini2/system/straight_line_program.hpp:716-760"]}
{"id": "C166", "title": "CoefficientBound bounds the coefficients", "statement": "System::CoefficientBound(n), documented as an upper bound on the absolute values of the coefficients of the functions of the system, returns a number at least as large as the absolute value of every coefficient, whatever random unit complex numbers it draws; it never fails on a system that can be evaluated, and it does not exceed the largest degree times the sum of the absolute values of the coefficients.", "quantifier": "For all histories of safe operations, all systems (with and without path variable, patched or not, evaluated by trees or by straight line program), all numbers of evaluations, all drawn unit numbers", "why_tests_cant": "The points are drawn at random; a test sees a few draws on a few systems, and failures need draws near the zero set of the function and its derivatives.", "anchors": ["core/src/system/system.cpp:932-960", "core/include/bertini2/system/system.hpp:1376-1386"]}
{"id": "C167", "title": "Settings of adaptive precision made from a system bound what they stand for", "statement": "AMPConfigFrom(sys), which the constructor of the adaptive precision tracker uses, gives a degree bound at least as large as the total degree of every polynomial function in the variables, and Phi and Psi which bound, in the unit polydisc, the sizes of the second and first order terms of every function: the error constants of criteria A, B and C.", "quantifier": "For all histories of safe operations, all polynomial systems, all values of the path variable, all draws, all points of the unit polydisc", "why_tests_cant": "The bounds are inequalities over all points and all polynomials; a test compares the numbers for an example.", "anchors": ["core/include/bertini2/trackers/config.hpp:150-251", "core/src/system/system.cpp:962-967", "core/include/bertini2/trackers/amp_tracker.hpp:362-367"]}
{"id": "C168", "title": "A fixed multiple precision tracker works at its own precision", "statement": "A MultiplePrecisionTracker has the default precision at its construction, and 'the precision is fixed': a call of TrackPath is either refused (exception or assertion, at the start or when a step is attempted), or every number it computes with - current, predicted and corrected points, times, step size, the predictor's coefficients - has the tracker's precision throughout, and so has the current point. With default precision, system, predictor and input at that precision no call is refused.", "quantifier": "For all trackers, systems of any precision, both evaluation methods, with and without assertions, all calls between construction and tracking, all precisions of the coordinates and times passed in, all numbers of stages, Newton iterations and passes, all outcomes of predictor and corrector", "why_tests_cant": "Precisions mix by the rules of the multiple precision library along every operation of the loop; a test uses one precision everywhere and looks at the endpoint.", "anchors": ["core/include/bertini2/trackers/fixed_precision_tracker.hpp:478-560", "core/include/bertini2/trackers/fixed_precision_tracker.hpp:160-244", "core/include/bertini2/trackers/base_tracker.hpp:232-290", "core/include/bertini2/system/system.hpp:964-1032"]}
{"id": "C169", "title": "A tracker reports the numbers of its latest step", "statement": "After tracking, LatestConditionNumber() of a tracker is the condition number estimate (norm of the Jacobian times norm of the solution for a random right hand side) made at the latest step at which one was due - the first step of a path and then every frequency_of_CN_estimation steps -, LatestNormOfStep() is the length of the latest Newton step, and the numbers from which an adaptive tracker chooses precision and step size were computed during the step. These values are written to the metadata of a solution as condition_number and newton_residual.", "quantifier": "For all sequences of TrackPath and Refine calls, frequencies, predictors, numbers of predictions, Newton iterations and changes of precision, all values of the norms and any multiplication", "why_tests_cant": "A test sees numbers that look plausible: whether they belong to the step they should belong to, or were ever written, cannot be seen from one value.", "anchors": ["core/include/bertini2/trackers/explicit_predictors.hpp:457-547", "core/include/bertini2/trackers/explicit_predictors.hpp:734-755", "core/include/bertini2/trackers/base_tracker.hpp:597-637", "core/include/bertini2/trackers/fixed_precision_tracker.hpp:95-102", "core/include/bertini2/trackers/fixed_precision_tracker.hpp:299-339", "core/include/bertini2/nag_algorithms/zero_dim_solve.hpp:767-768"]}
{"id": "C170", "title": "Settings can be passed to an endgame in any order", "statement": "The constructors of CauchyEndgame and PowerSeriesEndgame take, after the tracker, any of the endgame's settings structures in any order: each structure passed is the one the endgame uses, the others are default constructed, the order makes no difference, and a call that passes a structure twice or a structure the endgame does not have does not compile.", "quantifier": "For all lists of distinct settings types and all argument lists", "why_tests_cant": "The dispatch is done by the compiler on lists of types; a test instantiates a few orders, not all orders, subsets and lengths.", "anchors": ["core/include/bertini2/detail/enable_permuted_arguments.hpp:46-138", "core/include/bertini2/detail/typelist.hpp:53-60", "core/include/bertini2/endgames/cauchy.hpp:328-335", "core/include/bertini2/endgames/powerseries.hpp:292-300"]}
{"id": "C171", "title": "Derivatives do not depend on the methods of evaluation and differentiation", "statement": "A system's Jacobian and time derivative are the derivatives of its functions whichever EvalMethod (function trees, compiled program) and DerivMethod (Jacobian nodes, one tree per derivative) are set, and stay so when the methods are changed by SetEvalMethod or SetDerivMethod, when the derivatives are asked for by GetSpaceDerivatives or GetTimeDerivatives, and when the system is copied.", "quantifier": "For all functions, points and all histories of method changes, edits, evaluations, requests for derivatives and copies", "why_tests_cant": "A test fixes one method for one system; whether differentiating without a variable and choosing it later agrees with differentiating by it is a statement about all expressions, and which containers are filled depends on the whole history of the object.", "anchors": ["core/src/system/system.cpp:323-408", "core/include/bertini2/system/system.hpp:470-516", "core/include/bertini2/system/system.hpp:757-810", "core/include/bertini2/system/system.hpp:1583-1605", "core/src/function_tree/roots/jacobian.cpp:42-57", "core/src/function_tree/symbols/differential.cpp:106-160", "core/src/function_tree/symbols/variable.cpp:94-100", "core/src/system/straight_line_program.cpp:739-864"]}
{"id": "C172", "title": "Tolerances of a tracker", "statement": "Whatever sequence of Setup, SetTrackingTolerance, SetInfiniteTruncationTolerance and SetPredictor is called, TrackingTolerance() and InfiniteTruncationTolerance() are positive, the number of digits the tracker asks for because of its tolerance is the least d with 10^-d <= tolerance, and a call that throws leaves the tracker as it was. An adaptive track never works with fewer digits than the tolerance needs.", "quantifier": "all programs of setter calls (accepted or refused), all real tolerances and thresholds, all states of an adaptive track", "why_tests_cant": "tests call setters with a few valid values; refused calls, their order inside Setup, and the boundary of the conversion to unsigned are not sampled", "anchors": ["core/include/bertini2/trackers/base_tracker.hpp:172-218", "core/include/bertini2/num_traits.hpp:66-70", "core/include/bertini2/trackers/amp_tracker.hpp:432-438", "core/include/bertini2/trackers/amp_tracker.hpp:997-1003"]}
{"id": "C173", "title": "The printed results of a solve can be read", "statement": "The text written by output::Classic::RawData and MainData determines the results it was made from: the number of variables (and their names), and for exactly the paths whose endgame was started, in order, path number, precision, every coordinate, residuals, condition number, accuracy, times, cycle number, multiplicity and success codes, all with the values held by the solver.", "quantifier": "all lists of paths, all numbers (zero, infinite and not-a-number included), all precisions of the stream, all texts of the systems", "why_tests_cant": "tests print to the screen and compare nothing; that records and fields can be told apart for every content, and how much of each number survives, is a statement about all texts", "anchors": ["core/include/bertini2/nag_algorithms/output.hpp:70-114", "core/include/bertini2/nag_algorithms/output.hpp:150-215", "core/include/bertini2/io/generators.hpp:157-190", "core/include/bertini2/common/stream_enum.hpp:48-52"]}
{"id": "C174", "title": "Simplifying with random values of the variables is safe", "statement": "When the variables of an expression hold points of the unit circle with random angles, as they do after construction and during System::SimplifyDerivatives, Simplify with probability one returns an expression that is defined, with the same value, at every point where the original one is defined.", "quantifier": "all expressions in any number of variables, all laws of the angles with a density, both evaluation orders of the reduction passes", "why_tests_cant": "a test runs with a few random values; that accidental zeros and ones have probability zero is a statement about all angles and needs analysis", "anchors": ["core/src/function_tree/symbols/variable.cpp:37-47", "core/src/function_tree/symbols/variable.cpp:86-92", "core/src/function_tree/simplify.cpp:33-52", "core/src/function_tree/operators/arithmetic.cpp:42-84", "core/src/function_tree/operators/arithmetic.cpp:530-612", "core/src/system/system.cpp:1077-1136"]}
{"id": "C175", "title": "The collected path is the path that was tracked", "statement": "An AMPPathAccumulator attached to a tracker adds, during TrackPath, exactly the points of the steps that were taken (prediction and correction succeeded and the path was not truncated), in order, each once; their number is the tracker's count of successful steps, the last one is the solution returned on success; every NewStep notification is followed by exactly one SuccessfulStep, FailedStep or InfinitePathTruncation, and TrackingEnded is the last notification, sent once on every way out.", "quantifier": "all systems (predictors and correctors), settings, start points and times, after any number of passes, whatever the accumulator held before, for fixed and adaptive precision", "why_tests_cant": "tests look at the path of a few runs; that no way through the loop sends a notification too many or too few, or with the old point, is a statement about all runs", "anchors": ["core/include/bertini2/trackers/observers.hpp:192-223", "core/include/bertini2/trackers/base_tracker.hpp:232-286", "core/include/bertini2/trackers/amp_tracker.hpp:557-562", "core/include/bertini2/trackers/amp_tracker.hpp:1020-1042", "core/include/bertini2/trackers/fixed_precision_tracker.hpp:129-132", "core/include/bertini2/trackers/fixed_precision_tracker.hpp:259-280"]}
{"id": "C176", "title": "An observer receives the events of exactly the objects it was added to", "statement": "After any sequence of constructing, copying, moving and assigning trackers, endgames and solvers, and of AddObserver and RemoveObserver calls, an event of an object reaches exactly the observers that were added to that object and not removed since, each once, in the order in which they were added; a MultiObserver passes it on to each observer glued together in it.", "quantifier": "all sequences of actions on any number of objects and observers, all nestings of MultiObservers", "why_tests_cant": "tests attach an observer to one tracker and track; copies of observed objects and observers that are destroyed are a matter of all histories", "anchors": ["core/include/bertini2/detail/observable.hpp:44-112", "core/include/bertini2/detail/observer.hpp:48-119"]}
{"id": "C177", "title": "The notifications of a step say what happened in it", "statement": "In every tracker iteration the observers are told what happened: the prediction with its point, or which linear solve of it failed, or that it needs more precision; then the correction with its point, or that a linear solve of Newton's method failed, or that it needs more precision. SuccessfulCorrect is sent exactly when the step succeeds, with the new current point; SingularStartPoint is sent exactly when TrackPath returns that code.", "quantifier": "all systems, settings, states and steps, for fixed and adaptive precision", "why_tests_cant": "tests count the events of a few runs; which notification belongs to which outcome is a statement about all outcomes", "anchors": ["core/include/bertini2/trackers/amp_tracker.hpp:427-530", "core/include/bertini2/trackers/amp_tracker.hpp:621-699", "core/include/bertini2/trackers/fixed_precision_tracker.hpp:165-222", "core/include/bertini2/trackers/base_tracker.hpp:232-286", "core/include/bertini2/trackers/events.hpp:40-330"]}
{"id": "C178", "title": "The notifications of an endgame say how it ended", "statement": "Observers of an endgame can tell from the notifications how the run ended: a run that returns Success ends with exactly one Converged, right after the approximation that is returned was announced; a run that fails ends with exactly one notification of a failure and never announces convergence; before the end only approximations are announced.", "quantifier": "all trackers, systems, settings, start points and runs of the power series and the Cauchy endgame, of any length", "why_tests_cant": "tests check the code returned by a few runs; that the notifications agree with it is a statement about every way out of the endgame", "anchors": ["core/include/bertini2/endgames/events.hpp:40-200", "core/include/bertini2/endgames/powerseries.hpp:566-741", "core/include/bertini2/endgames/cauchy.hpp:733-788", "core/include/bertini2/endgames/cauchy.hpp:862-905", "core/include/bertini2/endgames/cauchy.hpp:978-1153"]}
{"id": "C179", "title": "Patches compare equal exactly when they are the same patch", "statement": "operator== on two patches never fails and is true exactly when the groups have the same sizes and every point gives the same values of the patch equations; operator!= is its negation. Equal patches at the same working precision work with the same coefficients.", "quantifier": "all patches, any number and sizes of groups, any coefficients, any history of precision changes and copies", "why_tests_cant": "tests compare a patch with its copy; that unequal patches differ at some point, for all coefficients, is not observable from samples", "anchors": ["core/include/bertini2/system/patch.hpp:439-505", "core/include/bertini2/system/patch.hpp:99-135", "core/src/system/system.cpp:1313-1320", "core/src/system/system.cpp:1366-1371"]}
{"id": "C180", "title": "A real random patch is real", "statement": "Patch::RandomReal(sizes) makes a patch on groups of these sizes with one real coefficient in [-1,1] for each variable, each from its own draw. With such a patch real points are rescaled to real points and conjugate points to conjugate points.", "quantifier": "all lists of nonempty groups, all random draws, all points", "why_tests_cant": "a test sees one random patch and a few points", "anchors": ["core/include/bertini2/system/patch.hpp:199-233", "core/include/bertini2/system/patch.hpp:404-422", "core/include/bertini2/random.hpp:168-175"]}
{"id": "C181", "title": "Numbers in double precision can be read back", "statement": "A double or complex double written by Classic::generate or CPlusPlus::generate and given to the parser of the same format and type is accepted and gives the same value, including infinities and not-a-number.", "quantifier": "all finite and special doubles as real and imaginary part, both formats", "why_tests_cant": "tests write and read a few literals; whether the separators, signs, exponents and special words can be confused for some number needs all numbers", "anchors": ["core/include/bertini2/io/generators.hpp:75-146", "core/include/bertini2/io/generators.hpp:206-226", "core/include/bertini2/io/parsing/number_parsers.hpp:125-172", "core/include/bertini2/io/parsing/number_parsers.hpp:236-286"]}
{"id": "C182", "title": "Which texts are numbers in double precision", "statement": "The parser of double accepts exactly the texts that are one number in C++ notation with white space around it. The classic parser of complex<double> accepts one number (imaginary part 0) or two numbers; the C++ parser accepts exactly x, (x) and (x, y), white space allowed between the parts. All other texts are refused, and the values are those of the texts.", "quantifier": "all texts", "why_tests_cant": "the set of refused texts is infinite; backtracking between the alternatives leaves values behind only on texts nobody writes as a test", "anchors": ["core/include/bertini2/io/parsing/number_parsers.hpp:125-172", "core/include/bertini2/io/parsing/number_parsers.hpp:236-286"]}
{"id": "C183", "title": "A printed linear product denotes its value", "statement": "What print writes for a linear product over a nonempty group, read with the usual meaning of parentheses, products and sums, has the value of the product at every point; what is written for the differential of a linear denotes the sum of coefficients times differentials.", "quantifier": "all linear products (any number of factors, variables and coefficients, homogenized or not), all points", "why_tests_cant": "tests compare one printed text; that the text stands for the function at all points and for all sizes is not observable", "anchors": ["core/src/function_tree/linear_product.cpp:391-419", "core/src/function_tree/linear_product.cpp:482-495"]}
{"id": "C184", "title": "A linear product said to be homogeneous in a variable is", "statement": "IsHomogeneous(v) of a linear product answers true only if scaling v multiplies the value by a power of the factor; without a variable, only if scaling all variables does. The answer is false exactly for the variables of the product and, without a variable, for a product that was not homogenized.", "quantifier": "all linear products and variables, all points and factors", "why_tests_cant": "a test asks for two or three variables of one product", "anchors": ["core/src/function_tree/linear_product.cpp:227-252"]}
{"id": "C185", "title": "The printed straight line program says what the program does", "statement": "Printing a compiled StraightLineProgram never reads outside its instructions or its memory; the section of instructions has one line per instruction, in the order of execution, naming the operation and the memory locations; and two programs whose printed texts are equal give the same functions, Jacobian and time derivatives at all inputs.", "quantifier": "for all systems and their compiled programs, all contents of the two memories, all input values and all arithmetic", "why_tests_cant": "a test compares the text of one program; that every opcode is decoded with the right number of operands, and that the text determines the program, is a statement about all programs", "anchors": ["core/src/system/straight_line_program.cpp:37-60", "core/src/system/straight_line_program.cpp:118-202", "core/include/bertini2/system/straight_line_program.hpp:143-170"]}
{"id": "C186", "title": "The precision of a matrix", "statement": "For a nonempty matrix, Precision(v) and PrecisionRequireUniform(v) return p exactly if all entries have precision p; after Precision(v, p) both return p. PrecisionRequireUniform otherwise throws, naming the first place (column by column) whose precision differs from that of the first entry.", "quantifier": "for all matrix sizes, all entries and all precisions", "why_tests_cant": "a test sets the precision of one small matrix; that no entry of a matrix of any shape is missed is not observable", "anchors": ["core/include/bertini2/eigen_extensions.hpp:274-338"]}
{"id": "C187", "title": "The Kahan matrix", "statement": "KahanMatrix(n, c) is the n by n upper triangular matrix with entries s^i/(i+1) on the diagonal and -c s^i/(j+1) above it, where s = sqrt(1-c^2), whatever the storage contained; its determinant is the product of the diagonal, and it is invertible for every n if -1 < c < 1.", "quantifier": "for all sizes, all c and all fields (exact arithmetic)", "why_tests_cant": "a test looks at the LU decomposition of a few sizes; the entries for all sizes and the invertibility are not observable", "anchors": ["core/include/bertini2/eigen_extensions.hpp:445-487"]}
{"id": "C188", "title": "The printed system describes the system", "statement": "The text written for a System names all its variables; the derivatives in it carry the right indices; and two systems with the same text have the same Variables() in the same order, the same functions, parameters, constants and path variable.", "quantifier": "for all histories of calls adding groups, homogeneous groups and ungrouped variables, homogenizing and querying, all functions, parameters, constants, path variables, and both methods of differentiation", "why_tests_cant": "a test prints one system; that nothing a user needs is left out, for all systems, is a statement about pairs of systems", "anchors": ["core/src/system/system.cpp:1162-1278", "core/src/system/system.cpp:370-391"]}
{"id": "C189", "title": "Comments do not change how an input file is split", "statement": "Two classic input files which differ in their comments only are split into the same configuration and input sections, up to blank lines and white space at the beginning of lines, by ParseInputFile and by SplitIntoConfigAndInput.", "quantifier": "for all texts, all positions and contents of comments, all line end conventions and all combinations of markers beginning with CONFIG", "why_tests_cant": "a test writes one comment in one place; the claim is about all comments, including ones which contain a marker", "anchors": ["core/include/bertini2/io/parsing/classic_utilities.hpp:379-398", "core/include/bertini2/io/parsing/classic_utilities.hpp:404-426", "core/src/blackbox/algorithm_builder.cpp:33-36"]}
{"id": "C190", "title": "Metadata of paths can be compared and printed", "statement": "After Solve, the metadata of any two paths, of one or of two solves, can be compared and printed: they compare equal exactly when all members are equal, their texts are the same exactly then, and the metadata of different paths never compare equal. Boundary metadata of equal dimension compare equal exactly when point, success code and step size are.", "quantifier": "for all numbers of paths, outcomes of trackers and endgames, numbers of earlier calls of Solve, and all values of the members", "why_tests_cant": "a member left out of a comparison of eighteen, or one read before it has a value, shows only for records that differ in it", "anchors": ["core/include/bertini2/nag_algorithms/zero_dim_solve.hpp:109-198", "core/include/bertini2/nag_algorithms/zero_dim_solve.hpp:203-234", "core/include/bertini2/nag_algorithms/zero_dim_solve.hpp:577"]}
{"id": "C191", "title": "Norms and Hermitian products of multiprecision vectors", "statement": "With the products bertini supplies to the matrix library for multiprecision complex numbers, u.dot(v) and products with an adjoint on the left are the sums of conj(u_k) v_k, products with an adjoint on the right the sums of u_k conj(v_k), and the squared norm the sum of the squared moduli, zero only for the zero vector; whatever the rounding, the product of a vector with itself is real, nonnegative and equal to its squared norm.", "quantifier": "for all vectors of all lengths, and for all arithmetics with commutative products, x - x = 0 and nonnegative squares and sums", "why_tests_cant": "a test multiplies a few vectors and compares within a tolerance; conjugating the wrong factor changes only the sign of an imaginary part, and exactness under rounding is a statement about all roundings", "anchors": ["core/include/bertini2/eigen_extensions.hpp:137-180"]}
{"id": "C192", "title": "Compound assignment changes only the expression assigned to", "statement": "After +=, -=, *= or /= on an expression, the expression assigned to has the value of the operation, and every other expression, including those built from the old one, keeps its value.", "quantifier": "for all graphs of shared nodes in memory, all expressions on both sides (also shared or the same), all other expressions, and all points", "why_tests_cant": "a test builds one expression and evaluates it; the claim is about every other expression that shares nodes with it", "anchors": ["core/include/bertini2/function_tree/operators/arithmetic.hpp:119-152", "core/include/bertini2/function_tree/operators/arithmetic.hpp:1100-1106", "core/include/bertini2/function_tree/operators/arithmetic.hpp:1175-1181", "core/include/bertini2/function_tree/operators/arithmetic.hpp:1243-1247", "core/include/bertini2/function_tree/operators/arithmetic.hpp:1302-1371"]}
{"id": "C193", "title": "Implicit parameters take the values they are given", "statement": "After SetImplicitParameters with as many values as there are parameters, evaluating the system gives the values of its functions with each implicit parameter at its value; a wrong number of values is refused, and no other node changes.", "quantifier": "for all systems with implicit parameters, all values of variables and parameters, and all earlier contents of the program's memory", "why_tests_cant": "no test evaluates a system with implicit parameters; the default evaluation method compiles the system first, and a test at one point cannot show for which functions the parameters are read", "anchors": ["core/include/bertini2/system/system.hpp:1058-1069", "core/src/system/system.cpp:636-648", "core/src/system/straight_line_program.cpp:344-346", "core/src/system/straight_line_program.cpp:739-765"]}
