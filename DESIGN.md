# Formal model of bertiniteam/b2 (core) in Lean 4

The C++ in `/repo/core` is read as text only; it is neither built nor run.
Everything below is about the Lean model in `lean/Verif/`.

## 1. Trusted base

* Lean 4.33.0's kernel, and the Mathlib modules imported one at a time.
* Axioms: every property theorem depends on at most `propext`,
  `Classical.choice`, `Quot.sound` (checked with `#print axioms` for every name
  in `MANIFEST.json`). No axiom is added; no `sorry`, `admit`,
  `native_decide`, `bv_decide`, `implemented_by`, `unsafe`.
* The reading of the C++ source: each definition cites the file and lines it
  models, and says where it simplifies. This is the only tie to the code. A
  wrong reading is not detected by Lean.
* The specification definitions in the `Props*.lean` and `Spec*.lean` files:
  they are what the theorems claim and must be read.

### What is idealised everywhere

* Numbers. `dbl` and `mpfr_complex` are replaced by exact numbers: `ℂ` for
  expression values, `ℝ`/`ℚ` for times and step sizes, or an arbitrary field
  where the argument allows it; the straight-line programs are over an
  arbitrary arithmetic without laws. Rounding, overflow to infinity and NaN
  are not modelled, except where a property depends on NaN (C47, C53: norms
  are optional values) or on rounding (C30). A division by zero is outside
  the domain predicates, never silently `0`.
* Precision is modelled where the property is about it (patch coefficients,
  SLP numbers, AMP tracker) as a number of digits together with an abstract
  rounding function.
* `int` degrees are `Int` without overflow unless the property is about
  overflow (C13); C++ `unsigned` is modelled with wrap-around where the code can
  underflow (`MinimizeTrackingCost`, `StepsizeSatisfyingCriterionB`, Newton
  iteration counts, `WitnessSet::IsConsistent`).
* Numerical oracles (linear solve, predictor and corrector outcomes, random
  draws, norms) are arbitrary parameters: theorems hold for every behaviour.
* Undefined behaviour, failed assertions and exceptions are a separate
  outcome (`none`, `Res.bad`, `.err`), never a value.

## 2. What is modelled and what is not

| module | code modelled |
|---|---|
| `Verif/Tree/*` | function tree: nodes, evaluation, `Degree`, `Differentiate`, `Homogenize`, `IsHomogeneous`, `IsPolynomial`, `MultiDegree`, `Simplify`, operator overloads, value caches, precision of nodes and constants, `LinearProduct`/`DiffLinear` (arithmetic.cpp/hpp, operator.cpp, trig.cpp, function.cpp, jacobian.cpp, differential.cpp, number.cpp, special_number.cpp, variable.cpp, linear_product.cpp/hpp, simplify.cpp, node.cpp) |
| `Verif/SLP/*` | `SLPCompiler`, `StraightLineProgram`: compilation, evaluation, precision and memory at run time (straight_line_program.cpp/hpp) |
| `Verif/System/*` | variable structure, ordering, evaluation, derivative bookkeeping, arithmetic on systems, homogenization, dehomogenization, concatenation, reordering, copies, predefined systems (system.cpp/hpp, precon.cpp) |
| `Verif/Patch/*` | `Patch` (patch.hpp) |
| `Verif/Start/*` | `IndexToSubscript`, `TotalDegree`, `MHomogeneous` (start/*.cpp/hpp, utility.hpp) |
| `Verif/Track/*` | `TrackPath`, fixed-precision and AMP iteration, Newton corrector, AMP criteria, precision of everything an AMP tracker holds (base_tracker.hpp, fixed_precision_tracker.hpp, amp_tracker.hpp, amp_criteria.hpp, newton_corrector.hpp) |
| `Verif/Predict/*` | Butcher tables, `FullStep`, error estimate, predictor selection (explicit_predictors.cpp/hpp, settings_parsers/tracking.hpp) |
| `Verif/Endgame/*` | Hermite interpolation, power-series and Cauchy endgames, cycle numbers, refinement of samples (interpolation.hpp, base_endgame.hpp, powerseries.hpp, cauchy.hpp, *_prec_endgame.hpp, *_precision_utilities.hpp) |
| `Verif/Alg/*` | midpath check, zero-dimensional solve, path recorders, metadata, extraction of results, forming the homotopy, setting up the systems, run time switches (midpath_check.hpp, zero_dim_solve.hpp, output.hpp, common/policies.hpp, blackbox/switches_zerodim.hpp) |
| `Verif/Cont/*` | no code: zeros of homotopies, continuation, elimination, and the bridge from the modelled systems to polynomials |
| `Verif/Parse/*` | expression grammar, printing, declarations, whole systems, comment stripping, input splitting, numbers, every parser of the configuration section with its defaults (function_rules.hpp, number_rules.hpp, number_parsers.hpp, system_rules.hpp, classic_utilities.hpp, settings_parsers.hpp, settings_parsers/*.hpp, config.hpp files) |
| `Verif/Infra/*` | observers, pool, witness set, integer powers, random units, LU check, slices, serialization of systems, programs, patches and start systems |

In each directory, files named `Props*.lean` hold specification definitions,
property theorems and their non-vacuity examples (some with the few lemmas only
they need); the other files hold the model and helper lemmas (`*Proof.lean`,
`*Lemmas.lean`).

Not modelled:

* Logging; python bindings; MPI start-up; `blackbox/*` except the switches
  (C123); output formatting (`output.hpp` except what is extracted,
  `splash.hpp`, `generators.hpp` except expressions and numbers).
* Serialization is modelled as the list of members written and read, in order, by
  the `serialize`/`save`/`load` functions; the archive formats of Boost are not.
* `configIni_parse.hpp`.
* Boost.Spirit below the grammar: sequence, ordered choice, Kleene star, symbol
  tables with longest match are modelled as deterministic functions on lists of
  characters; attribute propagation is modelled only where the value is built by
  a semantic action. In `SplitInputFileParser` only the alternative with both
  sections is modelled: the alternatives of `only_input_` share one string
  attribute, and what a failed alternative leaves in it depends on Qi's container
  handling, which is not rolled back.
* `newton_correct.hpp`, `predict.hpp`, `step.hpp` (older free-function versions
  not used by the trackers), `trace.hpp`, `sharpen.hpp`,
  `numerical_irreducible_decomposition.hpp` (stubs).
* Eigen's decompositions and norms (oracles).
* Observers and events, except for delivery order (C61, C62) and the recorders of
  a solve.
* Memory management, except where a property speaks about it (C63).

## 3. Properties, model, method and result

When the code violates a property as stated, the model keeps the code's
behaviour; the full statement is a definition `Cxx_full`; a theorem
`Cxx_..._refuted` proves its negation with a concrete reachable witness; a
`_partial` theorem proves the property on the fragment where it holds and its
comment says what is missing. Every refuted property is therefore listed as
`partial`.

* **C01** (partial). *Differentiate returns the true partial derivative.* Model and method: `Node`/`Ops` mutual inductive tree, `eval` into ℂ, `diff v` case by case as in the code; `HasDerivAt` of the value by mutual induction on the domain `Smooth`. Result: Holds for all trees without the variable in the exponent of a general power; refuted for variable exponents. Files: `Tree/PropsDiff.lean`.
* **C02** (partial). *A non-negative Degree(v) certifies a polynomial of at most that degree in v.* Model and method: `degV` as in the code (it evaluates exponents at the current values `cur`); existence of a polynomial that agrees for every value of the variable; mutual induction through a joint multivariate statement. Result: Holds when exponents of general powers keep their value and near-integers are integers; refuted for x^y with a varying exponent. Files: `Tree/PropsDegree.lean`.
* **C03** (partial). *Degree(group) is the total degree in the group.* Model and method: `degG` (fold over the variables for unary nodes, sum/maximum for n-ary nodes); multivariate polynomial of bounded total degree. Result: Refuted: -(exp(x)+y^2) is given degree 1. Holds for one-variable groups, for trees with non-negative per-variable degrees; exact on sums of monomials. Files: `Tree/PropsDegree.lean`.
* **C04** (proved). *Setting the homogenizing variable to 1 recovers the original function.* Model and method: `hom` with the padding of summands; values compared at points with h = 1. Result: Tree model (no sharing); see C67 for shared subexpressions. Files: `Tree/PropsHom.lean`.
* **C05** (partial). *Homogenize produces a homogeneous function.* Model and method: `hom`, `padTerm`; scaling identity by mutual induction. Result: Refuted on -(x+y)+1; holds for one-variable groups and when negations/powers have operands whose group degree is the sum of variable degrees. Files: `Tree/PropsHom.lean`.
* **C06** (partial). *IsHomogeneous(vars)=true is sound.* Model and method: `isHom`; scaling identity. Result: Refuted on (x+y)^2+x^4; same fragment as C05. Files: `Tree/PropsHom.lean`.
* **C07** (partial). *IsPolynomial(vars)=true is sound.* Model and method: `isPoly`: the group degree is not negative. Result: Refuted for groups of two or more variables; holds for one-variable groups and for trees accepted in each variable. Files: `Tree/PropsDegree.lean`.
* **C08** (partial). *MultiDegree lists the degree in each variable.* Model and method: `multiDeg`. Result: Refuted on 1/x; holds when no variable has negative degree. Files: `Tree/PropsDegree.lean`.
* **C09** (proved). *ReduceDepth never changes the value.* Model and method: `reduceDepth` with both orders of the two passes (C++ leaves it open). Result: all trees, both evaluation orders of the two passes Files: `Tree/PropsSimplify.lean`.
* **C10** (partial). *Simplify preserves the function.* Model and method: `elimOnes`, `elimZeros`, `simplifyRound`; values before and after. Result: full statement refuted: x+y simplified while x holds 0 becomes y. Proved when no operand is accidentally 0/1 at the current values Files: `Tree/PropsSimplify.lean`.
* **C11** (proved). *Simplify terminates.* Model and method: a weight decreases in every round that reports a change; the loop relation `SimplifiesTo` is total and deterministic. Result: termination with bound 3*nodes, uniqueness, node count Files: `Tree/PropsSimplify.lean`.
* **C12** (partial). *Evaluation after Reset is never stale.* Model and method: numbered acyclic graph with one cache cell per node and number type; operations set/reset/eval/evalJ; frame and consistency invariants over histories. Result: full statement refuted by Reset(f);Eval(g sharing a node);set;Eval(f); proved for Reset, sets, then any resets/evals Files: `Tree/PropsCache.lean`.
* **C13** (partial). *Operator overloads build expressions with the intended value.* Model and method: one definition per overload, `UExpr.build`; structural induction. Result: full statement refuted only by exponent overflow (INT_MAX) when powers of one node are merged Files: `Tree/PropsOperators.lean`.
* **C14** (partial). *A product of linears evaluates to the product of its linear forms and differentiates by the product rule.* Model and method: coefficient matrix as a function; foldl loops turned into sums and products; product rule. Result: value proved; derivative proved except by the homogenizing variable, where it is refuted (the code gives the derivative by the last variable of the group) Files: `Tree/PropsLinear.lean`.
* **C15** (partial). *A compiled straight-line program computes exactly what the expression trees compute.* Model and method: `SLPCompiler::Visit`, memory locations, the flat instruction vector and its interpreter over an arbitrary arithmetic without laws; invariant "each encountered node's location holds its value after running the emitted prefix". Result: Compile+execute equals direct evaluation for systems whose functions are distinct, use only declared variables, and are listed after the functions they use. The full claim is false: forward references between named functions, a function added twice and variables in no group give wrong values (witnesses). C15_foreign: with variables in no group the program computes the functions with these read as the first variable. Files: `SLP/Foreign.lean`, `SLP/PropsCompile.lean`.
* **C16** (partial). *Compilation emits each shared subexpression once.* Model and method: counting invariant over the same compiler. Result: Instruction count bounded by operand edges of distinct reachable nodes, and single assignment, when no function is added twice; adding a function twice writes a location twice (refuted). Files: `SLP/PropsCompile.lean`.
* **C17** (partial). *SLP results reflect the most recent inputs and precision.* Model and method: `RT` state machine with both memories, one flag, one precision; exact automaton for when outputs are current. Result: Holds for all histories in which the flag is not left set by the other number type or by a precision change (exact automaton); refuted otherwise: one is_evaluated flag is shared by both types and precision() does not clear it. Files: `SLP/PropsRuntime.lean`.
* **C18** (proved). *Variable ordering lists every variable exactly once, grouped, with homogenizing variables first.* Model and method: construction histories (`Op`), the ordering code, invariant by induction over histories. Result: For every history of additions, Homogenize and queries, Variables() is the concatenation of the blocks in order of addition (homogenizing variable first), each variable once. Files: `System/PropsVars.lean`.
* **C19** (proved). *VariableGroupSizes agrees with the ordering and drives patch and dehomogenization blocks.* Model and method: the same histories; sizes compared with block lengths. Result: Sizes are the block lengths in order of addition for every consistent history. Files: `System/PropsVars.lean`.
* **C20** (partial). *Evaluation binds coordinate k of the point to variable k of the ordering.* Model and method: heap of Function nodes shared between systems, `SysOp` histories (edits, copies, arithmetic, evaluation); reachable-state invariant. Result: Value of Eval at the current functions, for histories without in-place edits of functions while a system using them is differentiated; wrong sizes rejected. Refuted in full: a product or sum elsewhere edits shared Function nodes of an already compiled system; a copy carries is_differentiated_ but no compiled program; changing the evaluation method; removing the patch by adding variables. Files: `System/PropsState.lean`, `System/PropsStateNeg.lean`.
* **C21** (partial). *Jacobian entry (i,j) is the derivative of function i in variable j.* Model and method: flat derivative index i + j·n, C01 for the entries. Result: Jacobian entries are the partial derivatives of the current functions plus the patch rows, under the same restriction on histories. Files: `System/PropsState.lean`, `System/PropsStateNeg.lean`.
* **C22** (partial). *Derivatives always belong to the current functions.* Model and method: the same histories; `is_differentiated_` bookkeeping. Result: Derivatives after edits; refuted because += / *= do not reset is_differentiated_ of other systems sharing the functions. Files: `System/PropsState.lean`, `System/PropsStateNeg.lean`.
* **C23** (partial). *Adding or scaling systems does not change the operands.* Model and method: in-place edits of shared Function nodes by `+=`, `*=`. Result: The result is right; systems sharing no function with the left operand are unchanged. The left operand itself is changed (copies share Function nodes): proved for all systems, and the full claim refuted. Files: `System/PropsStateOps.lean`.
* **C24** (proved). *Reordering by degree sorts and permutes.* Model and method: relation "some outcome `std::sort` allows". Result: For every outcome std::sort allows (ties in any order). Files: `System/PropsStateOps.lean`.
* **C25** (partial). *Dehomogenizing inverts homogenizing, blockwise.* Model and method: `DehomogenizePoint` with its block loop. Result: Holds when all homogeneous groups have equal size (the code reads the size of the first one) and, for unhomogenized systems, affine groups likewise; refuted otherwise. Files: `System/PropsVars.lean`.
* **C26** (partial). *System homogenization adds one variable per affine group and is idempotent.* Model and method: `System::Homogenize` on the variable structure and on function trees. Result: Structure in full. Idempotence when negations, powers and elementary functions are applied to sum-free trees; refuted for x-(x+1). Files: `System/PropsStateOps.lean`.
* **C27** (partial). *Concatenate stacks functions and keeps the patch.* Model and method: `Concatenate` and `CopyPatches`. Result: All cases except only the second system patched, where Concatenate always throws (CopyPatches(sys1)). Files: `System/PropsStateOps.lean`.
* **C28** (proved). *Rescaling a point satisfies the patch and changes each block only by a scalar.* Model and method: `RescalePointToFit` over any field. Result: All group-size lists, coefficients and points over any field. Files: `Patch/PropsPatch.lean`.
* **C29** (proved). *Patch values and Jacobian occupy the last rows and are consistent.* Model and method: `EvalInPlace`, `JacobianInPlace` on vectors/matrices with the caller's old contents. Result: Rows are zero outside the block only if the caller's matrix was (C29_jacobian); in general the old entries are kept (C29_jacobian_overwrite). Files: `Patch/PropsPatch.lean`.
* **C30** (partial). *Precision changes of a patch are lossless round trips.* Model and method: coefficients stored at highest precision; rounding an arbitrary function with an error bound; histories of precision changes and copies. Result: Stored coefficients never change, raising is exact after any history, error stays below 2 eps(p) after any history. Exact equality with a single rounding is refuted (copy constructor does not round; two lowerings round twice). Files: `Patch/PropsPatch.lean`.
* **C31** (proved). *Index-to-subscript is a bijection.* Model and method: `IndexToSubscript`; mixed-radix induction. Result: integer type unbounded in the model (code: size_t) Files: `Start/PropsIndex.lean`.
* **C32** (proved). *Total-degree start points solve the start system and are distinct.* Model and method: start point formula and start functions; roots of unity. Result: exact complex arithmetic; targets affine and unpatched or homogenized and patched, without ungrouped variables (see C33 for the rest); C32_total in the patched case needs the raw point not at infinity for the patch Files: `Start/PropsTotalDegree.lean`.
* **C33** (partial). *Total-degree start system accepts exactly the systems it can handle.* Model and method: constructor checks in order, as decision logic. Result: full statement C33_full is refuted: ungrouped variables are accepted and give a non-square start system Files: `Start/PropsTotalDegree.lean`.
* **C34** (partial). *Multihomogeneous partitions are enumerated without omission or repetition.* Model and method: the recursive `GeneratePartitions`; exact characterisation of its list. Result: for every degree matrix: exactly when the sizes add up to the number of functions; otherwise the code enumerates 'at most size_j times' and the full statement C34_full is refuted Files: `Start/PropsMHom.lean`.
* **C35** (proved). *Multihomogeneous start-point indexing is a bijection.* Model and method: index search through partitions; Bezout number as a polynomial coefficient. Result: integers unbounded in the model; the Bezout number is the coefficient of prod alpha_j^size_j in prod_i sum_j d_ij alpha_j Files: `Start/PropsMHom.lean`.
* **C36** (partial). *Multiplying a start system by a node returns.* Model and method: `operator*=` modelled as the recursion it is; no fuel makes it return. Result: full statement C36_full is refuted: operator*= calls itself forever Files: `Start/PropsTotalDegree.lean`.
* **C37** (partial). *TrackPath success means the end time was reached with an accepted point.* Model and method: `TrackPath`/`TrackerIteration` driven by arbitrary predictor/corrector answers; invariant over iterations. Result: Proved for every return code except GoingToInfinity, for fixed-precision and adaptive trackers. Refuted for GoingToInfinity: current_space_ is already overwritten while current_time_ is not advanced (C37_refuted; C37_truncated says exactly what is left behind). Exact arithmetic. Files: `Track/PropsAMP.lean`, `Track/PropsFixed.lean`.
* **C38** (proved). *Tracked time moves monotonically along the segment and never overshoots.* Model and method: the same loop; order on the segment. Result: For both tracker families, any initial step, positive min_step_size. Exact arithmetic (rounding of times not modelled). Files: `Track/PropsAMP.lean`, `Track/PropsFixed.lean`.
* **C39** (proved). *Fixed-precision tracking terminates.* Model and method: explicit bound by a ranking function. Result: Explicit bound max_num_steps + F + 1; the corrector inside is the modelled Newton corrector. Files: `Track/PropsFixed.lean`.
* **C40** (partial). *Fixed-precision step size recovers after failures.* Model and method: step size after any run of outcomes. Result: Refuted: the fixed-precision tracker never increases its step size. C40_partial: the step is exactly initial * fail_factor^failures. Files: `Track/PropsFixed.lean`.
* **C41** (proved). *Adaptive-precision tracking terminates and respects the precision cap.* Model and method: lexicographic ranking. Result: Lexicographic ranking (remaining successes, remaining precision, remaining shrinks). Configurations with maximum_precision <= MaxPrecisionAllowed() (asserted by the code), positive min step, fail factor in (0,1). Files: `Track/PropsAMP.lean`.
* **C42** (partial). *AMP never steps with precision below the criteria it enforces.* Model and method: `ErrorConvergenceError`, `CriterionError`, `MinimizeTrackingCost` with unsigned arithmetic. Result: Precision always strictly increases (proved). The 'at least the required digits' half is refuted: the incompatible-step branch ignores the criteria, and MinimizeTrackingCost rounds the requirement down to a multiple of 10. Files: `Track/PropsAMP.lean`.
* **C43** (partial). *Newton correction succeeds exactly when a step within tolerance is taken in range.* Model and method: the Newton loop with unsigned iteration counters. Result: Full iff for min >= 1; refuted for min = 0 (unsigned wrap-around of min-1). Files: `Track/PropsNewton.lean`.
* **C44** (proved). *Explicit Runge-Kutta predictors have their advertised order.* Model and method: Butcher tables transcribed as rationals, `FullStep` as in the code, arbitrary right-hand side. Result: Exact rational tables transcribed from the source (column-major), field arithmetic; the right-hand side is an arbitrary partial function. Embedded order of HeunEuler is 1. Files: `Predict/PropsRK.lean`.
* **C45** (partial). *Every selectable predictor can be used.* Model and method: `PredictorMethod` dispatch and the settings table. Result: Full statement C45_full refuted: Heun and RKNorsett34 throw in PredictorMethod; odepredictor 1, 3, 4 select them. Files: `Predict/PropsRK.lean`.
* **C46** (partial). *Hermite extrapolation reproduces polynomials.* Model and method: divided-difference table and the final Horner loop. Result: The divided-difference table is the confluent table for every number of samples, and the value returned is computed exactly for all data: Newton's form with the nodes y(j/4) instead of y(j/2). Hence exact for degree at most 2; refuted for higher degrees, with the exact error for n = 2. Files: `Endgame/PropsHermite.lean`.
* **C47** (partial). *Endgame success means two consecutive approximations agree within tolerance.* Model and method: `RunImpl` of both endgames with arbitrary tracker/refiner/norm answers (norms may be not-a-number). Result: Power-series endgame: proved for final tolerance below 1 up to non-numbers; refuted in general (NaN difference counts as converged; tolerance 1 succeeds after one approximation). Cauchy endgame: proved for the second and later approximations; refuted for the first, which is compared with the start point. Files: `Endgame/PropsCauchy.lean`, `Endgame/PropsPS.lean`.
* **C48** (partial). *The power-series endgame terminates.* Model and method: sample-time recursion. Result: Terminates with explicit bound for target 0 or factor 1/2; refuted for other targets (sample times do not approach the target). Files: `Endgame/PropsPS2.lean`.
* **C49** (partial). *Sample times approach the target geometrically.* Model and method: the rule for the next time. Result: Both endgames: the rule (target - t) * factor + t contracts by 1 - factor (Cauchy) or by the factor only for factor 1/2 or target 0 (power series); exact theorems and refutations. Files: `Endgame/PropsCauchy.lean`, `Endgame/PropsPS2.lean`.
* **C50** (partial). *Sample windows stay aligned and bounded.* Model and method: deque contents along the loop. Result: Window invariant for loop states and success; after a failed refinement n+2 entries remain. Files: `Endgame/PropsPS2.lean`.
* **C51** (proved). *The Cauchy mean recovers the constant term.* Model and method: averages over closed loops of Puiseux polynomials. Result: Exact arithmetic; tracker exact on the path (Ideal). Files: `Endgame/PropsCauchy2.lean`.
* **C52** (partial). *Cauchy circles return to their starting time.* Model and method: `CircleTrack` with its angle increments. Result: Circle proved; loop bound holds for later loops, initial loops may take one more than the maximum (refuted). Files: `Endgame/PropsCauchy2.lean`.
* **C53** (partial). *Security truncation is applied as configured.* Model and method: security branches of both endgames. Result: Power-series endgame proved; Cauchy endgame refuted (level 0 goes on; level 1 reads unset norm) with the fragment that holds. Files: `Endgame/PropsCauchy.lean`, `Endgame/PropsPS2.lean`.
* **C54** (partial). *The midpath check reports exactly the crossed paths.* Model and method: `MidpathChecker::Check` with its kept state. Result: Exact characterisation of what the check computes after any history; refuted as stated: pairs with different start points are not marked (comparison inverted) and an earlier failure makes every later check fail. Files: `Alg/PropsMidpath.lean`.
* **C55** (partial). *Multiplicities count coincident endpoints symmetrically.* Model and method: `ComputeMultiplicities` over repeated Solve calls. Result: Holds after the first Solve; each further Solve adds to the stored multiplicities (refuted). The partner lists are discarded by the code. Files: `Alg/PropsZeroDim.lean`.
* **C56** (proved). *Every path gets exactly one verdict and failed paths are not endgamed.* Model and method: the phases of `Solve` with arbitrary outcomes. Result: All outcomes, any number of Solve calls. Precision handling and observers not modelled. Files: `Alg/PropsZeroDim.lean`.
* **C57** (partial). *The expression parser follows conventional precedence.* Model and method: the Qi grammar of `FunctionParser` as a deterministic recursive-descent function (PEG), against an independent inductive grammar `Conv`. Result: Holds for all texts where nothing follows a negated term; refuted in full: -x+y is read as -(x+y), -2^2 as (-2)^2. The specification is the grammar Conv. Files: `Parse/PropsParse.lean`.
* **C58** (partial). *Printed polynomials parse back.* Model and method: the `print` methods composed with the parser. Result: Round trip of the actual print functions for integer coefficients and all operators the grammar knows; rational numbers and inverse trigonometric functions print in a form that never parses; a negated first summand changes the value; a sum whose first operand is subtracted comes back as the negative of the whole sum. Files: `Parse/PropsPrint.lean`.
* **C59** (partial). *Any fresh identifier can be declared.* Model and method: symbol tables (`qi::symbols` longest prefix) and the declaration rules. Result: Exact characterisation: rejected iff a known or earlier name is a prefix. Refuted in full: x, x1 is rejected; no name starting with e, E, i, I can be declared. Files: `Parse/PropsDeclare.lean`.
* **C60** (partial). *Comment stripping removes exactly the comments.* Model and method: `CommentStripper` grammar. Result: Equal up to blank lines and leading white space; refuted exactly: always appends a newline. Files: `Parse/PropsComments.lean`.
* **C61** (proved). *Observers are notified exactly once, in order of registration.* Model and method: `AddObserver`, `RemoveObserver`, `NotifyObservers`. Result: All histories of add/remove; passive observers. Files: `Infra/PropsObserver.lean`.
* **C62** (partial). *An observer may remove itself while being notified.* Model and method: iteration while the vector is changed; a second model with raw storage. Result: Self-removal during notification is undefined behaviour (refuted); exact condition under which a notification is defined; C62_raw gives the deliveries with in-place erasure. Files: `Infra/PropsObserver.lean`.
* **C63** (partial). *Purging a pool removes exactly the unused objects.* Model and method: `std::remove_if` element by element. Result: PurgeCache discards the result of remove_if and never shortens the pool (refuted). Files: `Infra/PropsPool.lean`.
* **C64** (partial). *Witness-set point access is bounds checked.* Model and method: access with out-of-range outcome. Result: Index equal to the degree passes the check (refuted). Files: `Infra/PropsPool.lean`.
* **C65** (proved). *Integer powers of doubles are computed correctly by repeated squaring.* Model and method: repeated squaring over any field. Result: Exact arithmetic. Files: `Infra/PropsNum.lean`.
* **C66** (partial). *Random unit complex numbers have modulus one.* Model and method: `rand_unit`, `RandomUnit`. Result: Multiprecision random units are divided by sqrt(abs) (refuted); the double version is right. Files: `Infra/PropsNum.lean`.
* **C67** (partial). *A function listed twice is homogenized once.* Model and method: system homogenization with function identities. Result: Holds when no Function is listed twice. Files: `System/PropsStateOps.lean`.
* **C68** (partial). *A system whose variables were cleared can be rebuilt.* Model and method: Same model as C18 with `ClearVariables`. `C68_count`: the counters are right after any history; `C68_never`: as soon as anything was added before clearing and anything after, `Variables()` always fails, whatever the history; `C68_stale`: without an addition it returns the old list; `C68_partial`: nothing was added before clearing. Result: Refuted: the recorded order of groups and the cached ordering are not cleared. Exact extent: once anything was added before clearing, adding anything makes Variables() fail for ever (C68_never); counters are right; holds when nothing was added before. Files: `System/PropsVars.lean`.
* **C69** (partial). *Patches line up with variable groups.* Model and method: `AutoPatchFIFO` sizes against the ordering. Result: Holds when ungrouped variables come after all groups. Files: `System/PropsAlign.lean`.
* **C70** (partial). *Time derivative belongs to the current functions.* Model and method: as C21 for the path variable. Result: Time derivative entries; same restriction. Files: `System/PropsState.lean`, `System/PropsStateNeg.lean`.
* **C71** (partial). *Multihomogeneous partitions use each variable group as often as its dimension.* Model and method: constructor of `MHomogeneous`: degree matrix, group sizes. Result: holds for affine groups, not homogenized; full statement refuted for two homogeneous groups Files: `Start/PropsMHomSystem.lean`.
* **C72** (partial). *Multihomogeneous start points exist and solve the start system.* Model and method: `GenerateStartPoint` with an exact linear solve as oracle. Result: holds for affine, not homogenized targets whose first group has at least two variables, with an exact linear solve; refuted for a first group of one variable; for homogenized targets the vector is always too short; start functions are homogeneous in every homogeneous group Files: `Start/PropsMHomSystem.lean`.
* **C73** (partial). *A precision-criterion failure always shrinks the step.* Model and method: `CriterionError` step choice. Result: Refuted: the step grows when it is below the bound for the current precision. Files: `Track/PropsAMP.lean`.
* **C74** (partial). *The step size proposed for a precision satisfies criterion B.* Model and method: `StepsizeSatisfyingCriterionB` with unsigned arithmetic. Result: Refuted below the required digits (unsigned wrap-around); C74_noChoice shows the search then never varies the step. Files: `Track/PropsAMP.lean`.
* **C75** (proved). *The Cauchy endgame always stops.* Model and method: ranking over all nested loops of the Cauchy endgame. Result: All environments; at least three sample points; security level 0 (at level 1 the code reads an unset variable, see C53). Files: `Endgame/PropsCauchy.lean`.
* **C76** (partial). *A repeated Solve does not report stale successes.* Model and method: metadata vectors over repeated Solve calls. Result: Holds after the first Solve; later calls keep the endgame code of the call before (refuted). Files: `Alg/PropsZeroDim.lean`.
* **C77** (proved). *The check of an LU decomposition accepts exactly well-scaled diagonals.* Model and method: `LUPartialPivotDecompositionSuccessful`. Result: full statement. Files: `Infra/PropsNum.lean`.
* **C78** (partial). *Linear slices are made with the requested shape.* Model and method: `LinearSlice::Make`, `Eval`, `Jacobian`. Result: Homogeneous slices of positive dimension fail the last assertion (refuted). Files: `Infra/PropsNum.lean`.
* **C79** (proved). *Consistency of a witness set.* Model and method: `IsConsistent` with `size_t` arithmetic. Result: full statement. Files: `Infra/PropsPool.lean`.
* **C80** (partial). *A saved and loaded slice evaluates as before.* Model and method: `serialize` as save/load. Result: serialize omits constants, dimension and homogeneity (refuted). Files: `Infra/PropsNum.lean`.
* **C81** (partial). *An input file is split into its two sections.* Model and method: `SplitInputFileParser`, the two-section alternative. Result: Holds when no marker occurs inside the sections even as part of a word, for each of the six forms of a file with a configuration; refuted: 'function legend;' ends the section. Files: `Parse/PropsSplit.lean`.
* **C82** (partial). *Degree and homogeneity reported for a product of linears are true.* Model and method: `Degree`, `MultiDegree`, `IsHomogeneous`, `Homogenize` of `LinearProduct`. Result: Degree bounds the joint degree for groups without the homogenizing variable (exact when every factor contains the variable), IsHomogeneous is sound, Homogenize leaves foreign groups alone. Refuted in full: Degree reports 0 for the homogenizing variable of a homogenized product. Files: `Tree/PropsLinear2.lean`.
* **C83** (proved). *A predictor step stays on a solution path up to its advertised order.* Model and method: The tables and one step are modelled as for C44 (exact arithmetic over the real or complex numbers). Planar rooted trees index the expansions of the stages, the step and the exact solution (`BSeries.lean`); all order conditions up to the advertised order are checked on the tables through a proved-complete enumeration of trees (`TreeConds.lean`); the right-hand side may fail away from the point. `C83_path` is the statement for homotopies, `C83_order` for differential equations, `C83_estimate` for the embedded estimate. Result: Exact arithmetic; the right-hand side is any function that near the point succeeds and solves J k = -dH/dt. Files: `Predict/PropsOrder.lean`.
* **C84** (proved). *The corrector converges quadratically near a nonsingular solution.* Model and method: `Track/NewtonLocal.lean` gives the local quadratic estimate for an analytic system with invertible Jacobian (exact arithmetic over the complex numbers, any complete normed space); `C84_newton` combines it with the modelled loop of `NewtonCorrector` (same code as for C40). Result: Exact arithmetic over the complex numbers, any complete normed space. Files: `Track/PropsPath.lean`.
* **C85** (proved). *A small enough step follows the path to its end.* Model and method: Predictor step, corrector and tracking loop as modelled for C38-C44, composed; compactness of the path gives uniform constants (`path_estimates`), one step keeps the distance (`path_step`), induction over the loop. Hypothesis: evaluations and linear solves are exact near the path (`ExactOn`). Result: Exact arithmetic; the fixed-precision tracker; evaluations and linear solves exact near the path. Files: `Track/PropsPath.lean`.
* **C86** (proved). *A small step never jumps to another path.* Model and method: Same composition as C85 for any tracker with the loop of `Tracker` (`Faithful`); linear solves may fail at any call but are exact when they answer (`SoundOn`). The fixed and adaptive trackers are instances; for the adaptive one the step sizes are bounded from its own rules (`amp_step_le`). Result: Exact arithmetic where solves answer; solves may fail at any call. Adaptive: up to 1000 digits, step settings at most h0. A run ended by GoingToInfinity is excluded (truncation returns the infinite point). Files: `Track/PropsJump.lean`.
* **C87** (partial). *Homogeneous polynomials are recognised.* Model and method: The expressions meant are an inductive predicate `Form vars n d` that does not mention the degree functions; induction on the tree shows acceptance and the degree when negations and powers have operands whose group degree is the sum of variable degrees (always for one variable); refuted otherwise. Result: Refuted on (x+y)^2+x*y (group degree of the power is computed as 4); holds for one-variable groups and when negations/powers have operands whose group degree is the sum of variable degrees. Files: `Tree/PropsForm.lean`.
* **C88** (proved). *Step counters are exact.* Model and method: The generic loop of C37 with the base counters; a specification `CountsRight` counts accepted passes of the run itself (`Accepted`) and trailing runs (`Trailing`); induction over the passes, for any tracker whose iteration leaves the base counters alone, then both instances. Result: For both kinds of tracker, for the state TrackPath starts from; the pass that ends the call is not counted. Files: `Track/PropsCounters.lean`.
* **C89** (partial). *No step is longer than max_step_size.* Model and method: Bound the time increment by the step size, the step size by an invariant of the run (fixed: initial step times a power of the failure factor; adaptive: `amp_step_le`); a one-pass counterexample for initial_step_size > max_step_size. Result: max_step_size is not consulted when the step size is initialised: false if initial_step_size exceeds it. Holds if it does not; for the adaptive tracker also 10^-13 times the path length must not exceed it. Files: `Track/PropsSteps.lean`.
* **C90** (partial). *min_num_steps is honoured.* Model and method: Invariant: distance travelled ≤ accepted steps × initial step (fixed precision). The adaptive counterexample is a complete four-pass run of the model. Result: Holds at fixed precision (for end time 0; both trackers only use min_num_steps to bound the first step). The adaptive tracker enlarges its steps and finishes in fewer: refuted. Files: `Track/PropsCost.lean`, `Track/PropsSteps.lean`.
* **C91** (partial). *MinimizeTrackingCost minimises the cost.* Model and method: The fold over candidate precisions computes the first minimum of a cost written down independently (`trackCost`, `Considered`, `permitted`); induction on the list. Result: The minimum is attained, ties go to the least precision, and the failure value is returned only if no cost fits a double; but the minimum precision is first rounded down to a multiple of ten, so the result may be below it (refuted). Costs are exact reals instead of doubles. Files: `Track/PropsCost.lean`.
* **C92** (partial). *Precision is lowered rarely.* Model and method: Specification on the run (`PrecDrop`, `Succeeds`, `Preceded`); invariant: the since-decrease counter is the trailing run, precision stays on the grid 16, 20, 30, …; refuted off the grid. Result: Holds for calls started in double precision or at a multiple of ten digits. From any other start precision the rounding in MinimizeTrackingCost lowers the precision at the first accepted step: refuted. Files: `Track/PropsCost.lean`.
* **C93** (proved). *The step size is raised rarely and moderately.* Model and method: Same invariant as C92 with the since-increase counter. Result: For every start precision of at least 16 digits; configured maximum precision at most 1000 (MaxPrecisionAllowed). Files: `Track/PropsCost.lean`.
* **C94** (partial). *Enough digits after an accepted step.* Model and method: From the optimality of C91: the chosen precision is one of those considered. Result: Only up to rounding the demanded digits down to a multiple of ten (25 asked for, 20 used: refuted). Files: `Track/PropsCost.lean`.
* **C95** (partial). *Decimal literals.* Model and method: Specification `Literal` (text, value); the grammar proof covers the constructors of number literals. Integers in scientific notation (`1e5`) are rejected by the code: refuted. Result: Literals with a point (with or without exponent) and integers without leading zeros. Missing: integers in scientific notation (rejected by the code, refuted) and leading zeros. Files: `Parse/PropsParse.lean`.
* **C96** (partial). *Degree() is the total degree.* Model and method: Induction over the tree with polynomials in all variables; exactness with polynomials over the non-negative reals, where degrees of sums and products are exact. An exponent within 10 epsilon of an integer refutes the full claim. Result: Bound for all trees whose near-integer exponents are integers; exact for expressions without cancellation. x^(2+2^-60) refutes the full claim. Files: `Start/PropsDegT.lean`.
* **C97** (partial). *Digits for a range of step sizes.* Model and method: Real logarithms: the permitted step size at p digits is 10^(3-p) times the time to go. The floor 1e-150 of double precision refutes the unconditional claim. Result: All precisions and step sizes; missing: double precision with steps below 1e-150, which the code refuses (refuted). Files: `Track/PropsDigits.lean`.
* **C98** (partial). *Search for the cycle number.* Model and method: Invariant of the search loop; the bound is computed from logarithms. `max_cycle_number` enters through `max`, so it is a lower bound of the range: refuted as a maximum. Result: Smallest minimiser over the computed range for all data; the range is 1 or ends at max_cycle_number or later, so max_cycle_number is not a maximum (refuted). Files: `Endgame/PropsCycle.lean`.
* **C99** (partial). *Power series extrapolation is exact on fractional power series.* Model and method: Specification `OnBranch` (CycleSpec): samples and derivatives of t -> q(((t-t0)/w)^(1/c)). The chain rule shows that the transformed data are values and derivatives of a scaled polynomial, to which the interpolation theorem applies. Degree 3 and more is refuted by the interpolation defect of C46. Result: Degrees up to two, every cycle number, ray and sample times. Missing: higher degrees, where the interpolation routine is wrong (refuted with t^3). Files: `Endgame/PropsCycle.lean`.
* **C100** (proved). *What a failed step does to step size and precision.* Model and method: `ampIter` with each kind of failure of predictor or corrector (Track/AMP.lean). The specification `up k p` is the list of precisions double, 20, 30, …. Proved: the new step size and precision outright in each of the three cases; in the second the precision is the least at which the step is permitted (`minStepFor`, lines 60 ff. of amp_tracker.hpp), for positive failure factor and step size. Result: Step size and precision after each kind of failed step, for all states; the criterion case in which the reduced step is permitted is in C93/C94 (cost minimiser). Files: `Track/PropsFail.lean`.
* **C101** (partial). *A configuration section sets what it says.* Model and method: Parse/Config.lean models FillConfigStruct and every ConfigSettingParser (scan over unknown text, no-case names, number rules with their failures and exceptions, permutation operator with its passes); ConfigSpec.lean says what statements, values and files mean; ConfigProof.lean shows by induction over passes and statements that the parser computes it. C101_exact: exactly what the code accepts (identifier *ends with* the name; no fractions). C101_partial: the full claim for all structs when names occur only as whole identifiers. Refuted in full: SliceFinalTol sets the final tolerance of TolerancesConfig, fractions are rejected, `MPType : 5;` is silently ignored. Result: Full claim C101_full is refuted: a statement whose identifier merely ends with a setting name assigns it (SliceFinalTol sets FinalTol), fractions are rejected, invalid MPType with a space before the colon is ignored. Proved: exact behaviour (C101_exact) and the claim for all structs when names occur only as whole identifiers and values are not fractions. Files: `Parse/PropsConfig.lean`.
* **C102** (partial). *The path variable has the name given in the file.* Model and method: Same model; the attribute of path_variable_name_ is the whole sequence, so the text skipped before the name becomes part of it. C102_exact gives the resulting name for every section; C102_partial the claim when the statement follows a setting of the same struct or is first; C102_refuted with another setting before it. Result: Full claim refuted: text of other settings since the last recognised one is prepended to the name. Proved: the exact name for every section; the claim when the statement is first or directly follows a setting of the same struct. Files: `Parse/PropsConfig.lean`.
* **C103** (partial). *Every setting has a value after reading.* Model and method: Same model, uninitialised members are a value of their own. C103_default and C103_partial for all texts by induction over the parser; C103_exact says which members stay uninitialised in the three structs without complete defaults; C103_refuted for Phi of the adaptive precision settings. Result: Full claim refuted for adaptive precision (epsilon, Phi, Psi), sharpening and regeneration. Proved for all other structs and all texts; exact description of the uninitialised members for these three. Files: `Parse/PropsConfig.lean`.
* **C104** (partial). *The homogeneity test of a system is right.* Model and method: `systemIsHom` as in the code over the system model; blocks of variables and homogeneity as a scaling identity stated separately; soundness and completeness from C06 and C87; refuted by (x+y)^2+x^4. Result: Full iff refuted by (x+y)^2+x^4 (the degree rule of powers of sums, see C06). Sound and complete where that rule is exact; negative for affine systems unconditionally. Files: `Start/PropsIsHom.lean`.
* **C105** (proved). *Evaluation refuses wrong sizes and wrong times.* Model and method: Case analysis of the state model: every evaluation function returns `none` (a throw) before touching anything unless the sizes and the presence of the path variable fit. Result: All states, not only reachable ones. Files: `System/PropsMisuse.lean`.
* **C106** (partial). *The first closed loop lies in the Cauchy endgame operating zone.* Model and method: `zoneTest`, `initialLoops` over an abstract tracker; the four conditions stated outright (`InZone`); induction on the loops tried. The code compares the square of the radius (`norm` of a complex number), proved as `C106_partial` and refuting the full claim. Result: Holds with the square of the radius compared with ratio_cutoff_time (std::norm semantics of the code); the claim for the radius itself is refuted. Files: `Endgame/PropsZone.lean`.
* **C107** (partial). *The operating zone is entered with stable cycle number estimates.* Model and method: `zoneFor`, `zoneWhile`; relation `Walk` lists the estimates made along the way; induction on the loop. The deque holds one estimate more than is compared, so the newest is never looked at: refuted with estimates 1,1,1,5. Result: Holds for the estimates without the newest one; full claim refuted: the newest estimate is never compared. Files: `Endgame/PropsZone.lean`.
* **C108** (proved). *Simplify leaves nothing to simplify.* Model and method: `Tidy` lists the forbidden patterns; three separate aspects (`TidyD`, `TidyU`, `TidyZ`), each equivalent to its pass reporting nothing; non-emptiness of operand lists is an invariant of the rounds; then the loop relation of C11. Result: Under: no empty sums or products (no API call builds them), expression defined at the current values. Files: `Tree/PropsTidy.lean`.
* **C109** (partial). *The elimination passes report the number of nodes eliminated.* Model and method: Tree size before and after against the reported count, mutual induction on the weight; equality when only leaves are dropped; refuted by x + 0*y. Result: Never more than the nodes eliminated; exact if only leaves were dropped; 0 exactly if unchanged for EliminateOnes and ReduceDepth. Full claim refuted: a dropped subtree counts once, and EliminateZeros may change a tree and return 0. Files: `Tree/PropsTidy.lean`.
* **C110** (partial). *Largest precision reported for a path.* Model and method: Alg/Recorders.lean models the tracker's precision events (`ChangePrecision` announces real changes, the move to the start point's precision is silent, `TrackingStarted` is never sent), the two recorders and the bookkeeping of the solve. The full statement is false (`C110_refuted`: a path that stays at its precision is reported with 0, or with another path's precision). `C110_partial` determines the number: the running maximum over all paths up to the last run of this one. The self-removal during notification is C62; here both recorders get the event. Result: The full claim is false in the code (C110_refuted): the maximum runs over all paths and ignores start precisions. Proved: the exact value reported, for every history. Files: `Alg/PropsRecorders.lean`.
* **C111** (partial). *First precision increase reported for a path.* Model and method: Same model. `C111_refuted`: after one path rose, every later path is marked with that path's time; and the flag is uninitialised. `C111_partial`: exact condition of the mark, no rise is missed, and when the recorded time is the path's own. Result: The full claim is false in the code (C111_refuted): the flag is never reset. Proved: the exact condition of the mark, and when the time is right. Files: `Alg/PropsRecorders.lean`.
* **C112** (partial). *Extraction of nonsingular solutions.* Model and method: Alg/Extract.lean on top of the solver model. `C112_partial`: exact after the first `Solve`; after any call the result is a list of isolated endpoints, pairwise apart. `C112_refuted`: after a second call isolated endpoints are left out, because multiplicities are never reset. Result: The full claim is false in the code after a second Solve (C112_refuted); proved for the first, and soundness of the result for every call. Files: `Alg/PropsExtract.lean`.
* **C113** (partial). *Extraction of all solutions.* Model and method: Alg/Extract.lean. An entry that no endgame run has written is an empty vector, for which `DehomogenizePoint` throws. `C113_partial`: exact condition for success and the result; `C113_refuted`: one path failing before the endgame makes the extraction throw. Result: The full claim is false in the code (C113_refuted): the extraction throws if a path never reached the endgame. Proved: exact condition and result. Files: `Alg/PropsExtract.lean`.
* **C114** (proved). *Printed endpoints.* Model and method: Alg/Extract.lean, invariant over all sequences of `Solve` calls linking the endgame code in the metadata with the log of endgame runs. Hypothesis: no endgame answers `NeverStarted` (none does). Result: Every reachable state of the solver; endgames that never answer NeverStarted. Files: `Alg/PropsExtract.lean`.
* **C115** (proved). *Meaning of the criteria of adaptive precision.* Model and method: Track/Criteria.lean: the right hand sides as extended reals (log of zero is minus infinity). Proved as equivalences with multiplicative inequalities that do not mention logarithms. Result: Exact meaning of the three criteria over the reals, including zero arguments of the logarithm. Files: `Track/PropsCriteria.lean`.
* **C116** (partial). *Criterion B promises convergence of the corrector.* Model and method: Track/Criteria.lean: the loop of the adaptive corrector with arbitrary residuals and norms. `C116_partial`: true when criterion B is satisfied with the number of iterations really left. `C116_refuted`: the corrector counts the iteration just done, so at the last one the criterion promises a step that is never taken. Result: The full claim is false in the code (off by one, C116_refuted). Proved with the true number of remaining iterations. Files: `Track/PropsCriteria.lean`.
* **C117** (partial). *The smallest sufficient precision satisfies the criteria.* Model and method: Track/Criteria.lean. `C117_partial`: all larger precisions satisfy both criteria, none below the digits does. `C117_refuted`: the smallest precision itself violates B whenever B determines it, because digits are truncated and the criterion is strict. Result: The full claim is false in the code (truncation against strict inequality, C117_refuted). Proved for every larger precision, with the lower bound. Files: `Track/PropsCriteria.lean`.
* **C118** (proved). *Reading real numbers in the classic format.* Model and method: Parse/Numbers.lean: the float parser over the modelled number rules, outcomes false/throw/true. Proved as equivalences for acceptance (with value and precision) and for exceptions. Rounding to binary precision not modelled. Result: Acceptance, value, precision and exceptions, as equivalences. The value is the exact decimal; rounding not modelled. Files: `Parse/PropsNumbers.lean`.
* **C119** (partial). *Reading complex numbers in the classic format.* Model and method: Parse/Numbers.lean. `C119_partial`: all separated pairs are read, and whatever is read is a pair of numbers. `C119_refuted`: the separator is not required, `3-2` is read as 3-2i. Result: The full claim is false (no separator needed, C119_refuted). Proved: separated pairs are read; everything read is a pair. Files: `Parse/PropsNumbers.lean`.
* **C120** (partial). *Written numbers are read back.* Model and method: Parse/Numbers.lean: the printing function of the number library, modelled from its documentation (trusted), then the parsers. `C120_partial`: numbers below 10^digits. `C120_refuted`: larger numbers are written with `e+`, which the exponent rule does not accept. Result: The full claim is false for numbers of size at least 10^digits (written with e+, refused). Proved for all others. The format written by the number library's str() is modelled from its documentation. Files: `Parse/PropsNumbers.lean`.
* **C121** (partial). *Clone makes a faithful copy.* Model and method: Infra/Archive.lean: memory of nodes, the fields written by each serialize function, the reading programs, pointer tracking with object numbers, Clone. ArchiveSpec.lean: sameness of systems up to an injective renaming of nodes, values of nodes. `C121_partial`, `C121_values_partial`: all acyclic graphs without LinearProduct and Differential, by induction on the depth and the written fields. `C121_refuted`, `C121_values_refuted`: the differential of a cloned Jacobian has lost its variable (derivative 0 instead of 1); `C121_linear_lost`: a linear product loses everything. Trusted: numbers are written with enough digits. DiffLinear (not registered with the archive) is not modelled. Result: Proved for systems without LinearProduct and Differential nodes; refuted in general. Files: `Infra/PropsArchive.lean`.
* **C122** (partial). *Start systems can be archived.* Model and method: Infra/ArchiveStart.lean on top of the archive of C121. `C122_partial`: total degree. `C122_refuted` with `C122_mhom_empty`: a multihomogeneous start system read from any archive has no start points. `C122_user_refuted` with `C122_user_mp`, `C122_user_dbl`: a user-defined start system loses its multiple precision points, and one container is left unread in any case. Result: Proved for total degree; refuted for multihomogeneous and user-defined start systems. Files: `Infra/PropsArchiveStart.lean`.
* **C123** (partial). *Run time options select the algorithm asked for.* Model and method: Alg/Blackbox.lean: the chain of switches, an instance being represented by its template arguments. `C123_partial`: tracker, start system, policy, refusal of user homotopies; the endgame if Cauchy. `C123_refuted`, `C123_always_cauchy`: the endgame template argument is dropped, the Cauchy endgame is used whatever was chosen. Result: Tracker, start system and policy as asked for. Refuted: the endgame choice is ignored, Cauchy is always used. Files: `Alg/PropsBlackbox.lean`.
* **C124** (partial). *Refining a sample reports success only if it succeeded.* Model and method: Endgame/Refine.lean on top of the tracker state of C126; Newton's method is an arbitrary function of precision, point and time. `C124_partial`: adaptive endgame, refining into another object. `C124_refuted`, `C124_fixed`: fixed precision endgames always say Success. `C124_inPlace_refuted`: refined in place (RefineAllSamples) the second attempt starts where the first one stopped. Result: Holds for the adaptive precision endgame refining into another object. Refuted for fixed precision endgames (always Success) and for refining in place (second attempt starts from the failed iterate). Files: `Endgame/PropsRefine.lean`.
* **C125** (partial). *EnsureAtUniformPrecision makes precision uniform.* Model and method: Endgame/Refine.lean, precisions only. `C125_partial`: samples of uniform precision (version with derivatives: unless only the times are out of precision). `C125_refuted`: times are not tested in the version with derivatives; only first coordinates count; fixed precision versions change nothing. Result: Holds for samples of uniform precision. Refuted: the version with derivatives does not test the times; only first coordinates count; fixed precision versions change nothing. Files: `Endgame/PropsRefine.lean`.
* **C126** (proved). *Precision is coherent during adaptive tracking.* Model and method: Track/Coherence.lean: state = precision of every number held, oracles for all outcomes; `C126` by induction over refinements and passes. Result: Invariant over all runs; numbers represented by their precision. Files: `Track/PropsCoherence.lean`.
* **C127** (partial). *The path is tracked to the end time asked for.* Model and method: Same model, the end time also with its value, rounding abstract (idempotent, nested). `C127_partial`: end times representable in the precision of the start point. `C127_cut` (for every rounding and every longer end time), `C127_refuted`: the end time is cut to the digits of the start point. Result: Holds for end times representable in the precision of the start point. Refuted otherwise: the end time is cut to the start point's digits. Files: `Track/PropsCoherence.lean`.
* **C128** (partial). *Preservation of precision.* Model and method: Same model. `C128_partial`: on every way out everything is at the start point's precision. `C128_refuted`: default precision differing from the start point's is not restored, the solution has the precision reached. `C128_default_refuted`: off by default. Result: Everything returns to the start point's precision when switched on. Refuted: previous default precision, precision of the solution, and the documented default. Files: `Track/PropsCoherence.lean`.
* **C129** (partial). *A tracker can refine points of any precision.* Model and method: Same model with the assertions on the stored point and the check in System::SetVariables. `C129_partial`: always after tracking; on a fresh tracker exactly if point, system and construction-time default precision agree. `C129_refuted`. Result: Holds after any TrackPath. Refuted on a fresh tracker. Files: `Track/PropsCoherence.lean`.
* **C130** (partial). *Evaluation at a precision uses constants of that precision.* Model and method: Tree/Precision.lean: graph of nodes, each with value, precision and flag; precision, Reset and evaluation per node class. `C130_partial`: any history, for systems without linear products that share no function and no constant with others (invariant: a function's precision is that of the constants below it). `C130_refuted`: two systems sharing a constant (a function whose value already has the precision does not visit its tree). `C130_linear_refuted`: coefficients of linear products keep the precision they were made with. Result: Holds for any history if the system has no linear products and shares no function and no constant with others. Violated by shared constants and by linear products. Files: `Tree/PropsPrecision.lean`.
* **C131** (partial). *Constants of a straight line program have its precision.* Model and method: Same model with the memory of the program. `C131_partial`: if default precision and system precision are always changed together (constants of functions, or exact ones). `C131_refuted`: sys.precision(50) at default 16 pads 16 digit constants; `C131_stuck`: and asking again does not help; `C131_late`: differentiated at another precision than made at, constants stay at that one. Result: Holds if default precision and system precision are always changed together. Violated otherwise. Files: `Tree/PropsPrecision.lean`.
* **C132** (partial). *Changing the precision accesses only what exists.* Model and method: Same model, with a mark for access to the empty matrix. `C132_partial`: without linear products made from given coefficients. `C132_refuted`. Result: Violated for linear products made from a matrix of coefficients. Files: `Tree/PropsPrecision.lean`.
* **C133** (partial). *Assuming uniform precision.* Model and method: Same file. `C133_partial`: the flag is never set, precision is always passed on. `C133_refuted`: the setter ignores its argument. Result: The setter ignores its argument: the flag is never set. Files: `Tree/PropsPrecision.lean`.
* **C134** (partial). *A system file is read as the system it describes.* Model and method: Parse/SysFile.lean: keywords, declarations, subfunctions, definitions and the loop of the system grammar on top of Grammar.lean and Declare.lean; files as lists of statements with arbitrary white space. `C134_partial` decides exactly when a file is accepted (no reserved or earlier name is a prefix of a new one) and then gives every member of the system. `C134_refuted`: `x` and `x1` in one file. Result: A file is accepted exactly if no reserved name and no name introduced earlier is a prefix of a name introduced; then every member of the system is as described. Full claim refuted: x and x1 cannot be declared in one file. Expressions as in C57_partial. Files: `Parse/PropsSysFile.lean`.
* **C135** (partial). *Functions of a system file have the values the file gives them.* Model and method: Same model; evaluation of functions as an inductive relation (`Ev`, unique by `ev_unique`), reading from top to bottom as `store`. `C135_partial`: names assigned once. `C135_refuted`: `s = x; f = s; s = y;` makes f equal y. Result: Holds if no name is assigned twice. Refuted in general: assigning a subfunction again changes the functions that used it before. Files: `Parse/PropsSysFile.lean`.
* **C136** (partial). *A system that was read can be evaluated.* Model and method: Same model. `C136_partial`: a function has a value iff the functions it depends on are all defined and no chain of dependencies is endless. `C136_undefined`: functions without definition are exactly those declared and never assigned. `C136_refuted`: `function f;` is accepted; `C136_cycle`: `f = f;` is accepted; the last example: a misspelt name becomes a subfunction. Result: Exact criterion for a symbol to have a value. Full claim refuted: declared functions that are never assigned, and functions defined by themselves, are accepted. Files: `Parse/PropsSysFile.lean`.
* **C137** (partial). *Metadata of every path are complete.* Model and method: Alg/Metadata.lean: members of SolutionMetaData as functions of the log of calls of the Solve of ZeroDim.lean. `C137_partial`: exactly which members are set and by which run. `C137_refuted`: the flags is_real, is_finite, is_singular are never set (and members of failed paths are unassigned or left from an earlier Solve). Result: Exact members set per path; refuted in full: the three flags are never assigned, failed paths keep zero or stale data. With a fixed precision tracker the Newton residual copied into the metadata was itself never written (C169). Files: `Alg/PropsMetadata.lean`.
* **C138** (partial). *Every path starts with the configured initial step size.* Model and method: Same file: re-initialisation flag, current step size and stored step sizes as functions of the log. `C138_first`: the claim for the first Solve. `C138_partial`: the step size of every call in any number of Solves. `C138_refuted`: in a second Solve paths start with the step size left by the previous call, since ReinitializeInitialStepSize(false) is never undone. Result: Holds for the first Solve; exact step sizes for any number of Solves; refuted for a second Solve. Files: `Alg/PropsMetadata.lean`.
* **C139** (partial). *Setting up a solve leaves target and start system what they were.* Model and method: Alg/Homotopy.lean: FormHomotopy as five operations of System/State.lean. `C139_partial`: both objects themselves (variables, patch, function list) are untouched and so is every system sharing no function with them. `C139_values`: exactly what target and start system evaluate to afterwards (the homotopy, and gamma t g). `C139_residual`: what function_residual reports at an exact solution, using `SLP.C15_foreign` (the compiled target reads t as its first variable). `C139_refuted`. Result: Refuted: the target's functions become those of the homotopy and the start system's are multiplied by gamma t. Proved: what stays (variables, patches, unrelated systems), what both evaluate to, and what the reported residual is at an exact solution. Files: `Alg/PropsHomotopy.lean`.
* **C140** (proved). *The homotopy is the straight line from start system to target.* Model and method: Same file: `C140` (evaluation at a point and time, through evalAtTime), `C140_forms` (no exception), `C140_ends` (zeros at both ends, gamma nonzero). Result: Exact arithmetic. Hypotheses: no function twice or in both systems, equal numbers of functions, fresh path variable, variables can be listed, point fits the patch; gamma nonzero for the start end. Files: `Alg/PropsHomotopy.lean`.
* **C141** (proved). *Every start point lies on the homotopy.* Model and method: Alg/PropsHomotopyStart.lean: composition of totalDegree, formHomotopy, startPoint and evalAtTime; uses C32_zero and C140. Result: Exact arithmetic; for targets that are affine and unpatched, or homogenized with one patch (as in C32), with distinct variables. Files: `Alg/PropsHomotopyStart.lean`.
* **C142** (partial). *Homogenizing keeps the solutions.* Model and method: System/PropsProject.lean, over the homogenize of System/State.lean. `C142_partial`: each homogenized function is a nonzero multiple of the function at the affine point, for expanded functions with constant exponents whose unary degrees are exact (`PlainPoly`; Tree/PolyTree.lean shows syntactic polynomials are such). `C142_zeros_partial`: common zeros. `C142_refuted`: 1-(x+y) written with a negation becomes h^2-(x+y). Result: Refuted in full: the degree of a negated sum is counted as the sum of the degrees in its variables, so Homogenize pads wrongly. Partial for expanded functions with exact unary degrees. Files: `System/PropsProject.lean`.
* **C143** (partial). *Preparing the target of a solve never throws.* Model and method: Alg/Setup.lean (AutoPatch, PrepareTarget), Alg/PropsSetup.lean. `C143_partial` for syntactic polynomials (Tree/PolyTree.lean: sums and products of monomials, divided by constants). `C143_refuted`: x-(x+1). Result: Refuted in full: after Homogenize, IsHomogeneous is false for x-(x+1), and AutoPatch throws. Partial for syntactic polynomials; any patch that fits can be drawn. Files: `Alg/PropsSetup.lean`.
* **C144** (proved). *The homotopy of a solve leads from the start points to the solutions of the user's system.* Model and method: Alg/Setup.lean: SystemSetup as composition of prepareTarget, totalDegree, formHomotopy. `C144` and `C144_solutions` compose C20, C25, C32, C140, C141, C142, C143; Start/PolyDegree.lean: the total degree of a polynomial is its degree in a group holding its variables. Result: For syntactic polynomials (sums and products of monomials) in one affine group; total degree start system. Files: `Alg/PropsSetup.lean`.
* **C145** (partial). *The homotopy of a multihomogeneous solve can be evaluated at its start points.* Model and method: Alg/PropsSetupMHom.lean, over Alg/Setup.lean and Start/MHomSystem.lean. The start functions (products of linears) are not modelled: the theorems quantify over the start object. `C145_never`: PrepareTarget always homogenizes, GenerateStartPoint returns the natural variables only, so Eval always throws. `C145_refuted`: x^2, y^3. Result: The full statement is false: PrepareTarget always homogenizes and GenerateStartPoint of MHomogeneous returns only the natural grouped variables (no homogenizing coordinates, no rescaling to the patch), so evaluating the homotopy at a start point throws for every target with an affine group (C145_never). C145_refuted gives the target x^2, y^3. Files: `Alg/PropsSetupMHom.lean`.
* **C146** (partial). *Moving a system keeps what it evaluates to.* Model and method: System/State.lean (`SysOp.move`, `SysOp.swap`, `Obj.swapped`), System/PropsMove.lean. `C146_move_partial`, `C146_swap_partial` for systems which are not differentiated or use function trees, through the invariant of C20. `C146_refuted`: x, evaluated once, then moved: swap forgets slp_ but exchanges is_differentiated_. Result: False in general: swap exchanges is_differentiated_ but not slp_, so a system evaluated by straight line program and then moved evaluates an empty program (C146_refuted: the result is uninitialised memory). Proved for systems that are not differentiated or are evaluated by function trees. Files: `System/PropsMove.lean`.
* **C147** (proved). *The gamma trick: the homotopy of a total degree solve is regular for all but finitely many directions of gamma.* Model and method: Cont/* (elimination, analytic continuation of zeros, Puiseux series of paths at time 0, straight-line homotopies of homogeneous polynomials; pure mathematics), Cont/Bridge, TotalDeg, Solve (the systems of Alg/Setup compute such a homotopy), Alg/PropsGamma.lean. `C147`: RegularSolve for all gamma outside finitely many rays; `C147_count`: the number of nonsingular solutions is at most the product of the degrees; `C147_sharp`: for x^2-1 and gamma = -1 the homotopy has a singular zero at time 1/2, so rays have to be excluded. Result: Single variable group, homogenized and patched by the solve; exact arithmetic. Finitely many rays, so all but a null set of gamma. Files: `Alg/PropsGamma.lean`.
* **C148** (proved). *Every nonsingular solution is found by a fine enough track from some start point.* Model and method: Alg/PropsGamma.lean, on C147 and the tracking theorem `C85_follows` of Track/PropsJump.lean. `C148` for tracks to time 0, `C148_all` for tracks of all start points to a positive time. Linear solves are exact where the Jacobian is invertible; rounding is not modelled. Result: Fixed precision, no truncation at infinity, linear solves exact where the Jacobian is invertible. Files: `Alg/PropsGamma.lean`.
* **C149** (proved). *A whole zero-dimensional solve reports every nonsingular solution once, with multiplicity one.* Model and method: Alg/PropsSolve.lean, on C54, C55, C56, C147, C148. The tracker is the fixed-precision model with exact linear solves; the endgame is any oracle that, started near a path at the boundary, ends near its limit. `C149_inhabited` shows that such trackers and endgames exist for every regular solve. Result: Exact arithmetic, fixed-precision tracker, endgame as an accurate oracle; first call of Solve. Files: `Alg/PropsSolve.lean`.
* **C150** (partial). *The power-series endgame finds the limit of a path that is a fractional power series.* Model and method: Endgame/ConvergeProof.lean (the extrapolation is a bounded linear function of the data for fixed nodes; constants are reproduced; `t y'(t)` tends to 0; the number of candidate cycle numbers stays bounded because the ratio of projected differences stays away from 1), Endgame/PropsConverge.lean. Full statement `C150_full`, refuted by a path that vanishes with its derivative at the first four sample times. Proved: within two turns and to any accuracy from every start time in a radius depending on the path (`C150_accurate_partial`); success from every start time if the least tracking time is small enough (`C150_succeeds_partial`). Result: Exact tracking, exact arithmetic, real sample times, target time 0. Accuracy for all start times within a radius that depends on the path and the accuracy; success from any start time if min_track_time is small enough. The full claim (success implies accuracy, from any start time) is refuted: two successive extrapolations may agree and miss the limit. Files: `Endgame/PropsConverge.lean`.
* **C151** (proved). *A whole solve with the power-series endgame finds all solutions, singular ones included.* Model and method: Cont/Puiseux.lean and Cont/Near.lean (pure mathematics: over a punctured disc around time 0 the zeros form a finite covering, so each path is a power series in a root of the time), Alg/PropsEndgame.lean on C147, C149 and C150. `C151_series`: the series; `C151_endgame`: the endgame is accurate on every path; `C151`: the whole solve. Tracking inside the endgame is exact (`FollowsPaths`: also from within a distance of a path at the endgame boundary); rounding is not modelled. `C151_inhabited`: the hypotheses can be met for every regular solve. Result: Exact arithmetic, fixed-precision tracker, exact tracking inside the endgame; single variable group; first call of Solve. Files: `Alg/PropsEndgame.lean`.
* **C152** (partial). *The Cauchy endgame finds the limit of a path that is a fractional power series.* Model and method: Endgame/PropsCauchyConverge.lean over Endgame/Cauchy.lean, from `RunImpl` down to `CircleTrack`. Invariant: every stored sample is the series at a known position `u` (time `u^c`), samples on circles at `u` times roots of unity; the loop closes after at most c circles. Full statement `C152_full`, refuted by a path in `t^3` for which the mean over three sample points equals the starting point. Proved: success at the first approximation and to any accuracy from every start time in a radius depending on the path (`C152_accurate_partial`, although the loop may be declared closed too early); success from every start time if the least tracking time is small enough (`C152_succeeds_partial`). Result: Exact tracking, exact arithmetic, target time 0; the estimates of c/k are arbitrary. Accuracy for all start times within a radius that depends on the path, the accuracy, the final tolerance and the cutoffs; success from any start time if min_track_time is small enough and the security check is not made. The full claim (success implies accuracy, from any start time) is refuted. Files: `Endgame/PropsCauchyConverge.lean`.
* **C153** (proved). *A whole solve with the Cauchy endgame finds all solutions, singular ones included.* Model and method: Alg/PropsEndgameC.lean on C149, C151 (the series) and C152. Tracking inside the endgame follows the zeros of the homotopy over every segment of complex times on which it is regular (`FollowsSeg`), hence is exact on the series of each path (`FollowsSeg.exactC`); the first call, from within a distance of the path at the endgame boundary, leads to the path. `C153_endgame`: the endgame is accurate on every path; `C153`: the whole solve; `C153_inhabited`: the hypotheses can be met for every regular solve. Rounding is not modelled. Result: Exact arithmetic, fixed-precision tracker, exact tracking inside the endgame; single variable group; first call of Solve; fail_safe_maximum_cycle_number at least the number of paths. Files: `Alg/PropsEndgameC.lean`.
* **C154** (proved). *The solutions of the user's system are exactly the finite limits of the paths.* Model and method: Alg/PropsAllSolutions.lean on C153, with new parts of C147 (`RegularSolve.ends`, `solutions`, `limits`, `form`). The mathematics is in Cont/Limits.lean: for a zero of the target on the patch there is, by Krull's height theorem, an irreducible curve of zeros of the homotopy through it on which time is not constant; without zeros at infinity the coordinates are integral over the polynomials in time, up to a factor that is 1 at time 0 (Nullstellensatz and Nakayama); a linear form separating the limits of the paths then has a monic minimal polynomial, whose roots near time 0 are values at zeros of the homotopy (lying over), so some path comes near the given zero. `C154_limits`, `C154_bound`, `C154`; the case is x^2, whose double solution both paths reach. Result: All solutions, singular or not, are exactly the dehomogenized finite limits of the paths, and are reported; exact arithmetic, no zeros of the target at infinity for the patch. Files: `Alg/PropsAllSolutions.lean`.
* **C155** (proved). *In one variable the reported multiplicity is the multiplicity of the root.* Model and method: Alg/PropsMultiplicity.lean on C154; mathematics in Cont/Mult.lean: at each time in (0,1] the homotopy, a binary form with as many zeros on the patch as its degree, is a constant times the product of the linear forms vanishing at the points of the paths; in the limit the target is the product over the limits. `C155_paths`: number of paths to a = rootMultiplicity; `C155`: the whole solve. Several variables: C157. Result: One variable; exact arithmetic; no zeros of the target at infinity for the patch. Files: `Alg/PropsMultiplicity.lean`.
* **C156** (proved). *Almost all random choices are good.* Model and method: Alg/PropsGeneric.lean on C147: the vectors are the zeros of the homogenization and the start solutions (1, zeta). Uses that a homogenization is determined by function and degree (`affine_inj`). Result: Bad random choices lie in finitely many hyperplanes (patch) and rays (gamma), when the homogenized target has finitely many zeros. Files: `Alg/PropsGeneric.lean`.
* **C157** (proved). *The reported multiplicity is the number of solutions that have come together, whatever the random choices.* Model and method: Alg/PropsPerturb.lean on C154; mathematics in Cont/Count.lean (the number of nonsingular zeros in an open set is locally constant) and Cont/Perturb.lean (`perturbed_count`: one disk of parameters joins the homotopy at a small time to the perturbed system; `regular_perturbation`: only finitely many members of the pencil F + eps G have singular zeros, by elimination). `HasMultiplicity` is the definition, independent of the homotopy; `C157_exists`, `C157_unique`: it is met by at most one number; `C157_paths`: the number of paths; `C157`: the whole solve. Result: Assumes what C153/C154 assume (fine tracker, Cauchy endgame as modelled, no zero at infinity for the patch). HasMultiplicity is defined by perturbation of coefficients only. Files: `Alg/PropsPerturb.lean`.
* **C158** (proved). *The predefined systems are what their comments say; solving Griewank-Osborn finds 3 ends at the origin and 3 at infinity.* Model and method: Model System/Precon.lean (operators as in Tree/Operators, state operations as in System/State); Alg/PropsPrecon.lean, with the mathematics of the system in Cont/GO.lean. `C158_values`, `C158_crossed`, `C158_sphere`: values; `C158_generic` by C156; `C158_paths`: by C157 the number of paths to the origin is its multiplicity, which is found with the perturbation of the first function by a constant; `C158`: whole solve by C154. The start system of the comment on crossed paths is not in the code; the usual one with constants 1 is taken. Result: Whole solve under the assumptions of C153/C154. Files: `Alg/PropsPrecon.lean`.
* **C159** (partial). *Random integers and rationals are in the documented range.* Model and method: Infra/Random.lean, Infra/PropsRandom.lean. The generators are parameters (sequences within the bounds given to the distributions). `C159_partial`: the bound of the code, and that the documented one holds exactly if 2^(1000d/301) <= 10^d; `C159_default` for 50 digits; `C159_refuted` (59 digits; zero denominators); `C159_correlated`: RandomInt and RandomRat have generators with the same seed, so the i-th rational is the quotient of the integers 2i and 2i+1. Result: Documented bound holds exactly when 2^(1000d/301) <= 10^d (true for the default, false for 59); RandomRat throws when the denominator drawn is 0; RandomInt and RandomRat give correlated numbers. Files: `Infra/PropsRandom.lean`.
* **C160** (partial). *Random multiprecision numbers have the requested precision and range and leave the default precision alone.* Model and method: Infra/Random.lean, Infra/PropsRandom.lean. Rounding is any monotone function which fixes -1, 0, 1, 2. `C160_partial`: n <= 40000 (also: RandomComplex(n) is in the first quadrant, unlike rand(), `C160_rand`), and what happens beyond; `C160_refuted`: the default precision stays at n. Result: Holds up to 40000 digits; beyond, an exception which leaves the default precision changed. Calls in a row use the successive numbers of the generator. Files: `Infra/PropsRandom.lean`.
* **C161** (proved). *A solve with a homotopy supplied by the user reports the ends of the paths from its start points.* Model and method: Alg/PropsUserHom.lean on Alg/Wiring.lean. The conditions on the homotopy are `GoodHom`, independent of the model; zeros over [e,1] form a covering (Cont/Lift.lean), so every start point has a path, and its limit exists (Cont/Limits.lean). `C161` (Cauchy), `C161_ps` (power series); `goodHom_of_regular`: total degree solves meet the conditions; `par_good`: x^2 - (a + b t), also when the two paths merge. An example goes from the constructor of the solver to the report. Result: Exact arithmetic; tracker and endgame as in C152-C154 (fine enough, accurate enough). The homotopy need not be polynomial. Files: `Alg/PropsUserHom.lean`.
* **C162** (partial). *A solver is always set up for the systems its getters return.* Model and method: Alg/Wiring.lean (heap of predictor/corrector cells, trackers, solvers; operations are the constructors, setters, copies), Alg/PropsWiring.lean. `C162_partial`: after the constructor, as long as nothing touches the solver, whatever is done to others; `C162_again`: DefaultSetup repairs; `C162_stale`: the setters of the start system and homotopy leave the tracker on the old homotopy; `C162_copy`: the endgame of a copy refers to the tracker of the original; `C162_refuted`. Result: False as stated: after Homotopy(h) or StartSystem(s) the tracker and the number of start points are the old ones, and the endgame of a copied solver refers to the tracker of the original. True until such a call (C162_partial), after DefaultSetup (C162_again), and after SetTracker exactly if the tracker given tracks the homotopy (C162_setTracker). Files: `Alg/PropsWiring.lean`.
* **C163** (partial). *Operations on one tracker do not change another.* Model and method: Alg/Wiring.lean, Alg/PropsWiring.lean. `C163_partial`: without copies of trackers, by an invariant (no two trackers share a cell); `C163_copies`: what a copy shares; `C163_refuted`. Result: False as stated: copies of a tracker share predictor and corrector. True for programs without copies of trackers (C163_partial). Files: `Alg/PropsWiring.lean`.
* **C164** (partial). *Settings made by the user are the settings of the solve.* Model and method: Alg/Settings.lean (the settings, where they are stored and where each is read), Alg/PropsSettings.lean. `last`, `asked`, `wanted` state what the user asked for by looking only at the list of operations. `C164_partial`: the settings that reach the solve do so after every program, by induction over it; `C164_unused`: the others have no influence on anything; `C164_defaults`: Default...Setup gives the documented defaults; `C164_refuted`: the final tolerance, among others, never reaches the endgame. Result: Refuted in full: Tolerances.final_tolerance never reaches the endgame. The settings that do reach the solve do so after every program; the others have no influence at all; Default...Setup gives the documented values. Files: `Alg/PropsSettings.lean`.
* **C165** (partial). *A compiler can be used for one system after another.* Model and method: SLP/Reuse.lean (Compile starting from what Clear leaves, a sequence of Compile calls), SLP/PropsReuse.lean. Clear forgets everything but the places of the integer exponents. `C165_partial`: for systems of which no two share an exponent, leftover entries commute with compilation (`visit_merge`, by induction over the graph) and are never read, so each program is that of a new compiler and by C15 correct; `C165_stale`, `C165_refuted`: x^2 followed by x^3, x^2 gives a program whose value of x^2 at 2 is 8; `C165_same_twice`: the same system twice gives a program that reads from an empty table. Result: Each program is right when no two of the systems share an exponent of an integer power; refuted otherwise, since Clear does not forget the integer table. Files: `SLP/PropsReuse.lean`.
* **C166** (partial). *CoefficientBound bounds the coefficients.* Model and method: System/Bounds.lean (`coefficientBound`: loop of Eval, Jacobian at the stored values, maximum of absolute values, on the state of C20-C22), System/Torus.lean (polynomials on the torus), System/PropsBounds.lean. `C166_partial`: succeeds, is at least every function value and partial derivative at every draw, and is zero or one of the numbers seen; `C166_at_most`: at most max(1,D) times the sum of the absolute values of the coefficients; `C166_linear`: bounds the coefficients of the variables in functions of degree at most one; `C166_possible`: for every polynomial system some draw makes it a true bound (averaging over roots of unity); `C166_refuted`: for x^2-2xy+y^2 with x and y drawn alike it is 0. Result: Exact arithmetic. The bound is attained by something seen at the draws; it is not a bound of the coefficients for every draw (refuted by x^2-2xy+y^2), it is for some draw of every system. Files: `System/PropsBounds.lean`.
* **C167** (partial). *Settings of adaptive precision made from a system bound what they stand for.* Model and method: System/Bounds.lean (`degreeBound`, `ampFrom`), System/PropsBounds.lean. `C167_partial`: the degree bound is one (by C03), and for each function whose coefficient sum is at most the coefficient bound, Psi = D B and Phi = D (D-1) B bound the first and second order terms on the unit polydisc; `C167_refuted`: without that hypothesis false, as the coefficient bound can be 0 (C166); `C167_nonpolynomial`: when every function has degree -1, Psi is minus the coefficient bound. Result: Degree bound proved; Phi and Psi are bounds provided the coefficient bound is at least the coefficient sum, which CoefficientBound does not guarantee (refuted). Files: `System/PropsBounds.lean`.
* **C168** (partial). *A fixed multiple precision tracker works at its own precision.* Model and method: Track/FixedMulti.lean (numbers represented by their precision: `begin` = TrackerLoopInitialization, `evalOk` = the checks of SetVariables and SetPathVariable, `sane` = the predictor's PrecisionSanityCheck, `stage0` = FullStep's first evaluation with the assertions before and after it, `stages`, `newton`, `iteration`, `pass`, `track`), Track/PropsFixedMulti.lean. `C168_partial`: uniform use is never refused and stays uniform, by induction on stages, iterations and passes; `C168_new`: a new tracker is in that state; `C168_start`: exactly what is refused at the start; `C168_first_step`: what the first step refuses; `C168_checked`: with assertions and function trees every path that got through one pass is uniform, whatever was passed in; `C168_refuted`: only the first coordinate of the start point is checked; `C168_table_refuted`: the predictor's coefficients keep the default precision at the time the predictor was chosen, and without assertions nobody notices; `C168_table_checked`: with assertions the first step does. Result: Uniform use is never refused and stays at the tracker's precision. An end time or step size with more digits is noticed only at the first step that would succeed. Refuted in general: only the first coordinate of the start point is checked, and the predictor's table has the default precision of the moment it was chosen, which is noticed only when assertions are compiled in. Files: `Track/PropsFixedMulti.lean`.
* **C169** (partial). *A tracker reports the numbers of its latest step.* Model and method: Track/Stats.lean (`setNormsCond`, the effect `Ev.act` of predictions, Newton iterations and changes of precision for both kinds of trackers; unwritten memory is `none`), Track/PropsStats.lean. `C169_cond`: the condition number is that of the latest prediction (adaptive: or Newton iteration), whatever the frequency; `C169_amp`: step length and error estimate of an adaptive tracker; `C169_read`: what the choice of precision reads was written during the step; `C169_fixed_unwritten`: a fixed precision tracker never writes the length of a Newton step, so `newton_residual` is uninitialised memory; `C169_partial`: frequency 1; `C169_frequency_refuted`: every frequency above 1 is ignored (the counter is passed by value), `C169_refuted`, `C169_step_refuted`. Result: Refuted: the counter of SetNormsCond is passed by value, so the condition number is estimated at every prediction whatever frequency_of_CN_estimation is; a fixed precision tracker never writes norm_delta_z_, so newton_residual in the metadata is uninitialised. Proved: which step the reported condition number belongs to, for every history; the step length and error estimate of an adaptive tracker; what its precision logic reads was written during the step. Files: `Track/PropsStats.lean`.
* **C170** (proved). *Settings can be passed to an endgame in any order.* Model and method: Infra/Permute.lean (`indexByType`, `getByIndex`, `valid`, `unpermute`: the computation of the compiler, `none` = rejected program), Infra/PropsPermute.lean. `C170_accepted`: exactly which calls compile; `C170_filled`: an accepted call gets its arguments by type and defaults elsewhere; `C170_order`: any permutation of the arguments gives the same. Not modelled: when the static default constructed objects are initialised. Result: For distinct settings types, which the static_assert enforces. Files: `Infra/PropsPermute.lean`.
* **C171** (partial). *Derivatives do not depend on the methods of evaluation and differentiation.* Model and method: Tree/Total.lean (`diffWith`: `Differentiate` with a possibly null variable, `Differential` leaves, `evalJ`), Tree/TotalProof.lean (induction), System/DerivMethod.lean (`DSys`: the containers of both methods, `Compile` with its two calls of `GetTimeDerivatives`), System/PropsDerivMethod.lean. `C171_differential`: `EvalJ(v)` of a total differential is the partial derivative by `v`; `C171_partial`: Jacobian and time derivative after every history of `DSafe` operations; `C171_agree`: two such systems with the same functions return the same Jacobian. Refuted: change of DerivMethod after differentiation (out of range, `C171_refuted`; derivatives of former functions, `C171_stale_refuted`), `GetSpaceDerivatives` on a new system (`C171_get_refuted`), copies (`C171_copy_refuted`), time derivative of a compiled system with Jacobian nodes, which is always 0 (`C171_time_zero`, `C171_time_refuted`). Not modelled: caches (C12), patches (C22), precision. Result: Holds for every choice of the two methods as long as methods are changed, derivatives requested and copies made before the system is differentiated (DSafe), except the time derivative of a compiled system with JacobianNode, which is always 0: Compile calls GetTimeDerivatives twice and gets different nodes. Refuted for switching DerivMethod afterwards (out of range or stale derivatives), for GetSpaceDerivatives on a fresh system (uninitialised Jacobian), for copies. Files: `System/PropsDerivMethod.lean`.
* **C172** (partial). *Tolerances of a tracker.* Model and method: Track/Tol.lean: setters as state changes with an exception flag, `TolToDigits` with an undefined outcome. Invariant over programs; least-digits characterisation by the exact logarithm; together with C94 the precision after an accepted step. Refuted: Setup accepts thresholds its setter refuses, changes the predictor before it throws, tolerances from ten on have no defined digits. Result: Holds for tolerances below ten and positive thresholds. Refuted in general: Setup does not check the truncation threshold, it has changed the predictor when it throws, and a tolerance of ten or more is converted from a negative number to unsigned. After an accepted step the precision may be up to nine digits short (C94). Files: `Track/PropsTol.lean`.
* **C173** (partial). *The printed results of a solve can be read.* Model and method: Alg/Report.lean: the text character by character, `%g` with rounding for doubles, `str()` for multiple precision. Specification: an independent reader of the layout and relations 'this text denotes this number'. Proof: the reader inverts the printer line by line; rounding error at most half a unit of the last digit printed; a text denotes one number only. Refuted: residuals, condition numbers and accuracies are printed with the six digits of the stream. Not modelled: points of double precision solvers (`karma::real_generator`), the text of the systems. Result: The layout can always be read back; integers, coordinates and times exactly, doubles up to the precision of the stream (relative error at most 5e-6 by default). Refuted: doubles are not exact, 1048577 is printed as 1.04858e+06. Files: `Alg/PropsReport.lean`.
* **C174** (partial). *Simplifying with random values of the variables is safe.* Model and method: Tree/Generic.lean, Tree/PropsFresh.lean, on the model of C10. An expression without branch cuts is a quotient of entire functions of its variables, defined exactly where the denominator is not 0; an entire function that vanishes on a set of positive measure of the torus vanishes everywhere (identity theorem in one variable, Fubini); so almost surely an operand is 0 or 1 at the random values only if it is 0 or 1 wherever defined, which is the hypothesis of C10_simplify_partial. Refuted: (sqrt(x^2)-x)*x becomes 0 for half of the angles. Simplified: exact arithmetic. Missing: tan, and square roots, logarithms, general powers, inverse trigonometric functions of variables. Result: Proved for expressions built with sums, products, quotients, integer powers, exp, sin, cos and constants, for every law of the angles with a density. Refuted in general: with branch cuts, (sqrt(x^2)-x)*x is simplified to 0 for half of the angles. Missing: tan; floating point. Files: `Tree/PropsFresh.lean`.
* **C175** (proved). *The collected path is the path that was tracked.* Model and method: Track/Events.lean: the notifications of each pass of the loop of C37, with the time and point an observer sees, and the accumulator as a fold. Specification: the accepted steps of C37 that did not end the call; a grammar of notifications. Proof by induction over the passes, for every tracker whose iteration accepts exactly the corrected points. Simplified: exact numbers; notifications from inside an iteration and of the initialisation are left out. Result: For every tracker state at the start of a call, after any number of passes. Exact numbers; notifications from inside an iteration (predictions, corrections, precision changes) and of the initialisation are not modelled. Files: `Track/PropsEvents.lean`.
* **C176** (partial). *An observer receives the events of exactly the objects it was added to.* Model and method: Infra/Watch.lean: the watcher lists of all objects under construction, copy, assignment, AddObserver and RemoveObserver; a destroyed observer in the list is undefined behaviour. Specification: the time at which an observer was attached, by recursion over the history of calls. The full statement fails: the implicit copy operations of Observable copy the list (also for moves), so an observer hears a copy it was never added to, and removing it from its own object before destroying it leaves a dangling reference in the copy. Proved: the law when no observed object is copied or assigned to, and the exact law with inheritance. Result: Refuted: copying (or moving) an observable copies its list of observers, so an observer receives events of copies it was never added to, and stays referenced there after being removed from its own object. Proved when no observed object is copied or assigned to, and the exact behaviour in general. Files: `Infra/PropsWatch.lean`.
* **C177** (partial). *The notifications of a step say what happened in it.* Model and method: Track/Inner.lean: the notifications of TrackerIteration of both trackers, and those before the loop, on top of the loop of C37. Specification: a list of causes, exactly one of which applies to each step, and what should be told for each. Full statement refuted: CorrectorMatrixSolveFailure is sent when Newton's method merely did not converge (both trackers), and the fixed precision tracker sends FirstStepPredictorMatrixSolveFailure for every failed prediction. Proved: the exact table of notifications, SuccessfulCorrect means a successful step, and SingularStartPoint goes with the code returned. Simplified: exact numbers; PrecisionChanged is left out (C110, C111). Result: Refuted: a correction that does not converge is announced as a failed linear solve by both trackers (solves may all succeed), and the fixed precision tracker announces every failed prediction as a failure of the first solve. Proved: the exact notifications for every outcome, and that SuccessfulCorrect and SingularStartPoint are sent exactly when they should. Files: `Track/PropsInner.lean`.
* **C178** (partial). *The notifications of an endgame say how it ended.* Model and method: Endgame/Events.lean: the notifications sent by each function of the two endgames, on top of the runs of C47-C52. Full statement refuted for both: the power series endgame announces reaching the minimal time (or a failed refinement) and then the failure once more; the Cauchy endgame announces nothing when the initial samples or a circle fail or the minimal time is reached. Proved for runs of any length, by induction over the loops: success is announced exactly as stated; of a failure what is announced, in terms of the code returned and of what the tracker and the refinement can return. Left out: notifications of progress (samples, circles, closed loops) and of precision. Result: A success is announced as stated by both endgames. Failures: the power series endgame announces some twice, the Cauchy endgame does not announce all of them. Files: `Endgame/PropsEvents.lean`.
* **C179** (partial). *Patches compare equal exactly when they are the same patch.* Model and method: Patch/Equal.lean: operator== with its loops and accesses. Proved over any field: it answers, and the answer is whether the sizes agree and all values (C29) agree; unit vectors as points recover the coefficients. Full statement refuted with C30: a copy keeps unrounded working coefficients, so it is equal, at the same precision, and evaluates differently. Result: Comparison proved for the stored coefficients. Missing: equal patches at the same working precision may hold different working coefficients. Files: `Patch/PropsEqual.lean`.
* **C180** (proved). *A real random patch is real.* Model and method: Patch/Equal.lean: RandomReal draws; conjugation is a field automorphism that fixes the coefficients, and the rescaling loop commutes with it, by induction over the groups. Simplified: exact numbers. Result: full statement. Files: `Patch/PropsEqual.lean`.
* **C181** (partial). *Numbers in double precision can be read back.* Model and method: Parse/Doubles.lean: the two generators and the parsers with the alternatives as written, over models of karma::real_generator (scientific) and qi::double_. Proved from C182 for complex numbers in both formats. Refuted for double in the classic format: the generator writes the number and a zero, which the parser of double refuses, for every number. Simplified: exact decimal values. Result: Proved: complex numbers in double precision are read back in both formats, for all values. Refuted for real numbers in the classic format: Classic::generate writes a number and a zero, which classic::parse for double refuses, for every double (C181_real). Files: `Parse/PropsDoubles.lean`.
* **C182** (proved). *Which texts are numbers in double precision.* Model and method: Parse/Doubles.lean: specification of number texts by concatenation (sign, digits, point, exponent, words); the scanner is proved sound and complete against it, then the rules, including the variables assigned by an alternative that fails. Simplified: numbers outside the range of a double are not refused. Result: Real and C++ format: exact characterisation of the accepted texts and values. Classic complex: accepted texts are one or two numbers, and every such text with white space between the numbers is accepted. Files: `Parse/PropsDoubles.lean`.
* **C183** (partial). *A printed linear product denotes its value.* Model and method: Tree/LinearPrint.lean: print as a list of tokens, loop by loop; the specification is a reader of tokens (a small automaton with product, sum and term). Induction over the variables and the factors. Refuted for homogenized products: the homogenizing variable is not printed, the text denotes the value where it is one. Simplified: the double precision copies of the coefficients are exact; an access of variables_[0] of an empty group is a distinct outcome. Result: Proved for products that were not homogenized by a variable, and for differentials. Refuted for homogenized products: the homogenizing variable is missing in the text, which denotes the value where this variable is 1 (C183_hom). Files: `Tree/PropsLinearPrint.lean`.
* **C184** (partial). *A linear product said to be homogeneous in a variable is.* Model and method: Tree/LinearPrint.lean: IsHomogeneous(v); the value is the product of the linear forms (C14). Refuted for the homogenizing variable, in which the product is said to be homogeneous. Result: Proved for every variable except the homogenizing one, and for all variables together. Refuted: IsHomogeneous(h) answers true for the homogenizing variable h of 2x+3h. Files: `Tree/PropsLinearPrint.lean`.
* **C185** (partial). *The printed straight line program says what the program does.* Model and method: SLP/Listing.lean models OpcodeToString and operator<< as labelled lines (decoding the flat instruction vector, with undefined behaviour for an unknown opcode or an access past the end); SLP/PropsListing.lean proves by induction over the program that the listing is the instructions in order, that the text determines layout, numbers and instructions, and that printing a compiled program stays within memory. False in full: the table of integer exponents is not printed, so 3^0 + x and 3^1 + x have the same text (C185_refuted). Result: Listing in order, no access out of range, and equal text plus equal exponent table gives equal results. Refuted in full: integers_ is not printed, so programs for 3^0+x and 3^1+x print alike and compute differently. Decimal rounding of printed numbers not modelled. Files: `SLP/PropsListing.lean`.
* **C186** (partial). *The precision of a matrix.* Model and method: Infra/Mat.lean: loops over columns and rows with the exception as an outcome; numbers are abstract, with a precision and a way to set it. Induction over the loops. False in full: Precision(v) looks at the first entry only (C186_refuted). Result: PrecisionRequireUniform characterised outright, setting reaches every entry. Refuted in full: Precision(v) returns the precision of the first entry only; on an empty matrix PrecisionRequireUniform accesses v(0,0). Files: `Infra/PropsMat.lean`.
* **C187** (proved). *The Kahan matrix.* Model and method: Infra/Mat.lean: the four double loops as in-place updates of a matrix with arbitrary initial contents; closed forms by induction over the loops, determinant from Mathlib's triangular determinant. Simplified: exact arithmetic in a field with a function sqrt. Result: Entries, determinant and invertibility for all sizes, in exact arithmetic. Files: `Infra/PropsMat.lean`.
* **C188** (partial). *The printed system describes the system.* Model and method: System/PrintSys.lean models operator<< as labelled lines, with the index computations of the derivatives and accesses past the end as outcomes; System/PropsPrintSys.lean reads the text back and uses the blocks of C18. False in full: homogeneous groups are not printed (C188_hom_missing), and the order of groups among ungrouped variables is not printed (C188_order_lost). Simplified: expressions, the straight line program, patch and values are opaque in the text. Result: Proved: without homogeneous groups all variables are named, and the text with the kinds of blocks determines Variables(); functions, parameters, constants, path variable always; counts, numbering and labels of derivatives. Refuted in full: homogeneous groups and the interleaving of groups and ungrouped variables are not printed. Files: `System/PropsPrintSys.lean`.
* **C189** (partial). *Comments do not change how an input file is split.* Model and method: Parse/InputFile.lean composes the models of C60 (comment stripper) and C81 (splitter) as the two functions do; Parse/PropsInputFile.lean defines tidy (line ends as newline, no white space at the beginning of lines), proves that every alternative of the splitter commutes with it, and that the stripped text and the text without comments have the same tidied form. Proved for ParseInputFile on all files. False for SplitIntoConfigAndInput, which does not strip comments (C189_comment: a comment containing END; ends the configuration). Simplified: only the alternatives with a CONFIG marker, as in C81. Result: Proved for ParseInputFile on all files, and for SplitIntoConfigAndInput on files without comments. Missing: SplitIntoConfigAndInput on files with comments, where it is false (C189_refuted): it does not strip them. Files: `Parse/PropsInputFile.lean`.
* **C190** (proved). *Metadata of paths can be compared and printed.* Model and method: Alg/MetaEq.lean models both operator== as chains of && with a read of an indeterminate value as an outcome, and operator<< as labelled values; Alg/PropsMetaEq.lean uses the records of C137, value-initialised by resize. C190_local: a record declared as a local variable cannot be compared or printed before all members are assigned. Simplified: numbers are not NaN, and values are printed in full. Result: For records in the vectors of the solver. Numbers are not NaN; printed values are taken in full. Files: `Alg/PropsMetaEq.lean`.
* **C191** (proved). *Norms and Hermitian products of multiprecision vectors.* Model and method: Infra/Hermitian.lean: abs2 and the four functions of conj_helper over an arithmetic that may round; Infra/PropsHermitian.lean: exact arithmetic compared with the complex numbers of Mathlib, and rounded arithmetic by its algebraic properties. Simplified: the loops of the matrix library add from left to right; all parts have one precision; no infinite values. Result: The loops of the matrix library are taken to add from left to right; all parts of one precision. Files: `Infra/PropsHermitian.lean`.
* **C192** (partial). *Compound assignment changes only the expression assigned to.* Model and method: Tree/Share.lean: nodes in memory with addresses as operands, evaluation with a recursion depth, the assignments on pointers to nodes (a new node is made) and on pointers to products and sums (the node is changed). Tree/PropsShare.lean: an expression keeps its value if the nodes below it stay; a new node is below nothing. False in full: the overloads for pointers to MultOperator and the members of SumOperator change the shared node (C192_shared: f = q + y changes under q *= y), and make a cycle if the node occurs on the right (C192_cycle: evaluation does not end). Simplified: rational values, division by zero gives zero, caches not modelled (C12). Result: Proved for pointers to nodes, all graphs. Refuted for pointers to products and for sums: the shared node is changed. Proved there for expressions in which the node does not occur; if it occurs on the right, evaluation does not end afterwards (C192_cycle). Files: `Tree/PropsShare.lean`.
* **C193** (partial). *Implicit parameters take the values they are given.* Model and method: SLP/Implicit.lean: SetImplicitParameters on the values of the nodes; evaluation by the compiled program (SLP/Basic.lean, SLP/Run.lean). SLP/PropsImplicit.lean: C193_nodes (the nodes get the values, others stay, wrong sizes refused), C193_compiled (what a compiled system computes, from C15_foreign). False in full: the compiler gives locations only to the variables of the ordering and the path variable, so an implicit parameter is read as the first variable and setting it has no effect (C193_refuted: f = y at x = 5, y = 7 gives 5). Simplified: caches of the nodes are not modelled here (C12). (The Python bindings, python/src/system_export.cpp 96-110, leave these members out as not implemented; in C++ and in input files they are available.) Result: Node values are set exactly; in a compiled system (the default) every implicit parameter is read as the first variable, so the full claim is refuted; correct for functions without parameters or where they equal the first variable. Files: `SLP/PropsImplicit.lean`.

No property in the list is "not applicable": each has an executable core.

## 4. How the theorems were tested

`seeded/LOG.jsonl` records wrong programs: a definition of the model is edited in a
scratch copy as a realistic bug would, the project is rebuilt, and the theorems that
fail are noted. Where a wrong program survived although its claim was then
false, a theorem was added or tightened (`tightened` in the log).
