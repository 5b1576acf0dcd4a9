# Formal model of hpp-core in Lean 4: design

Source of truth: `/repo` (C++), read as text. Nothing is compiled or run.
The model lives in `lean/Verif/`.

## Conventions

* **Layout.** One directory/file group per component.
  `*/Model.lean` (or `Foo.lean`) holds definitions, each with a comment citing file and lines;
  `*/Lemmas.lean` holds helper lemmas; property theorems are in `*/Props.lean` files (or the last section of a
  small file), each with an `example` showing a concrete case that meets the hypotheses.
* **Numbers.** `double` is modelled by an arbitrary linearly ordered field `K` (`ℚ` for executable
  witnesses, `ℝ` where square roots are needed). Rounding, NaN, overflow are *not* modelled.
  `±∞` values used as sentinels are modelled explicitly (`Option`/`WithTop`) where they matter.
* **Memory.** Shared pointers and raw pointers are modelled by identifiers (`Nat`). A reference to a destroyed object is
  representable, and its absence is proved.
* **Undefined behaviour / exceptions.** Modelled as separate outcomes (`Except`, `Option`, or an explicit
  `Outcome` type); theorems state when they cannot occur.
* **Externals** (steering, validation oracles, projection, distance, random draws, clock) are function
  parameters; what is assumed about them is a hypothesis of the theorem.
* **Code that violates its property.** The negation is proved on a concrete witness
  (`…_counterexample`), and what does hold is proved as `…_partial`.

## Trusted base

Lean 4.33.0 kernel; the standard axioms `propext`, `Classical.choice`, `Quot.sound` only (checked with `#print axioms` on every theorem of
the manifest); Mathlib's definitions used in statements
(ordered fields, lists, finite sums). No axiom is declared, no `sorry`, no `native_decide`, no `bv_decide`.
The correspondence between the C++ text and the Lean definitions is by inspection (cited lines).

## Plan per property

| id | what is modelled | how it is proved |
|----|------------------|------------------|
| C01–C06, C08–C10 | roadmap state: nodes, adjacency, edge list, components with node lists and reachableTo/From sets, `connect`, `merge`, both `canReach` | invariant by induction over operation histories: partition; component graph = quotient of edge graph (up to reachability); acyclic |
| C07 | `addNode(q)` with nearest search as modelled in C15 | invariant + argmin theorem |
| C11 | `Roadmap::merge` as fold of the operations; for `r.merge(r)`, loops that read the lists they extend | induction over the two lists; induction over the iterations |
| C12–C14 | A* loop on adjacency lists with fuel = number of nodes+1, open list stable sort | loop invariants (closed/open/parent map), fuel sufficiency, standard consistency argument |
| C15–C17 | list folds | induction |
| C18 | tree with buckets, incremental squared box distance | induction on tree, invariant "points inside boxes" |
| C19–C22 | path = (range, eval); vector = list of paths | structural induction |
| C23 | decorator as in source | algebra; counterexample for reversed with non-zero start |
| C24, C25 | sorted association list | induction; counterexamples |
| C26 | vectors `Fin n → K` | algebra |
| C27, C28 | list surgery of unionInterval as in source | invariant by induction |
| C29, C30 | loop with the `finished` counter, fuel | loop invariant, explicit bound |
| C31, C32 | loops over an interval oracle | coverage invariant |
| C33 | loop over the pieces | induction; counterexample for reverse |
| C34 | distance function with Lipschitz hypothesis | real inequalities |
| C35–C37 | folds | induction |
| C38 | three lists as in source | permutation invariants |
| C39, C40 | solve loop as transition system over arbitrary `oneStep` | invariant |
| C41 | state machine | invariant |
| C42, C43 | optimizer loop over a list of draws | invariant |
| C44 | matrix as function, recursion as in source | closed form of the update, then closure theorem by induction |
| C45, C46 | lists/maps | induction |
| C47–C49 | stack loop / step loop / piece loop | invariants; counterexample for the stale part |
| C50–C53 | polynomials over ordered fields | `nlinarith`/`ring`; counterexamples |
| C54 | Bernstein basis | polynomial inequalities; counterexample in degree 5 |
| C55 | list sums | triangle inequality by induction |
| C56 | closed forms | `field_simp`/`ring` |
| C57 | registry lists | invariant |
| C58 | matrices over a field | linear algebra |
| C59 | fold over joint lengths; weighted norm | induction; Cauchy–Schwarz |

| C60–C62 | insertion in path vectors, velocity bounds, time-parameterized paths as in source | induction over histories; calculus on the reals for velocities |
| C63–C65 | validation loops, reports, obstacle lists of body pairs | refinement to lists of obstacles; measures for termination |
| C66–C68 | planners as histories of roadmap operations driven by arbitrary oracles | invariants of the roadmap and of the planner state |
| C69, C70 | shortcut loops with arbitrary draws | measure (length), induction over pairs of way points |
| C71, C72 | recursion of the Hermite projector, application of constraint sets | well-founded recursion, induction |
| C73, C74 | `Problem::checkProblem`, obstacles known to the validations for any history of calls | case analysis, refinement |
| C75, C76 | time parameterizations as functions, Reeds–Shepp profile | calculus on polynomials, counterexamples |
| C77, C78 | quadratic program reduced by linear constraints, integrals of Bernstein products | linear algebra, interval integrals |
| C79–C82 | closed forms of the kinodynamic steering method, phases, loop on the required time | comparison with all motions of Lipschitz velocity, invariant of the loop |
| C83 | BiRRT*: parent maps, `extend`, `connect`, `improve`, `sample`, the whole resolution | trees as a relation to the root, invariant over the steps |
| C84 | `computeParentMap` with any order of the queue | invariant: frontier in the queue, costs of walks |
| C85 | constant curvature paths over ℝ, evaluation, extraction, reversal | poses as complex numbers, composition of motions, `HasDerivAt` |
| C86 | `impl_derivative`, `impl_velocityBound` | iterated derivatives by induction on the order, monotony of sine and cosine |
| C87 | the six words, the loop over them, the three paths; curves driven forward with a heading that is Lipschitz | equations between complex numbers; each word solved up to multiples of 2π; theorem of Dubins: drives of length at most 1 replaced by turn-line-turn, compactness of the words with a given number of letters, strict shortening of all other patterns |
| C88 | the eight formulas, the five families, the choice, the path | complex numbers; symmetries of words (time flip, reflection, reversal); bound on dropped segments; a word exists: case analysis on the position of the target |
| C89 | rows of the equality constraints, concatenated control points; any integration of tangent vectors from the base of each spline | rows at the same place of any splines of the same shape; Bernstein basis at the ends; commutative groups by bases unrolled in a vector space; quaternions for the ball joint |
| C90 | linear system of the steering method, replacement of paths | triangular systems at both ends (Hermite), derivative of the sum of half of the basis |
| C91 | rows of the bounds, loops of `validateBounds` with their index arithmetic | convex hull of control points; invariants of the loops |
| C92 | `value`, `jacobian`, `hessian` of the cost, weights | quadratic form of the concatenated control points; positive semi-definite integrals |
| C93 | the loop of `optimize` as a state machine with arbitrary answers of the validation, the solver and the collision functions | invariant by induction on iterations, for feasibility and cost with the contract of the solver |
| C94 | the same machine | decrease of the cost by a factor and number of constraints as a measure; machines that never stop as counterexamples |
| C95 | `Global::project` on one list of items cut in two by `last`; answers of the solver and of the detection of discontinuities arbitrary | invariants on the list (marks, lengths) by induction over the loop; potential function for `reinterpolate`; runs on the line as counterexamples |
| C96 | `Global::project2` on a list cut in two by `last`, end of the list explicit; answers of the solver arbitrary | invariants by induction over the loop; number of insertions bounded by length / threshold; runs on the line as counterexamples |
| C97 | state of `ProblemSolver` (names, tolerances, problem, planner, roadmap); builders represented by their names; every public call is an operation | specification: last accepted call of the trace; invariant of sessions with a robot, by induction over the calls |
| C98 | target of the solver and of the problem; planner: arbitrary answers | same; outcome of `prepareSolveStepByStep` computed |
| C99 | constraint sets as shared objects (list of all sets, ranks) | same; specification on the trace |
| C100 | list of paths; steering method, projector, validation and optimizers arbitrary | outputs of the optimizers as a chain; table of `directPath`; append-only |
| C101 | planner with weak pointer to its problem and its roadmap; roadmap reduced to: has an initial node, a goal can be reached | invariant between `prepareSolveStepByStep` and the steps; runs as counterexamples |

The table is refined in *Status* below as the proofs are done.

## What is modelled and what is not

Modelled (each Lean definition cites file and lines): roadmap, nodes, edges, connected components, nearest neighbour searches (list and
k-d tree), A*; path classes (vector, straight, interpolated, extracted, spline, discrete time parameterization, kinodynamic); discretized and
continuous path validations with their interval bookkeeping; collision validations and obstacle lists; planners (`PathPlanner::solve`, diffusing,
BiRRT, visibility PRM, kPRM*); optimizers (random, simple, partial shortcut, simple time parameterization, Reeds–Shepp time
parameterization, linear constraints and quadratic programs of the spline optimizer); path projectors (progressive, dichotomy, recursive Hermite); constraint sets
and config projector interface; problem and its parameters; distances; kinodynamic steering.

Not modelled: floating point rounding (except in C144); geometry (pinocchio kinematics, collision checking of hpp-fcl, whose results are parameters); solvers of
hpp-constraints (parameters with a contract); threads and interruption other than as a flag read at arbitrary values; random generators (arbitrary
sequences); text output, logging, CORBA, plugin loading, boost serialization.

## Wrong programs: how to read `seeded/LOG.jsonl`

Each line is one edit of a definition in a scratch copy. Proofs that no longer compile are replaced by `sorry` in the copy until the rest builds. `theorems_failed` lists the manifest theorems that then depend on `sorryAx`.

* A failed theorem is one whose *proof* broke, directly or through a lemma it uses. It is not a proof that its statement is false for the edited program. So the log overestimates how many edits the statements themselves exclude.
* In lines with `generated: true` (514 of 841 when this was written) the edit was produced by `tools/automut.py`. For killed ones `claim_broken` is mostly the titles of the properties whose theorems failed, not a judgement by hand.
* `automut.py` and `replay.py` at first logged killed edits only. The 34 generated edits that survived were added afterwards and tried again, one excepted whose text has changed and those equivalent by their form. 10 are now killed, two of them after `C84_pop` was added and `reached_none` entered the manifest. 18 are judged equivalent, or without effect on states that can occur, by hand: these judgements are not machine-checked. 5 are open: no theorem pins down the behaviour they change.
* 27 lines in all have no failed theorem.
* Generated edits that do not type-check, and attempts that ended in an error of the tool, are not in the log.
* Examples are removed from the scratch copy, so an edit that breaks only an `example` counts as a survivor.

<!-- STATUS -->
## Status

Generated from `MANIFEST.json` by `tools/design.py`. `proved`: the statement of `properties.jsonl` holds in the model for all inputs. `partial`: part of the statement is proved (theorems with suffix `_partial` name what is missing), or the code violates part of it and the negation is proved on a witness (`…_counterexample`).

| id | status | property | modules | remarks |
|----|--------|----------|---------|---------|
| C01 | proved | Connected components are exactly the mutual-reachability classes | `Roadmap/Props.lean` |  |
| C02 | proved | canReach answers directed reachability exactly | `Roadmap/Props.lean` |  |
| C03 | proved | Components partition the nodes | `Roadmap/Props.lean` |  |
| C04 | proved | The component graph is well formed | `Roadmap/Props.lean` |  |
| C05 | proved | pathExists is sound and complete for two-way and directed edge insertion | `Roadmap/Props.lean` |  |
| C06 | partial | pathExists with one-way node insertion | `Roadmap/Props.lean` | The code violates the 'true only if reachable' half (counterexample); what it computes exactly is proved. |
| C07 | proved | Adding an existing configuration returns the existing node | `Roadmap/Props.lean` | For distances that separate configurations. The counterexample shows the duplicates the statement mentions. |
| C08 | proved | Edge bookkeeping is consistent | `Roadmap/Props.lean` |  |
| C09 | proved | Two-way insertions are symmetric | `Roadmap/Props.lean` |  |
| C10 | proved | The roadmap only grows, until clear | `Roadmap/Props.lean` |  |
| C11 | partial | Merging another roadmap | `Roadmap/Props.lean`, `Roadmap/SelfMerge.lean` | Holds for two different roadmaps. r.merge(r) never ends as soon as an edge has a positive length (counterexample for every such roadmap), and changes nothing otherwise. |
| C12 | proved | A* returns a connected path from init to a goal | `AStar/Props.lean` |  |
| C13 | proved | A* terminates, and fails only when no goal is reachable | `AStar/Props.lean` |  |
| C14 | proved | A* is optimal for consistent heuristics | `AStar/Props.lean` | The counterexamples show that the hypotheses on parallel edges and on consistency are needed. |
| C15 | proved | Linear nearest-neighbour search returns a true nearest node | `Roadmap/Props.lean` |  |
| C16 | proved | K nearest nodes | `NearestNeighbor/Basic.lean` | For every priority queue implementation; K = 0 is undefined behaviour. |
| C17 | proved | Nodes within a ball | `NearestNeighbor/Basic.lean` |  |
| C18 | partial | K-d tree search agrees with linear search | `NearestNeighbor/KDTree.lean` | Exact search proved for every insertion history inside the root box; the code itself reads an uninitialized variable when a full bucket holds equal configurations (or after clear()), shown by counterexamples; components are fixed at insertion (KDTree::merge is never called by Roadmap). |
| C19 | proved | Evaluating a concatenated path selects the right piece | `Path/VectorProps.lean` |  |
| C20 | partial | Length of concatenated paths is the sum of lengths | `Path/VectorExtract.lean`, `Path/VectorProps.lean` | Length and concatenation for every construction history; flatten preserves evaluation when constraints do not depend on the parameter and no nested vector is empty. The counterexamples show a parameter-dependent constraint changes meaning under flatten, and self-concatenation does not terminate. |
| C21 | partial | Extracting a part of a concatenated path | `Path/VectorExtract.lean` | Holds for vectors whose own constraints do not change the result (in particular none); the code drops the vector's constraints, as the counterexample shows. |
| C22 | partial | Reversal | `Path/VectorExtract.lean` | Same restriction as C21. |
| C23 | partial | Extraction/reversal decorator | `Path/Extracted.lean` | Forward extraction, bounds and derivatives hold in general; reversal holds exactly when the lower end is 0 (counterexamples otherwise). |
| C24 | proved | Interpolated path passes through its way points and interpolates between neighbours | `Path/InterpolatedProps.lean` | For insertions inside the range (not checked by the code, the counterexample shows what happens outside). |
| C25 | partial | Interpolated path: velocity bound, extraction and reversal | `Path/InterpolatedProps.lean` | Extraction except the empty part at the very end (undefined behaviour); reversal only if the range starts at 0; velocity bound only if t0 is a way point: the code is wrong otherwise (counterexamples). |
| C26 | partial | Straight path | `Path/Straight.lean` | Extraction without constraints; with constraints the extracted part interpolates between projected ends (counterexample). |
| C27 | proved | Union of validated intervals is exact | `ContinuousValidation/Intervals.lean` |  |
| C28 | proved | Coverage queries on validated intervals | `ContinuousValidation/Intervals.lean` |  |
| C29 | proved | Discretized validation checks a dense enough sample and returns a valid prefix | `Validation/Discretized.lean` | The counterexample records that nothing is claimed between samples. |
| C30 | proved | Discretized validation terminates for positive steps | `Validation/Discretized.lean` |  |
| C31 | proved | Progressive continuous validation covers the whole path | `ContinuousValidation/Straight.lean` |  |
| C32 | proved | Dichotomy continuous validation covers the whole path | `ContinuousValidation/Dichotomy.lean` |  |
| C33 | partial | Validation of path vectors | `ContinuousValidation/Vector.lean` | Forward direction, nested vectors included; in reverse direction the code accesses a piece out of bounds for every vector (C33_reverse_counterexample). |
| C34 | partial | Certified intervals are collision free up to the tolerance | `ContinuousValidation/BodyPairs.lean` | Penetration at most twice the tolerance, for straight paths or zero tolerance; the counterexamples show that the code accepts penetrations beyond the tolerance, and any penetration when the velocity is refined with a positive tolerance. |
| C35 | proved | Combining interval validations | `ContinuousValidation/BodyPairs.lean` |  |
| C36 | partial | Composite path validation is a conjunction returning the shortest valid prefix | `Validation/Composite.lean` | The verdict is the conjunction; the returned part is valid for all validations in forward direction when the part reported is a prefix; the code is wrong in reverse (counterexamples). |
| C37 | proved | Composite configuration validation is a conjunction | `Validation/Composite.lean` |  |
| C38 | proved | Collision pair bookkeeping | `Obstacles/Basic.lean` | The counterexamples record limits of the interface: a filtered pair cannot be removed, a throwing removal is not atomic, only the first pair between two bodies gets the margin. |
| C39 | proved | PathPlanner::solve honours its stop criteria | `Planner/Base.lean`, `Planner/Solve.lean` | The exact outcome for targets whose test has no effect, and for all targets (C39_any_target) the same meaning of outcomes; the counterexample records that an interruption wins over a solved problem. |
| C40 | proved | A planner always has a stop criterion | `Planner/Solve.lean` |  |
| C41 | partial | kPRM* connects each new node to its k nearest and finishes | `Planner/KPrmStar.lean` | With at least two nodes; numberOfNodes = 1 asks for zero neighbors, which is undefined behaviour (counterexample). |
| C42 | proved | Shortcut optimizers preserve end points and never lengthen | `Optim/RandomShortcut.lean`, `Optim/SimpleShortcut.lean` | For a closed path, SimpleShortcut returns the steering path from the configuration to itself. |
| C43 | partial | Partial shortcut | `Optim/PartialShortcut.lean` | Proved for the default parameters; the random phase never improves a path because its test on the evaluation of the path is inverted, and when enabled it can return a path that was not validated (counterexamples). |
| C44 | proved | Relative motion matrix is the exact transitive closure | `RelativeMotion.lean` |  |
| C45 | partial | Constraint sets | `Constraint/Set.lean` | Refinement to lists of added constraints for all histories. Adding a set also adds its hidden trivial projector, and an exception while adding a set leaves the first members added (counterexamples). |
| C46 | proved | Named containers and typed parameters | `Problem/Params.lean` | The counterexample shows that C46_type needs that a name is not declared again with another type. |
| C47 | partial | Dichotomy path projector | `Projector/Dichotomy.lean` | The chain of pieces is proved for all paths; termination when each split shrinks lengths by a fixed amount. The code may not terminate without this (counterexample) and dereferences null constraints (counterexample). |
| C48 | proved | Progressive path projector | `Projector/Progressive.lean` | The initial configuration is assumed to satisfy the constraints (only asserted by the code). Includes the way points stored in the interpolated path. |
| C49 | partial | Projection of path vectors | `Projector/Common.lean` | Result is the stated concatenation when the projection of each piece assigns its output; otherwise the stale output of the previous piece is appended again (counterexample). |
| C50 | proved | Time parameterization polynomials | `TimeParam/Simple.lean` | Also for the whole optimizer: order of pieces, velocity limits of each degree of freedom, rest at the ends, acceleration bound; the final check never fails. The counterexample: a motionless piece makes the call throw. Real numbers. |
| C51 | partial | Polynomial derivative bound | `TimeParam/Polynomial.lean` | True for degrees 1, 2, and 3 without extremum of the derivative inside the interval. False for degree 3 with such an extremum (wrong expression); degree 5 is refused. |
| C52 | proved | Piecewise polynomial lookup | `TimeParam/Piecewise.lean` | The counterexample: derivatives of high order are 0 even outside of the range. |
| C53 | partial | Trapezoidal speed profile of the Reeds-Shepp time parameterization | `TimeParam/Quadratic.lean` | False: with a constant speed segment the distance is exceeded by twice the deceleration distance; when the target speed cannot be reached times decrease; derivativeBound looks at the ends only. |
| C54 | partial | Bernstein splines: values and velocity bound | `Path/Spline.lean`, `Path/SplineBound.lean` | Values, end points, convex hull, derivatives of all orders and maxVelocity for all degrees. velocityBound: true for degrees 1 and 3, false for 5 and 7 (wrong extrema). When the range is empty the last control point is not reached; orders above 2 (n + 1) read out of an array. |
| C55 | partial | Relative speed bound between two bodies | `ContinuousValidation/Speed.lean` | Proved for bodies and obstacles of the environment, in any normed space. For two joints of the robot the result is not a bound: downward joints need the distance to the parent, the reverse sum uses the radius of the wrong body, and the smaller sum is returned. |
| C56 | partial | Kinodynamic motion reaches its target | `Kino/FixedTime.lean`, `Kino/MinTime.lean`, `Kino/Steering.lean` | Exact arithmetic. Every degree of freedom reaches its target within the bounds, except in two degenerate cases, where the code is wrong: same position with the same nonzero velocity, and a displacement at constant velocity. Translations only (the code has no other). |
| C57 | proved | Obstacle registry | `Problem/Obstacles.lean` | For histories that set the robot first, and set it again only when no obstacle is registered; the counterexamples show what happens otherwise (the lists of obstacles are not cleared). |
| C58 | proved | Elimination of linear constraints | `Linear/Constraint.lean` | Exact arithmetic; the orthogonal decomposition of Eigen is a parameter with a contract. When there is no row, decompose does not set rank. |
| C59 | partial | Distance weights | `Distance/Weighed.lean` | Pseudo-metric properties proved for all weights. Default weights: exact characterisation; finite and positive when the first length is positive, infinite for joints of length zero before any other (counterexample, mentioned in a comment of the source). setWeight does not refuse negative ranks. |
| C60 | partial | Inserting a path vector | `Roadmap/Props.lean` | The last part of the statement fails (counterexample). |
| C61 | proved | Velocity bound of a path vector | `Path/VectorVelocity.lean` |  |
| C62 | partial | Time-parameterized paths | `Path/Extracted.lean` | Evaluation, derivative, bound, and forward extraction of paths with the default extraction; the code is wrong for classes that shift their range, for reversal and for the bound of extracted paths. |
| C63 | proved | Verdict and report of collision validation | `Validation/Composite.lean` |  |
| C64 | proved | Continuous validation terminates with a positive tolerance | `ContinuousValidation/BodyPairs.lean` |  |
| C65 | partial | Obstacles in continuous validation | `Obstacles/Continuous.lean` | Removal has undefined behaviour as soon as a body pair becomes empty, filtering never ends with a validation that is not a body pair, and a margin update that matches nothing is not reported. |
| C66 | partial | Edges inserted by planners are validated | `Planner/BiRRT.lean`, `Planner/BiRRTStarCost.lean`, `Planner/BiRRTStarSolve.lean`, `Planner/Diffusing.lean`, `Planner/Visibility.lean` | Proved for the diffusing planner and visibility PRM; for BiRRT without constraints and up to paths reduced to a point. With constraints BiRRT inserts discontinuous edges, and it may use a null pointer (counterexamples). BiRRT*: from an empty roadmap, only a draw near the best path just after the trees met, or a loop that does not end, makes it fail, and the loops end for shortest paths and bounded distances; both this draw and a second resolution read end() (counterexamples). |
| C67 | partial | Path returned by solve | `Planner/BiRRT.lean`, `Planner/BiRRTStarSolve.lean`, `Planner/Diffusing.lean`, `Planner/KPrmStar.lean`, `Planner/Visibility.lean` | Same restriction for BiRRT as C66; BiRRT* from an empty roadmap. |
| C68 | proved | Visibility PRM keeps exactly guards and connections | `Planner/Visibility.lean` | The loop that shoots until the configuration is valid is a parameter. |
| C69 | proved | RandomShortcut terminates | `Optim/RandomShortcut.lean` | Lengths and distances in an Archimedean ordered field. |
| C70 | proved | SimpleShortcut finds every single shortcut | `Optim/SimpleShortcut.lean` |  |
| C71 | partial | Recursive Hermite path projector | `Projector/Hermite.lean` | Proved for interpolated paths with at least two way points; with one way point the result is an empty vector (counterexample). Coefficient 1 may not terminate. |
| C72 | proved | Applying constraints | `Constraint/Set.lean` | For solvers that report success only on satisfying configurations. The counterexample shows that the hypothesis on the order of members is needed. |
| C73 | proved | Check of a problem | `Problem/Params.lean` |  |
| C74 | partial | Validations know all collision obstacles | `Problem/Obstacles.lean` | All histories without a direct call to initConfigValidation, which forgets the obstacles (counterexample). The other counterexamples: obstacles registered for distance only are also checked for collision; obstacles are given several times. |
| C75 | proved | Values and derivatives of polynomial time parameterizations | `TimeParam/Polynomial.lean` |  |
| C76 | partial | Time parameterization of Reeds and Shepp paths | `TimeParam/Quadratic.lean` | The speed jumps at changes of direction; the length is exceeded when there is a constant speed segment (C53). |
| C77 | proved | Quadratic programs under linear constraints | `Linear/Constraint.lean` | Exact arithmetic; the counterexample shows that the matrix of the cost has to be symmetric. |
| C78 | partial | Integral of the squared norm of spline derivatives | `Path/SplineIntegral.lean` | The result is the integral divided by n!/(n-k)!: true for order 0 only (the factor is applied once instead of twice). The gradient is the one of the value returned. |
| C79 | partial | Minimal time of kinodynamic motions | `Kino/MinTime.lean` | Steering method: minimal among all motions with Lipschitz velocity. Distance: minimal except when a direct acceleration joins the states with negative velocities (counterexample: 5 instead of 1). |
| C80 | partial | States along a kinodynamic path | `Kino/Path.lean` | The derivative and the velocity bound are inherited from StraightPath and are wrong (counterexample): velocityBound is lower than the actual velocity. |
| C81 | partial | Extraction of kinodynamic paths | `Kino/Path.lean` | Proved for all paths whose phases sum up to the length. False along the vertical axis when it is not synchronized and waits at the end (counterexample). |
| C82 | proved | Duration of kinodynamic motions | `Kino/FixedTime.lean`, `Kino/Steering.lean` | Termination of the loop included. |
| C83 | partial | Trees of the bidirectional optimal planner | `Planner/BiRRTStarCost.lean`, `Planner/BiRRTStarSolve.lean`, `Planner/BiRRTStarTrees.lean` | From an empty roadmap and one goal. Costs never increase, the recomputation of the maps included, when the direct connection failed. Missing: the step after the trees met may read end() (counterexample), and the loop that connects the trees is proved to end only for shortest paths without constraints. |
| C84 | proved | Shortest path trees of a roadmap | `Planner/PopOrder.lean`, `Planner/ShortestTree.lean` | For any queue that gives back its elements in any order; C84_pop specifies the order of the code. |
| C85 | partial | Constant curvature paths of a car | `Car/Arc.lean` | Everything but the wheels, which jump to the value of the curvature at the beginning of the path (counterexample): the initial value of the path differs from the initial configuration. |
| C86 | partial | Derivatives and velocity bound of constant curvature paths | `Car/Derivative.lean`, `Car/Validation.lean` | Velocity right; derivatives of even orders have the opposite sign in half of the cases. The velocity bound is about the frame of the world whereas the velocity is in the frame of the car: right on lines and when the car turns by more than pi, wrong otherwise (counterexamples). The norm of the two components, which is what continuous validation uses, is right on all intervals (C86_bound_norm, see C159). |
| C87 | partial | Dubins paths | `Car/Dubins.lean`, `Car/DubinsThm.lean` | Exact arithmetic. C87_shortest: between two different poses the distance driven is the least one among all the curves along which the car rolls forward and turns by at most the inverse of the radius per unit of length (theorem of Dubins, proved in Car/Drive, Car/Shorten and Car/DubinsThm). When the two poses of the car are the same the lengths are 0/0 (counterexample); the last configuration is the requested one up to the wheels. |
| C88 | partial | Reeds and Shepp paths | `Car/RSFound.lean`, `Car/RSPath.lean`, `Car/ReedsShepp.lean` | Exact arithmetic. Every word leads to the target and a word is found for every target. The word is the shortest one only when the radius is 1 (counterexample for the radius 10). Segments shorter than the precision are dropped, so that the path ends near the target (bound proved); targets very close with respect to the radius are not reached at all (counterexample). |
| C89 | partial | Continuity of paths optimized by splines | `SplineOpt/Continuity.lean`, `SplineOpt/Groups.lean`, `SplineOpt/GroupsOptimum.lean`, `SplineOpt/Params.lean` | Proved for vector spaces and for commutative groups (translations, unbounded rotations about one axis). False with rotations of space: the control points of a spline are tangent vectors at its first configuration before the optimization, and the constraints compare those of two splines with different bases; with a ball joint all the equality constraints can hold while the orientation jumps at the junction (counterexample, any degree; C89_junction says exactly when it does not), and the optimum itself jumps (degree 1, C89_optimum_counterexample). The unused method updateParameters skips the first two splines (counterexample). |
| C90 | proved | Splines between two configurations | `SplineOpt/Steering.lean` | Exact solution of the linear system; derivatives are those of the coordinates (before the Jacobian of the integration). Orders of derivatives have to be distinct and small enough for the degree. |
| C91 | partial | Joint bounds in the spline optimizer | `SplineOpt/Bounds.lean` | Vector spaces. Control points are checked instead of the path, so that some paths within the bounds are refused; with an odd number of finite bounds violations are not seen (counterexamples). |
| C92 | partial | Cost of the spline optimizer | `SplineOpt/Cost.lean` | The cost of a piece is the integral divided by n!/(n-k)! (see C78): the weights of the pieces are the same, so that minima are the same ones when all pieces have the same degree, which is the case. If all pieces have length 0 the weights are not finite (counterexample). |
| C93 | partial | Safety of the spline optimizer | `SplineOpt/GroupsOptimum.lean`, `SplineOpt/Loop.lean`, `SplineOpt/LoopCost.lean`, `SplineOpt/LoopEnd.lean`, `SplineOpt/LoopExamples.lean` | Validity of the pieces, constraints, cost and absence of exception in any configuration space; continuity and ends in vector spaces and commutative groups (C93_path, C93_commutative); false with rotations of space: with a ball joint the path returned jumps at a junction though all its pieces are valid (C93_rotation_counterexample). Joint bounds in vector spaces. Proved without the parameters returnOptimum (the path returned is then not validated: C93_returnOptimum) and linearizeAtEachStep (a vector is read out of range: counterexamples), and with a solver which solves the programs that have solutions (otherwise an arbitrary vector is used: counterexample). Reports of joint bound violations raise an exception. |
| C94 | partial | Termination of the spline optimizer | `SplineOpt/LoopEnd.lean`, `SplineOpt/LoopExamples.lean` | Ends when 0 < alphaInit < 1, costThreshold > 0, costs are bounded from below by a positive number, and constraints are not linearized at each step. Otherwise it may loop for ever (counterexamples: alphaInit = 1, an optimum of cost 0). |
| C95 | partial | The global path projector | `Projector/Global.lean`, `Projector/GlobalProps.lean` | Version without bound on the hessian (the default). Way points and ends: always right. Distances: right when no discontinuity is detected, except between the last two way points, which are never checked nor refined (counterexample: any path may be replaced by the segment between its ends); after a discontinuity is detected the projector may succeed with lengths that are not up to date (counterexample). The outer loop may not end (counterexample). |
| C96 | partial | The global path projector with a bound on the hessian | `Projector/HessianProps.lean` | Paths that are not interpolated paths: everything but the end of the outer loop (counterexample), and a path whose first or last configuration has a small singular value is returned as is, with success (counterexample). For interpolated paths the end of the list is written (counterexample). The threshold has to be positive (counterexample). |
| C97 | partial | Components selected by name | `Problem/SessionPaths.lean`, `Problem/SessionThms.lean` | Everything but the distance, which has no effect (counterexample). Selections made before the robot is given are used by solve, but not before by directPath (counterexample). addConfigValidation without problem throws after it has changed the selection (counterexample). Components set on the problem itself are lost (counterexample). |
| C98 | partial | Goals given to the problem solver | `Problem/SessionPaths.lean`, `Problem/SessionThms.lean` | With goal constraints prepareSolveStepByStep always answers no (C98_prepare, C101_task_counterexample). |
| C99 | partial | Constraints of a session | `Problem/SessionPaths.lean`, `Problem/SessionThms.lean` | The settings of a config projector added by addConstraint are its own (counterexample). A call with an unknown name leaves an empty config projector (counterexample). The path projector RecursiveHermite keeps older constraints (counterexample). |
| C100 | partial | Paths of a session | `Problem/SessionPaths.lean` | directPath: undefined behaviour if the projection gives no path, and empty report if the projection fails with a valid path (counterexample). |
| C101 | partial | Resolution step by step | `Problem/SessionPaths.lean` | For goal configurations, as long as the roadmap and the problem are not reset; undefined behaviour otherwise (counterexamples). With goal constraints the answer is always no (counterexample). |
| C102 | partial | Uniform shooters | `Sampling/Shooter.lean` | Extra degrees of freedom that are not sampled are set to 0 even out of their bounds; twice the same infinite bound is not refused and gives a value that is not a number; UniformSeedable does not check bounds (counterexamples, C102_seedable_outcome). randomConfiguration of pinocchio by contract. |
| C103 | partial | Gaussian shooter | `Sampling/Gaussian.lean` | Joints only: the deviations of extra degrees of freedom are never initialized; an empty center (the default of the problem solver) is undefined behaviour; the default deviation of rotations of the plane is not the documented one (counterexamples). |
| C104 | partial | Kinodynamic paths facing the velocity | `Kino/Oriented.lean` | The path does not join the configurations asked for: their orientation is replaced (counterexample). The values of a part are the same ones when the velocity is not zero (counterexample otherwise); null pointer for an interval reduced to a point (C104_null). Translations and base orientation only. |
| C105 | partial | Target given by constraints | `Planner/Wrappers.lean` | Configurations that can only be reached one-way are ignored; with the same configuration in two components the search may fail after a positive test; two tests in the same iteration violate an assertion (counterexamples). |
| C106 | proved | Search in the roadmap only | `Planner/Wrappers.lean` | For roadmaps without node inserted one-way (C01); steering from a configuration to itself assumed not to fail; shortest for a consistent heuristic. |
| C107 | partial | Planning followed by optimization | `Planner/Wrappers.lean` | The direct connection of the base class is tried even if the planner overrides it (counterexample with SearchInRoadmap, which then modifies the roadmap); the limits of the inner planner are not used. |
| C108 | partial | Hermite paths | `Path/Hermite.lean` | The methods of Spline that change the parameters do not reset the length (counterexample); a copy with constraints replaces the velocities that were set (counterexample). Derivatives in the tangent space at the initial configuration. |
| C109 | partial | Paths of some degrees of freedom | `Path/Subchain.lean` | A copy with constraints cannot be evaluated (counterexample). Derivatives are not defined by the class. |
| C110 | partial | Cars that go backward only | `Car/BackShortest.lean`, `Car/CarLike.lean` | Same restrictions as C87: exact arithmetic, first configuration up to the wheels; C110_shortest: the least distance among all the curves driven backward; the lengths are 0/0 between configurations with the same pose (counterexample); the constraints are lost by the reversal (counterexample). |
| C111 | partial | Parameters of the steering methods of cars | `Car/CarLike.lean` | The constructor with parameters accepts a radius that is not positive; the copy has no wheels (counterexamples). |
| C112 | partial | Time-optimal parameterization | `TimeParam/Toppra.lean` | False for pieces whose parameter does not start at 0, for pieces already parameterized and for N = 0; derivativeBound of the parameterizations calls itself forever (counterexamples). The solver of the toppra library is an oracle. |
| C113 | proved | Saving and loading a roadmap | `Roadmap/Archive.lean` | The order of ties between nearest nodes may change, since components are stored in the order of their addresses. |
| C114 | proved | Saving and loading paths | `Path/Archive.lean` | Tracking of shared pointers by boost is not modelled: constraints are read as the objects that were written. |
| C115 | partial | Copies of a problem | `Problem/Copy.lean` | The copy loses goals, distance, steering method, shooter and constraints; its path validation ignores the obstacles; configuration validations are shared with the original (counterexamples). |
| C116 | proved | Plugins | `Problem/Copy.lean` | Loading the same library twice initializes twice (C116_twice_counterexample). The file system and the dynamic loader are parameters. |
| C117 | proved | Distances between the robot and obstacles | `Problem/Copy.lean` | The distance between two objects (coal) is a parameter. |
| C118 | partial | Pairs and requests of continuous validation | `Obstacles/Pool.lean` | The pairs added by initialize keep the default break distance of coal (counterexample); without initialize the claim is proved. |
| C119 | proved | Compression of velocities by a projector | `Constraint/Compress.lean` | Free variables are disjoint blocks, as provided by the explicit constraint set. |
| C120 | partial | Settings and right hand sides of projectors | `Constraint/Compress.lean` | rightHandSide for a constraint not in the projector does nothing, silently (counterexample). The solver of hpp-constraints is modelled by its right hand sides. |
| C121 | proved | Limits and interruption of path optimizers | `Optim/Monitor.lean` | An interruption asked for before optimize is forgotten (C121_interrupt_counterexample). Only RandomShortcut and the gradient based optimizers use these limits. |
| C122 | partial | Default weights of the distance bound the velocities of the bodies | `Distance/Weights.lean` | Proved up to a factor two, and exactly when distances are null or at least one; the code squares distances between joints (line 118), so the plain bound is false and depends on the unit of length (counterexamples). |
| C123 | partial | Copies of steering methods and distances behave like the originals | `Problem/Clone.lean` | Copies agree except for the defects shown by the counterexamples: bounds of the kinodynamic distance, wheels of car steering methods, vertical acceleration bound. |
| C124 | partial | Roadmaps edited by hand through the problem solver | `Roadmap/Manual.lean` | The last sentence needs the caller to give a path between the two configurations: the code accepts any path (counterexample). |
| C125 | partial | A path keeps the level set of its constraints | `Path/Rhs.lean` | Proved for the operations of the library; the three sharing defects named in the statement are shown by counterexamples. |
| C126 | proved | Solutions of planners are free of collision all along, from the calls of the planner down to the distances between bodies | `Planner/EndToEnd.lean` | Composition of C20, C26, C29, C30, C31, C32, C34, C61, C64, C66 and C67: the contracts of the planners are proved of the models of straight paths and of the three path validations. Assumed: the collision library returns positive lower bounds of distances, distances vary no faster than the weighed displacement of the joints. The bound of twice the tolerance is reached, and with the discretized validation walls thinner than a step are crossed (counterexamples). |
| C127 | proved | Planning followed by any sequence of shortcut optimizers returns a path free of collision | `Planner/Optimize.lean` | Composition of C126 with C42: the contracts of the optimizers are proved of the models of straight paths and of the three path validations. PartialShortcut is left out: it dereferences the constraints of the paths (C43_null_counterexample), absent here. Spline optimizers are treated separately (C45 and followers). |
| C128 | partial | Straight paths of robots with rotation joints | `Path/Joints.lean`, `Path/LieGroup.lean`, `Planner/HalfTurn.lean` | Speed proved for all pairs (ball joints: C137_straight). Extraction and reversal proved when no rotation joint does exactly half a turn. For half turns the statement is false: in any group, with any logarithm, the reverse does not go through the middle of the path (C128_halfturn); a path of a rotating joint avoids an angle that its reverse goes through; the diffusing planner then returns a path that the path validation of the problem rejects (C128_planner_counterexample). The logarithm and the exponential of the Lie group library are modelled for lines, circles and rotations of space (unit quaternions up to the sign, any logarithm with values of norm at most pi), and by contract for other groups. |
| C129 | partial | Collision constraints of the spline optimizer | `SplineOpt/CollisionFunction.lean`, `SplineOpt/Explicit.lean` | False as stated: for a collision with a fixed obstacle, the direction of the constraint is the difference of the coordinates of a point in the world and in the joint (collision-constraint.hh:199), so that the colliding path may satisfy the constraint, depending on the world frame; between moving bodies, the direction is expressed in the frame of the second joint and the jacobian in that of the first. Proved: exclusion when the joints are parallel or the direction is not orthogonal to the displacement, up to the linearization error; exclusion after updates; bracketing by updates; what the linearized row means. A report without contact aborts the program, one that is not a collision report raises an exception (C129_total). The convention of RelativePosition is that of the documentation of hpp-constraints. With explicit constraints the row is that of the composed function: exactly if they are affine, up to their linearization error otherwise. |
| C130 | partial | Planned paths stay within the joint bounds | `Planner/Bounds.lean`, `Planner/Closed.lean` | proved for the diffusing planner, Bi-RRT, Visibility-PRM and kPRM*; for BiRRT* the sampling near the best path (bi-rrt-star.cc:252-267) adds a vector of length close to extendMaxLength without looking at the bounds: a run is given that returns a path out of the bounds, and the statement is proved when this sampling stays in the set |
| C131 | partial | Planning with constraints: how far a solution leaves the level set of its start | `Planner/Leaf.lean` | Proved for the four planners from an empty roadmap, from the calls of the planner down to the evaluation of straight paths with constraints; the threshold itself is not a bound (counterexample). BiRRT is excluded: with constraints its paths are not continuous (C66). Assumed: a satisfying configuration is left unchanged by the projector (no explicit constraints). |
| C132 | partial | Spline optimization does not break the constraints of paths | `SplineOpt/Active.lean` | Proved for a negative threshold (the default) in vector configuration spaces; with the guess, the error is bounded for affine constraints and the claim is false otherwise (counterexample). The sets of degrees of freedom and the iterations of the solver of hpp-constraints are modelled by their contract; constraints whose right-hand side depends on the parameter are covered parameter by parameter. |
| C133 | partial | Parameters are values | `Problem/ParamHeap.lean` | Proved for histories in which the allocation of an assignment does not fail (other allocations may fail); counterexample otherwise. Modification of the const member through const_cast is not counted as undefined behaviour. |
| C134 | partial | Continuous validation by several threads | `Obstacles/Concurrent.lean` | Interleaving model: each operation of pinocchio::Pool is atomic and acquire waits for an element (contract of an external class). Exclusion holds for all histories. Findings: a validation that throws does not give its list back, and a thread that found the pool not empty before then waits for ever; when the pairs are changed during a validation, the old list returns to the pool and later validations use it. Not modelled: data races inside one operation, the robot data shared through DeviceSync, the requests shared by the copies. |
| C135 | partial | Collision tests read the present shape of the obstacles | `Problem/Shapes.lean` | Proved for every history: a test is made with a registered obstacle, at its position, and reads its present shape, unless the obstacle was cut since the validations were made. False after cutObstacle, which gives the obstacle another geometry and leaves the collision pairs with the pointer to the former one: the tests read the shape before the cut (conservative: no collision is missed), while the distances read the new one; if the user does not own the former geometry it is destroyed and the tests read freed memory. A path validation that the user still has after removeObstacle reads freed memory and takes positions of other obstacles. Resetting the problem or initializing the validations after the cut repairs the first two. |
| C136 | partial | A resolution interrupted from another thread stops | `Problem/Interrupt.lean` | Proved for every schedule: a call made while the planner works stops the resolution without any other step; a call made while the last optimizer runs, if it reads its flag, too; a call made before solve is forgotten, as expected. Otherwise false: a call made during initProblem or before the reset in PathPlanner::solve is lost and the planner may run for ever; so is a call made after the last test of the planner, or during the test of its limits when the target is reached (optimizers run in full); a call made during an optimizer does not stop the next ones; only RandomShortcut and the gradient based optimizers read their flag. interrupt may go through pathOptimizers_ while solve clears it. The flags are plain booleans: the model gives them sequential consistency, which C++ does not. |
| C137 | partial | Velocity bounds of paths of robots with ball joints | `Path/Ball.lean` | The displacement of points is bounded for straight paths, for splines of degrees 1 and 3, and with maxVelocity for all degrees: the exponential of rotations does not increase distances (chord). Degrees 5 and 7 inherit the wrong bound of C54. The last part is false: the bound is about the tangent vector at the base, and a ball joint can turn about an axis for which the bound is null (counterexample). The exponential of the Lie group library is modelled exactly; configurations are unit quaternions. |
| C138 | partial | Solutions of planners are free of collision all along, for robots with joints of any kind | `Planner/HalfTurn.lean`, `Planner/Robots.lean`, `Planner/Turns.lean` | Generalizes C126: each path carries a ghost bit, set when a straight path of exactly half a turn of some joint is reversed. The five planners return paths that go from the initial configuration to a goal, and all pieces without this bit are free of collision; the whole path is if there is no such piece (C138_safe: in particular when no joint turns). False for half turns: the diffusing planner returns a path in collision (counterexample). The assumptions on segments are proved for robots with translations, unbounded rotations and ball joints (world_ok), and the others for a robot with two arms (Arms). |
| C139 | partial | Path optimizers keep paths free of collision, for robots with joints of any kind | `Planner/HalfTurn.lean`, `Planner/TurnsOptimize.lean` | Generalizes C127 as C138 generalizes C126. C139_optimize holds for all joints, half turns included: the optimizers extract only forward, and the shortest motion of a sub-segment is the sub-segment. Only the first step is partial: the path given by the planner must contain no reversed half turn; without this the planner itself returns a path in collision (counterexample, as in C138). |
| C140 | partial | Planning, optimizing and time-parameterizing gives an executable trajectory, for robots with joints of any kind | `Planner/HalfTurn.lean`, `Planner/RobotsTime.lean`, `Planner/Trajectory.lean`, `TimeParam/Simple.lean` | Composes C138, C139 and C50 on evaluations of path vectors. C140_trajectory holds for all joints, half turns included. Only the first step is partial, as in C139: the path given by the planner must contain no reversed half turn. C140_defined gives conditions under which a trajectory is found; a piece along which no limited degree of freedom moves has none (C50_still_counterexample). |
| C141 | partial | Joint bounds hold along planned, optimized and time-parameterized paths, for robots with joints of any kind | `Planner/Bounds.lean`, `Planner/TurnsBounds.lean` | Generalizes C130 to joints of any kind and carries it through optimizers and time parameterization. Bounds hold on reversed half turns too. Partial: BiRRT* only if its draws near the best path are in the set, which fails in general (C130_birrtstar_counterexample); the combined statement with the absence of collision needs the path of the planner to contain no reversed half turn, as C139. |
| C142 | partial | Memory of roadmaps: no dangling pointer, no double release, no leak | `Roadmap/Memory.lean` | Proved for programs whose node arguments belong to the roadmap called, that give each nearest neighbour object once and to one roadmap, and that set an init node before pathExists. Nothing in the API enforces this: giving a roadmap the nearest neighbour object that it already has releases it and keeps the pointer (roadmap.cc:80-83), two roadmaps may be given the same object and both release it, nodes kept across clear or belonging to another roadmap are accepted by addEdge, pathExists dereferences a null init node: each is a counterexample. |
| C143 | partial | Paths returned by a later resolution meet the present requirements | `Problem/Kept.lean` | Proved for every session in which constraints are added and the path validation is changed only while the roadmap has no edges, and edges given by hand meet the requirements: obstacles may be added, cut and removed at any time (addObstacle and removeObstacle empty the roadmap). False otherwise: addConstraint, addNumericalConstraintToConfigProjector and pathValidationType keep the roadmap, and the next solve returns the path found before, which violates the new constraint or is in collision. |
| C144 | partial | Path vectors and discretized validation keep their guarantees under rounding | `Path/Rounding.lean` | Proved: rank and local parameter always defined, within the time range (beyond its end by a rounding error only when the range does not begin at 0), order kept, position up to an error proportional to the number of paths passed, value at the end of the range up to an error. False: the value at the end of the range is the end of the last path (numbers of type double, paths of lengths 1 and 2^-60: the second path is never reached, whereas end() is its end), and the discretized validation always ends (double, parameters around 2^53 and step 1/2: the parameter never moves). The partial theorem asks for a step above the rounding error on the parameters. Overflow and subnormal numbers are left out. |
| C145 | partial | Extraction and shortcuts of path vectors join exactly under rounding | `Path/RoundedExtract.lean` | Proved: extraction always exists and joins exactly, from the value at the first parameter to the value at the second one; beginnings are exact; any number of shortcuts joins exactly from the initial configuration. False: extraction over the whole time range leads to the final configuration, and so do shortcuts (double, a last path of length 2^-60 after a path of length 1: the end of the time range is the end of the first path, the last path is lost). Shortcuts keep the final configuration if each vector whose last part is kept is at its final configuration at the end of its time range. Straight paths without constraints nor time parameterization. |
| C146 | proved | Joint bounds hold exactly along interpolated paths under rounding | `Path/RoundedBounds.lean` | Assumed of the library pinocchio: the interpolation of vector spaces is exact for 0 and 1 and x + u (y - x) otherwise. Rounding to the nearest is an interface (odd, nearest, products by factors below 1 are below) shown to hold for numbers with p bits, for every p; overflow and subnormal numbers are left out. Paths whose time range begins at 0, as those made by the steering method and by extraction. |
| C147 | partial | Shots of extra degrees of freedom are within bounds under rounding | `Path/RoundedBounds.lean` | Proved for random numbers r with (1+u)^2 r < RAND_MAX, that is, with numbers of type double, for all r below RAND_MAX. False when rand returns RAND_MAX: with bounds -0.8 and 0.3 the value is 0.30000000000000004, which the joint bound validation refuses. |
| C148 | partial | Continuous collision checking with floating-point arithmetic | `ContinuousValidation/Rounded.lean` | Proved for straight paths with the bound of twice the tolerance augmented by the rounding errors, and termination when the advance exceeds them.  The bound without rounding errors fails: in double precision a path whose time range ends at the double nearest to 1/5 is accepted by the dichotomy although the objects penetrate at its end.  Termination without condition fails: two bodies sliding at distance 2^-60 make both loops run for ever in double precision.  Not modelled: rounding in the refinement of the velocity bound for paths that are not straight, and in the distances and velocity bounds themselves. |
| C149 | partial | Search of a roadmap with floating-point arithmetic | `AStar/Rounded.lean` | The factor per edge of the shortest chain is (1 + u)(1 + u)(1 + e)/(1 - u), where u is the relative error of additions and e that of the heuristic: for 1000 edges in double precision the error is less than 1e-12. Proved for edges between the same nodes in the same direction which have the same length (see C14). The path returned may be longer than another one by a rounding error (C149_shortest_counterexample). Infinities and NaN are not modelled. |
| C150 | partial | Distances keep their meaning with floating-point arithmetic | `Distance/Rounded.lean` | Error, metric, vector and nearest node parts in full. Search: two edges between the same nodes in the same direction must have the same length, as in C14 and C149. The accuracy of the squared distance of joints with rotations in SO(2), SO(3) is a contract (ε); underflow and overflow are not modelled; Eigen may sum the coordinates in another order. |
| C151 | partial | Validation of one configuration by a path validation | `Validation/Single.lean` | Everything is proved except the last sentence, which is false with a positive tolerance: a straight path is accepted although its end, validated alone, is refused (C151_end_counterexample, also with the dichotomy). How far an accepted path may penetrate is C34. |
| C152 | proved | The diffusing planner finds the paths that its random configurations suggest | `Planner/Complete.lean`, `Planner/CompleteBench.lean` | The distance separates configurations; the initial roadmap contains no node inserted one way (empty for the last sentence). The random configurations are an arbitrary sequence: that they are dense with probability one is outside of the model. That the last configuration of the chain is not yet a node is a hypothesis on the run (in the dense case on every step). |
| C153 | proved | BiRRT finds the paths that its random configurations suggest | `Planner/CompleteBi.lean`, `Planner/CompleteBiBench.lean` | That the configurations shot are not yet nodes is a hypothesis on the run up to the end of the chain; without it the planner can throw (C66_birrt_null_counterexample). The last sentence is proved for one goal. The random configurations are an arbitrary sequence: that they contain a chain with probability one is outside of the model. |
| C154 | proved | kPRM* finds the paths between neighbours of its nodes | `Planner/CompletePrm.lean`, `Planner/CompletePrmBench.lean` | More nodes than init and goal configurations (otherwise the planner connects these only). No more than the given number of trials (10000 in the code) of invalid configurations in a row, otherwise it fails. |
| C155 | partial | An obstacle is removed from a joint by name | `Problem/ByName.lean` | Proved for path validations that compare geometries (discretized, none) and with the arguments in the order of the implementation. The code violates the rest: the declaration in problem-solver.hh has the parameters (jointName, obstacleName) while the definition reads (obstacleName, jointName), so that a call in the declared order throws unless a joint has the name of an obstacle; with Progressive or Dichotomy the call throws after every history and changes nothing, because the solver makes another CollisionObject for the obstacle and the continuous validation compares the pointers. |
| C156 | partial | A device is added as obstacles | `Problem/DeviceObstacles.lean` | Registered objects, exceptions and frame positions are characterized after every history; a device with distinct unused names is added as a whole. The code violates the rest, under the contract that pinocchio keeps the first of two frames with the same name and type: a device that is added again at another place keeps the old frame positions; a name clash leaves the objects before it and all the frames; the names are put side by side, so that distinct devices with distinct objects may clash; a reference to a frame position is dangling after the next device. The kinematics of the device and addFrame, getFrameId are contracts. |
| C157 | partial | Paths of all steering methods satisfy the constraints of the problem | `Path/Steered.lean` | Proved for the straight steering method. Hermite, Spline and Reeds-Shepp keep the right-hand sides of the steering method instead of those of the first configuration: constraints without level sets are satisfied, but a path may start from another level set than its first configuration (counterexample). Dubins, Snibud, the kinodynamic steering method, and Reeds-Shepp between almost equal poses ignore the constraints (counterexample). The solver is a contract, and so are the paths without constraints (C87, C88, C90, C108, C110). |
| C158 | partial | Planned paths respect steering methods that go one way only | `Planner/OneWay.lean` | Proved for BiRRT without constraints, which inserts only the paths it steers, in the direction in which they are computed. The other planners (DiffusingPlanner, VisibilityPrm, kPRM*, BiRRT*) insert the reverse of each path as well, and return paths that cannot be followed, even when there is no solution (counterexample on each of them); the reverse of a kinodynamic path is a null pointer, they insert edges with null paths that the search dereferences (counterexample), BiRRT does not. |
| C159 | proved | Continuous validation of the paths of cars | `Car/Validation.lean`, `ContinuousValidation/Uniform.lean` | Assumed: lower bounds of the collision library and coefficients of the pairs (C55). The refinement of the velocity is right for motions of constant speed, whatever the tolerance. Validation of vectors from their end is not covered (C33: it fails). |
| C160 | partial | Planning for cars is free of collision | `Planner/Cars.lean` | Missing: wheel joints (their values differ at the ends of arcs: C85); steering between two configurations of the same pose, taken here as a failure (not a number in the code: C87, C110); planners that validate paths from their end (BiRRT), which fails on vectors (C33); edges carry reversed paths, so that the path returned may be driven both ways (C158). |
| C161 | partial | Path optimizers keep the paths of cars feasible and free of collision | `Planner/CarsOptimize.lean` | Missing: what is missing in C160 (wheel joints, steering between configurations of the same pose, BiRRT); PartialShortcut and the optimizers by splines, which do not apply to cars. |
| C162 | partial | Planning for cars with discretized validation is safe and one-way | `Planner/CarsSampled.lean` | Missing: the wheel joints; steering between configurations of the same pose, which fails; the joint bounds. Only BiRRT keeps the direction (C158_reverse_counterexample). |
| C163 | proved | A direct path to a goal is returned without any random step | `Planner/Direct.lean` | k-PRM* and SearchInRoadmap override the direct connection by an empty function (C107_tryConnect_counterexample). |
| C164 | partial | Planning then optimizing for cars with discretized validation is safe and one-way | `Planner/CarsSampledOptimize.lean` | Missing: what is missing in C162 (wheel joints, steering between configurations of the same pose, joint bounds); PartialShortcut and the optimizers by splines, which do not apply to cars. |
| C165 | partial | Trajectories of cars are safe and within velocity limits | `Planner/CarsTime.lean` | False as stated, because of the velocity bound of the arcs (C86): a car limited along its own axis exceeds its limit (C165_limit_counterexample), and the optimizer throws on an arc in the third quadrant, whatever the limits (C165_throws_counterexample). Proved: the speed is at most the norm of the limits of both coordinates; rotation and other joints meet their limits; the optimizer succeeds if no component of the bounds is negative. Missing: what is missing in C162; the acceleration limit (C50 for one piece). |
| C166 | partial | Planned paths of cars stay within joint bounds | `Planner/CarsBounds.lean`, `Planner/CarsBoundsOptimize.lean` | False for the position of the car: from a position at its upper bound, facing it, each path of Dubins leaves the bounds, and BiRRT returns it (C166_position, C166_position_counterexample); the collision validation does not look at bounds. Proved for all the other joints, for any convex set of bounds; for the position, with the path validation DiscretizedCollisionAndJointBound, up to half a step of the validation (C166_validated_*); the shortcut optimizers keep the other joints within bounds (C166_optimize_partial, C166_resolution_partial). Missing: what is missing in C162. |

### Places where the code and the property disagree

Each line is a theorem whose statement exhibits inputs on which the modelled code does not satisfy the property.

* C06: `Roadmap.C06_pathExists_oneWay_counterexample`
* C07: `Roadmap.C07_addNodeAndEdges_duplicate_counterexample`
* C11: `Roadmap.C11_self_counterexample`
* C14: `AStar.C14_parallel_counterexample`, `AStar.C14_inconsistent_counterexample`
* C16: `NN.C16_zero_counterexample`
* C18: `KD.C18_equal_counterexample`, `KD.C18_clear_counterexample`
* C20: `PathV.C20_varying_counterexample`, `PathV.C20_self_counterexample`
* C21: `PathV.C21_constraints_counterexample`
* C22: `PathV.C21_constraints_counterexample`
* C23: `PathV.C23_backward_counterexample`, `PathV.C23_compose_counterexample`
* C24: `PathV.C24_outside_counterexample`
* C25: `PathV.C25_extract_end_counterexample`, `PathV.C25_reverse_counterexample`, `PathV.C25_velocity_counterexample`
* C26: `PathV.C26_constraints_counterexample`
* C29: `Validation.C29_between_samples_counterexample`
* C33: `CV.C33_report_counterexample`, `CV.C33_reverse_counterexample`
* C34: `CV.C34_tolerance_counterexample`, `CV.C34_refine_counterexample`
* C36: `Validation.C36_end_counterexample`, `Validation.C36_reverse_counterexample`, `Validation.C36_null_report_counterexample`
* C38: `Obst.C38_remove_filtered_counterexample`, `Obst.C38_remove_atomic_counterexample`, `Obst.C38_marginBetween_counterexample`
* C39: `Planner.C39_interrupt_counterexample`
* C41: `Planner.C41_one_node_counterexample`
* C43: `Optim.C43_random_idle_counterexample`, `Optim.C43_null_counterexample`, `Optim.C43_random_junk_counterexample`
* C45: `Cons.C45_trivial_counterexample`, `Cons.C45_strong_counterexample`
* C46: `Prob.C46_redeclare_counterexample`
* C47: `Proj.C47_diverges_counterexample`, `Proj.C47_null_counterexample`
* C49: `Proj.C49_stale_counterexample`
* C50: `TimeParam.C50_still_counterexample`
* C51: `TimeParam.C51_cubic_counterexample`, `TimeParam.C51_quintic_counterexample`
* C52: `TimeParam.C52_high_order_counterexample`
* C53: `TimeParam.RS.C53_distance_counterexample`, `TimeParam.RS.C53_unreachable_counterexample`, `TimeParam.RS.C53_bound_counterexample`, `TimeParam.RS.C53_tiny_counterexample`
* C54: `Spline.C54_null_counterexample`, `Spline.C54_order_counterexample`, `Spline.C54_quintic_counterexample`, `Spline.C54_septic_counterexample`
* C55: `Speed.C55_pair_counterexample`
* C56: `Kino.C56_still_counterexample`, `Kino.C56_constant_counterexample`
* C57: `Solver.C57_robot_counterexample`, `Solver.C57_robot_remove_counterexample`, `Solver.C57_no_robot_counterexample`
* C59: `Dist.C59_weights_counterexample`, `Dist.C59_negative_rank_counterexample`
* C60: `Roadmap.C60_insertPathVector_counterexample`
* C62: `PathV.C62_shift_counterexample`, `PathV.C62_reverse_counterexample`, `PathV.C62_extracted_bound_counterexample`
* C65: `Obst.Cont.C65_add_remove_counterexample`, `Obst.Cont.C65_filter_diverges_counterexample`, `Obst.Cont.C65_marginBetween_counterexample`
* C66: `Planner.C66_birrt_counterexample`, `Planner.C66_birrt_null_counterexample`, `Planner.Star.LineStar.C66_birrtstar_counterexample`, `Planner.Star.LineStar.C66_birrtstar_second_counterexample`
* C67: `Planner.C66_birrt_counterexample`
* C71: `Proj.C71_empty_counterexample`, `Proj.C71_beta_counterexample`
* C72: `Cons.C72_order_counterexample`
* C74: `Solver.C74_init_counterexample`, `Solver.C74_flags_counterexample`, `Solver.C74_duplicate_counterexample`
* C76: `TimeParam.RS.C76_cusp_counterexample`
* C77: `Linear.C77_symmetric_counterexample`
* C78: `Spline.C78_order1_counterexample`
* C79: `Kino.C79_distance_counterexample`
* C80: `Kino.C80_velocityBound_counterexample`
* C81: `Kino.C81_wait_counterexample`
* C83: `Planner.Star.LineStar.C66_birrtstar_counterexample`, `Planner.Star.LineStar.C66_birrtstar_second_counterexample`
* C85: `Car.C85_wheels_counterexample`
* C86: `Car.C86_derivative_counterexample`, `Car.C86_absSineMax_counterexample`, `Car.C86_bound_counterexample`, `Car.C86_angles_counterexample`
* C87: `Car.C87_still_counterexample`
* C88: `Car.RS.C88_shortest_counterexample`, `Car.RS.C88_still_counterexample`
* C89: `SplineOpt.C89_rotation_counterexample`, `SplineOpt.C89_optimum_counterexample`, `SplineOpt.C89_updateParameters_counterexample`
* C91: `SplineOpt.C91_odd_counterexample`, `SplineOpt.C91_refused_counterexample`
* C92: `SplineOpt.C92_lambdas_counterexample`
* C93: `SplineOpt.C93_rotation_counterexample`, `SplineOpt.C93_unsolved_counterexample`, `SplineOpt.C93_linearize_counterexample`
* C94: `SplineOpt.C94_alphaOne_counterexample`, `SplineOpt.C94_zero_counterexample`
* C95: `Proj.C95_last_counterexample`, `Proj.C95_jump_counterexample`, `Proj.C95_termination_counterexample`
* C96: `Proj.Hess.C96_rejected_counterexample`, `Proj.Hess.C96_interpolated_counterexample`, `Proj.Hess.C96_zero_counterexample`, `Proj.Hess.C96_termination_counterexample`
* C97: `Session.C97_distance_counterexample`, `Session.C97_reset_counterexample`, `Session.C97_validation_counterexample`, `Session.C97_problem_counterexample`
* C98: `Session.C101_task_counterexample`
* C99: `Session.C99_settings_counterexample`, `Session.C99_unknown_counterexample`, `Session.C99_hermite_counterexample`
* C100: `Session.C100_direct_counterexample`
* C101: `Session.C101_reset_counterexample`, `Session.C101_problem_counterexample`, `Session.C101_task_counterexample`
* C102: `Sampling.C102_zero_counterexample`, `Sampling.C102_nan_counterexample`
* C103: `Sampling.C103_extra_counterexample`, `Sampling.C103_center_counterexample`, `Sampling.C103_rotation_counterexample`
* C104: `Kino.C104_steer_counterexample`, `Kino.C104_extract_counterexample`
* C105: `Planner.Line.C105_oneway_counterexample`, `Planner.Line.C105_duplicate_counterexample`, `Planner.Line.C105_assertion_counterexample`
* C107: `Planner.Line.C107_tryConnect_counterexample`
* C108: `Path.Hermite.HEx.C108_length_counterexample`, `Path.Hermite.HEx.C108_copy_counterexample`
* C109: `PathV.C109_copy_counterexample`
* C110: `Car.C110_still_counterexample`, `Car.C110_constraints_counterexample`
* C111: `Car.C111_copy_counterexample`, `Car.C111_radius_counterexample`
* C112: `TimeParam.TEx.C112_shift_counterexample`, `TimeParam.TEx.C112_grid_counterexample`, `TimeParam.TEx.C112_zero_counterexample`, `TimeParam.C112_bound_counterexample`
* C115: `ProblemCopy.C115_obstacles_counterexample`, `ProblemCopy.C115_shared_counterexample`, `ProblemCopy.C115_goals_counterexample`
* C116: `ProblemCopy.C116_twice_counterexample`
* C118: `Obst.Pool.C118_break_counterexample`
* C120: `Compress.C120_rhs_counterexample`
* C121: `Optim.Monitor.C121_interrupt_counterexample`
* C122: `Dist.W.C122_velocity_counterexample`, `Dist.W.C122_unit_counterexample`
* C123: `Clone.C123_kino_counterexample`, `Clone.C123_wheels_counterexample`, `Clone.C123_vertical_counterexample`
* C124: `Roadmap.Manual.C124_ends_counterexample`
* C125: `Rhs.C125_shared_counterexample`, `Rhs.C125_project_counterexample`, `Rhs.C125_pieces_counterexample`
* C126: `EndToEnd.Plane.C126_penetration_counterexample`, `EndToEnd.Plane.C126_wall_counterexample`
* C128: `PathV.C128_halfturn_counterexample`, `HalfTurn.C128_planner_counterexample`, `Joints.C128_ball_counterexample`
* C129: `SplineOpt.CF.C129_obstacle_counterexample`, `SplineOpt.CF.C129_row_counterexample`, `SplineOpt.CF.C129_moving_counterexample`, `SplineOpt.CF.C129_frame_counterexample`
* C130: `EndToEnd.Plane.C130_birrtstar_counterexample`
* C131: `Leaf.Plane.C131_counterexample`
* C132: `Active.C132_guess_counterexample`
* C133: `ParamHeap.C133_badAlloc_counterexample`
* C134: `Obst.Concurrent.C134_throw_counterexample`, `Obst.Concurrent.C134_stale_counterexample`
* C135: `Shapes.C135_stale_counterexample`, `Shapes.C135_freed_counterexample`, `Shapes.C135_kept_counterexample`
* C136: `Interrupt.C136_counterexample`, `Interrupt.C136_lost_counterexample`, `Interrupt.C136_between_counterexample`, `Interrupt.C136_limits_counterexample`, `Interrupt.C136_next_counterexample`, `Interrupt.C136_blind_counterexample`, `Interrupt.C136_race_counterexample`
* C137: `Ball.C137_coordinate_counterexample`
* C138: `HalfTurn.C128_planner_counterexample`
* C139: `HalfTurn.C128_planner_counterexample`
* C140: `HalfTurn.C128_planner_counterexample`, `TimeParam.C50_still_counterexample`
* C141: `EndToEnd.Plane.C130_birrtstar_counterexample`
* C142: `RoadMem.C142_same_nn_counterexample`, `RoadMem.C142_shared_nn_counterexample`, `RoadMem.C142_kept_node_counterexample`, `RoadMem.C142_foreign_node_counterexample`, `RoadMem.C142_no_init_counterexample`
* C143: `Kept.C143_constraint_counterexample`, `Kept.C143_validation_counterexample`, `Kept.C143_edge_counterexample`
* C144: `Rounding.C144_end_counterexample`, `Rounding.C144_discretized_counterexample`
* C145: `Rounding.C145_extract_counterexample`, `Rounding.C145_shortcut_counterexample`
* C147: `Rounding.C147_shot_counterexample`
* C148: `Rounding.C148_penetration_counterexample`, `Rounding.C148_loop_counterexample`
* C149: `AStar.C149_shortest_counterexample`
* C151: `Single.C151_end_counterexample`
* C155: `ByName.C155_continuous_counterexample`
* C156: `Solver.Device.C156_frames_counterexample`, `Solver.Device.C156_atomic_counterexample`, `Solver.Device.C156_names_counterexample`
* C157: `Rhs.Steered.C157_ignored_counterexample`, `Rhs.Steered.C157_level_counterexample`
* C158: `Planner.OneWay.C158_reverse_counterexample`, `Planner.OneWay.C158_null_counterexample`
* C165: `Planner.CarsSampled.Demo.C165_limit_counterexample`, `Planner.CarsSampled.Demo.C165_throws_counterexample`
* C166: `Planner.CarsSampled.Demo.C166_position_counterexample`
<!-- /STATUS -->
