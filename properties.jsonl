{"id": "C01", "title": "Connected components are exactly the mutual-reachability classes", "statement": "After any sequence of Roadmap::addNode, addEdge, addEdges, addNodeAndEdges calls on an initially empty roadmap, two nodes report the same connectedComponent() if and only if each can be reached from the other along directed edges of the roadmap.", "quantifier": "all finite histories of the two-way and directed edge insertion calls, in any order, on any number of nodes", "why_tests_cant": "The components are maintained incrementally (cycle detection plus merging on every edge); a wrong merge only shows on particular insertion orders, and there are infinitely many orders.", "anchors": ["src/roadmap.cc: Roadmap::addEdge, addEdges, addNodeAndEdges, connect, merge, impl_addEdge", "src/connected-component.cc: ConnectedComponent::merge, canReach"]}
{"id": "C02", "title": "canReach answers directed reachability exactly", "statement": "After any such history, cc1->canReach(cc2) returns true if and only if some (equivalently every) node of cc1 has a directed path of roadmap edges to some (equivalently every) node of cc2; the query does not change the answer of any later query.", "quantifier": "all histories, all pairs of live components, any number of repeated queries", "why_tests_cant": "The search runs on the incrementally maintained component graph and uses mutable 'explored' marks; agreement with the edge graph is a global invariant over histories.", "anchors": ["src/connected-component.cc: ConnectedComponent::canReach (both overloads), clean"]}
{"id": "C03", "title": "Components partition the nodes", "statement": "After any history of insertions (including addNodeAndEdge), every node of the roadmap belongs to the nodes() list of exactly one component listed by connectedComponents(), exactly once, and that component is the one node->connectedComponent() returns.", "quantifier": "all histories of all node/edge insertion calls", "why_tests_cant": "Merges move nodes between components; an error would need a particular merge history to appear.", "anchors": ["src/roadmap.cc: addNode, createNode, merge", "src/connected-component.cc: merge", "include/hpp/core/connected-component.hh: addNode"]}
{"id": "C04", "title": "The component graph is well formed", "statement": "After any history, every component listed in reachableTo()/reachableFrom() of a live component is itself live (never a component destroyed by a merge), is not the component itself, and cc2 is in cc1->reachableTo() iff cc1 is in cc2->reachableFrom(); the component graph has no directed cycle.", "quantifier": "all histories, all live components", "why_tests_cant": "Dangling raw pointers and one-sided links only appear after specific merge orders (merging more than two components at once).", "anchors": ["src/connected-component.cc: merge, canReach", "src/roadmap.cc: connect, merge"]}
{"id": "C05", "title": "pathExists is sound and complete for two-way and directed edge insertion", "statement": "After any history of addNode, addEdge, addEdges, addNodeAndEdges, initNode, addGoalNode, resetGoalNodes: pathExists() returns true iff some goal node is reachable from the init node through directed roadmap edges.", "quantifier": "all histories", "why_tests_cant": "Needs agreement of two different data structures for all histories.", "anchors": ["src/roadmap.cc: pathExists", "include/hpp/core/roadmap.hh: initNode, addGoalNode, resetGoalNodes"]}
{"id": "C06", "title": "pathExists with one-way node insertion", "statement": "With addNodeAndEdge (new node attached by a single directed edge) in the history: pathExists() must be true iff a goal is reachable. (The implementation puts the new node in the component of its neighbour although only one direction exists; the 'if a goal is reachable then true' half is what can be kept.)", "quantifier": "all histories of every public insertion call", "why_tests_cant": "A test would have to build the particular one-way configuration; the surviving half ranges over all histories.", "anchors": ["src/roadmap.cc: addNodeAndEdge, insertPathVector, pathExists"]}
{"id": "C07", "title": "Adding an existing configuration returns the existing node", "statement": "If a node with configuration q is in the roadmap then addNode(q) returns a node with configuration q and changes nothing; otherwise it adds exactly one node, alone in a new component. Hence histories of addNode(q), addEdge and addEdges never hold two nodes with the same configuration. addNodeAndEdges only deduplicates within the component of the start node.", "quantifier": "all histories and configurations, any distance with d(a,b)=0 iff a=b, d>=0", "why_tests_cant": "Depends on the nearest-neighbour structure returning a true minimum over every component for every history.", "anchors": ["src/roadmap.cc: addNode(q), addNode(q,cc), nearestNode"]}
{"id": "C08", "title": "Edge bookkeeping is consistent", "statement": "After any history each Edge in edges() has both ends in nodes(); an edge listed in n->outEdges() starts at n, one listed in n->inEdges() ends at n, and both are in edges(); an edge is listed by its start node iff it is listed by its end node; for each ordered pair of nodes exactly one edge is listed as soon as edges() has one; a pair of nodes is an out-neighbour pair iff some edge in edges() joins it; addOutEdge/addInEdge never throw from the roadmap.", "quantifier": "all histories, all ordered node pairs", "why_tests_cant": "Three separately updated lists must agree after every history.", "anchors": ["src/roadmap.cc: addEdges, addEdge, impl_addEdge", "src/node.cc: addOutEdge, addInEdge, isOutNeighbor, isInNeighbor"]}
{"id": "C09", "title": "Two-way insertions are symmetric", "statement": "If a history uses only addNode, addEdges and addNodeAndEdges then n1 has n2 as out-neighbour iff n2 has n1 as out-neighbour, so every component can be traversed both ways and distinct components have no link.", "quantifier": "all histories of two-way insertion", "why_tests_cant": "Invariant over histories.", "anchors": ["src/roadmap.cc: addEdges, addNodeAndEdges"]}
{"id": "C10", "title": "The roadmap only grows, until clear", "statement": "No call except clear() removes a node, an edge or a directed path, or changes the configuration of a node; after clear() there are no nodes, edges, components or goal nodes, and the init node is unset (pathExists() must not be called before an init node is set again).", "quantifier": "all histories", "why_tests_cant": "Frame property of every operation over all states.", "anchors": ["src/roadmap.cc: clear, addNode, addEdge, addEdges, merge"]}
{"id": "C11", "title": "Merging another roadmap", "statement": "r.merge(other) leaves in r, for every node of other, a node with the same configuration, and for every edge of other with positive length an edge between the corresponding nodes; r's own nodes and edges are kept. (The implementation also adds the reverse edge of one-way edges.)", "quantifier": "all pairs of roadmaps reachable by histories, r = other included", "why_tests_cant": "Quantifies over pairs of arbitrary roadmaps.", "anchors": ["src/roadmap.cc: merge(other)"]}
{"id": "C12", "title": "A* returns a connected path from init to a goal", "statement": "Whenever the search returns, the returned list of edges is a chain of existing roadmap edges: the first starts at the init node, each next starts where the previous ends, and the last ends at a goal node.", "quantifier": "all roadmaps, all edge costs and heuristics", "why_tests_cant": "The parent map is updated while nodes are still open; chain integrity is an invariant of the search loop.", "anchors": ["src/astar.hh: Astar::solution, search, findPath"]}
{"id": "C13", "title": "A* terminates, and fails only when no goal is reachable", "statement": "For every finite roadmap the search terminates; it throws 'A* failed to find a solution' iff no goal node is reachable from the init node.", "quantifier": "all finite roadmaps, edge costs and heuristics", "why_tests_cant": "Termination and completeness range over all graphs.", "anchors": ["src/astar.hh: search"]}
{"id": "C14", "title": "A* is optimal for consistent heuristics", "statement": "If edge costs are non negative and the heuristic is consistent (in particular if it is the distance to the closest goal and every edge is at least as long as the distance between its ends) the returned path has minimal total cost among all directed paths from init to any goal, provided that parallel edges (same ends, same direction) have the same length: a second parallel edge is ignored by the search.", "quantifier": "all roadmaps with consistent heuristics", "why_tests_cant": "Optimality quantifies over all paths of all graphs. (Closed nodes are never reopened, so optimality fails for merely admissible heuristics.)", "anchors": ["src/astar.hh: search, heuristic, edgeCost"]}
{"id": "C15", "title": "Linear nearest-neighbour search returns a true nearest node", "statement": "search(q, cc) on a non-empty component returns a node of cc at the reported distance, no node of cc is strictly closer, and ties go to the oldest node; nearestNode over the whole roadmap returns a global minimum. With reverse, the distance is evaluated from q to the node.", "quantifier": "all components, configurations and distances", "why_tests_cant": "Argmin property for every list and metric.", "anchors": ["src/nearest-neighbor/basic.cc: Basic::search", "src/roadmap.cc: nearestNode"]}
{"id": "C16", "title": "K nearest nodes", "statement": "KnearestSearch(q, cc, K) with K>0 returns min(K, size) distinct positions of nodes of cc, sorted by increasing distance, such that no node left out is strictly closer than a returned one, and the reported distance is that of the farthest returned node (infinity if none).", "quantifier": "all components, K>0, metrics", "why_tests_cant": "Heap-based selection must be right for every sequence.", "anchors": ["src/nearest-neighbor/basic.cc: Basic::KnearestSearch (3 overloads)", "src/roadmap.cc: nearestNodes"]}
{"id": "C17", "title": "Nodes within a ball", "statement": "withinBall(q, cc, r) returns exactly the nodes of cc at distance strictly less than r, each once, in insertion order.", "quantifier": "all components, radii and metrics", "why_tests_cant": "Set equality for every input.", "anchors": ["src/nearest-neighbor/basic.cc: Basic::withinBall"]}
{"id": "C18", "title": "K-d tree search agrees with linear search", "statement": "For a weighted Euclidean distance, after any sequence of insertions inside the bounding box, KDTree::search returns a node of the component whose distance is the minimum over all nodes of this component; pruning never discards a closer node.", "quantifier": "all insertion sequences, all query points in the box, all bucket sizes", "why_tests_cant": "Pruning errors only show for specific geometric configurations.", "anchors": ["src/nearest-neighbor/k-d-tree.cc: addNode, findLeaf, split, distanceToBox, search"]}
{"id": "C19", "title": "Evaluating a concatenated path selects the right piece", "statement": "PathVector evaluated at parameter s returns the value of sub-path i at its own parameter, where i and the local parameter are such that the sum of the lengths of the previous sub-paths plus the local offset equals s; rankAtParam never returns an index outside the vector, throws iff the vector is empty, and the local parameter stays in the sub-path's range for s in range.", "quantifier": "all vectors of paths, all parameters in range (including junctions and zero-length pieces)", "why_tests_cant": "Boundary behaviour at every junction of every vector.", "anchors": ["src/path-vector.cc: rankAtParam, impl_compute, pathAtRank"]}
{"id": "C20", "title": "Length of concatenated paths is the sum of lengths", "statement": "After any sequence of appendPath / concatenate / flatten the length of the vector's parameter range equals the sum of the lengths of the sub-paths, flatten yields no nested vector, and preserves evaluation at every parameter.", "quantifier": "all nesting trees of path vectors", "why_tests_cant": "Structural induction over arbitrary nesting.", "anchors": ["src/path-vector.cc: appendPath, concatenate, flatten"]}
{"id": "C21", "title": "Extracting a part of a concatenated path", "statement": "For a<=b in range, extract([a,b]) of a path vector has length b-a and its value at its start + x equals the original's value at a+x for every x in [0,b-a]; for a>b it traverses the same points backwards.", "quantifier": "all path vectors, all pairs a,b in range", "why_tests_cant": "Requires correctness for every split position relative to junctions.", "anchors": ["src/path-vector.cc: impl_extract, reverse", "src/path.cc: extract"]}
{"id": "C22", "title": "Reversal", "statement": "reverse() of a path vector has the same length, evaluates at x from its start to the value of the original at x from its end, and reversing twice gives back the same evaluation.", "quantifier": "all path vectors whose pieces have a correct reversal", "why_tests_cant": "For all paths and parameters.", "anchors": ["src/path-vector.cc: reverse", "src/path.cc: reverse"]}
{"id": "C23", "title": "Extraction/reversal decorator", "statement": "A path extracted from [a,b] of a generic path (decorator ExtractedPath) evaluates at s to the original at s (or a+b-s when reversed), its initial() and end() are its values at the ends of its range, extraction composes, and its derivative/velocity bound match.", "quantifier": "all originals, all sub-intervals, both directions", "why_tests_cant": "The reversed formula is only right for ranges starting at 0; that needs a universally quantified statement plus a counterexample.", "anchors": ["src/extracted-path.hh: sInOriginalPath, impl_compute, impl_derivative, impl_extract, initial, end"]}
{"id": "C24", "title": "Interpolated path passes through its way points and interpolates between neighbours", "statement": "After any sequence of insert(t,q), evaluation at an inserted time gives the first configuration inserted at this time, evaluation between two consecutive times interpolates linearly between their configurations, and evaluation never dereferences past the last point for t in range.", "quantifier": "all insertion sequences, all t in range", "why_tests_cant": "Map lookups with lower_bound: every position relative to the keys matters.", "anchors": ["src/interpolated-path.cc: impl_compute", "include/hpp/core/interpolated-path.hh: insert"]}
{"id": "C25", "title": "Interpolated path: velocity bound, extraction and reversal", "statement": "velocityBound(t0,t1) must bound the speed on [t0,t1] componentwise; extract([a,b]) must evaluate to the original on [a,b]; reverse must traverse it backwards.", "quantifier": "all interpolated paths, all sub-intervals", "why_tests_cant": "Soundness of a bound quantifies over all t in all intervals.", "anchors": ["src/interpolated-path.cc: impl_velocityBound, impl_extract, reverse"]}
{"id": "C26", "title": "Straight path", "statement": "A straight path in a vector space starts at its initial configuration, ends at its end configuration, its speed never exceeds velocityBound (and attains it), and extraction of [a,b] evaluates as the original and has length |b-a|.", "quantifier": "all end points, lengths, sub-intervals", "why_tests_cant": "Universally quantified real arithmetic.", "anchors": ["src/straight-path.cc: impl_compute, impl_derivative, impl_velocityBound, impl_extract"]}
{"id": "C27", "title": "Union of validated intervals is exact", "statement": "Starting from the empty set, after any sequence of unionInterval([a,b]) with a<=b the stored list covers exactly the union of the intervals, and is sorted with strictly separated non-empty members.", "quantifier": "all sequences of intervals, all parameters", "why_tests_cant": "Case analysis over arbitrary overlaps; a wrong case silently marks unchecked parameters as valid.", "anchors": ["src/continuous-validation/intervals.hh: Intervals::unionInterval"]}
{"id": "C28", "title": "Coverage queries on validated intervals", "statement": "contains([a,b]) is true iff every parameter of [a,b] is in the union; contains(t) is true iff t is in the union, whatever the scan direction.", "quantifier": "all states reached by unions, all queries", "why_tests_cant": "The 'only if' half relies on the canonical-form invariant of all histories.", "anchors": ["src/continuous-validation/intervals.hh: Intervals::contains"]}
{"id": "C29", "title": "Discretized validation checks a dense enough sample and returns a valid prefix", "statement": "If Discretized::validate(path) returns true, then the first and last parameters and a set of parameters with consecutive gaps at most the step were all tested valid, and the whole path is returned; if it returns false, the tested parameters before the failing one were all valid and the returned part ends at the last tested valid parameter, before the failing one (symmetrically from the end when reverse is set). If the first tested parameter fails, the returned part is reduced to that end of the path.", "quantifier": "all paths, steps > 0, validity predicates, both directions", "why_tests_cant": "Quantifies over all lengths/steps, including the final partial step.", "anchors": ["src/path-validation/discretized.cc: Discretized::validate"]}
{"id": "C30", "title": "Discretized validation terminates for positive steps", "statement": "With a positive step the number of validity tests is bounded by length/step+2, so validate terminates; with a zero step it does not terminate as soon as the first configuration tested is valid.", "quantifier": "all paths and steps", "why_tests_cant": "Termination is not testable.", "anchors": ["src/path-validation/discretized.cc: Discretized::validate"]}
{"id": "C31", "title": "Progressive continuous validation covers the whole path", "statement": "If continuousValidation::Progressive validates a path, every parameter of the path belongs to an interval that was certified free by the body-pair validations; if it fails, the returned part is contained in the certified set and ends where certification stopped.", "quantifier": "all paths, interval oracles, both directions", "why_tests_cant": "Coverage of a continuum by the visited intervals is an invariant of the loop.", "anchors": ["src/continuous-validation/progressive.cc: validateStraightPath"]}
{"id": "C32", "title": "Dichotomy continuous validation covers the whole path", "statement": "If continuousValidation::Dichotomy validates a path, every parameter belongs to an interval certified free; if it fails, the returned part is certified.", "quantifier": "all paths and interval oracles, both directions", "why_tests_cant": "Coverage of a continuum by bisection.", "anchors": ["src/continuous-validation/dichotomy.cc: validateStraightPath"]}
{"id": "C33", "title": "Validation of path vectors", "statement": "Validating a path vector piecewise returns true iff each piece is valid, and the valid part is the concatenation of the valid pieces before the first invalid one plus the valid part of that one (after it when reverse).", "quantifier": "all path vectors, both directions", "why_tests_cant": "Direction handling over arbitrary lengths.", "anchors": ["src/continuous-validation.cc: ContinuousValidation::validate"]}
{"id": "C34", "title": "Certified intervals are collision free up to the tolerance", "statement": "For a pair of bodies whose relative speed is bounded by the velocity bound used, if collisionFreeInterval/validateConfiguration certify [a,b] from a distance lower bound at t, then at every parameter of [a,b] the distance is at least minus the tolerance allowance.", "quantifier": "all motions respecting the velocity bound, all t, all refinements", "why_tests_cant": "Geometric statement for a continuum of parameters.", "anchors": ["src/continuous-validation/body-pair-collision.cc: validateConfiguration, collisionFreeInterval"]}
{"id": "C35", "title": "Combining interval validations", "statement": "The interval certified by validateIntervals for a configuration is the intersection of those certified by each pair, contains the tested parameter, and validation fails iff one pair fails.", "quantifier": "all sets of pairs and parameters", "why_tests_cant": "For all lists of validators.", "anchors": ["include/hpp/core/continuous-validation.hh: validateIntervals", "src/continuous-validation.cc: validateConfiguration"]}
{"id": "C36", "title": "Composite path validation is a conjunction returning the shortest valid prefix", "statement": "PathValidations::validate returns true iff every member validates the path, and in case of failure the returned part is valid for every member.", "quantifier": "all lists of path validations, both directions", "why_tests_cant": "The reverse direction and boundary failures need a universally quantified statement.", "anchors": ["src/path-validations.cc: PathValidations::validate"]}
{"id": "C37", "title": "Composite configuration validation is a conjunction", "statement": "ConfigValidations::validate returns true iff all members accept; otherwise the report is that of the first failing member and later members are not evaluated; joint-bound validation accepts iff every coordinate is inside its closed bounds.", "quantifier": "all member lists and configurations", "why_tests_cant": "For all lists.", "anchors": ["src/config-validations.cc: validate", "src/joint-bound-validation.cc: validate"]}
{"id": "C38", "title": "Collision pair bookkeeping", "statement": "For any history of addObstacle, removeObstacleFromJoint, filterCollisionPairs and margin updates: the pair and request lists stay aligned; filterCollisionPairs moves exactly the active pairs whose joints are rigidly linked to the disabled list and those linked up to a parameter to the parameterized list, leaves the others active in the same order, keeps the request of every pair, and loses or duplicates none; pairs once moved are never moved back.", "quantifier": "all histories of obstacle operations", "why_tests_cant": "Permutation property of in-place list surgery.", "anchors": ["src/obstacle-user.cc: addObstacleToJoint, removeObstacleFromJoint, filterCollisionPairs, setSecurityMargins, setSecurityMarginBetweenBodies"]}
{"id": "C39", "title": "PathPlanner::solve honours its stop criteria", "statement": "solve() returns a path only if the target was reported reached, performs at most maxIterations steps when a limit is set, throws path_planning_failed when the iteration or time limit is hit or interrupt() is called during the run, and otherwise only stops when solved.", "quantifier": "all planners (arbitrary oneStep), all limits, all interrupt/time schedules", "why_tests_cant": "Quantifies over schedules and arbitrary step behaviours.", "anchors": ["src/path-planner.cc: solve, startSolve"]}
{"id": "C40", "title": "A planner always has a stop criterion", "statement": "Through any sequence of calls to maxIterations, timeOut and stopWhenProblemIsSolved, at least one of the three criteria stays active; a call that would disable the last one throws and leaves the settings unchanged.", "quantifier": "all call sequences", "why_tests_cant": "Invariant over call histories.", "anchors": ["src/path-planner.cc: maxIterations, timeOut, stopWhenProblemIsSolved"]}
{"id": "C41", "title": "kPRM* connects each new node to its k nearest and finishes", "statement": "The kPRM* state machine performs its build, linking, init/goal connection and failure states in order for every problem, links only pairs for which steering and validation succeeded, and never steps outside the roadmap's node list.", "quantifier": "all node counts and validation outcomes", "why_tests_cant": "State machine over arbitrary step counts.", "anchors": ["src/path-planner/k-prm-star.cc: oneStep, generateRandomConfig, linkNodes, connectInitAndGoal"]}
{"id": "C42", "title": "Shortcut optimizers preserve end points and never lengthen", "statement": "RandomShortcut and SimpleShortcut return a path with the same initial and final configurations, made of pieces of the input and validated steering paths, continuous at junctions; RandomShortcut never returns a longer path.", "quantifier": "all input paths, random draws, validation outcomes", "why_tests_cant": "Quantifies over all random draws.", "anchors": ["src/path-optimization/random-shortcut.cc: optimize", "src/path-optimization/simple-shortcut.cc: optimize"]}
{"id": "C43", "title": "Partial shortcut", "statement": "PartialShortcut returns a continuous path with the same end points and only accepts replacements that were fully validated; improvements found by the random phase are returned.", "quantifier": "all inputs, draws and validation outcomes", "why_tests_cant": "Quantifies over all random draws.", "anchors": ["src/path-optimization/partial-shortcut.cc: generatePath, optimizeFullPath, optimizeRandom"]}
{"id": "C44", "title": "Relative motion matrix is the exact transitive closure", "statement": "After any sequence of pairwise relative-pose constraints the matrix is symmetric with Constrained diagonal; entry (i,j) is Constrained iff i and j are linked through constant constraints only, is not Unconstrained iff they are linked by any constraints; recording a constraint never weakens an entry.", "quantifier": "all numbers of joints, all constraint sequences", "why_tests_cant": "Incremental closure over all histories.", "anchors": ["src/relative-motion.cc: matrix, fromConstraint, recurseSetRelMotion"]}
{"id": "C45", "title": "Constraint sets", "statement": "isSatisfied of a constraint set is the conjunction over its members; a set has at most one projector; adding a second throws and leaves the set unchanged; adding a set adds all of its members.", "quantifier": "all histories of addConstraint, including nested sets", "why_tests_cant": "Histories with nesting.", "anchors": ["src/constraint-set.cc: addConstraint, isSatisfied, configProjector"]}
{"id": "C46", "title": "Named containers and typed parameters", "statement": "Containers behave as finite maps: get after add returns the last value added, erase/clear remove, get on an absent key throws; Problem::setParameter accepts only declared names with the declared type, and getParameter returns the last accepted value or else the declared default.", "quantifier": "all histories of container and parameter operations", "why_tests_cant": "Histories.", "anchors": ["include/hpp/core/container.hh", "src/parameter.cc", "src/problem.cc: declareParameter, setParameter, getParameter"]}
{"id": "C47", "title": "Dichotomy path projector", "statement": "If the dichotomy projector succeeds on a path, the result is a chain of pieces from the initial to the end configuration, contiguous at junctions, each with both ends satisfying the constraints and of constrained length below the threshold; on failure the returned prefix starts at the initial configuration and is contiguous.", "quantifier": "all paths, constraint projectors, thresholds", "why_tests_cant": "Recursive subdivision of unbounded depth.", "anchors": ["src/path-projector/dichotomy.cc: applyToStraightPath"]}
{"id": "C48", "title": "Progressive path projector", "statement": "On a path whose initial configuration satisfies the constraints, if the progressive projector succeeds the way points start and end at the end configurations of the input, all satisfy the constraints, and consecutive way points are at distance at most the threshold; on failure the result is such a chain from the initial configuration.", "quantifier": "all paths, projectors, thresholds", "why_tests_cant": "Loop with adaptive step.", "anchors": ["src/path-projector/progressive.cc: project"]}
{"id": "C49", "title": "Projection of path vectors", "statement": "Projecting a path vector piecewise returns success iff all pieces succeed, and the result is the concatenation of the projected pieces up to and including the partial result of the first failing one.", "quantifier": "all path vectors and piece projectors", "why_tests_cant": "Depends on which piece fails and how.", "anchors": ["src/path-projector/dichotomy.cc: impl_apply", "src/path-projector/progressive.cc: impl_apply", "src/path-projector/global.cc: impl_apply", "src/path-projector/recursive-hermite.cc: impl_apply"]}
{"id": "C50", "title": "Time parameterization polynomials", "statement": "The order-0/1/2 polynomials of SimpleTimeParameterization map [0,T] onto [s0,s1] monotonically, start and end at the interval ends, have zero derivative at both ends up to the requested order, and their speed never exceeds the bound used to compute T (acceleration for order 2).", "quantifier": "all intervals, bounds and all t in [0,T]", "why_tests_cant": "Polynomial inequalities over a continuum.", "anchors": ["src/path-optimization/simple-time-parameterization.cc: computeTimeParameterization*Order, computeTimeRange*Order"]}
{"id": "C51", "title": "Polynomial derivative bound", "statement": "Polynomial::derivativeBound(low, up) is at least |p'(t)| for every t in [low, up].", "quantifier": "all coefficients, all intervals, all t", "why_tests_cant": "A bound over a continuum; used for collision certification of time-parameterized paths.", "anchors": ["include/hpp/core/time-parameterization/polynomial.hh: derivativeBound"]}
{"id": "C52", "title": "Piecewise polynomial lookup", "statement": "For t in range the selected polynomial index i satisfies breakpoint(i) <= t < breakpoint(i+1) (last one inclusive); outside the range the call throws.", "quantifier": "all breakpoint sequences and t", "why_tests_cant": "Boundary behaviour for all sequences.", "anchors": ["include/hpp/core/time-parameterization/piecewise-polynomial.hh: findPolynomialIndex"]}
{"id": "C53", "title": "Trapezoidal speed profile of the Reeds-Shepp time parameterization", "statement": "addSegments(distance, accel, decel, maxVel, targetVel) yields a profile that starts at the initial speed, ends at targetVel, never exceeds maxVel, and travels exactly distance; derivativeBound bounds the speed on the interval.", "quantifier": "all positive distances, accelerations, speeds", "why_tests_cant": "Real arithmetic over all inputs.", "anchors": ["src/path-optimization/reeds-shepp/piecewise-quadratic.cc: addSegments, derivativeBound, value"]}
{"id": "C54", "title": "Bernstein splines: values and velocity bound", "statement": "A Bernstein spline starts at its first control point and ends at its last, stays in the convex hull of its control points, and velocityBound bounds its speed on every parameter interval.", "quantifier": "all control points, parameters and intervals, degrees 1,3,5", "why_tests_cant": "Bounds over a continuum.", "anchors": ["src/path/spline.cc: Bernstein eval, derivative, bound, absBound, impl_velocityBound"]}
{"id": "C55", "title": "Relative speed bound between two bodies", "statement": "The maximal relative velocity used for a pair of bodies is an upper bound of the relative speed of any of their points, as the sum along the chain of joints of linear plus angular contributions.", "quantifier": "all joint chains and speeds within bounds", "why_tests_cant": "Triangle inequality over chains of arbitrary length.", "anchors": ["src/continuous-validation/solid-solid-collision.cc: computeMaximalVelocity, computeSequenceOfJoints, computeCoefficients"]}
{"id": "C56", "title": "Kinodynamic motion reaches its target", "statement": "The bang-bang motions computed by the kinodynamic steering method reach the target position with the target velocity at the end of the duration; extraction of a sub-interval evaluates as the original.", "quantifier": "all boundary positions and velocities within bounds", "why_tests_cant": "Real arithmetic over all inputs.", "anchors": ["src/steering-method/steering-kinodynamic.cc: computeMinTime, fixedTimeTrajectory", "src/kinodynamic-path.cc: impl_compute, impl_extract"]}
{"id": "C57", "title": "Obstacle registry", "statement": "After any history of addObstacle/removeObstacle once the robot is set (and set again only when no obstacle is registered), names are unique, the collision (resp. distance) obstacle list holds exactly the obstacles added with this flag and not removed, in order of addition, and each entry refers to the geometry registered under its name.", "quantifier": "all histories", "why_tests_cant": "Index shifting on removal.", "anchors": ["src/problem-solver.cc: addObstacle, removeObstacle, obstacleNames"]}
{"id": "C58", "title": "Elimination of linear constraints", "statement": "Any solution of the reduced constraint lifts to a solution of the original linear constraint, and every solution of the original is obtained.", "quantifier": "all matrices and vectors", "why_tests_cant": "Algebraic identity over all inputs.", "anchors": ["include/hpp/core/path-optimization/linear-constraint.hh: reduceConstraint, computeSolution", "src/path-optimization/linear-constraint.cc: decompose"]}
{"id": "C59", "title": "Distance weights", "statement": "The default weights of the configuration distance are finite and strictly positive, so that two configurations are at distance zero only if equal; the distance is symmetric and satisfies the triangle inequality for any non-negative weights.", "quantifier": "all robots (lists of joint lengths), all configurations", "why_tests_cant": "For all lists.", "anchors": ["src/weighed-distance.cc: computeWeights, impl_distance"]}
{"id": "C60", "title": "Inserting a path vector", "statement": "insertPathVector(p, backAndForth) keeps what is in the roadmap, and leaves a node with the initial and one with the final configuration of p, the second reachable from the first (and conversely if backAndForth). If the final configuration is that of a node already in the roadmap, this node becomes reachable. (The implementation creates a duplicate when that node is in another component, so this last part fails.)", "quantifier": "all roadmaps reachable by public calls, all path vectors", "why_tests_cant": "Depends on the component structure left by any earlier history.", "anchors": ["src/roadmap.cc: insertPathVector, addNodeAndEdges, addNodeAndEdge"]}
{"id": "C61", "title": "Velocity bound of a path vector", "statement": "velocityBound(t0,t1) of a path vector without constraints, whose pieces agree at their junctions and report right bounds, bounds the variation of every coordinate along the vector between any two times of [t0,t1], across junctions and zero-length pieces.", "quantifier": "all path vectors, all sub-intervals", "why_tests_cant": "Depends on the position of the ends in arbitrary lists of pieces.", "anchors": ["src/path-vector.cc: impl_velocityBound, rankAtParam", "include/hpp/core/path.hh: velocityBound"]}
{"id": "C62", "title": "Time-parameterized paths", "statement": "Under a time parameterization s(t): the value at t is the path at s(t), derivatives follow the chain rule, velocityBound is sound, extract([a,b]) keeps the values on [a,b], reverse traverses the same values backwards in time.", "quantifier": "all paths, monotone time parameterizations and sub-intervals", "why_tests_cant": "Quantifies over functions; small shifts of the parameter range are invisible on linear parameterizations.", "anchors": ["src/path.cc: Path::extract, Path::derivative, timeParameterization::Shift", "include/hpp/core/path.hh: velocityBound, timeRange", "src/extracted-path.hh: impl_velocityBound"]}
{"id": "C63", "title": "Verdict and report of collision validation", "statement": "CollisionValidation::validate accepts a configuration iff no active pair collides (and, when parameterized pairs are checked, none of these); when it rejects, the report names the first colliding pair, or all the colliding pairs of the list when all contacts are computed.", "quantifier": "all lists of pairs, all collision oracles", "why_tests_cant": "For all lists of pairs and all answers of the collision library.", "anchors": ["src/collision-validation.cc: validate", "src/obstacle-user.cc: collide"]}
{"id": "C64", "title": "Continuous validation terminates with a positive tolerance", "statement": "With a positive tolerance and bounded velocities, continuous validation of a path (progressive or by dichotomy, both directions) terminates, after a number of evaluations at most proportional to length * velocity / tolerance.", "quantifier": "all paths, all lists of body pairs, all answers of the collision library", "why_tests_cant": "Termination for all inputs.", "anchors": ["src/continuous-validation/progressive.cc: validateStraightPath", "src/continuous-validation/dichotomy.cc: validateStraightPath", "src/continuous-validation/body-pair-collision.cc: validateConfiguration"]}
{"id": "C65", "title": "Obstacles in continuous validation", "statement": "For any list of validations: addObstacle adds one body pair per joint with a body; removeObstacleFromJoint removes the obstacle from every body pair between this joint and the fixed frame and nothing else, and throws without effect iff the obstacle was not registered there; filterCollisionPairs terminates and moves exactly the pairs of rigidly linked joints to the disabled list; margin updates change the margin of exactly the pairs concerned and throw when there is none; pairs and requests stay aligned.", "quantifier": "all lists of validations, obstacles, joints and relative motion matrices", "why_tests_cant": "Depends on the position of the removed pairs in arbitrary lists and on the presence of user-defined validations.", "anchors": ["src/continuous-validation.cc: addObstacle, removeObstacleFromJoint, filterCollisionPairs, setSecurityMargins, setSecurityMarginBetweenBodies", "src/continuous-validation/solid-solid-collision.cc: removeObjectTo_b"]}
{"id": "C66", "title": "Edges inserted by planners are validated", "statement": "Whatever the shots, every step of a planner (diffusing planner, BiRRT, visibility PRM, direct connection of init and goals) that ends normally only adds nodes and edges; every edge added carries a path accepted by path validation that starts at the configuration of its start node and ends at the configuration of its end node.", "quantifier": "all sequences of shots, all answers of steering method, path projector, path validation and constraints that respect their contract", "why_tests_cant": "Quantifies over all executions of randomized planners.", "anchors": ["src/diffusing-planner.cc: oneStep", "src/bi-rrt-planner.cc: oneStep", "src/visibility-prm-planner.cc: oneStep", "src/path-planner.cc: tryConnectInitAndGoals"]}
{"id": "C67", "title": "Path returned by solve", "statement": "If solve() of a planner returns a path, it is a non-empty continuous sequence of paths accepted by path validation, that starts at the init configuration and ends at one of the goal configurations; steps do not raise internal errors.", "quantifier": "all problems, all sequences of shots, all initial roadmaps left by previous calls", "why_tests_cant": "Quantifies over all executions of randomized planners.", "anchors": ["src/path-planner.cc: solve, computePath", "src/diffusing-planner.cc", "src/bi-rrt-planner.cc", "src/path-planner/k-prm-star.cc", "src/visibility-prm-planner.cc"]}
{"id": "C68", "title": "Visibility PRM keeps exactly guards and connections", "statement": "A step of Visibility PRM with a valid shot adds the configuration as a guard if no guard of the roadmap sees it, discards it if the guards that see it belong to one component, and otherwise links it both ways to the closest seeing guard of each such component.", "quantifier": "all roadmaps, shots and visibility answers", "why_tests_cant": "Depends on the whole history of the roadmap.", "anchors": ["src/visibility-prm-planner.cc: visibleFromCC, oneStep"]}
{"id": "C69", "title": "RandomShortcut terminates", "statement": "With a distance that satisfies the triangle inequality, a steering method whose paths are as long as the distance between their ends, and end configurations at a positive distance, RandomShortcut returns after a number of iterations that depends on the input path only, whatever the random numbers.", "quantifier": "all input paths, all sequences of random numbers, all answers of path validation", "why_tests_cant": "Termination of a randomized loop for all random sequences.", "anchors": ["src/path-optimization/random-shortcut.cc: optimize", "src/path-optimizer.cc: shouldStop"]}
{"id": "C70", "title": "SimpleShortcut finds every single shortcut", "statement": "With path lengths equal to the distance between ends and a metric, the result of SimpleShortcut is not longer than the input, nor than the input where any run of at least two consecutive pieces is replaced by an accepted steering path between its ends.", "quantifier": "all input paths, all answers of steering method and path validation", "why_tests_cant": "For all inputs; depends on the roadmap built from the input and the search in it.", "anchors": ["src/path-optimization/simple-shortcut.cc: optimize", "src/astar.hh", "src/problem-target/goal-configurations.cc: computePath"]}
{"id": "C71", "title": "Recursive Hermite path projector", "statement": "For a path whose ends (and way points, for an interpolated path) satisfy the constraints: when RecursiveHermite succeeds, its result is a sequence of consecutive Hermite paths from the initial to the final configuration, each with Hermite length below the threshold and ends satisfying the constraints; when it fails, the result if assigned is such a sequence from the initial configuration or that single point. With a coefficient below 1 and a positive threshold it terminates.", "quantifier": "all paths, projectors, thresholds, coefficients", "why_tests_cant": "Recursive subdivision of unbounded depth.", "anchors": ["src/path-projector/recursive-hermite.cc: project, recurse"]}
{"id": "C72", "title": "Applying constraints", "statement": "Applying constraints to a configuration that satisfies them returns true and leaves it unchanged; when a config projector returns true the configuration satisfies it and projecting again changes nothing; optimize keeps the configuration on the constraints when it returns true and leaves the maximal number of iterations as it was; a set whose members do not break the previous ones returns true only with a configuration satisfying all of them.", "quantifier": "all configurations, constraints and solvers", "why_tests_cant": "For all configurations and all behaviours of the numerical solver.", "anchors": ["src/constraint-set.cc: impl_compute", "src/config-projector.cc: impl_compute, optimize", "src/constraint.cc: apply"]}
{"id": "C73", "title": "Check of a problem", "statement": "checkProblem throws nothing iff there is a robot, an initial configuration, and the initial configuration and every goal configuration are valid and satisfy the constraints.", "quantifier": "all problems, any number of goal configurations", "why_tests_cant": "For all lists of goals and all validations.", "anchors": ["src/problem.cc: checkProblem"]}
{"id": "C74", "title": "Validations know all collision obstacles", "statement": "After any history of setting the robot, adding, removing and cutting obstacles, changing the path validation type, adding or clearing config validations and resetting validations or the problem, every collision obstacle of the problem solver is known to the problem, to its path validation and to each of its config validations.", "quantifier": "all histories", "why_tests_cant": "Obstacles are registered at five places by ten functions; a missed one shows only in some orders of calls.", "anchors": ["src/problem-solver.cc: addObstacle, removeObstacle, cutObstacle, robot, initializeProblem, pathValidationType, addConfigValidation, initValidations, initConfigValidation", "src/problem.cc: collisionObstacles, addObstacle"]}
{"id": "C75", "title": "Values and derivatives of polynomial time parameterizations", "statement": "For a polynomial time parameterization with at most ten coefficients, value(t) is the value of the polynomial and derivative(t, k) its k-th derivative for every order k; with more coefficients, derivatives of order lower than the number of coefficients are refused.", "quantifier": "all coefficients, times and orders of derivation", "why_tests_cant": "For all coefficients and orders.", "anchors": ["include/hpp/core/time-parameterization/polynomial.hh: val, Jac", "include/hpp/core/path/math.hh: binomials"]}
{"id": "C76", "title": "Time parameterization of Reeds and Shepp paths", "statement": "The result of RSTimeParameterization is made of the segments of the input path, in order, each run over its whole length; speed starts and ends at zero, is continuous at junctions, and never exceeds the maximal linear speed nor the one that makes the angular speed exceed its maximum.", "quantifier": "all sequences of constant curvature segments and all parameters", "why_tests_cant": "For any number of segments, lengths and curvatures.", "anchors": ["src/path-optimization/rs-time-parameterization.cc: optimize", "src/path-optimization/reeds-shepp/piecewise-quadratic.cc: addSegments"]}
{"id": "C77", "title": "Quadratic programs under linear constraints", "statement": "The cost of a vector of the reduced program equals, up to a constant, the cost of the vector it stands for; reducing, solving and lifting gives the only minimum of the cost among the solutions of the constraint, when the reduced matrix is invertible and positive.", "quantifier": "all symmetric matrices, vectors and linear constraints", "why_tests_cant": "Algebraic identity over all inputs.", "anchors": ["include/hpp/core/path-optimization/quadratic-program.hh: reduced, solve", "src/path-optimization/quadratic-program.cc: decompose"]}
{"id": "C78", "title": "Integral of the squared norm of spline derivatives", "statement": "squaredNormIntegral(k) is the integral over the range of the squared norm of the k-th derivative of the spline, and squaredNormIntegralDerivative its gradient with respect to the control points.", "quantifier": "all degrees, orders of derivation, control points and ranges", "why_tests_cant": "Identity between integrals and sums of binomials for all inputs.", "anchors": ["src/path/spline.cc: integral, squaredNormBasisFunctionIntegral, squaredNormIntegral, squaredNormIntegralDerivative"]}
{"id": "C79", "title": "Minimal time of kinodynamic motions", "statement": "The time computed for a degree of freedom by the kinodynamic steering method is the smallest duration of a motion that joins the given positions and velocities within the bounds on velocity and acceleration; the kinodynamic distance is the greatest of these minimal times.", "quantifier": "all positions, velocities within bounds, and all motions", "why_tests_cant": "Optimality over all motions.", "anchors": ["src/steering-method/steering-kinodynamic.cc: computeMinTime", "src/kinodynamic-distance.cc: computeMinTime, impl_distance"]}
{"id": "C80", "title": "States along a kinodynamic path", "statement": "Along a kinodynamic path the position and velocity follow the phases of constant acceleration, from the initial state to the final one; velocity stays within the bound; the derivative and the velocity bound of the path are those of this motion.", "quantifier": "all consistent parameters and all times", "why_tests_cant": "For all parameters and times.", "anchors": ["src/kinodynamic-path.cc: impl_compute", "src/straight-path.cc: impl_derivative, impl_velocityBound"]}
{"id": "C81", "title": "Extraction of kinodynamic paths", "statement": "A kinodynamic path extracted on a sub-interval [a, b] has length b - a and at each time t the state of the original path at time a + t.", "quantifier": "all paths and sub-intervals", "why_tests_cant": "The interval may start and end in any of the phases.", "anchors": ["src/kinodynamic-path.cc: impl_extract"]}
{"id": "C82", "title": "Duration of kinodynamic motions", "statement": "The duration of the motion returned by the kinodynamic steering method is the smallest one not shorter than the minimal time of each degree of freedom and in none of their infeasible intervals; the search for it ends.", "quantifier": "all numbers of degrees of freedom, all times and intervals", "why_tests_cant": "Termination and optimality of a loop.", "anchors": ["src/steering-method/steering-kinodynamic.cc: computeMaxRequiredTime, impl_compute"]}
{"id": "C83", "title": "Trees of the bidirectional optimal planner", "statement": "At each step of the optimal bidirectional planner, every node attached to a root has a path of the roadmap to this root without cycle, and no step increases the cost to reach a node from a root; steps end with a roadmap of validated edges, without error.", "quantifier": "all histories of random draws, all steering methods, validation methods and projectors that meet their contracts, all lengths", "why_tests_cant": "The history of random draws is not bounded, rewiring changes parents of old nodes.", "anchors": ["src/path-planner/bi-rrt-star.cc: startSolve, oneStep, sample, extend, connect, improve", "src/path-planner/bi-rrt-star.cc: computeCost, setParent"]}
{"id": "C84", "title": "Shortest path trees of a roadmap", "statement": "The map of parents computed from a root in a roadmap covers exactly the nodes that can be reached from the root, it is a tree, and the cost along the tree is the smallest length of the paths of the roadmap from the root; its computation ends.", "quantifier": "all roadmaps, all roots, all non-negative lengths, any order in which the queue gives its elements", "why_tests_cant": "Optimality over all paths and all orders of the queue.", "anchors": ["src/path-planner/bi-rrt-star.cc: computeParentMap, WeighedNode"]}
{"id": "C85", "title": "Constant curvature paths of a car", "statement": "Along a path of constant curvature of a car-like robot, the car rolls without slipping, at a constant speed and with the curvature asked for; the path starts at the initial configuration and ends at its final configuration; an extracted or reversed path is the corresponding part of the motion.", "quantifier": "all initial configurations, curvatures, lengths, sub-intervals and times", "why_tests_cant": "Non holonomic constraints are differential equations to be met at every time of every path.", "anchors": ["src/steering-method/constant-curvature.cc: create, impl_compute, impl_extract, reverse"]}
{"id": "C86", "title": "Derivatives and velocity bound of constant curvature paths", "statement": "The derivative of any order of a path of constant curvature is the derivative of its motion in the frame of the car, and the velocity at any time of an interval is within the velocity bound of the interval.", "quantifier": "all paths, orders, intervals and times", "why_tests_cant": "All orders and all angles.", "anchors": ["src/steering-method/constant-curvature.cc: impl_derivative, impl_velocityBound, absCosineMax, absSineMax"]}
{"id": "C87", "title": "Dubins paths", "statement": "Between any two configurations, the steering method of Dubins returns a path that drives forward from the first one to the second one, never turning sharper than the turning radius, continuous, as short as possible, whose length is the distance driven plus the length of the motion of the other degrees of freedom.", "quantifier": "all pairs of configurations, all radii", "why_tests_cant": "Six words with trigonometric conditions; the shortest one is a minimum over all ways of driving.", "anchors": ["src/dubins.cc: dubins_LSL, dubins_LSR, dubins_RSL, dubins_RSR, dubins_RLR, dubins_LRL, mod2pi", "src/dubins-path.cc: dubins_init, dubins_init_normalised", "src/steering-method/dubins.cc: impl_compute"]}
{"id": "C88", "title": "Reeds and Shepp paths", "statement": "Between any two configurations, the steering method of Reeds and Shepp returns a path that drives forward and backward from the first one to the second one, never turning sharper than the turning radius, continuous, as short as possible among its words; the corresponding distance is the length of this path.", "quantifier": "all pairs of configurations, all radii", "why_tests_cant": "Forty eight words obtained by symmetries from eight formulas with trigonometric conditions.", "anchors": ["src/reeds-shepp-path.cc: LpSpLp, LpSpRp, CSC, LpRmL, CCC, LpRupLumRm, LpRumLumRp, CCCC, LpRmSmLm, LpRmSmRm, CCSC, LpRmSLmRp, CCSCC, reedsSheppPathOrDistance", "src/steering-method/reeds-shepp.cc: impl_compute", "src/distance/reeds-shepp.cc: impl_distance"]}
{"id": "C89", "title": "Continuity of paths optimized by splines", "statement": "The path returned by the gradient-based spline optimizer has the same first and last configurations as its input, its pieces follow each other, with the same derivatives up to half of the degree, null at both ends; degrees of freedom determined by the constraints of a piece keep their values along this piece.", "quantifier": "all numbers of splines and degrees of freedom, all degrees, all active sets, all parameters satisfying the equality constraints", "why_tests_cant": "Any solution of the linear system, for any number of splines.", "anchors": ["src/path-optimization/spline-gradient-based-abstract.cc: addContinuityConstraints, setContinuityConstraint, updateSplines, updateParameters, interpolate", "src/path-optimization/spline-gradient-based.cc: addProblemConstraints, addProblemConstraintOnPath"]}
{"id": "C90", "title": "Splines between two configurations", "statement": "The steering method that builds splines returns a path of the length asked for (the distance if none is given), from the first configuration to the second one, with the derivatives asked for at both ends; with null derivatives, it follows the straight segment without going back. The spline optimizer replaces each piece of positive length of its input by such a spline, and throws if a piece cannot be replaced.", "quantifier": "all configurations, degrees, orders and values of derivatives, lengths, nested vectors of paths", "why_tests_cant": "Solvability of a linear system for all orders.", "anchors": ["src/steering-method/spline.cc: impl_compute, steer", "src/path-optimization/spline-gradient-based-abstract.cc: cleanInput, steer, appendEquivalentSpline"]}
{"id": "C91", "title": "Joint bounds in the spline optimizer", "statement": "The inequality constraints of the spline optimizer keep the whole path within the joint bounds, and its input is refused exactly when it is not within the joint bounds.", "quantifier": "all splines, degrees, bounds (finite or not)", "why_tests_cant": "A path is within the bounds at every parameter.", "anchors": ["src/path-optimization/spline-gradient-based/joint-bounds.hh: jointBoundMatrices", "src/path-optimization/spline-gradient-based-abstract.cc: jointBoundConstraint, validateBounds"]}
{"id": "C92", "title": "Cost of the spline optimizer", "statement": "The cost minimized by the spline optimizer is the weighted sum over the pieces of the integral of the squared norm of the derivative of the chosen order; its jacobian and its hessian are those of its value; it is not negative and it is convex, so that interpolating between two paths costs no more than the interpolation of their costs. Orders for which it is not defined are refused when the cost is built. The weights of the pieces are the inverses of their lengths, with a ratio of at most one million between them.", "quantifier": "all numbers of splines, degrees, orders and weights", "why_tests_cant": "Integrals of polynomials of any degree for any number of pieces.", "anchors": ["src/path-optimization/spline-gradient-based/cost.hh: L2NormSquaredOfDerivative (value, jacobian, hessian)", "src/path-optimization/spline-gradient-based-abstract.cc: computeLambdasFromSplineLength"]}
{"id": "C93", "title": "Safety of the spline optimizer", "statement": "At whatever iteration it stops, and even if the user interrupts it, the spline optimizer returns its input or a path of which all pieces were accepted by the path validation; this path satisfies the equality and joint bound constraints, has the same ends and class of continuity as the input, and does not cost more. The optimizer raises no exception and reads no vector out of range.", "quantifier": "all answers of the validation, of the solver of quadratic programs and of the collision functions, all parameters, all numbers of iterations", "why_tests_cant": "Interleavings of accepted and refused paths, of added and removed constraints, for any number of iterations.", "anchors": ["src/path-optimization/spline-gradient-based.cc: optimize, addCollisionConstraint, findNewConstraint, linearize", "src/path-optimization/spline-gradient-based-abstract.cc: validatePath, updateSplines, interpolate", "src/path-optimization/quadratic-program.cc: solve"]}
{"id": "C94", "title": "Termination of the spline optimizer", "statement": "The loop of the spline optimizer ends.", "quantifier": "all initial paths, all answers of the validation", "why_tests_cant": "A loop without a bound on the number of iterations, with halved steps and added constraints.", "anchors": ["src/path-optimization/spline-gradient-based.cc: optimize, findNewConstraint"]}
{"id": "C95", "title": "The global path projector", "statement": "Whatever the answers of the solver, the path returned by the global projector starts from the initial configuration of its input; its other way points satisfy the constraints, except the last one in case of success, which is the final configuration of the input. Consecutive way points are separated by their distance, which is not greater than the step. The projection ends.", "quantifier": "all paths, all answers of the solver, all numbers of iterations", "why_tests_cant": "The solver moves all configurations at the same time, configurations are added and removed, for any number of iterations.", "anchors": ["src/path-projector/global.cc: project, projectOneStep, reinterpolate, createPath, initialConfigList"]}
{"id": "C96", "title": "The global path projector with a bound on the hessian", "statement": "Whatever the answers of the solver, the path returned by the global projector with a bound on the hessian starts from the initial configuration of its input; its other way points satisfy the constraints, except the last one in case of success, which is the final configuration of the input. In case of success singular values at the way points are not smaller than the threshold, and two consecutive way points are closer than the sum of their singular values divided by the bound on the hessian. New configurations are interpolated strictly between two others. The projection ends and does not access memory out of its list.", "quantifier": "all paths, all answers of the solver, all bounds and thresholds, all numbers of iterations", "why_tests_cant": "Configurations are added while the solver moves them, for any number of iterations.", "anchors": ["src/path-projector/global.cc: project2, projectOneStep, reinterpolate, createPath, initialConfigList, initData"]}
{"id": "C97", "title": "Components selected by name", "statement": "Whatever calls are made on the problem solver, a type is accepted if and only if it is the name of a registered builder, and a call that is refused changes nothing. Once a robot is given, the problem always has the path validation (with its tolerance) and the configuration validations that were selected, and solve and prepareSolveStepByStep work with the shooter, steering method, path planner (with its limits), path projector (with its tolerance), distance and initial configuration last selected, or the default ones; they never fail because of a name.", "quantifier": "all sequences of calls, including registration of new builders, calls that throw, changes of robot and resets of the problem", "why_tests_cant": "The order of the selections, of the robot and of the resolutions, for any number of calls.", "anchors": ["src/problem-solver.cc: distanceType, steeringMethodType, pathPlannerType, configurationShooterType, pathValidationType, pathProjectorType, addConfigValidation, robot, resetProblem, initializeProblem, initProblem, initDistance, initSteeringMethod, initPathProjector, initPathValidation, initConfigValidation"]}
{"id": "C98", "title": "Goals given to the problem solver", "statement": "Whatever calls were made before, solve and prepareSolveStepByStep throw std::logic_error if goal configurations and goal constraints are both set; otherwise they work on the goal constraints (with the error threshold and number of iterations at the time they were given), or on the goal configurations added since they were last reset. prepareSolveStepByStep answers whether the planner reached the goal.", "quantifier": "all sequences of calls", "why_tests_cant": "Goals are added, reset and mixed with resolutions in any order.", "anchors": ["src/problem-solver.cc: addGoalConfig, resetGoalConfigs, setGoalConstraints, resetGoalConstraints, initProblem, initProblemTarget, prepareSolveStepByStep", "src/problem-target/task-target.cc: reached"]}
{"id": "C99", "title": "Constraints of a session", "statement": "Whatever calls are made after a robot is given, the solver, the problem and its steering method share one set of constraints: the constraints and the numerical constraints of the config projector added since they were last reset. The config projector has the error threshold and the number of iterations last set, whether set before or after it was created. A call that throws changes nothing.", "quantifier": "all sequences of calls", "why_tests_cant": "Constraints are added, reset, tuned, and the problem is reset, in any order.", "anchors": ["src/problem-solver.cc: addConstraint, resetConstraints, addNumericalConstraintToConfigProjector, maxIterProjection, errorThreshold, initializeProblem", "src/constraint-set.cc: addConstraint", "include/hpp/core/problem.hh: constraints, steeringMethod"]}
{"id": "C100", "title": "Paths of a session", "statement": "solve appends the path of the planner, then the output of each selected optimizer applied to the output of the previous one, in order; if an optimizer fails, the outputs before it are kept. No call but erasePath removes or changes a path, so that numbers of paths remain valid; erasePath moves the following ones by one. directPath answers that a path was built, projected and validated, with the number of the path it added, and a report when the answer is no.", "quantifier": "all sequences of calls, all steering methods, projectors, validations and optimizers", "why_tests_cant": "Numbers of paths are kept by the user over any number of calls.", "anchors": ["src/problem-solver.cc: solve, optimizePath, createPathOptimizers, directPath, addPathOptimizer, clearPathOptimizers", "include/hpp/core/problem-solver.hh: addPath, erasePath"]}
{"id": "C101", "title": "Resolution step by step", "statement": "After prepareSolveStepByStep, executeOneStep answers whether the goal was reached at this step or before, and finishSolveStepByStep adds a path if the goal was reached and throws std::logic_error otherwise, whatever other calls are made in between.", "quantifier": "all sequences of calls between the steps", "why_tests_cant": "Any calls can be interleaved with the steps.", "anchors": ["src/problem-solver.cc: prepareSolveStepByStep, executeOneStep, finishSolveStepByStep, resetRoadmap, resetProblem", "src/roadmap.cc: pathExists", "src/path-planner.cc: startSolve"]}
{"id": "C102", "title": "Uniform shooters", "statement": "Every configuration returned by the shooters Uniform and UniformSeedable passes the joint bound validation, whatever the random numbers; the shooters throw an exception when a degree of freedom cannot be sampled (infinite or reversed bounds), and only then. Both ends of the interval of an extra degree of freedom can be shot.", "quantifier": "all robots, bounds (also infinite ones), and sequences of random numbers", "why_tests_cant": "Random numbers and bounds range over infinite sets; rare draws are not seen by tests.", "anchors": ["src/configuration-shooter/uniform.cc: Uniform::impl_shoot", "include/hpp/core/configuration-shooter/uniform-tpl.hxx: UniformTpl::impl_shoot", "src/joint-bound-validation.cc: JointBoundValidation::validate"]}
{"id": "C103", "title": "Gaussian shooter", "statement": "After any sequence of calls, the gaussian shooter draws around the last center given (the current configuration at creation, the neutral configuration if the center is empty) with the standard deviations last given: sigmas, or factor times the default ones (width of the interval, or 1 if it is not finite, for translations; 2 pi / sqrt (2n-3) for rotations of dimension n). Every configuration returned passes the joint bound validation.", "quantifier": "all robots, all sequences of calls, all random numbers", "why_tests_cant": "Random numbers, robots and histories of calls.", "anchors": ["src/configuration-shooter/gaussian.cc: computeSigmasAlgo, Gaussian::impl_shoot, Gaussian::sigma", "include/hpp/core/configuration-shooter/gaussian.hh: Gaussian, center, sigmas", "src/problem-solver.cc: createGaussianConfigShooter"]}
{"id": "C104", "title": "Kinodynamic paths facing the velocity", "statement": "An oriented kinodynamic path has the positions and velocities of the kinodynamic path it is built from, and at each time at which the velocity (its horizontal part if asked for) is not zero, the orientation is a unit quaternion that turns the first axis of the robot to the direction of the velocity. Its initial and final configurations are its values at the ends and those it was asked to join. A part of it is an oriented path with the same values.", "quantifier": "all kinodynamic paths, all times, all sub-intervals", "why_tests_cant": "Times, velocities and sub-intervals are real numbers.", "anchors": ["src/kinodynamic-oriented-path.cc: orienteInitAndGoal, impl_compute, impl_extract", "src/kinodynamic-path.cc: impl_compute, impl_extract", "src/steering-method/steering-kinodynamic.cc: impl_compute"]}
{"id": "C105", "title": "Target given by constraints", "statement": "With a target given by constraints, solve() returns a path from the init configuration to a configuration that satisfies the constraints. The problem is considered solved iff such a configuration is in the roadmap and linked to the init configuration, and a path is then found. The goal nodes inserted for the search are removed when the path is computed. Without constraints an exception is thrown.", "quantifier": "all roadmaps, constraints, planners, limits, interruptions and numbers of steps", "why_tests_cant": "Roadmaps and runs of planners range over infinite sets.", "anchors": ["src/problem-target/task-target.cc: TaskTarget::check, reached, computePath", "src/path-planner.cc: PathPlanner::startSolve, solve"]}
{"id": "C106", "title": "Search in the roadmap only", "statement": "The planner SearchInRoadmap returns a path iff a goal configuration can be reached from the init configuration along the edges of the roadmap, then a shortest one made of these edges, and throws otherwise; it adds no edge to the roadmap.", "quantifier": "all roadmaps without node inserted one-way, init and goal configurations, limits", "why_tests_cant": "Roadmaps range over an infinite set.", "anchors": ["include/hpp/core/path-planner/search-in-roadmap.hh: SearchInRoadmap", "src/path-planner.cc: PathPlanner::solve", "src/astar.hh: Astar::solution"]}
{"id": "C107", "title": "Planning followed by optimization", "statement": "PlanAndOptimize::solve returns the path of the planner after the optimizers, applied in the order in which they were added; other outcomes are those of the planner; what all optimizers keep (end configurations, validity) is kept.", "quantifier": "all planners, lists of optimizers, limits and runs", "why_tests_cant": "Planners, optimizers and runs are arbitrary.", "anchors": ["src/plan-and-optimize.cc: PlanAndOptimize::oneStep, startSolve, finishSolve, addPathOptimizer", "src/path-planner.cc: PathPlanner::solve"]}
{"id": "C108", "title": "Hermite paths", "statement": "A Hermite path goes from its first to its second configuration whatever velocities are set; v0() and v1() are its derivatives at the ends; setting a velocity changes this one only; new velocities are in the kernel of the constraints; hermiteLength() is -1 or the length of the present control polygon, which is at least the length of the curve and the distance between the ends, with equality for a new path without constraints.", "quantifier": "all configurations, constraints, sequences of calls, times and subdivisions", "why_tests_cant": "Curves, subdivisions and sequences of calls range over infinite sets.", "anchors": ["src/path/hermite.cc: Hermite::Hermite, projectVelocities, computeHermiteLength, velocity", "include/hpp/core/path/hermite.hh: v0, v1, hermiteLength", "include/hpp/core/path/spline.hh: parameters"]}
{"id": "C109", "title": "Paths of some degrees of freedom", "statement": "A SubchainPath takes at each time the values of the original path at the indices of its segments, in order, on the same interval, with initial() and end() at its ends; it fails when the original fails; selecting degrees of freedom twice composes the indices and commutes with extraction of an interval; copies have the same values.", "quantifier": "all paths, lists of segments and times", "why_tests_cant": "Paths and times range over infinite sets.", "anchors": ["include/hpp/core/subchain-path.hh: SubchainPath, impl_compute, initial, end, dofExtract, createCopy"]}
{"id": "C110", "title": "Cars that go backward only", "statement": "The path of Snibud between two different poses goes from the first configuration to the second one along three arcs or segments, joined end to end, with the car going backward only and never turning more than allowed; its length is the distance driven plus the distance between the other degrees of freedom; no other way of driving backward, with at most this curvature, is shorter.", "quantifier": "all configurations, radii and distances", "why_tests_cant": "Poses range over a continuum.", "anchors": ["src/steering-method/snibud.cc: Snibud::impl_compute", "src/dubins-path.cc: DubinsPath::create", "src/path-vector.cc: PathVector::reverse"]}
{"id": "C111", "title": "Parameters of the steering methods of cars", "statement": "A steering method for cars built from a problem has a strictly positive turning radius, that of the parameter, and as wheels the child joints with the names separated by commas in the parameter, all of dimension 1, or an exception is thrown; the extra length ignores the variables of the position, heading and wheels; a copy behaves as the original.", "quantifier": "all parameters, lists of names, joints and configurations", "why_tests_cant": "Strings, lists of joints and configurations range over infinite sets.", "anchors": ["src/steering-method/car-like.cc: CarLike::CarLike, turningRadius, getWheelsFromParameter", "src/steering-method/dubins.cc: Dubins::impl_compute"]}
{"id": "C112", "title": "Time-optimal parameterization", "statement": "TOPPRA returns the pieces of the path in order, each run through from its first to its last configuration at parameters that strictly increase with time; along the path, the velocity at each grid point is the one chosen by the solver, in between it varies linearly with time and its square linearly with the position, so that it never exceeds a bound of the values at the grid points. The grid points include the ends of the pieces and are never further apart than the length over N. The optimization fails only if the solver fails or chooses two null velocities in a row; a path shorter than 1e-6 is returned without change.", "quantifier": "all paths, numbers of grid points, answers of the solver and times", "why_tests_cant": "Paths, answers of the solver and times range over infinite sets.", "anchors": ["plugins/toppra.cc: TOPPRA::optimize, PathWrapper, Extract", "include/hpp/core/time-parameterization/piecewise-polynomial.hh: PiecewisePolynomial", "include/hpp/core/path.hh: timeParameterization"]}
{"id": "C113", "title": "Saving and loading a roadmap", "statement": "A roadmap read back from an archive is a valid roadmap with the same nodes, edges, connected components and reachability as the one that was written: it gives the same answers to pathExists and the same distances to nearest nodes, and further additions have the same observable effect. Writing fails exactly when the roadmap uses a k-d tree or an edge bears a path that cannot be written.", "quantifier": "all histories of additions before and after saving, and all allocations at loading", "why_tests_cant": "Histories are unbounded; the archive stores cyclic references between nodes, edges and components.", "anchors": ["src/serialization.cc", "src/nearest-neighbor/serialization.cc", "src/roadmap.cc", "include/hpp/core/roadmap.hh: serialize"]}
{"id": "C114", "title": "Saving and loading paths", "statement": "A path read back from an archive is the path that was written (same class, ranges, ends, coefficients, constraints, parts), whatever follows it in the archive; writing fails exactly for paths with a time parameterization and for classes that are not registered, at any depth.", "quantifier": "all paths, nested at any depth, and all contents of the rest of the archive", "why_tests_cant": "Paths nest to any depth.", "anchors": ["src/path.cc: Path::serialize", "src/straight-path.cc: serialize", "src/path-vector.cc: serialize", "src/extracted-path.cc: serialize", "src/dubins-path.cc: serialize", "src/path/spline.cc: serialize", "src/steering-method/constant-curvature.cc: serialize"]}
{"id": "C115", "title": "Copies of a problem", "statement": "A copy of a problem has the robot, the initial configuration, the obstacles, the parameters and the projector of the original, and calls on one of them do not change the other; the validations of a problem take into account all its obstacles and only them.", "quantifier": "all histories of creations, copies and calls on any number of problems", "why_tests_cant": "Histories are unbounded; sharing of objects shows only after some interleavings.", "anchors": ["src/problem.cc: Problem::create, Problem::createCopy, Problem::init, Problem::addObstacle, Problem::addGoalConfig, Problem::resetGoalConfigs"]}
{"id": "C116", "title": "Plugins", "statement": "An absolute library name is used as is; otherwise the library is the first regular file dir/hppPlugins/name, the directories of HPP_PLUGIN_DIRS being tried before those of LD_LIBRARY_PATH, and an exception is thrown if and only if there is none. Loading changes the problem solver only through the plugin, returns its answer, and throws if and only if the library or its entry point is missing. A plugin object already initialized is not initialized again.", "quantifier": "all lists of directories, file systems, answers of the dynamic loader and plugins", "why_tests_cant": "Lists of directories and file systems are unbounded.", "anchors": ["src/plugin.cc: findPluginLibrary, loadPlugin", "include/hpp/core/plugin.hh: ProblemSolverPlugin::initialize"]}
{"id": "C117", "title": "Distances between the robot and obstacles", "statement": "After computeDistances there is exactly one result for each pair of an inner object of the robot and an obstacle, in the order of the pairs, equal to the distance between these objects, whatever was computed before.", "quantifier": "all robots, lists of obstacles and earlier computations", "why_tests_cant": "Robots and lists of obstacles are unbounded.", "anchors": ["src/distance-between-objects.cc: addObstacle, obstacles, computeDistances"]}
{"id": "C118", "title": "Pairs and requests of continuous validation", "statement": "A new continuous validation tests the collision pairs active in the robot, each once, grouped by pair of joints, and nothing else; whatever has been added, removed or set between validations, a path is validated with exactly the present interval validations; all collision requests use the break distance of the validation.", "quantifier": "all robots and all histories of additions, removals, settings, initializations and validations", "why_tests_cant": "Histories are unbounded; the pool of copies shows stale contents only after some interleavings.", "anchors": ["src/continuous-validation.cc: Initialize::doExecute, AddObstacle::doExecute, validate, breakDistance, addIntervalValidation, removeObstacleFromJoint", "src/continuous-validation/solid-solid-collision.cc: addCollisionPair, breakDistance, removeObjectTo_b"]}
{"id": "C119", "title": "Compression of velocities by a projector", "statement": "uncompressVector followed by compressVector gives the vector back, and conversely on the free variables; uncompressing leaves the outputs of explicit constraints untouched; the same holds for matrices, and the product of a compressed jacobian by a compressed velocity is the product of the full ones.", "quantifier": "all sets of free variables, vectors and matrices of any size", "why_tests_cant": "Sizes and sets of free variables are unbounded.", "anchors": ["src/config-projector.cc: compressVector, uncompressVector, compressMatrix, uncompressMatrix"]}
{"id": "C120", "title": "Settings and right hand sides of projectors", "statement": "A copy of a projector has the settings and right hand sides of the original and is independent of it; the error threshold applies to equalities and inequalities; setting the right hand side of a constraint changes only this one, and throws if the constraint is not in the projector.", "quantifier": "all histories of creations, copies and settings on any number of projectors", "why_tests_cant": "Histories are unbounded and involve a default setting common to all projectors.", "anchors": ["src/config-projector.cc: create, createCopy, errorThreshold, maxIterations, lineSearchType, defaultLineSearch, rightHandSide, rightHandSideFromConfig"]}
{"id": "C121", "title": "Limits and interruption of path optimizers", "statement": "An optimization loop ends at the first iteration at which the number of iterations allowed is reached, the time allowed is elapsed, an interruption has been asked for since the call to optimize, or the algorithm has finished, and not before.", "quantifier": "all limits, sequences of interruptions from other threads, clocks and bodies of the loop", "why_tests_cant": "The moment of an interruption and the durations are arbitrary.", "anchors": ["src/path-optimizer.cc: monitorExecution, shouldStop, maxIterations, timeOut", "include/hpp/core/path-optimizer.hh: interrupt, endIteration", "src/path-optimization/random-shortcut.cc: RandomShortcut::optimize"]}
{"id": "C122", "title": "Default weights of the distance bound the velocities of the bodies", "statement": "The default weight of a joint in the weighed distance is computed from the radius of the bodies it carries so that, for a unit velocity of the joint, every point of these bodies moves at most as fast as the weight; joints without degree of freedom get weight one.  (The code squares the distance between joints before adding it to radii: the bound always holds up to a factor two, holds exactly when lengths are at least one, and fails for short links.)", "quantifier": "every kinematic tree, every set of radii and offsets of bodies, every point of every body, every joint velocity", "why_tests_cant": "The bound relates a loop over joints with the norm of all the columns of the Jacobian at every point of every body; a test evaluates a few robots whose links happen to be long enough.", "anchors": ["src/weighed-distance.cc: ComputeWeightStep, computeWeights"]}
{"id": "C123", "title": "Copies of steering methods and distances behave like the originals", "statement": "Copying a steering method or a distance gives an independent object with the same parameters: it steers, resp. measures, like the original, changing the copy never changes the original, and parameters of the problem are read at creation.  (The copy of a kinodynamic distance has uninitialized bounds, copies of car steering methods have no wheels, and one parameter of the kinodynamic steering method has no effect.)", "quantifier": "every object, every parameter value, every sequence of later changes of the copy or of the original", "why_tests_cant": "Unit tests call methods on the object they created; the copies are made inside planners and path projectors and a lost field shows only on inputs that depend on it.", "anchors": ["include/hpp/core/steering-method.hh: SteeringMethod", "src/steering-method/car-like.cc: CarLike", "src/steering-method/steering-kinodynamic.cc: Kinodynamic", "src/kinodynamic-distance.cc: KinodynamicDistance", "src/weighed-distance.cc: WeighedDistance", "src/distance/reeds-shepp.cc: ReedsShepp", "src/path-projector.cc: PathProjector"]}
{"id": "C124", "title": "Roadmaps edited by hand through the problem solver", "statement": "Adding a configuration makes it a node of the roadmap and loses nothing.  Adding an edge between two configurations succeeds exactly when each of them is nearer than the accuracy to some node; then one directed edge holding the given path is added between nearest nodes and nothing else changes; otherwise an exception names the first unknown configuration and the roadmap is unchanged.  In a roadmap built this way every edge joins nodes next to the ends of its path.  (The ends of the path are not checked by the code.)", "quantifier": "every session of additions of configurations and edges, accepted or refused, every distance and every path", "why_tests_cant": "The nearest node depends on all nodes inserted before, and refused calls may come anywhere in the session.", "anchors": ["src/problem-solver.cc: ProblemSolver::addConfigToRoadmap, ProblemSolver::addEdgeToRoadmap", "src/roadmap.cc: Roadmap::nearestNode, Roadmap::addEdge"]}
{"id": "C125", "title": "A path keeps the level set of its constraints", "statement": "What a path returns at a parameter depends only on the path and on the right-hand sides of its own constraints: building, copying, evaluating and checking other paths, even paths sharing its constraints, changes nothing.  A copy is independent of its original.  A path returned by the straight steering method keeps forever the level set of its own initial configuration; constraints given as functions of the parameter have the value of the function at this parameter.  End configurations are accepted exactly when they satisfy the constraints in force at the ends.  (Copies with given constraints share them, projecting a path sets the right-hand sides of this path, and pieces of a path restart functions of the parameter at zero.)", "quantifier": "every history of constructions, copies, evaluations, checks and changes of right-hand sides over any number of paths and constraint sets", "why_tests_cant": "Constraint sets are mutable objects held through pointers; interference needs a particular interleaving of calls on several paths.", "anchors": ["src/path.cc: Path::Path, Path::applyConstraints, Path::checkPath", "include/hpp/core/path.hh: Path::eval", "src/steering-method/straight.cc: Straight::impl_compute", "src/config-projector.cc: ConfigProjector::rightHandSideAt, ConfigProjector::rightHandSideFromConfig", "src/constraint-set.cc: ConstraintSet::copy", "src/path-projector/dichotomy.cc: Dichotomy::applyToStraightPath"]}
{"id": "C126", "title": "Solutions of planners are free of collision all along, from the calls of the planner down to the distances between bodies", "statement": "On a problem without constraints in a vector space, with the straight steering method, any distance that vanishes only between equal configurations, and continuous validation (progressive or by dichotomy) or discretized validation (collisions, the default, or joint bounds and collisions, at samples) with any finite set of pairs of bodies: whatever the configurations shot, the limits, the interruptions and the number of iterations, if solve() of the diffusing planner, Visibility-PRM, BiRRT, k-PRM* or BiRRT* returns a path from a free initial configuration, then that path vector starts at the initial configuration, ends at one of the goals, is defined and Lipschitz continuous on its whole range, and at no parameter do two objects penetrate each other by more than twice the tolerance (continuous validation), or by more than the bodies can move relative to each other in half a step (discretized validation), joints being within their bounds when these are checked. The diffusing planner and Visibility-PRM throw only for the limits and for interrupt().", "quantifier": "all finite dimensions, all distances, all sets of pairs of bodies with Lipschitz signed distances, all tolerances, all sequences of shots, all settings, all goals, all parameters of the returned path", "why_tests_cant": "a test samples configurations of a few returned paths; the statement concerns all the parameters of all the paths that five planners can return for all the sequences of random configurations", "anchors": ["src/path-planner.cc:PathPlanner::solve", "src/diffusing-planner.cc:DiffusingPlanner::oneStep", "src/visibility-prm-planner.cc", "src/bi-rrt-planner.cc", "src/path-planner/k-prm-star.cc", "src/path-planner/bi-rrt-star.cc", "src/continuous-validation/progressive.cc", "src/continuous-validation/dichotomy.cc", "src/continuous-validation/body-pair-collision.cc", "src/path-validation/discretized.cc", "src/joint-bound-validation.cc", "src/collision-validation.cc", "src/straight-path.cc", "src/path-vector.cc:PathVector::impl_compute", "src/astar.hh"]}
{"id": "C127", "title": "Planning followed by any sequence of shortcut optimizers returns a path free of collision", "statement": "On the problems of C126 (vector space, no constraints, straight paths, continuous or discretized validation): if one of the five planners returns a path from a free initial configuration and RandomShortcut and SimpleShortcut are then run in any order, any number of times, with any random draws and any interruptions, the final path vector starts at the initial configuration, ends at one of the goals, is defined and Lipschitz continuous on its range, and at none of its parameters do two objects penetrate each other by more than the bound of C126.", "quantifier": "all problems of C126, all paths that the planners return, all finite sequences of optimizers with all their parameters, draws and interruptions, all parameters of the final path", "why_tests_cant": "the composition of random planners and random optimizers has infinitely many outcomes; a test looks at a few of them at sampled parameters", "anchors": ["src/problem-solver.cc:ProblemSolver::solve", "src/problem-solver.cc:ProblemSolver::optimizePath", "src/path-optimization/random-shortcut.cc:RandomShortcut::optimize", "src/path-optimization/simple-shortcut.cc:SimpleShortcut::optimize", "src/path-optimizer.cc:PathOptimizer::steer", "src/continuous-validation/progressive.cc", "src/continuous-validation/dichotomy.cc"]}
{"id": "C128", "title": "Straight paths of robots with rotation joints", "statement": "For a robot whose joints are bounded, translation or unbounded rotation joints, a straight path moves each joint at constant speed, equal in absolute value to its velocity bound, and the part of the path between two parameters, in either order, goes through the configurations of the path; in particular the reverse of a path goes through the same configurations, so that the reverse of a collision-free path, which planners insert in the roadmap without validating it, is collision-free.", "quantifier": "all numbers and kinds of joints, all pairs of configurations, all ranges, all pairs of parameters; for the reversal of half turns: all groups and all choices of a logarithm", "why_tests_cant": "the reversal fails only for pairs of configurations that differ by exactly half a turn, which random tests do not meet", "anchors": ["src/straight-path.cc:StraightPath::impl_compute", "src/straight-path.cc:StraightPath::impl_extract", "src/straight-path.cc:StraightPath::impl_velocityBound", "src/path.cc:Path::reverse", "src/roadmap.cc:Roadmap::addEdges", "src/diffusing-planner.cc:DiffusingPlanner::oneStep"]}
{"id": "C129", "title": "Collision constraints of the spline optimizer", "statement": "When a candidate path of the spline optimizer collides, the constraint added to the quadratic program is satisfied by the current, collision-free, path and excludes the collision: no path that satisfies it passes by the reported configuration at the same parameter. The constraint does not depend on the choice of the world frame. Updates of the constraint keep a configuration without collision and one in collision, twice closer each time. A constraint is built for any report of collision.", "quantifier": "all robots (positions of joints given by arbitrary functions), all pairs of objects, all contact points, all splines, all numbers of updates, all world frames", "why_tests_cant": "tests check that optimization ends without collision, which the final validation ensures anyway; that a constraint does nothing shows only as a slower or failed optimization", "anchors": ["src/path-optimization/spline-gradient-based/collision-constraint.hh:CollisionFunction", "src/path-optimization/spline-gradient-based.cc:addCollisionConstraint", "src/path-optimization/spline-gradient-based.cc:findNewConstraint", "src/path-optimization/spline-gradient-based.cc:CollisionFunctions::linearize"]}
{"id": "C130", "title": "Planned paths stay within the joint bounds", "statement": "With straight paths and any path validation, including the continuous ones, which do not check joint bounds: when the initial configuration, the goals and the configurations returned by the shooter are within the joint bounds (or in any convex set), every configuration of the path returned by solve() is, for each planner. More generally, any property of configurations and of paths that is kept by the steering method, the path projector, the path validation, extraction, reversal and the projection of configurations holds for all nodes and edges of the roadmap at any time, and for the path returned.", "quantifier": "all robots whose configurations form a vector space, all convex sets of configurations, all distances, obstacles and path validations, all sequences of random configurations, limits, interruptions and numbers of steps, the five planners; the general part: all steering methods, projectors and validations, all properties of configurations and paths", "why_tests_cant": "an execution visits a few nodes; the statement is about all nodes that any sequence of draws can create and all parameters of the path", "anchors": ["src/diffusing-planner.cc: DiffusingPlanner::oneStep", "src/path-planner/bi-rrt-star.cc: BiRrtStar::sample", "src/bi-rrt-planner.cc: oneStep", "src/path-planner/k-prm-star.cc", "src/visibility-prm-planner.cc", "src/path-planner.cc: solve", "src/steering-method/straight.cc"]}
{"id": "C131", "title": "Planning with constraints: how far a solution leaves the level set of its start", "statement": "With constraints, the straight steering method and no path projector, every configuration that the solution of the diffusing planner, Visibility-PRM, kPRM* or BiRRT* evaluates with success satisfies the constraints whose right-hand side cannot be set up to the error threshold; for the constraints with a settable right-hand side, its value differs from the value at the initial configuration by at most 2k+2 thresholds on the piece of rank k, and a goal is reached only if its value differs by at most twice the number of pieces.  (The errors of the pieces do add up: a goal that the steering method refuses to join because it is not on the level set can be reached by a node between; and once its trees are connected, BiRRT* does not project the configurations it draws, those that do not satisfy the constraints are lost.)", "quantifier": "every configuration space, constraints, projector that is sound up to its threshold, path validation, shooter, parameters and number of steps", "why_tests_cant": "the bound concerns all roadmaps and sums errors over solutions of any length; a test meets one projector and one solution", "anchors": ["src/steering-method/straight.cc: Straight::impl_compute", "src/path.cc: Path::checkPath, Path::applyConstraints", "src/straight-path.cc: StraightPath::impl_extract", "src/diffusing-planner.cc: DiffusingPlanner::extend", "src/path-planner/bi-rrt-star.cc: BiRrtStar::improve"]}
{"id": "C132", "title": "Spline optimization does not break the constraints of paths", "statement": "On each path that holds constraints, the optimizer changes only degrees of freedom that are neither outputs of explicit constraints nor used by the implicit ones.  Whatever it returns, a path can thus be evaluated at a parameter exactly when the initial one can, with the same values of the degrees of freedom used by implicit constraints, the other ones being left by the projection as the optimizer put them.  (With a non-negative guess threshold, degrees of freedom with a null column in the jacobian at the beginning of the path are freed: right for affine constraints, wrong in general.)", "quantifier": "every robot, set of constraints, vector of splines, validation and sequence of answers of the quadratic program, every parameter", "why_tests_cant": "a statement about all optimized paths at all parameters, and about the sets of degrees of freedom of all solvers", "anchors": ["src/path-optimization/spline-gradient-based.cc: computeActiveParameters, addProblemConstraintOnPath", "src/path.cc: Path::applyConstraints"]}
{"id": "C133", "title": "Parameters are values", "statement": "Whatever the history of constructions, copies, assignments (including to itself and between types), readings and destructions of parameters: a reading with the right type returns the value given last to this parameter, with another type it throws std::invalid_argument, changing a parameter does not change its copies, no memory is released twice nor read after its release, and when all parameters are destroyed no memory remains allocated.  (If memory is exhausted during an assignment, the parameter keeps a pointer to the released value, which the destructor releases again.)", "quantifier": "every history of operations on any number of parameters, every allocation that fails", "why_tests_cant": "ownership is a statement about all histories; allocation failures cannot be triggered by ordinary tests", "anchors": ["src/parameter.cc: Parameter::deleteValue, copyValue, operator=", "include/hpp/core/parameter.hh: Parameter"]}
{"id": "C134", "title": "Continuous validation by several threads", "statement": "When several threads validate paths with the same continuous validation: two threads never use the same collision pairs at the same time; as long as no validation throws and the pairs are not changed during validations, no set of threads blocks, every validation under way ends whatever the schedule, and there are never more copies of the pairs than threads; every validation uses pairs up to date.", "quantifier": "all numbers of threads, all interleavings of their steps, all sequences of validations, exceptions and changes of the pairs", "why_tests_cant": "Interleavings cannot be enumerated, the faulty ones are rare, and a run that ends says nothing of other schedules.", "anchors": ["src/continuous-validation.cc: ContinuousValidation::validate, addIntervalValidation, breakDistance, filterCollisionPairs", "include/hpp/core/continuous-validation.hh: bodyPairCollisionPool_"]}
{"id": "C135", "title": "Collision tests read the present shape of the obstacles", "statement": "After every history of calls that add, cut and remove obstacles, change the validations and reset the problem, and of shared pointers to geometries that the user makes and drops, every collision test of the validations of the problem is made with a registered obstacle, at its position, and reads the shape that the obstacle has at this moment, which still exists in memory.", "quantifier": "all histories of calls and all lifetimes of the geometries, any number of obstacles and validations, any shapes", "why_tests_cant": "The pointer in a collision pair is taken when the pair is made; whether it is the pointer of the present shape depends on the whole history of calls and of the shared pointers. Reading destroyed memory usually goes unnoticed in a test.", "anchors": ["include/hpp/core/collision-pair.hh: CollisionPair", "src/problem-solver.cc: cutObstacle, removeObstacle, addObstacle, resetProblem, initValidations", "src/obstacle-user.cc: addObstacleToJoint", "src/continuous-validation/solid-solid-collision.cc: addCollisionPair", "src/distance-between-objects.cc: computeDistances"]}
{"id": "C136", "title": "A resolution interrupted from another thread stops", "statement": "A call of ProblemSolver::interrupt made by another thread while ProblemSolver::solve runs lets the resolution begin at most one more unit of work (step of the planner, iteration of an optimizer); a call made before solve is called has no effect on it.", "quantifier": "every list of selected path optimizers, every interleaving of the two threads, every place where the resolution is when interrupt is called", "why_tests_cant": "tests call interrupt after a delay: they see the schedules the machine produces, not the windows between the reset of a flag and its test", "anchors": ["src/problem-solver.cc:ProblemSolver::interrupt", "src/problem-solver.cc:ProblemSolver::solve", "src/problem-solver.cc:ProblemSolver::createPathOptimizers", "src/path-planner.cc:PathPlanner::solve", "src/path-optimizer.cc:PathOptimizer::monitorExecution", "src/path-optimizer.cc:PathOptimizer::shouldStop"]}
{"id": "C137", "title": "Velocity bounds of paths of robots with ball joints", "statement": "Along a straight path or a spline, a point of a body carried by a ball joint moves between two parameters of an interval by at most its distance to the joint, times the norm of the velocityBound of the joint on this interval, times the difference of the parameters (what continuous validation relies on); each component of the angular velocity is within the component of velocityBound.", "quantifier": "all paths, bases, control points, ranks of the joint, intervals, parameters and points", "why_tests_cant": "Bounds over a continuum of parameters in a curved configuration space; the control points are tangent vectors at the base and the angular velocity is another vector.", "anchors": ["src/path/spline.cc: impl_compute, impl_velocityBound, maxVelocity", "src/straight-path.cc: impl_compute, impl_velocityBound", "src/continuous-validation/solid-solid-collision.cc: computeMaximalVelocity"]}
{"id": "C138", "title": "Solutions of planners are free of collision all along, for robots with joints of any kind", "statement": "On a problem without constraints, for a robot whose joints may be translations, unbounded rotations and ball joints, with the straight steering method, any distance that vanishes only between equal configurations, and continuous or discretized validation with any finite set of pairs of bodies: if solve() of the diffusing planner, Visibility-PRM, BiRRT, k-PRM* or BiRRT* returns a path from a free initial configuration, then that path vector starts at the initial configuration, ends at one of the goals, is defined on its whole range, and at no parameter do two objects penetrate each other by more than the bounds of C126.", "quantifier": "all robots made of such joints, all distances, all sets of pairs of bodies whose distances are Lipschitz in the displacement of the joints, all tolerances, all sequences of shots, all settings, all goals, all parameters of the returned path", "why_tests_cant": "a test samples configurations of a few returned paths; the statement concerns all the parameters of all the paths that five planners can return, and fails for pairs of configurations that a random shooter draws with probability 0 but that users give as goals", "anchors": ["src/path-planner.cc: PathPlanner::solve", "src/diffusing-planner.cc: DiffusingPlanner::oneStep", "src/visibility-prm-planner.cc", "src/bi-rrt-planner.cc", "src/path-planner/k-prm-star.cc", "src/path-planner/bi-rrt-star.cc", "src/straight-path.cc: StraightPath::impl_compute, StraightPath::impl_extract", "src/path.cc: Path::extract, Path::reverse", "src/roadmap.cc: Roadmap::addEdges"]}
{"id": "C139", "title": "Path optimizers keep paths free of collision, for robots with joints of any kind", "statement": "On a problem without constraints, for a robot whose joints may be translations, unbounded rotations and ball joints, with the straight steering method and continuous or discretized validation: any sequence of RandomShortcut and SimpleShortcut applied to a path vector of straight paths free of collision that goes from q0 to q1 gives a path vector that goes from q0 to q1, is defined on its whole range, and along which no two objects penetrate each other by more than the bounds of C126. Hence the path returned by solve() of the diffusing planner, Visibility-PRM, BiRRT, k-PRM* or BiRRT*, then by any sequence of these optimizers, is one from the initial configuration to a goal that is free of collision.", "quantifier": "all robots made of such joints, all distances that vanish exactly between equal configurations, all sets of pairs of bodies, all tolerances, all sequences of optimizers, all random parameters, all interruptions, all parameters of the returned path", "why_tests_cant": "a shortcut glues a new segment between pieces cut at random parameters; that the pieces remain on the path they come from depends on the interpolation of rotations, and a wrong one is visible only for some cuts", "anchors": ["src/path-optimization/random-shortcut.cc: RandomShortcut::optimize", "src/path-optimization/simple-shortcut.cc: SimpleShortcut::optimize", "src/straight-path.cc: StraightPath::impl_compute, StraightPath::impl_extract", "src/path-vector.cc: PathVector::impl_extract", "src/path-planner.cc: PathPlanner::solve"]}
{"id": "C140", "title": "Planning, optimizing and time-parameterizing gives an executable trajectory, for robots with joints of any kind", "statement": "On a problem without constraints, for a robot whose joints may be translations, unbounded rotations and ball joints: SimpleTimeParameterization applied to a path vector of straight paths free of collision from q0 to q1 gives a trajectory from q0 to q1 that goes through the same configurations in the same order, along which no two objects penetrate each other more than along the path, on which the displacement of every degree of freedom with a velocity limit between two times of a piece is at most the limit times the safety factor times the elapsed time, and which for orders 1 and 2 is at rest at the ends of every piece. Hence so is what comes out of solve() of the diffusing planner, Visibility-PRM, BiRRT, k-PRM* or BiRRT*, then any sequence of RandomShortcut and SimpleShortcut, then SimpleTimeParameterization. The path itself is returned only when its length is zero.", "quantifier": "all robots made of such joints, all velocity limits and safety factors, all orders, all planners and sequences of optimizers, all pairs of times", "why_tests_cant": "the limits hold between all pairs of times of a continuous trajectory, and the trajectory must follow a path that is the outcome of a random search", "anchors": ["src/path-optimization/simple-time-parameterization.cc: SimpleTimeParameterization::optimize", "src/straight-path.cc: StraightPath::impl_velocityBound, StraightPath::impl_derivative", "include/hpp/core/path.hh: Path::timeParameterization, Path::eval", "src/path-vector.cc: PathVector::appendPath, PathVector::rankAtParam", "src/path-planner.cc: PathPlanner::solve"]}
{"id": "C141", "title": "Joint bounds hold along planned, optimized and time-parameterized paths, for robots with joints of any kind", "statement": "On a problem without constraints, for a robot whose joints may be translations or rotations with bounds, unbounded rotations and ball joints: if the initial configuration, the goals and the configurations that are drawn are within the joint bounds, so is every configuration of the path returned by solve() of the diffusing planner, Visibility-PRM, BiRRT or k-PRM*, even with a path validation that does not check the bounds, and even where the planner has reversed half a turn. Any sequence of RandomShortcut and SimpleShortcut, and SimpleTimeParameterization, keep paths within the bounds. The same holds of any set of configurations that contains the interpolations between its elements. BiRRT* goes out of the bounds when it draws near its best path.", "quantifier": "all such robots, all bounds (all sets closed by interpolation), all draws, all planners, sequences of optimizers and interruptions, all parameters of the path", "why_tests_cant": "a violation can be anywhere along a path found by a random search and then shortened at random, and continuous path validations never look at the bounds", "anchors": ["src/path-planner.cc: PathPlanner::solve", "src/diffusing-planner.cc: DiffusingPlanner::oneStep", "src/path-planner/bi-rrt-star.cc: BiRrtStar::sample", "src/path-optimization/random-shortcut.cc: RandomShortcut::optimize", "src/path-optimization/simple-shortcut.cc: SimpleShortcut::optimize", "src/path-optimization/simple-time-parameterization.cc: SimpleTimeParameterization::optimize", "src/joint-bound-validation.cc: JointBoundValidation::validate"]}
{"id": "C142", "title": "Memory of roadmaps: no dangling pointer, no double release, no leak", "statement": "Roadmaps own their nodes, edges and nearest neighbour object through raw pointers. For every program that creates, fills, merges, clears and destroys any number of roadmaps, and replaces their nearest neighbour objects, no call accesses or releases an object that has been released, every object belongs to exactly one roadmap (or is a nearest neighbour object not given yet), a call on one roadmap leaves the objects of the others unchanged, pointers to nodes and edges stay valid (same configuration, same ends) until the roadmap is cleared or destroyed, clear and the destructor release all the objects of the roadmap and nothing else, and nothing is left once the roadmaps are destroyed.", "quantifier": "all sequences of calls of any length on any number of roadmaps, all configurations, all behaviours of the allocator (released addresses may be given again), all results of nearest neighbour searches", "why_tests_cant": "Memory errors depend on the history and on the addresses returned by the allocator; a test exercises a few histories, and a dangling pointer often goes unnoticed.", "anchors": ["src/roadmap.cc: Roadmap::Roadmap, Roadmap::~Roadmap, Roadmap::nearestNeighbor, Roadmap::clear, Roadmap::addNode, Roadmap::addEdge, Roadmap::addEdges, Roadmap::addNodeAndEdge, Roadmap::addNodeAndEdges, Roadmap::merge, Roadmap::insertPathVector, Roadmap::addGoalNode, Roadmap::pathExists", "src/node.cc: Node::addOutEdge, Node::addInEdge, Node::isOutNeighbor, Node::isInNeighbor", "src/nearest-neighbor/k-d-tree.cc: KDTree::addNode, KDTree::clear", "include/hpp/core/roadmap.hh: initNode, resetGoalNodes"]}
{"id": "C143", "title": "Paths returned by a later resolution meet the present requirements", "statement": "The problem solver keeps its roadmap from one resolution to the next. Whatever calls add, cut or remove obstacles, change the path validation or the constraints, reset the problem or the roadmap, add edges by hand and solve, the path returned by solve is free of the collision obstacles registered at that moment, as the path validation then selected can tell, and satisfies the constraints then in force, although it may be made of edges built by former resolutions.", "quantifier": "all sessions: sequences of calls of any length, all obstacles, constraints and path validations, all edges built by planners that validate what they build", "why_tests_cant": "The property depends on the whole history of settings since the roadmap was created; a test solves one problem with one list of settings.", "anchors": ["src/problem-solver.cc: ProblemSolver::solve, ProblemSolver::initProblem, ProblemSolver::initializeProblem, ProblemSolver::resetRoadmap, ProblemSolver::addObstacle, ProblemSolver::removeObstacle, ProblemSolver::cutObstacle, ProblemSolver::pathValidationType, ProblemSolver::addConstraint, ProblemSolver::resetConstraints, ProblemSolver::addEdgeToRoadmap"]}
{"id": "C144", "title": "Path vectors and discretized validation keep their guarantees under rounding", "statement": "Whatever the rounding of additions and subtractions, as long as it is monotone with a bounded relative error: a path vector that is not empty gives for every parameter of its range one of its paths and a parameter in the time range of this path, never goes back when the parameter grows, is at the parameter asked for up to a small error, and at the end of its range is the end of its last path; the discretized validation ends, checks both ends exactly and leaves no gap longer than the step and a rounding error.", "quantifier": "all vectors of any number of paths, all parameters, all monotone roundings with a relative error bound (among them numbers with p bits for every p), all steps, ranges and directions", "why_tests_cant": "Rounding errors depend on the magnitudes and on the number of paths; a test sees the few vectors and steps it tries, for which errors are invisible.", "anchors": ["src/path-vector.cc: PathVector::rankAtParam, PathVector::appendPath", "include/hpp/core/path.hh: Path::length", "include/hpp/core/path-vector.hh: PathVector::end", "src/path-validation/discretized.cc: Discretized::validate"]}
{"id": "C145", "title": "Extraction and shortcuts of path vectors join exactly under rounding", "statement": "Whatever the rounding of the arithmetic, a part extracted from a path vector of straight paths between two parameters, in either order, exists, its paths join exactly, and it leads exactly from the configuration of the vector at the first parameter to its configuration at the second one. The random shortcut, whatever it draws and however long it runs, returns paths that join exactly from the initial to the final configuration of the path it is given.", "quantifier": "all vectors of any number of straight paths, all pairs of parameters, all interpolations, all monotone odd roundings with a relative error below 1, all sequences of draws of any length", "why_tests_cant": "Rounding errors would show as gaps at junctions for particular values only, after many iterations; a test compares within a tolerance on a few paths.", "anchors": ["src/path-vector.cc: PathVector::impl_extract, PathVector::impl_compute, PathVector::rankAtParam", "src/straight-path.cc: StraightPath::impl_compute, StraightPath::impl_extract", "src/path.cc: Path::reverse", "src/path-optimization/random-shortcut.cc: RandomShortcut::optimize"]}
{"id": "C146", "title": "Joint bounds hold exactly along interpolated paths under rounding", "statement": "With arithmetic rounded to the nearest, a path vector made of straight paths between configurations that the joint bound validation accepts is accepted by it at every parameter, without any tolerance; so is everything extracted from it, and everything the random shortcut returns after any number of iterations.", "quantifier": "all vectors of any number of straight paths in vector spaces of any dimension, all bounds, all parameters that are floating point numbers, all precisions, all sequences of draws of any length", "why_tests_cant": "A violation would be of one unit in the last place at some parameter; the validation has no tolerance and would reject the path, but a test cannot try all parameters.", "anchors": ["src/straight-path.cc: StraightPath::impl_compute, StraightPath::impl_extract", "src/path-vector.cc: PathVector::impl_compute, PathVector::impl_extract", "src/joint-bound-validation.cc: JointBoundValidation::validate", "src/path-optimization/random-shortcut.cc: RandomShortcut::optimize"]}
{"id": "C147", "title": "Shots of extra degrees of freedom are within bounds under rounding", "statement": "With arithmetic rounded to the nearest, the value that the uniform configuration shooter draws for an extra degree of freedom is accepted by the joint bound validation.", "quantifier": "all bounds, all values returned by the random number generator, all precisions", "why_tests_cant": "Only some bounds and one value of the random number generator out of two billion are concerned.", "anchors": ["src/configuration-shooter/uniform.cc: Uniform::impl_shoot", "src/joint-bound-validation.cc: JointBoundValidation::validate"]}
{"id": "C148", "title": "Continuous collision checking with floating-point arithmetic", "statement": "With every operation on path parameters rounded, a straight path accepted by continuous collision checking (progressive or dichotomy, either direction) has, at every one of its parameters, no pair of objects penetrating more than twice the tolerance plus an explicit bound of the rounding errors; on rejection the parameter reported is one at which a test failed, the part returned ends at or before it and satisfies the same bound.  If the advance allowed by the tolerance and the distances exceeds the rounding errors, the check ends after a bounded number of evaluations.", "quantifier": "all monotone idempotent roundings with bounded relative error (in particular binary arithmetic with any number of bits), all lists of pairs of bodies with distances bounded by Lipschitz estimates, all time ranges, both directions, both algorithms", "why_tests_cant": "the certified intervals are computed from divisions and sums whose rounding depends on the distances; a test sees one path with comfortable distances, not the path on which the rounded half-length is longer than the true one or is lost when added to the parameter", "anchors": ["src/continuous-validation/body-pair-collision.cc: BodyPairCollision::validateConfiguration, setupPath, collisionFreeInterval", "src/continuous-validation/progressive.cc: Progressive::validateStraightPath", "src/continuous-validation/dichotomy.cc: Dichotomy::validateStraightPath", "src/continuous-validation.cc: ContinuousValidation::validateConfiguration"]}
{"id": "C149", "title": "Search of a roadmap with floating-point arithmetic", "statement": "Whatever the rounding of additions, the search of the solution in a roadmap built by any history of calls ends, raises an exception exactly when no goal can be reached from the initial node, and returns otherwise a chain of edges from the initial node to a goal. The computed length of the path vector returned, and the exact length of its paths, exceed the length of the shortest chain of edges to a goal by a relative error of a few units of rounding per edge only, in spite of the errors on the costs from the start, on the estimates that order the search and on the distance used as heuristic, though nodes once expanded are never expanded again.", "quantifier": "All histories of calls to the roadmap, all edge lengths, all heuristics consistent up to a relative error (in particular distances computed with a relative error), all roundings with a bounded relative error, roadmaps of any size.", "why_tests_cant": "Errors of rounding depend on all the lengths and on the order in which nodes are expanded; a heuristic that is not consistent may make the search return a much longer path, whether errors of rounding may do so cannot be seen on examples.", "anchors": ["src/astar.hh: findPath, solution, heuristic, edgeCost", "src/path-vector.cc: appendPath"]}
{"id": "C150", "title": "Distances keep their meaning with floating-point arithmetic", "statement": "With arithmetic rounded at each operation, the distance computed between two configurations of a robot with k joints is within the factors (1-e)(1-u)^(k+3) and (1+e)(1+u)^(k+3) of the exact weighed distance, where u is the unit roundoff and e the relative accuracy of the squared distance of a joint. It stays non negative, null between equal configurations, exactly symmetric and positive between configurations at positive exact distance; it satisfies the triangle inequality up to the ratio of these factors. For robots whose joints are prismatic, bounded revolute or translations, with any extra degrees of freedom, e is (1+u)^(m+4)-1 where m is the largest number of coordinates and nothing else is assumed. The node returned as nearest to a configuration is at most this ratio times farther, in exact distance, than any other node of the roadmap, and the search of the roadmap loses at most (1+u)^2/(1-u) times this ratio per edge of a shortest chain.", "quantifier": "all robots, weights, configurations, roadmaps built by any history and rounding functions that are monotone, idempotent and of relative error u", "why_tests_cant": "The error of a distance depends on the operands; a test compares with a tolerance chosen by hand and does not tell whether symmetry or the choice of the nearest node can break for other values.", "anchors": ["src/weighed-distance.cc: WeighedDistance::impl_distance", "src/roadmap.cc: Roadmap::nearestNode", "src/nearest-neighbor/basic.cc: Basic::search", "src/astar.hh: Astar"]}
{"id": "C151", "title": "Validation of one configuration by a path validation", "statement": "`PathValidation::validate(q, report)` answers for every configuration. With the progressive and dichotomy validations the answer is true exactly when no pair of objects collides at `q`, whatever was validated before with the same object, and the bodies are placed once. With the validation by sampling it is true exactly when all the configuration validations accept `q`, which is also the answer for the path reduced to `q`. With several path validations it is true exactly when all accept. When a continuous validation refuses a path that can be evaluated, the configuration at the parameter of its report, validated alone, is refused. A configuration refused alone is not on an accepted path.", "quantifier": "all configurations, pairs of bodies, orders of the pairs, tolerances, paths and validations", "why_tests_cant": "The agreement between the two entry points ranges over all configurations and all histories of the validation object.", "anchors": ["src/path-validation.cc: PathValidation::validate", "src/path-validations.cc: PathValidations::validate", "src/path-validation/discretized.cc: Discretized::validate", "src/continuous-validation/progressive.cc", "src/continuous-validation/dichotomy.cc"]}
{"id": "C152", "title": "The diffusing planner finds the paths that its random configurations suggest", "statement": "If the configurations that are shot contain, in order and possibly among others, a chain that leads from the init configuration to a goal by steps of length at most R, such that an extension of length at most R towards a configuration of the chain is always accepted, and if the last one is not yet a node when it is shot, then `DiffusingPlanner::solve` returns a path from the init configuration to a goal, whatever the other configurations that are shot, unless a limit or an interruption stops it before the end of the chain. If the shots come back infinitely often near each point of some sequence of close configurations with enough clearance from the init configuration to a goal, the planner without limit ends with a path. On problems without constraints with straight paths and with any of the path validations, it is enough that no pair of objects collides along the segments of length at most R that end at the chain.", "quantifier": "all roadmaps, distances, sequences of random configurations, chains, radii, extension parameters and limits", "why_tests_cant": "Completeness ranges over infinite sequences of random configurations.", "anchors": ["src/diffusing-planner.cc: DiffusingPlanner::oneStep, extend", "src/path-planner.cc: PathPlanner::solve", "src/roadmap.cc: addNodeAndEdges, addNode"]}
{"id": "C153", "title": "BiRRT finds the paths that its random configurations suggest", "statement": "Without constraints and from an empty roadmap, if the configurations that are shot contain, in order and possibly among others, a chain that leads from the init configuration to a goal by steps of length at most R, such that a path of length at most R towards a configuration of the chain, or that leaves the last one, is always accepted by the path validation, if no direct valid path links two goals and if no configuration is already a node when it is shot, then `BiRRTPlanner::solve` returns a path from the init configuration to a goal, whatever the other configurations that are shot, unless a limit or an interruption stops it before the end of the chain. If the shots come back infinitely often near each point of some sequence of close configurations with enough clearance from the init configuration to a goal, BiRRT without limit ends with a path. With straight paths and with any of the path validations, it is enough that no pair of objects collides along the segments of length at most R that end at the chain or start from its end.", "quantifier": "all distances, sequences of random configurations, chains, radii, steering methods and path validations that satisfy their contracts, and limits", "why_tests_cant": "Completeness ranges over infinite sequences of random configurations.", "anchors": ["src/bi-rrt-planner.cc: BiRRTPlanner::startSolve, oneStep, extendInternal", "src/path-planner.cc: PathPlanner::solve", "src/roadmap.cc: addNodeAndEdge, nearestNode"]}
{"id": "C154", "title": "kPRM* finds the paths between neighbours of its nodes", "statement": "From an empty roadmap, the nodes of kPRM* are exactly the init and goal configurations and the first valid configurations that are shot, each once, up to the number of nodes. If the shots contain enough valid configurations, and if a chain of these nodes leads from the init configuration to a goal, such that of two successive nodes one is among the k nearest of the other (at most k nodes are as close) and the path from the latter to the former is accepted, then `solve` returns a path from the init configuration to a goal, after at most M + N (k + 1) + 3 steps (M shots, N nodes), unless a limit or an interruption stops it before. With straight paths and with any of the path validations, it is enough that no pair of objects collides along the segments of the chain.", "quantifier": "all distances that separate configurations, sequences of random configurations, numbers of nodes and of neighbours, chains, steering methods and path validations that satisfy their contracts, and limits", "why_tests_cant": "Completeness ranges over all sequences of random configurations and roadmaps.", "anchors": ["src/path-planner/k-prm-star.cc: startSolve, oneStep, generateRandomConfig, linkNodes, connectNodeToClosestNeighbors, connectInitAndGoal", "src/path-planner.cc: PathPlanner::solve", "src/nearest-neighbor/basic.cc: KnearestSearch"]}
{"id": "C155", "title": "An obstacle is removed from a joint by name", "statement": "After every history of calls that add and remove obstacles, remove obstacles from joints, filter the collision pairs, choose validations and reset the problem, `removeObstacleFromJoint (jointName, obstacleName)` of the solver, for a joint of the robot and a registered obstacle, makes the path validation and the config validations of the problem forget the tests between the bodies of this joint and this obstacle and no others; it throws only if a validation does not test them, or if a name is unknown; a reset of the problem brings the tests back.", "quantifier": "all robots, names and histories of calls of the solver", "why_tests_cant": "Depends on the identity of the objects that the solver makes during the history and on the kind of validation.", "anchors": ["src/problem-solver.cc: ProblemSolver::removeObstacleFromJoint, ProblemSolver::obstacle, ProblemSolver::addObstacle, ProblemSolver::removeObstacle", "include/hpp/core/problem-solver.hh: removeObstacleFromJoint", "src/problem.cc: Problem::removeObstacleFromJoint", "src/obstacle-user.cc: CollisionPairComparision", "src/continuous-validation/solid-solid-collision.cc: removeObjectTo_b"]}
{"id": "C156", "title": "A device is added as obstacles", "statement": "After every history of calls that add and remove obstacles, add devices as obstacles and set the robot, adding a device registers each of its objects, under the name of the device followed by the name of the object, for collision and distance as asked, or throws and changes nothing if a name is used already; `obstacleFramePosition` then gives the position at which each frame of the device was when it was added last, and throws for a frame that was not given since the robot was set; the reference it returns can be read until the robot is set again.", "quantifier": "all devices, names and histories of calls of the solver", "why_tests_cant": "The result depends on all names given before, and on the order of the calls.", "anchors": ["src/problem-solver.cc: ProblemSolver::addObstacle, ProblemSolver::obstacleFramePosition, ProblemSolver::robot, ProblemSolver::ProblemSolver"]}
{"id": "C157", "title": "Paths of all steering methods satisfy the constraints of the problem", "statement": "Whatever configuration is returned with success by a path that a steering method built between two configurations satisfies the constraints of the steering method, those with a settable right-hand side on the level set of the first configuration. If both configurations are on this level set, the path goes from the first to the second one, and its elements are joined end to end.", "quantifier": "all steering methods, constraints, right-hand sides, configurations and parameters", "why_tests_cant": "Constraints, level sets and parameters range over infinite sets.", "anchors": ["src/steering-method/straight.cc: Straight::impl_compute", "include/hpp/core/steering-method/hermite.hh: impl_compute", "src/steering-method/spline.cc: impl_compute", "src/reeds-shepp-path.cc: reedsSheppPathOrDistance", "src/dubins-path.cc: DubinsPath::DubinsPath, dubins_init", "src/steering-method/dubins.cc: impl_compute", "src/steering-method/snibud.cc: impl_compute", "src/steering-method/steering-kinodynamic.cc: impl_compute", "src/path.cc: applyConstraints"]}
{"id": "C158", "title": "Planned paths respect steering methods that go one way only", "statement": "If the steering method of the problem goes one way only (Dubins drives forward, Snibud backward), each part of the path returned by a planner can be followed: it is driven in this direction.", "quantifier": "all problems, steering methods, drawn configurations, settings and interruptions", "why_tests_cant": "The path depends on the history of the random draws; the directions of all the edges of all roadmaps that can be built have to be considered.", "anchors": ["src/bi-rrt-planner.cc: BiRRTPlanner::oneStep, extendInternal", "src/path-planner.cc: tryConnectInitAndGoals", "src/diffusing-planner.cc: DiffusingPlanner::oneStep", "src/visibility-prm-planner.cc: visibleFromCC, oneStep", "src/path-planner/k-prm-star.cc: connectNodeToClosestNeighbors", "src/path-planner/bi-rrt-star.cc: extend, improve", "src/steering-method/dubins.cc: impl_compute", "src/steering-method/snibud.cc: impl_compute", "src/steering-method/constant-curvature.cc: impl_extract, reverse"]}
{"id": "C159", "title": "Continuous validation of the paths of cars", "statement": "A path of a car-like robot (a vector of paths of constant curvature, as returned by the Reeds and Shepp, Dubins and Snibud steering methods) that is accepted by continuous validation, progressive or by dichotomy, contains no configuration where two objects penetrate more than twice the tolerance; the part returned of a path that is refused is free too; a path is refused only if one of its configurations is in collision; validation ends.", "quantifier": "all vectors of arcs, curvatures, directions, coefficients of pairs of bodies, positive tolerances and answers of the collision library", "why_tests_cant": "The refinement of the velocity bound and the bound of arcs are each wrong in general (C34, C86); whether they are together wrong cannot be told from a finite number of paths.", "anchors": ["src/continuous-validation/body-pair-collision.cc: validateConfiguration, setupPath, collisionFreeInterval", "src/continuous-validation/solid-solid-collision.cc: computeMaximalVelocity", "src/steering-method/constant-curvature.cc: impl_velocityBound, absCosineMax, absSineMax", "src/continuous-validation.cc: validate", "src/continuous-validation/progressive.cc", "src/continuous-validation/dichotomy.cc"]}
{"id": "C160", "title": "Planning for cars is free of collision", "statement": "For a car-like robot steered by Dubins or Snibud, with continuous validation (progressive or by dichotomy), a path returned by the diffusing planner, Visibility-PRM or k-PRM* starts at the initial configuration, ends at a goal, is made of arcs that are straight or of the minimal turning radius, each one starting where the previous one ends, and contains no configuration where two objects penetrate by more than twice the tolerance.", "quantifier": "all worlds, turning radii, initial and goal configurations, sequences of random configurations, limits, interruptions, parameters of the planners, tolerances", "why_tests_cant": "The statement is about every configuration of every path that can be returned, over all random sequences; it relies on the steering methods, the vectors of paths, the validation and the planners agreeing on their contracts.", "anchors": ["src/steering-method/dubins.cc: impl_compute", "src/steering-method/snibud.cc: impl_compute", "src/steering-method/constant-curvature.cc: impl_compute, impl_extract, reverse", "src/path-vector.cc: impl_extract, reverse, rankAtParam", "src/continuous-validation.cc: validate", "src/diffusing-planner.cc: oneStep, extend", "src/visibility-prm-planner.cc: oneStep", "src/path-planner/k-prm-star.cc: oneStep"]}
{"id": "C161", "title": "Path optimizers keep the paths of cars feasible and free of collision", "statement": "For a car-like robot steered by Dubins or Snibud, with continuous validation, any sequence of RandomShortcut and SimpleShortcut applied to a path returned by the diffusing planner, Visibility-PRM or k-PRM* gives a path from the initial configuration to the same goal, made of arcs that are straight or of the minimal turning radius, each one starting where the previous one ends, without any configuration where two objects penetrate by more than twice the tolerance. SimpleShortcut always returns a path. A path driven in the direction of the steering method (forward for Dubins, backward for Snibud) is still driven in this direction after the optimization.", "quantifier": "all worlds, turning radii, initial and goal configurations, random sequences and interruptions of the planner and of each optimizer, lists of optimizers", "why_tests_cant": "Shortcuts cut arcs inside of vectors nested in vectors at random parameters; that every configuration of every result is on an arc that has been validated, for all random sequences, cannot be observed on samples.", "anchors": ["src/path-optimization/random-shortcut.cc: optimize", "src/path-optimization/simple-shortcut.cc: optimize", "src/path-optimizer.cc: steer", "src/path-vector.cc: impl_extract, concatenate", "src/steering-method/constant-curvature.cc: impl_extract", "src/problem-solver.cc: optimizePath"]}
{"id": "C162", "title": "Planning for cars with discretized validation is safe and one-way", "statement": "For a car-like robot steered by Dubins or Snibud, with discretized path validation and from a configuration free of collision, a path returned by BiRRT, the diffusing planner, Visibility-PRM or k-PRM* starts at the initial configuration, ends at a goal, is made of arcs that are straight or of the minimal turning radius, each one starting where the previous one ends, and at no parameter do two objects penetrate by more than the relative displacement possible during half a step. With BiRRT the car never changes direction: it only drives forward with Dubins and only backward with Snibud. The validation accepts, from both ends, the paths without collision.", "quantifier": "all worlds, turning radii, discretization steps, initial and goal configurations, random sequences, limits and interruptions of the planners", "why_tests_cant": "The guarantee is about all the configurations between the samples, of all paths that can be cut, reversed or concatenated by all runs of randomized planners.", "anchors": ["src/path-validation/discretized.cc: validate", "src/bi-rrt-planner.cc: oneStep", "src/diffusing-planner.cc: oneStep", "src/visibility-prm-planner.cc: oneStep", "src/path-planner/k-prm-star.cc: oneStep", "src/steering-method/dubins.cc: impl_compute", "src/steering-method/snibud.cc: impl_compute"]}
{"id": "C163", "title": "A direct path to a goal is returned without any random step", "statement": "From an empty roadmap, if the initial configuration is not a goal and the path of the steering method from the initial configuration to a goal is accepted by the projector and by the path validation with a positive length, then BiRRT, the diffusing planner, Visibility-PRM and BiRRT* return a path that solves the problem without any step, whatever the random configurations and the limits of iterations and of time, unless they are interrupted; if there is one goal, the path returned is this direct path. For a car with discretized validation, BiRRT returns the path of Dubins (of Snibud) when it is without collision.", "quantifier": "all problems, sets of goals, random sequences, limits, heuristics of the search", "why_tests_cant": "The answer must not depend on the random generator nor on the limits; a test runs a few seeds.", "anchors": ["src/path-planner.cc: solve, tryConnectInitAndGoals, computePath", "src/bi-rrt-planner.cc: startSolve", "src/path-planner/bi-rrt-star.cc: startSolve", "src/astar.hh: solution"]}
{"id": "C164", "title": "Planning then optimizing for cars with discretized validation is safe and one-way", "statement": "For a car-like robot steered by Dubins or Snibud, with discretized path validation and from a configuration free of collision, any sequence of RandomShortcut and SimpleShortcut applied to a path returned by BiRRT, the diffusing planner, Visibility-PRM or k-PRM* gives a path from the initial configuration to a goal, made of arcs that are straight or of the minimal turning radius, each one starting where the previous one ends, along which two objects never penetrate by more than the relative displacement possible during half a step. After BiRRT the optimized path still never changes direction: only forward with Dubins, only backward with Snibud. SimpleShortcut always returns a path.", "quantifier": "all worlds, turning radii, discretization steps, initial and goal configurations, random sequences and interruptions of the planner and of each optimizer, lists of optimizers", "why_tests_cant": "Shortcuts cut arcs at random parameters, so the samples validated are not those of the final path; the bound must nevertheless hold at each parameter of each result.", "anchors": ["src/path-optimization/random-shortcut.cc: optimize", "src/path-optimization/simple-shortcut.cc: optimize", "src/path-optimizer.cc: steer", "src/path-validation/discretized.cc: validate", "src/bi-rrt-planner.cc: oneStep", "src/problem-solver.cc: optimizePath"]}
{"id": "C165", "title": "Trajectories of cars are safe and within velocity limits", "statement": "For a car-like robot steered by Dubins or Snibud, when SimpleTimeParameterization turns the path returned by a planner and any sequence of RandomShortcut and SimpleShortcut into a trajectory, the trajectory visits the configurations of the path, in the same order and without going back, from the initial configuration at time 0 to a goal at the end, so without more collision than the path; after BiRRT the car never changes direction; between any two times, the car moves by no more than the limit of its linear velocity, turns by no more than the limit of its angular velocity, and each other joint moves by no more than its limit, times the safety factor, times the duration. The optimizer returns a trajectory for each path of positive length along which a joint with a limit moves.", "quantifier": "all worlds, turning radii, paths, lists of optimizers, orders of the polynomials, safety factors, velocity and acceleration limits, pairs of times", "why_tests_cant": "The limits hold between all pairs of times, on paths with any number of arcs; the velocity bound of an arc depends on the angles it sweeps, with a wrong value only in some quadrants.", "anchors": ["src/path-optimization/simple-time-parameterization.cc: optimize", "src/steering-method/constant-curvature.cc: impl_velocityBound", "src/path-vector.cc: flatten", "src/problem-solver.cc: optimizePath"]}
{"id": "C166", "title": "Planned paths of cars stay within joint bounds", "statement": "For a car-like robot steered by Dubins or Snibud, with discretized collision validation, if the joint bounds are met at the initial configuration, at the goals and at all configurations that are shot, they are met at each parameter of the path returned by BiRRT, the diffusing planner, Visibility-PRM or k-PRM*, and then by any sequence of RandomShortcut and SimpleShortcut.", "quantifier": "all worlds, turning radii, convex sets of bounds, configurations that are shot, limits, interruptions, numbers of iterations, parameters of the path", "why_tests_cant": "The bounds hold at all parameters of paths assembled from any number of parts of arcs, extracted, reversed and shortened by the planners; a test samples some parameters of some paths.", "anchors": ["src/steering-method/dubins.cc: impl_compute", "src/steering-method/snibud.cc: impl_compute", "src/steering-method/constant-curvature.cc: impl_compute, impl_extract, impl_reverse", "src/bi-rrt-planner.cc: oneStep", "src/path-planner/k-prm-star.cc: generateRandomConfig", "src/problem-solver.cc: pathValidations"]}
