#!/usr/bin/env python3
# Writes /verif/properties.jsonl. Kept as a script so that the wording is easy to review.
import json
P=[]
def p(title, statement, quantifier, why, anchors):
    P.append(dict(id="C%02d"%(len(P)+1), title=title, statement=statement,
                  quantifier=quantifier, why_tests_cant=why, anchors=anchors))

# ---------------------------------------------------------------- roadmap
p("Connected components are exactly the mutual-reachability classes",
  "After any sequence of Roadmap::addNode, addEdge, addEdges, addNodeAndEdges calls on an initially empty roadmap, two nodes report the same connectedComponent() if and only if each can be reached from the other along directed edges of the roadmap.",
  "all finite histories of the two-way and directed edge insertion calls, in any order, on any number of nodes",
  "The components are maintained incrementally (cycle detection plus merging on every edge); a wrong merge only shows on particular insertion orders, and there are infinitely many orders.",
  ["src/roadmap.cc: Roadmap::addEdge, addEdges, addNodeAndEdges, connect, merge, impl_addEdge", "src/connected-component.cc: ConnectedComponent::merge, canReach"])
p("canReach answers directed reachability exactly",
  "After any such history, cc1->canReach(cc2) returns true if and only if some (equivalently every) node of cc1 has a directed path of roadmap edges to some (equivalently every) node of cc2; the query does not change the answer of any later query.",
  "all histories, all pairs of live components, any number of repeated queries",
  "The search runs on the incrementally maintained component graph and uses mutable 'explored' marks; agreement with the edge graph is a global invariant over histories.",
  ["src/connected-component.cc: ConnectedComponent::canReach (both overloads), clean"])
p("Components partition the nodes",
  "After any history of insertions (including addNodeAndEdge), every node of the roadmap belongs to the nodes() list of exactly one component listed by connectedComponents(), exactly once, and that component is the one node->connectedComponent() returns.",
  "all histories of all node/edge insertion calls",
  "Merges move nodes between components; an error would need a particular merge history to appear.",
  ["src/roadmap.cc: addNode, createNode, merge", "src/connected-component.cc: merge", "include/hpp/core/connected-component.hh: addNode"])
p("The component graph is well formed",
  "After any history, every component listed in reachableTo()/reachableFrom() of a live component is itself live (never a component destroyed by a merge), is not the component itself, and cc2 is in cc1->reachableTo() iff cc1 is in cc2->reachableFrom(); the component graph has no directed cycle.",
  "all histories, all live components",
  "Dangling raw pointers and one-sided links only appear after specific merge orders (merging more than two components at once).",
  ["src/connected-component.cc: merge, canReach", "src/roadmap.cc: connect, merge"])
p("pathExists is sound and complete for two-way and directed edge insertion",
  "After any history of addNode, addEdge, addEdges, addNodeAndEdges, initNode, addGoalNode, resetGoalNodes: pathExists() returns true iff some goal node is reachable from the init node through directed roadmap edges.",
  "all histories",
  "Needs agreement of two different data structures for all histories.",
  ["src/roadmap.cc: pathExists", "include/hpp/core/roadmap.hh: initNode, addGoalNode, resetGoalNodes"])
p("pathExists with one-way node insertion",
  "With addNodeAndEdge (new node attached by a single directed edge) in the history: pathExists() must be true iff a goal is reachable. (The implementation puts the new node in the component of its neighbour although only one direction exists; the 'if a goal is reachable then true' half is what can be kept.)",
  "all histories of every public insertion call",
  "A test would have to build the particular one-way configuration; the surviving half ranges over all histories.",
  ["src/roadmap.cc: addNodeAndEdge, insertPathVector, pathExists"])
p("Adding an existing configuration returns the existing node",
  "If a node with configuration q is in the roadmap then addNode(q) returns a node with configuration q and changes nothing; otherwise it adds exactly one node, alone in a new component. Hence histories of addNode(q), addEdge and addEdges never hold two nodes with the same configuration. addNodeAndEdges only deduplicates within the component of the start node.",
  "all histories and configurations, any distance with d(a,b)=0 iff a=b, d>=0",
  "Depends on the nearest-neighbour structure returning a true minimum over every component for every history.",
  ["src/roadmap.cc: addNode(q), addNode(q,cc), nearestNode"])
p("Edge bookkeeping is consistent",
  "After any history each Edge in edges() has both ends in nodes(); an edge listed in n->outEdges() starts at n, one listed in n->inEdges() ends at n, and both are in edges(); an edge is listed by its start node iff it is listed by its end node; for each ordered pair of nodes exactly one edge is listed as soon as edges() has one; a pair of nodes is an out-neighbour pair iff some edge in edges() joins it; addOutEdge/addInEdge never throw from the roadmap.",
  "all histories, all ordered node pairs",
  "Three separately updated lists must agree after every history.",
  ["src/roadmap.cc: addEdges, addEdge, impl_addEdge", "src/node.cc: addOutEdge, addInEdge, isOutNeighbor, isInNeighbor"])
p("Two-way insertions are symmetric",
  "If a history uses only addNode, addEdges and addNodeAndEdges then n1 has n2 as out-neighbour iff n2 has n1 as out-neighbour, so every component can be traversed both ways and distinct components have no link.",
  "all histories of two-way insertion",
  "Invariant over histories.",
  ["src/roadmap.cc: addEdges, addNodeAndEdges"])
p("The roadmap only grows, until clear",
  "No call except clear() removes a node, an edge or a directed path, or changes the configuration of a node; after clear() there are no nodes, edges, components or goal nodes, and the init node is unset (pathExists() must not be called before an init node is set again).",
  "all histories",
  "Frame property of every operation over all states.",
  ["src/roadmap.cc: clear, addNode, addEdge, addEdges, merge"])
p("Merging another roadmap",
  "r.merge(other) leaves in r, for every node of other, a node with the same configuration, and for every edge of other with positive length an edge between the corresponding nodes; r's own nodes and edges are kept. (The implementation also adds the reverse edge of one-way edges.)",
  "all pairs of roadmaps reachable by histories, r = other included",
  "Quantifies over pairs of arbitrary roadmaps.",
  ["src/roadmap.cc: merge(other)"])
# ---------------------------------------------------------------- A*
p("A* returns a connected path from init to a goal",
  "Whenever the search returns, the returned list of edges is a chain of existing roadmap edges: the first starts at the init node, each next starts where the previous ends, and the last ends at a goal node.",
  "all roadmaps, all edge costs and heuristics",
  "The parent map is updated while nodes are still open; chain integrity is an invariant of the search loop.",
  ["src/astar.hh: Astar::solution, search, findPath"])
p("A* terminates, and fails only when no goal is reachable",
  "For every finite roadmap the search terminates; it throws 'A* failed to find a solution' iff no goal node is reachable from the init node.",
  "all finite roadmaps, edge costs and heuristics",
  "Termination and completeness range over all graphs.",
  ["src/astar.hh: search"])
p("A* is optimal for consistent heuristics",
  "If edge costs are non negative and the heuristic is consistent (in particular if it is the distance to the closest goal and every edge is at least as long as the distance between its ends) the returned path has minimal total cost among all directed paths from init to any goal, provided that parallel edges (same ends, same direction) have the same length: a second parallel edge is ignored by the search.",
  "all roadmaps with consistent heuristics",
  "Optimality quantifies over all paths of all graphs. (Closed nodes are never reopened, so optimality fails for merely admissible heuristics.)",
  ["src/astar.hh: search, heuristic, edgeCost"])
# ---------------------------------------------------------------- nearest neighbours
p("Linear nearest-neighbour search returns a true nearest node",
  "search(q, cc) on a non-empty component returns a node of cc at the reported distance, no node of cc is strictly closer, and ties go to the oldest node; nearestNode over the whole roadmap returns a global minimum. With reverse, the distance is evaluated from q to the node.",
  "all components, configurations and distances",
  "Argmin property for every list and metric.",
  ["src/nearest-neighbor/basic.cc: Basic::search", "src/roadmap.cc: nearestNode"])
p("K nearest nodes",
  "KnearestSearch(q, cc, K) with K>0 returns min(K, size) distinct positions of nodes of cc, sorted by increasing distance, such that no node left out is strictly closer than a returned one, and the reported distance is that of the farthest returned node (infinity if none).",
  "all components, K>0, metrics",
  "Heap-based selection must be right for every sequence.",
  ["src/nearest-neighbor/basic.cc: Basic::KnearestSearch (3 overloads)", "src/roadmap.cc: nearestNodes"])
p("Nodes within a ball",
  "withinBall(q, cc, r) returns exactly the nodes of cc at distance strictly less than r, each once, in insertion order.",
  "all components, radii and metrics",
  "Set equality for every input.",
  ["src/nearest-neighbor/basic.cc: Basic::withinBall"])
p("K-d tree search agrees with linear search",
  "For a weighted Euclidean distance, after any sequence of insertions inside the bounding box, KDTree::search returns a node of the component whose distance is the minimum over all nodes of this component; pruning never discards a closer node.",
  "all insertion sequences, all query points in the box, all bucket sizes",
  "Pruning errors only show for specific geometric configurations.",
  ["src/nearest-neighbor/k-d-tree.cc: addNode, findLeaf, split, distanceToBox, search"])
# ---------------------------------------------------------------- paths
p("Evaluating a concatenated path selects the right piece",
  "PathVector evaluated at parameter s returns the value of sub-path i at its own parameter, where i and the local parameter are such that the sum of the lengths of the previous sub-paths plus the local offset equals s; rankAtParam never returns an index outside the vector, throws iff the vector is empty, and the local parameter stays in the sub-path's range for s in range.",
  "all vectors of paths, all parameters in range (including junctions and zero-length pieces)",
  "Boundary behaviour at every junction of every vector.",
  ["src/path-vector.cc: rankAtParam, impl_compute, pathAtRank"])
p("Length of concatenated paths is the sum of lengths",
  "After any sequence of appendPath / concatenate / flatten the length of the vector's parameter range equals the sum of the lengths of the sub-paths, flatten yields no nested vector, and preserves evaluation at every parameter.",
  "all nesting trees of path vectors",
  "Structural induction over arbitrary nesting.",
  ["src/path-vector.cc: appendPath, concatenate, flatten"])
p("Extracting a part of a concatenated path",
  "For a<=b in range, extract([a,b]) of a path vector has length b-a and its value at its start + x equals the original's value at a+x for every x in [0,b-a]; for a>b it traverses the same points backwards.",
  "all path vectors, all pairs a,b in range",
  "Requires correctness for every split position relative to junctions.",
  ["src/path-vector.cc: impl_extract, reverse", "src/path.cc: extract"])
p("Reversal",
  "reverse() of a path vector has the same length, evaluates at x from its start to the value of the original at x from its end, and reversing twice gives back the same evaluation.",
  "all path vectors whose pieces have a correct reversal",
  "For all paths and parameters.",
  ["src/path-vector.cc: reverse", "src/path.cc: reverse"])
p("Extraction/reversal decorator",
  "A path extracted from [a,b] of a generic path (decorator ExtractedPath) evaluates at s to the original at s (or a+b-s when reversed), its initial() and end() are its values at the ends of its range, extraction composes, and its derivative/velocity bound match.",
  "all originals, all sub-intervals, both directions",
  "The reversed formula is only right for ranges starting at 0; that needs a universally quantified statement plus a counterexample.",
  ["src/extracted-path.hh: sInOriginalPath, impl_compute, impl_derivative, impl_extract, initial, end"])
p("Interpolated path passes through its way points and interpolates between neighbours",
  "After any sequence of insert(t,q), evaluation at an inserted time gives the first configuration inserted at this time, evaluation between two consecutive times interpolates linearly between their configurations, and evaluation never dereferences past the last point for t in range.",
  "all insertion sequences, all t in range",
  "Map lookups with lower_bound: every position relative to the keys matters.",
  ["src/interpolated-path.cc: impl_compute", "include/hpp/core/interpolated-path.hh: insert"])
p("Interpolated path: velocity bound, extraction and reversal",
  "velocityBound(t0,t1) must bound the speed on [t0,t1] componentwise; extract([a,b]) must evaluate to the original on [a,b]; reverse must traverse it backwards.",
  "all interpolated paths, all sub-intervals",
  "Soundness of a bound quantifies over all t in all intervals.",
  ["src/interpolated-path.cc: impl_velocityBound, impl_extract, reverse"])
p("Straight path",
  "A straight path in a vector space starts at its initial configuration, ends at its end configuration, its speed never exceeds velocityBound (and attains it), and extraction of [a,b] evaluates as the original and has length |b-a|.",
  "all end points, lengths, sub-intervals",
  "Universally quantified real arithmetic.",
  ["src/straight-path.cc: impl_compute, impl_derivative, impl_velocityBound, impl_extract"])
# ---------------------------------------------------------------- validation
p("Union of validated intervals is exact",
  "Starting from the empty set, after any sequence of unionInterval([a,b]) with a<=b the stored list covers exactly the union of the intervals, and is sorted with strictly separated non-empty members.",
  "all sequences of intervals, all parameters",
  "Case analysis over arbitrary overlaps; a wrong case silently marks unchecked parameters as valid.",
  ["src/continuous-validation/intervals.hh: Intervals::unionInterval"])
p("Coverage queries on validated intervals",
  "contains([a,b]) is true iff every parameter of [a,b] is in the union; contains(t) is true iff t is in the union, whatever the scan direction.",
  "all states reached by unions, all queries",
  "The 'only if' half relies on the canonical-form invariant of all histories.",
  ["src/continuous-validation/intervals.hh: Intervals::contains"])
p("Discretized validation checks a dense enough sample and returns a valid prefix",
  "If Discretized::validate(path) returns true, then the first and last parameters and a set of parameters with consecutive gaps at most the step were all tested valid, and the whole path is returned; if it returns false, the tested parameters before the failing one were all valid and the returned part ends at the last tested valid parameter, before the failing one (symmetrically from the end when reverse is set). If the first tested parameter fails, the returned part is reduced to that end of the path.",
  "all paths, steps > 0, validity predicates, both directions",
  "Quantifies over all lengths/steps, including the final partial step.",
  ["src/path-validation/discretized.cc: Discretized::validate"])
p("Discretized validation terminates for positive steps",
  "With a positive step the number of validity tests is bounded by length/step+2, so validate terminates; with a zero step it does not terminate as soon as the first configuration tested is valid.",
  "all paths and steps",
  "Termination is not testable.",
  ["src/path-validation/discretized.cc: Discretized::validate"])
p("Progressive continuous validation covers the whole path",
  "If continuousValidation::Progressive validates a path, every parameter of the path belongs to an interval that was certified free by the body-pair validations; if it fails, the returned part is contained in the certified set and ends where certification stopped.",
  "all paths, interval oracles, both directions",
  "Coverage of a continuum by the visited intervals is an invariant of the loop.",
  ["src/continuous-validation/progressive.cc: validateStraightPath"])
p("Dichotomy continuous validation covers the whole path",
  "If continuousValidation::Dichotomy validates a path, every parameter belongs to an interval certified free; if it fails, the returned part is certified.",
  "all paths and interval oracles, both directions",
  "Coverage of a continuum by bisection.",
  ["src/continuous-validation/dichotomy.cc: validateStraightPath"])
p("Validation of path vectors",
  "Validating a path vector piecewise returns true iff each piece is valid, and the valid part is the concatenation of the valid pieces before the first invalid one plus the valid part of that one (after it when reverse).",
  "all path vectors, both directions",
  "Direction handling over arbitrary lengths.",
  ["src/continuous-validation.cc: ContinuousValidation::validate"])
p("Certified intervals are collision free up to the tolerance",
  "For a pair of bodies whose relative speed is bounded by the velocity bound used, if collisionFreeInterval/validateConfiguration certify [a,b] from a distance lower bound at t, then at every parameter of [a,b] the distance is at least minus the tolerance allowance.",
  "all motions respecting the velocity bound, all t, all refinements",
  "Geometric statement for a continuum of parameters.",
  ["src/continuous-validation/body-pair-collision.cc: validateConfiguration, collisionFreeInterval"])
p("Combining interval validations",
  "The interval certified by validateIntervals for a configuration is the intersection of those certified by each pair, contains the tested parameter, and validation fails iff one pair fails.",
  "all sets of pairs and parameters",
  "For all lists of validators.",
  ["include/hpp/core/continuous-validation.hh: validateIntervals", "src/continuous-validation.cc: validateConfiguration"])
p("Composite path validation is a conjunction returning the shortest valid prefix",
  "PathValidations::validate returns true iff every member validates the path, and in case of failure the returned part is valid for every member.",
  "all lists of path validations, both directions",
  "The reverse direction and boundary failures need a universally quantified statement.",
  ["src/path-validations.cc: PathValidations::validate"])
p("Composite configuration validation is a conjunction",
  "ConfigValidations::validate returns true iff all members accept; otherwise the report is that of the first failing member and later members are not evaluated; joint-bound validation accepts iff every coordinate is inside its closed bounds.",
  "all member lists and configurations",
  "For all lists.",
  ["src/config-validations.cc: validate", "src/joint-bound-validation.cc: validate"])
p("Collision pair bookkeeping",
  "For any history of addObstacle, removeObstacleFromJoint, filterCollisionPairs and margin updates: the pair and request lists stay aligned; filterCollisionPairs moves exactly the active pairs whose joints are rigidly linked to the disabled list and those linked up to a parameter to the parameterized list, leaves the others active in the same order, keeps the request of every pair, and loses or duplicates none; pairs once moved are never moved back.",
  "all histories of obstacle operations",
  "Permutation property of in-place list surgery.",
  ["src/obstacle-user.cc: addObstacleToJoint, removeObstacleFromJoint, filterCollisionPairs, setSecurityMargins, setSecurityMarginBetweenBodies"])
# ---------------------------------------------------------------- planner loop
p("PathPlanner::solve honours its stop criteria",
  "solve() returns a path only if the target was reported reached, performs at most maxIterations steps when a limit is set, throws path_planning_failed when the iteration or time limit is hit or interrupt() is called during the run, and otherwise only stops when solved.",
  "all planners (arbitrary oneStep), all limits, all interrupt/time schedules",
  "Quantifies over schedules and arbitrary step behaviours.",
  ["src/path-planner.cc: solve, startSolve"])
p("A planner always has a stop criterion",
  "Through any sequence of calls to maxIterations, timeOut and stopWhenProblemIsSolved, at least one of the three criteria stays active; a call that would disable the last one throws and leaves the settings unchanged.",
  "all call sequences",
  "Invariant over call histories.",
  ["src/path-planner.cc: maxIterations, timeOut, stopWhenProblemIsSolved"])
p("kPRM* connects each new node to its k nearest and finishes",
  "The kPRM* state machine performs its build, linking, init/goal connection and failure states in order for every problem, links only pairs for which steering and validation succeeded, and never steps outside the roadmap's node list.",
  "all node counts and validation outcomes",
  "State machine over arbitrary step counts.",
  ["src/path-planner/k-prm-star.cc: oneStep, generateRandomConfig, linkNodes, connectInitAndGoal"])
p("Shortcut optimizers preserve end points and never lengthen",
  "RandomShortcut and SimpleShortcut return a path with the same initial and final configurations, made of pieces of the input and validated steering paths, continuous at junctions; RandomShortcut never returns a longer path.",
  "all input paths, random draws, validation outcomes",
  "Quantifies over all random draws.",
  ["src/path-optimization/random-shortcut.cc: optimize", "src/path-optimization/simple-shortcut.cc: optimize"])
p("Partial shortcut",
  "PartialShortcut returns a continuous path with the same end points and only accepts replacements that were fully validated; improvements found by the random phase are returned.",
  "all inputs, draws and validation outcomes",
  "Quantifies over all random draws.",
  ["src/path-optimization/partial-shortcut.cc: generatePath, optimizeFullPath, optimizeRandom"])
# ---------------------------------------------------------------- relative motion, containers
p("Relative motion matrix is the exact transitive closure",
  "After any sequence of pairwise relative-pose constraints the matrix is symmetric with Constrained diagonal; entry (i,j) is Constrained iff i and j are linked through constant constraints only, is not Unconstrained iff they are linked by any constraints; recording a constraint never weakens an entry.",
  "all numbers of joints, all constraint sequences",
  "Incremental closure over all histories.",
  ["src/relative-motion.cc: matrix, fromConstraint, recurseSetRelMotion"])
p("Constraint sets",
  "isSatisfied of a constraint set is the conjunction over its members; a set has at most one projector; adding a second throws and leaves the set unchanged; adding a set adds all of its members.",
  "all histories of addConstraint, including nested sets",
  "Histories with nesting.",
  ["src/constraint-set.cc: addConstraint, isSatisfied, configProjector"])
p("Named containers and typed parameters",
  "Containers behave as finite maps: get after add returns the last value added, erase/clear remove, get on an absent key throws; Problem::setParameter accepts only declared names with the declared type, and getParameter returns the last accepted value or else the declared default.",
  "all histories of container and parameter operations",
  "Histories.",
  ["include/hpp/core/container.hh", "src/parameter.cc", "src/problem.cc: declareParameter, setParameter, getParameter"])
# ---------------------------------------------------------------- projectors
p("Dichotomy path projector",
  "If the dichotomy projector succeeds on a path, the result is a chain of pieces from the initial to the end configuration, contiguous at junctions, each with both ends satisfying the constraints and of constrained length below the threshold; on failure the returned prefix starts at the initial configuration and is contiguous.",
  "all paths, constraint projectors, thresholds",
  "Recursive subdivision of unbounded depth.",
  ["src/path-projector/dichotomy.cc: applyToStraightPath"])
p("Progressive path projector",
  "On a path whose initial configuration satisfies the constraints, if the progressive projector succeeds the way points start and end at the end configurations of the input, all satisfy the constraints, and consecutive way points are at distance at most the threshold; on failure the result is such a chain from the initial configuration.",
  "all paths, projectors, thresholds",
  "Loop with adaptive step.",
  ["src/path-projector/progressive.cc: project"])
p("Projection of path vectors",
  "Projecting a path vector piecewise returns success iff all pieces succeed, and the result is the concatenation of the projected pieces up to and including the partial result of the first failing one.",
  "all path vectors and piece projectors",
  "Depends on which piece fails and how.",
  ["src/path-projector/dichotomy.cc: impl_apply", "src/path-projector/progressive.cc: impl_apply", "src/path-projector/global.cc: impl_apply", "src/path-projector/recursive-hermite.cc: impl_apply"])
# ---------------------------------------------------------------- numeric objects
p("Time parameterization polynomials",
  "The order-0/1/2 polynomials of SimpleTimeParameterization map [0,T] onto [s0,s1] monotonically, start and end at the interval ends, have zero derivative at both ends up to the requested order, and their speed never exceeds the bound used to compute T (acceleration for order 2).",
  "all intervals, bounds and all t in [0,T]",
  "Polynomial inequalities over a continuum.",
  ["src/path-optimization/simple-time-parameterization.cc: computeTimeParameterization*Order, computeTimeRange*Order"])
p("Polynomial derivative bound",
  "Polynomial::derivativeBound(low, up) is at least |p'(t)| for every t in [low, up].",
  "all coefficients, all intervals, all t",
  "A bound over a continuum; used for collision certification of time-parameterized paths.",
  ["include/hpp/core/time-parameterization/polynomial.hh: derivativeBound"])
p("Piecewise polynomial lookup",
  "For t in range the selected polynomial index i satisfies breakpoint(i) <= t < breakpoint(i+1) (last one inclusive); outside the range the call throws.",
  "all breakpoint sequences and t",
  "Boundary behaviour for all sequences.",
  ["include/hpp/core/time-parameterization/piecewise-polynomial.hh: findPolynomialIndex"])
p("Trapezoidal speed profile of the Reeds-Shepp time parameterization",
  "addSegments(distance, accel, decel, maxVel, targetVel) yields a profile that starts at the initial speed, ends at targetVel, never exceeds maxVel, and travels exactly distance; derivativeBound bounds the speed on the interval.",
  "all positive distances, accelerations, speeds",
  "Real arithmetic over all inputs.",
  ["src/path-optimization/reeds-shepp/piecewise-quadratic.cc: addSegments, derivativeBound, value"])
p("Bernstein splines: values and velocity bound",
  "A Bernstein spline starts at its first control point and ends at its last, stays in the convex hull of its control points, and velocityBound bounds its speed on every parameter interval.",
  "all control points, parameters and intervals, degrees 1,3,5",
  "Bounds over a continuum.",
  ["src/path/spline.cc: Bernstein eval, derivative, bound, absBound, impl_velocityBound"])
p("Relative speed bound between two bodies",
  "The maximal relative velocity used for a pair of bodies is an upper bound of the relative speed of any of their points, as the sum along the chain of joints of linear plus angular contributions.",
  "all joint chains and speeds within bounds",
  "Triangle inequality over chains of arbitrary length.",
  ["src/continuous-validation/solid-solid-collision.cc: computeMaximalVelocity, computeSequenceOfJoints, computeCoefficients"])
p("Kinodynamic motion reaches its target",
  "The bang-bang motions computed by the kinodynamic steering method reach the target position with the target velocity at the end of the duration; extraction of a sub-interval evaluates as the original.",
  "all boundary positions and velocities within bounds",
  "Real arithmetic over all inputs.",
  ["src/steering-method/steering-kinodynamic.cc: computeMinTime, fixedTimeTrajectory", "src/kinodynamic-path.cc: impl_compute, impl_extract"])
p("Obstacle registry",
  "After any history of addObstacle/removeObstacle once the robot is set (and set again only when no obstacle is registered), names are unique, the collision (resp. distance) obstacle list holds exactly the obstacles added with this flag and not removed, in order of addition, and each entry refers to the geometry registered under its name.",
  "all histories",
  "Index shifting on removal.",
  ["src/problem-solver.cc: addObstacle, removeObstacle, obstacleNames"])
p("Elimination of linear constraints",
  "Any solution of the reduced constraint lifts to a solution of the original linear constraint, and every solution of the original is obtained.",
  "all matrices and vectors",
  "Algebraic identity over all inputs.",
  ["include/hpp/core/path-optimization/linear-constraint.hh: reduceConstraint, computeSolution", "src/path-optimization/linear-constraint.cc: decompose"])
p("Distance weights",
  "The default weights of the configuration distance are finite and strictly positive, so that two configurations are at distance zero only if equal; the distance is symmetric and satisfies the triangle inequality for any non-negative weights.",
  "all robots (lists of joint lengths), all configurations",
  "For all lists.",
  ["src/weighed-distance.cc: computeWeights, impl_distance"])

p("Inserting a path vector",
  "insertPathVector(p, backAndForth) keeps what is in the roadmap, and leaves a node with the initial and one with the final configuration of p, the second reachable from the first (and conversely if backAndForth). If the final configuration is that of a node already in the roadmap, this node becomes reachable. (The implementation creates a duplicate when that node is in another component, so this last part fails.)",
  "all roadmaps reachable by public calls, all path vectors",
  "Depends on the component structure left by any earlier history.",
  ["src/roadmap.cc: insertPathVector, addNodeAndEdges, addNodeAndEdge"])

p("Velocity bound of a path vector",
  "velocityBound(t0,t1) of a path vector without constraints, whose pieces agree at their junctions and report right bounds, bounds the variation of every coordinate along the vector between any two times of [t0,t1], across junctions and zero-length pieces.",
  "all path vectors, all sub-intervals",
  "Depends on the position of the ends in arbitrary lists of pieces.",
  ["src/path-vector.cc: impl_velocityBound, rankAtParam", "include/hpp/core/path.hh: velocityBound"])
p("Time-parameterized paths",
  "Under a time parameterization s(t): the value at t is the path at s(t), derivatives follow the chain rule, velocityBound is sound, extract([a,b]) keeps the values on [a,b], reverse traverses the same values backwards in time.",
  "all paths, monotone time parameterizations and sub-intervals",
  "Quantifies over functions; small shifts of the parameter range are invisible on linear parameterizations.",
  ["src/path.cc: Path::extract, Path::derivative, timeParameterization::Shift", "include/hpp/core/path.hh: velocityBound, timeRange", "src/extracted-path.hh: impl_velocityBound"])

p("Verdict and report of collision validation",
  "CollisionValidation::validate accepts a configuration iff no active pair collides (and, when parameterized pairs are checked, none of these); when it rejects, the report names the first colliding pair, or all the colliding pairs of the list when all contacts are computed.",
  "all lists of pairs, all collision oracles",
  "For all lists of pairs and all answers of the collision library.",
  ["src/collision-validation.cc: validate", "src/obstacle-user.cc: collide"])

p("Continuous validation terminates with a positive tolerance",
  "With a positive tolerance and bounded velocities, continuous validation of a path (progressive or by dichotomy, both directions) terminates, after a number of evaluations at most proportional to length * velocity / tolerance.",
  "all paths, all lists of body pairs, all answers of the collision library",
  "Termination for all inputs.",
  ["src/continuous-validation/progressive.cc: validateStraightPath", "src/continuous-validation/dichotomy.cc: validateStraightPath", "src/continuous-validation/body-pair-collision.cc: validateConfiguration"])

p("Obstacles in continuous validation",
  "For any list of validations: addObstacle adds one body pair per joint with a body; removeObstacleFromJoint removes the obstacle from every body pair between this joint and the fixed frame and nothing else, and throws without effect iff the obstacle was not registered there; filterCollisionPairs terminates and moves exactly the pairs of rigidly linked joints to the disabled list; margin updates change the margin of exactly the pairs concerned and throw when there is none; pairs and requests stay aligned.",
  "all lists of validations, obstacles, joints and relative motion matrices",
  "Depends on the position of the removed pairs in arbitrary lists and on the presence of user-defined validations.",
  ["src/continuous-validation.cc: addObstacle, removeObstacleFromJoint, filterCollisionPairs, setSecurityMargins, setSecurityMarginBetweenBodies", "src/continuous-validation/solid-solid-collision.cc: removeObjectTo_b"])

p("Edges inserted by planners are validated",
  "Whatever the shots, every step of a planner (diffusing planner, BiRRT, visibility PRM, direct connection of init and goals) that ends normally only adds nodes and edges; every edge added carries a path accepted by path validation that starts at the configuration of its start node and ends at the configuration of its end node.",
  "all sequences of shots, all answers of steering method, path projector, path validation and constraints that respect their contract",
  "Quantifies over all executions of randomized planners.",
  ["src/diffusing-planner.cc: oneStep", "src/bi-rrt-planner.cc: oneStep", "src/visibility-prm-planner.cc: oneStep", "src/path-planner.cc: tryConnectInitAndGoals"])

p("Path returned by solve",
  "If solve() of a planner returns a path, it is a non-empty continuous sequence of paths accepted by path validation, that starts at the init configuration and ends at one of the goal configurations; steps do not raise internal errors.",
  "all problems, all sequences of shots, all initial roadmaps left by previous calls",
  "Quantifies over all executions of randomized planners.",
  ["src/path-planner.cc: solve, computePath", "src/diffusing-planner.cc", "src/bi-rrt-planner.cc", "src/path-planner/k-prm-star.cc", "src/visibility-prm-planner.cc"])

p("Visibility PRM keeps exactly guards and connections",
  "A step of Visibility PRM with a valid shot adds the configuration as a guard if no guard of the roadmap sees it, discards it if the guards that see it belong to one component, and otherwise links it both ways to the closest seeing guard of each such component.",
  "all roadmaps, shots and visibility answers",
  "Depends on the whole history of the roadmap.",
  ["src/visibility-prm-planner.cc: visibleFromCC, oneStep"])

p("RandomShortcut terminates",
  "With a distance that satisfies the triangle inequality, a steering method whose paths are as long as the distance between their ends, and end configurations at a positive distance, RandomShortcut returns after a number of iterations that depends on the input path only, whatever the random numbers.",
  "all input paths, all sequences of random numbers, all answers of path validation",
  "Termination of a randomized loop for all random sequences.",
  ["src/path-optimization/random-shortcut.cc: optimize", "src/path-optimizer.cc: shouldStop"])

p("SimpleShortcut finds every single shortcut",
  "With path lengths equal to the distance between ends and a metric, the result of SimpleShortcut is not longer than the input, nor than the input where any run of at least two consecutive pieces is replaced by an accepted steering path between its ends.",
  "all input paths, all answers of steering method and path validation",
  "For all inputs; depends on the roadmap built from the input and the search in it.",
  ["src/path-optimization/simple-shortcut.cc: optimize", "src/astar.hh", "src/problem-target/goal-configurations.cc: computePath"])

p("Recursive Hermite path projector",
  "For a path whose ends (and way points, for an interpolated path) satisfy the constraints: when RecursiveHermite succeeds, its result is a sequence of consecutive Hermite paths from the initial to the final configuration, each with Hermite length below the threshold and ends satisfying the constraints; when it fails, the result if assigned is such a sequence from the initial configuration or that single point. With a coefficient below 1 and a positive threshold it terminates.",
  "all paths, projectors, thresholds, coefficients",
  "Recursive subdivision of unbounded depth.",
  ["src/path-projector/recursive-hermite.cc: project, recurse"])

p("Applying constraints",
  "Applying constraints to a configuration that satisfies them returns true and leaves it unchanged; when a config projector returns true the configuration satisfies it and projecting again changes nothing; optimize keeps the configuration on the constraints when it returns true and leaves the maximal number of iterations as it was; a set whose members do not break the previous ones returns true only with a configuration satisfying all of them.",
  "all configurations, constraints and solvers",
  "For all configurations and all behaviours of the numerical solver.",
  ["src/constraint-set.cc: impl_compute", "src/config-projector.cc: impl_compute, optimize", "src/constraint.cc: apply"])

p("Check of a problem",
  "checkProblem throws nothing iff there is a robot, an initial configuration, and the initial configuration and every goal configuration are valid and satisfy the constraints.",
  "all problems, any number of goal configurations",
  "For all lists of goals and all validations.",
  ["src/problem.cc: checkProblem"])

p("Validations know all collision obstacles",
  "After any history of setting the robot, adding, removing and cutting obstacles, changing the path validation type, adding or clearing config validations and resetting validations or the problem, every collision obstacle of the problem solver is known to the problem, to its path validation and to each of its config validations.",
  "all histories",
  "Obstacles are registered at five places by ten functions; a missed one shows only in some orders of calls.",
  ["src/problem-solver.cc: addObstacle, removeObstacle, cutObstacle, robot, initializeProblem, pathValidationType, addConfigValidation, initValidations, initConfigValidation", "src/problem.cc: collisionObstacles, addObstacle"])

p("Values and derivatives of polynomial time parameterizations",
  "For a polynomial time parameterization with at most ten coefficients, value(t) is the value of the polynomial and derivative(t, k) its k-th derivative for every order k; with more coefficients, derivatives of order lower than the number of coefficients are refused.",
  "all coefficients, times and orders of derivation",
  "For all coefficients and orders.",
  ["include/hpp/core/time-parameterization/polynomial.hh: val, Jac", "include/hpp/core/path/math.hh: binomials"])

p("Time parameterization of Reeds and Shepp paths",
  "The result of RSTimeParameterization is made of the segments of the input path, in order, each run over its whole length; speed starts and ends at zero, is continuous at junctions, and never exceeds the maximal linear speed nor the one that makes the angular speed exceed its maximum.",
  "all sequences of constant curvature segments and all parameters",
  "For any number of segments, lengths and curvatures.",
  ["src/path-optimization/rs-time-parameterization.cc: optimize", "src/path-optimization/reeds-shepp/piecewise-quadratic.cc: addSegments"])

p("Quadratic programs under linear constraints",
  "The cost of a vector of the reduced program equals, up to a constant, the cost of the vector it stands for; reducing, solving and lifting gives the only minimum of the cost among the solutions of the constraint, when the reduced matrix is invertible and positive.",
  "all symmetric matrices, vectors and linear constraints",
  "Algebraic identity over all inputs.",
  ["include/hpp/core/path-optimization/quadratic-program.hh: reduced, solve", "src/path-optimization/quadratic-program.cc: decompose"])

p("Integral of the squared norm of spline derivatives",
  "squaredNormIntegral(k) is the integral over the range of the squared norm of the k-th derivative of the spline, and squaredNormIntegralDerivative its gradient with respect to the control points.",
  "all degrees, orders of derivation, control points and ranges",
  "Identity between integrals and sums of binomials for all inputs.",
  ["src/path/spline.cc: integral, squaredNormBasisFunctionIntegral, squaredNormIntegral, squaredNormIntegralDerivative"])

p("Minimal time of kinodynamic motions",
  "The time computed for a degree of freedom by the kinodynamic steering method is the smallest duration of a motion that joins the given positions and velocities within the bounds on velocity and acceleration; the kinodynamic distance is the greatest of these minimal times.",
  "all positions, velocities within bounds, and all motions",
  "Optimality over all motions.",
  ["src/steering-method/steering-kinodynamic.cc: computeMinTime", "src/kinodynamic-distance.cc: computeMinTime, impl_distance"])

p("States along a kinodynamic path",
  "Along a kinodynamic path the position and velocity follow the phases of constant acceleration, from the initial state to the final one; velocity stays within the bound; the derivative and the velocity bound of the path are those of this motion.",
  "all consistent parameters and all times",
  "For all parameters and times.",
  ["src/kinodynamic-path.cc: impl_compute", "src/straight-path.cc: impl_derivative, impl_velocityBound"])

p("Extraction of kinodynamic paths",
  "A kinodynamic path extracted on a sub-interval [a, b] has length b - a and at each time t the state of the original path at time a + t.",
  "all paths and sub-intervals",
  "The interval may start and end in any of the phases.",
  ["src/kinodynamic-path.cc: impl_extract"])

p("Duration of kinodynamic motions",
  "The duration of the motion returned by the kinodynamic steering method is the smallest one not shorter than the minimal time of each degree of freedom and in none of their infeasible intervals; the search for it ends.",
  "all numbers of degrees of freedom, all times and intervals",
  "Termination and optimality of a loop.",
  ["src/steering-method/steering-kinodynamic.cc: computeMaxRequiredTime, impl_compute"])

p("Trees of the bidirectional optimal planner",
  "At each step of the optimal bidirectional planner, every node attached to a root has a path of the roadmap to this root without cycle, and no step increases the cost to reach a node from a root; steps end with a roadmap of validated edges, without error.",
  "all histories of random draws, all steering methods, validation methods and projectors that meet their contracts, all lengths",
  "The history of random draws is not bounded, rewiring changes parents of old nodes.",
  ["src/path-planner/bi-rrt-star.cc: startSolve, oneStep, sample, extend, connect, improve", "src/path-planner/bi-rrt-star.cc: computeCost, setParent"])

p("Shortest path trees of a roadmap",
  "The map of parents computed from a root in a roadmap covers exactly the nodes that can be reached from the root, it is a tree, and the cost along the tree is the smallest length of the paths of the roadmap from the root; its computation ends.",
  "all roadmaps, all roots, all non-negative lengths, any order in which the queue gives its elements",
  "Optimality over all paths and all orders of the queue.",
  ["src/path-planner/bi-rrt-star.cc: computeParentMap, WeighedNode"])

p("Constant curvature paths of a car",
  "Along a path of constant curvature of a car-like robot, the car rolls without slipping, at a constant speed and with the curvature asked for; the path starts at the initial configuration and ends at its final configuration; an extracted or reversed path is the corresponding part of the motion.",
  "all initial configurations, curvatures, lengths, sub-intervals and times",
  "Non holonomic constraints are differential equations to be met at every time of every path.",
  ["src/steering-method/constant-curvature.cc: create, impl_compute, impl_extract, reverse"])

p("Derivatives and velocity bound of constant curvature paths",
  "The derivative of any order of a path of constant curvature is the derivative of its motion in the frame of the car, and the velocity at any time of an interval is within the velocity bound of the interval.",
  "all paths, orders, intervals and times",
  "All orders and all angles.",
  ["src/steering-method/constant-curvature.cc: impl_derivative, impl_velocityBound, absCosineMax, absSineMax"])

p("Dubins paths",
  "Between any two configurations, the steering method of Dubins returns a path that drives forward from the first one to the second one, never turning sharper than the turning radius, continuous, as short as possible, whose length is the distance driven plus the length of the motion of the other degrees of freedom.",
  "all pairs of configurations, all radii",
  "Six words with trigonometric conditions; the shortest one is a minimum over all ways of driving.",
  ["src/dubins.cc: dubins_LSL, dubins_LSR, dubins_RSL, dubins_RSR, dubins_RLR, dubins_LRL, mod2pi", "src/dubins-path.cc: dubins_init, dubins_init_normalised", "src/steering-method/dubins.cc: impl_compute"])

p("Reeds and Shepp paths",
  "Between any two configurations, the steering method of Reeds and Shepp returns a path that drives forward and backward from the first one to the second one, never turning sharper than the turning radius, continuous, as short as possible among its words; the corresponding distance is the length of this path.",
  "all pairs of configurations, all radii",
  "Forty eight words obtained by symmetries from eight formulas with trigonometric conditions.",
  ["src/reeds-shepp-path.cc: LpSpLp, LpSpRp, CSC, LpRmL, CCC, LpRupLumRm, LpRumLumRp, CCCC, LpRmSmLm, LpRmSmRm, CCSC, LpRmSLmRp, CCSCC, reedsSheppPathOrDistance", "src/steering-method/reeds-shepp.cc: impl_compute", "src/distance/reeds-shepp.cc: impl_distance"])

p("Continuity of paths optimized by splines",
  "The path returned by the gradient-based spline optimizer has the same first and last configurations as its input, its pieces follow each other, with the same derivatives up to half of the degree, null at both ends; degrees of freedom determined by the constraints of a piece keep their values along this piece.",
  "all numbers of splines and degrees of freedom, all degrees, all active sets, all parameters satisfying the equality constraints",
  "Any solution of the linear system, for any number of splines.",
  ["src/path-optimization/spline-gradient-based-abstract.cc: addContinuityConstraints, setContinuityConstraint, updateSplines, updateParameters, interpolate", "src/path-optimization/spline-gradient-based.cc: addProblemConstraints, addProblemConstraintOnPath"])

p("Splines between two configurations",
  "The steering method that builds splines returns a path of the length asked for (the distance if none is given), from the first configuration to the second one, with the derivatives asked for at both ends; with null derivatives, it follows the straight segment without going back. The spline optimizer replaces each piece of positive length of its input by such a spline, and throws if a piece cannot be replaced.",
  "all configurations, degrees, orders and values of derivatives, lengths, nested vectors of paths",
  "Solvability of a linear system for all orders.",
  ["src/steering-method/spline.cc: impl_compute, steer", "src/path-optimization/spline-gradient-based-abstract.cc: cleanInput, steer, appendEquivalentSpline"])

p("Joint bounds in the spline optimizer",
  "The inequality constraints of the spline optimizer keep the whole path within the joint bounds, and its input is refused exactly when it is not within the joint bounds.",
  "all splines, degrees, bounds (finite or not)",
  "A path is within the bounds at every parameter.",
  ["src/path-optimization/spline-gradient-based/joint-bounds.hh: jointBoundMatrices", "src/path-optimization/spline-gradient-based-abstract.cc: jointBoundConstraint, validateBounds"])

p("Cost of the spline optimizer",
  "The cost minimized by the spline optimizer is the weighted sum over the pieces of the integral of the squared norm of the derivative of the chosen order; its jacobian and its hessian are those of its value; it is not negative and it is convex, so that interpolating between two paths costs no more than the interpolation of their costs. Orders for which it is not defined are refused when the cost is built. The weights of the pieces are the inverses of their lengths, with a ratio of at most one million between them.",
  "all numbers of splines, degrees, orders and weights",
  "Integrals of polynomials of any degree for any number of pieces.",
  ["src/path-optimization/spline-gradient-based/cost.hh: L2NormSquaredOfDerivative (value, jacobian, hessian)", "src/path-optimization/spline-gradient-based-abstract.cc: computeLambdasFromSplineLength"])

p("Safety of the spline optimizer",
  "At whatever iteration it stops, and even if the user interrupts it, the spline optimizer returns its input or a path of which all pieces were accepted by the path validation; this path satisfies the equality and joint bound constraints, has the same ends and class of continuity as the input, and does not cost more. The optimizer raises no exception and reads no vector out of range.",
  "all answers of the validation, of the solver of quadratic programs and of the collision functions, all parameters, all numbers of iterations",
  "Interleavings of accepted and refused paths, of added and removed constraints, for any number of iterations.",
  ["src/path-optimization/spline-gradient-based.cc: optimize, addCollisionConstraint, findNewConstraint, linearize", "src/path-optimization/spline-gradient-based-abstract.cc: validatePath, updateSplines, interpolate", "src/path-optimization/quadratic-program.cc: solve"])

p("Termination of the spline optimizer",
  "The loop of the spline optimizer ends.",
  "all initial paths, all answers of the validation",
  "A loop without a bound on the number of iterations, with halved steps and added constraints.",
  ["src/path-optimization/spline-gradient-based.cc: optimize, findNewConstraint"])

p("The global path projector",
  "Whatever the answers of the solver, the path returned by the global projector starts from the initial configuration of its input; its other way points satisfy the constraints, except the last one in case of success, which is the final configuration of the input. Consecutive way points are separated by their distance, which is not greater than the step. The projection ends.",
  "all paths, all answers of the solver, all numbers of iterations",
  "The solver moves all configurations at the same time, configurations are added and removed, for any number of iterations.",
  ["src/path-projector/global.cc: project, projectOneStep, reinterpolate, createPath, initialConfigList"])

p("The global path projector with a bound on the hessian",
  "Whatever the answers of the solver, the path returned by the global projector with a bound on the hessian starts from the initial configuration of its input; its other way points satisfy the constraints, except the last one in case of success, which is the final configuration of the input. In case of success singular values at the way points are not smaller than the threshold, and two consecutive way points are closer than the sum of their singular values divided by the bound on the hessian. New configurations are interpolated strictly between two others. The projection ends and does not access memory out of its list.",
  "all paths, all answers of the solver, all bounds and thresholds, all numbers of iterations",
  "Configurations are added while the solver moves them, for any number of iterations.",
  ["src/path-projector/global.cc: project2, projectOneStep, reinterpolate, createPath, initialConfigList, initData"])

p("Components selected by name",
  "Whatever calls are made on the problem solver, a type is accepted if and only if it is the name of a registered builder, and a call that is refused changes nothing. Once a robot is given, the problem always has the path validation (with its tolerance) and the configuration validations that were selected, and solve and prepareSolveStepByStep work with the shooter, steering method, path planner (with its limits), path projector (with its tolerance), distance and initial configuration last selected, or the default ones; they never fail because of a name.",
  "all sequences of calls, including registration of new builders, calls that throw, changes of robot and resets of the problem",
  "The order of the selections, of the robot and of the resolutions, for any number of calls.",
  ["src/problem-solver.cc: distanceType, steeringMethodType, pathPlannerType, configurationShooterType, pathValidationType, pathProjectorType, addConfigValidation, robot, resetProblem, initializeProblem, initProblem, initDistance, initSteeringMethod, initPathProjector, initPathValidation, initConfigValidation"])

p("Goals given to the problem solver",
  "Whatever calls were made before, solve and prepareSolveStepByStep throw std::logic_error if goal configurations and goal constraints are both set; otherwise they work on the goal constraints (with the error threshold and number of iterations at the time they were given), or on the goal configurations added since they were last reset. prepareSolveStepByStep answers whether the planner reached the goal.",
  "all sequences of calls",
  "Goals are added, reset and mixed with resolutions in any order.",
  ["src/problem-solver.cc: addGoalConfig, resetGoalConfigs, setGoalConstraints, resetGoalConstraints, initProblem, initProblemTarget, prepareSolveStepByStep", "src/problem-target/task-target.cc: reached"])

p("Constraints of a session",
  "Whatever calls are made after a robot is given, the solver, the problem and its steering method share one set of constraints: the constraints and the numerical constraints of the config projector added since they were last reset. The config projector has the error threshold and the number of iterations last set, whether set before or after it was created. A call that throws changes nothing.",
  "all sequences of calls",
  "Constraints are added, reset, tuned, and the problem is reset, in any order.",
  ["src/problem-solver.cc: addConstraint, resetConstraints, addNumericalConstraintToConfigProjector, maxIterProjection, errorThreshold, initializeProblem", "src/constraint-set.cc: addConstraint", "include/hpp/core/problem.hh: constraints, steeringMethod"])

p("Paths of a session",
  "solve appends the path of the planner, then the output of each selected optimizer applied to the output of the previous one, in order; if an optimizer fails, the outputs before it are kept. No call but erasePath removes or changes a path, so that numbers of paths remain valid; erasePath moves the following ones by one. directPath answers that a path was built, projected and validated, with the number of the path it added, and a report when the answer is no.",
  "all sequences of calls, all steering methods, projectors, validations and optimizers",
  "Numbers of paths are kept by the user over any number of calls.",
  ["src/problem-solver.cc: solve, optimizePath, createPathOptimizers, directPath, addPathOptimizer, clearPathOptimizers", "include/hpp/core/problem-solver.hh: addPath, erasePath"])

p("Resolution step by step",
  "After prepareSolveStepByStep, executeOneStep answers whether the goal was reached at this step or before, and finishSolveStepByStep adds a path if the goal was reached and throws std::logic_error otherwise, whatever other calls are made in between.",
  "all sequences of calls between the steps",
  "Any calls can be interleaved with the steps.",
  ["src/problem-solver.cc: prepareSolveStepByStep, executeOneStep, finishSolveStepByStep, resetRoadmap, resetProblem", "src/roadmap.cc: pathExists", "src/path-planner.cc: startSolve"])

p("Uniform shooters",
  "Every configuration returned by the shooters Uniform and UniformSeedable passes the joint bound validation, whatever the random numbers; the shooters throw an exception when a degree of freedom cannot be sampled (infinite or reversed bounds), and only then. Both ends of the interval of an extra degree of freedom can be shot.",
  "all robots, bounds (also infinite ones), and sequences of random numbers",
  "Random numbers and bounds range over infinite sets; rare draws are not seen by tests.",
  ["src/configuration-shooter/uniform.cc: Uniform::impl_shoot", "include/hpp/core/configuration-shooter/uniform-tpl.hxx: UniformTpl::impl_shoot", "src/joint-bound-validation.cc: JointBoundValidation::validate"])

p("Gaussian shooter",
  "After any sequence of calls, the gaussian shooter draws around the last center given (the current configuration at creation, the neutral configuration if the center is empty) with the standard deviations last given: sigmas, or factor times the default ones (width of the interval, or 1 if it is not finite, for translations; 2 pi / sqrt (2n-3) for rotations of dimension n). Every configuration returned passes the joint bound validation.",
  "all robots, all sequences of calls, all random numbers",
  "Random numbers, robots and histories of calls.",
  ["src/configuration-shooter/gaussian.cc: computeSigmasAlgo, Gaussian::impl_shoot, Gaussian::sigma", "include/hpp/core/configuration-shooter/gaussian.hh: Gaussian, center, sigmas", "src/problem-solver.cc: createGaussianConfigShooter"])

p("Kinodynamic paths facing the velocity",
  "An oriented kinodynamic path has the positions and velocities of the kinodynamic path it is built from, and at each time at which the velocity (its horizontal part if asked for) is not zero, the orientation is a unit quaternion that turns the first axis of the robot to the direction of the velocity. Its initial and final configurations are its values at the ends and those it was asked to join. A part of it is an oriented path with the same values.",
  "all kinodynamic paths, all times, all sub-intervals",
  "Times, velocities and sub-intervals are real numbers.",
  ["src/kinodynamic-oriented-path.cc: orienteInitAndGoal, impl_compute, impl_extract", "src/kinodynamic-path.cc: impl_compute, impl_extract", "src/steering-method/steering-kinodynamic.cc: impl_compute"])

p("Target given by constraints",
  "With a target given by constraints, solve() returns a path from the init configuration to a configuration that satisfies the constraints. The problem is considered solved iff such a configuration is in the roadmap and linked to the init configuration, and a path is then found. The goal nodes inserted for the search are removed when the path is computed. Without constraints an exception is thrown.",
  "all roadmaps, constraints, planners, limits, interruptions and numbers of steps",
  "Roadmaps and runs of planners range over infinite sets.",
  ["src/problem-target/task-target.cc: TaskTarget::check, reached, computePath", "src/path-planner.cc: PathPlanner::startSolve, solve"])

p("Search in the roadmap only",
  "The planner SearchInRoadmap returns a path iff a goal configuration can be reached from the init configuration along the edges of the roadmap, then a shortest one made of these edges, and throws otherwise; it adds no edge to the roadmap.",
  "all roadmaps without node inserted one-way, init and goal configurations, limits",
  "Roadmaps range over an infinite set.",
  ["include/hpp/core/path-planner/search-in-roadmap.hh: SearchInRoadmap", "src/path-planner.cc: PathPlanner::solve", "src/astar.hh: Astar::solution"])

p("Planning followed by optimization",
  "PlanAndOptimize::solve returns the path of the planner after the optimizers, applied in the order in which they were added; other outcomes are those of the planner; what all optimizers keep (end configurations, validity) is kept.",
  "all planners, lists of optimizers, limits and runs",
  "Planners, optimizers and runs are arbitrary.",
  ["src/plan-and-optimize.cc: PlanAndOptimize::oneStep, startSolve, finishSolve, addPathOptimizer", "src/path-planner.cc: PathPlanner::solve"])

p("Hermite paths",
  "A Hermite path goes from its first to its second configuration whatever velocities are set; v0() and v1() are its derivatives at the ends; setting a velocity changes this one only; new velocities are in the kernel of the constraints; hermiteLength() is -1 or the length of the present control polygon, which is at least the length of the curve and the distance between the ends, with equality for a new path without constraints.",
  "all configurations, constraints, sequences of calls, times and subdivisions",
  "Curves, subdivisions and sequences of calls range over infinite sets.",
  ["src/path/hermite.cc: Hermite::Hermite, projectVelocities, computeHermiteLength, velocity", "include/hpp/core/path/hermite.hh: v0, v1, hermiteLength", "include/hpp/core/path/spline.hh: parameters"])

p("Paths of some degrees of freedom",
  "A SubchainPath takes at each time the values of the original path at the indices of its segments, in order, on the same interval, with initial() and end() at its ends; it fails when the original fails; selecting degrees of freedom twice composes the indices and commutes with extraction of an interval; copies have the same values.",
  "all paths, lists of segments and times",
  "Paths and times range over infinite sets.",
  ["include/hpp/core/subchain-path.hh: SubchainPath, impl_compute, initial, end, dofExtract, createCopy"])

p("Cars that go backward only",
  "The path of Snibud between two different poses goes from the first configuration to the second one along three arcs or segments, joined end to end, with the car going backward only and never turning more than allowed; its length is the distance driven plus the distance between the other degrees of freedom; no other way of driving backward, with at most this curvature, is shorter.",
  "all configurations, radii and distances",
  "Poses range over a continuum.",
  ["src/steering-method/snibud.cc: Snibud::impl_compute", "src/dubins-path.cc: DubinsPath::create", "src/path-vector.cc: PathVector::reverse"])

p("Parameters of the steering methods of cars",
  "A steering method for cars built from a problem has a strictly positive turning radius, that of the parameter, and as wheels the child joints with the names separated by commas in the parameter, all of dimension 1, or an exception is thrown; the extra length ignores the variables of the position, heading and wheels; a copy behaves as the original.",
  "all parameters, lists of names, joints and configurations",
  "Strings, lists of joints and configurations range over infinite sets.",
  ["src/steering-method/car-like.cc: CarLike::CarLike, turningRadius, getWheelsFromParameter", "src/steering-method/dubins.cc: Dubins::impl_compute"])

p("Time-optimal parameterization",
  "TOPPRA returns the pieces of the path in order, each run through from its first to its last configuration at parameters that strictly increase with time; along the path, the velocity at each grid point is the one chosen by the solver, in between it varies linearly with time and its square linearly with the position, so that it never exceeds a bound of the values at the grid points. The grid points include the ends of the pieces and are never further apart than the length over N. The optimization fails only if the solver fails or chooses two null velocities in a row; a path shorter than 1e-6 is returned without change.",
  "all paths, numbers of grid points, answers of the solver and times",
  "Paths, answers of the solver and times range over infinite sets.",
  ["plugins/toppra.cc: TOPPRA::optimize, PathWrapper, Extract", "include/hpp/core/time-parameterization/piecewise-polynomial.hh: PiecewisePolynomial", "include/hpp/core/path.hh: timeParameterization"])

p("Saving and loading a roadmap",
  "A roadmap read back from an archive is a valid roadmap with the same nodes, edges, connected components and reachability as the one that was written: it gives the same answers to pathExists and the same distances to nearest nodes, and further additions have the same observable effect. Writing fails exactly when the roadmap uses a k-d tree or an edge bears a path that cannot be written.",
  "all histories of additions before and after saving, and all allocations at loading",
  "Histories are unbounded; the archive stores cyclic references between nodes, edges and components.",
  ["src/serialization.cc", "src/nearest-neighbor/serialization.cc", "src/roadmap.cc", "include/hpp/core/roadmap.hh: serialize"])
p("Saving and loading paths",
  "A path read back from an archive is the path that was written (same class, ranges, ends, coefficients, constraints, parts), whatever follows it in the archive; writing fails exactly for paths with a time parameterization and for classes that are not registered, at any depth.",
  "all paths, nested at any depth, and all contents of the rest of the archive",
  "Paths nest to any depth.",
  ["src/path.cc: Path::serialize", "src/straight-path.cc: serialize", "src/path-vector.cc: serialize", "src/extracted-path.cc: serialize", "src/dubins-path.cc: serialize", "src/path/spline.cc: serialize", "src/steering-method/constant-curvature.cc: serialize"])
p("Copies of a problem",
  "A copy of a problem has the robot, the initial configuration, the obstacles, the parameters and the projector of the original, and calls on one of them do not change the other; the validations of a problem take into account all its obstacles and only them.",
  "all histories of creations, copies and calls on any number of problems",
  "Histories are unbounded; sharing of objects shows only after some interleavings.",
  ["src/problem.cc: Problem::create, Problem::createCopy, Problem::init, Problem::addObstacle, Problem::addGoalConfig, Problem::resetGoalConfigs"])
p("Plugins",
  "An absolute library name is used as is; otherwise the library is the first regular file dir/hppPlugins/name, the directories of HPP_PLUGIN_DIRS being tried before those of LD_LIBRARY_PATH, and an exception is thrown if and only if there is none. Loading changes the problem solver only through the plugin, returns its answer, and throws if and only if the library or its entry point is missing. A plugin object already initialized is not initialized again.",
  "all lists of directories, file systems, answers of the dynamic loader and plugins",
  "Lists of directories and file systems are unbounded.",
  ["src/plugin.cc: findPluginLibrary, loadPlugin", "include/hpp/core/plugin.hh: ProblemSolverPlugin::initialize"])
p("Distances between the robot and obstacles",
  "After computeDistances there is exactly one result for each pair of an inner object of the robot and an obstacle, in the order of the pairs, equal to the distance between these objects, whatever was computed before.",
  "all robots, lists of obstacles and earlier computations",
  "Robots and lists of obstacles are unbounded.",
  ["src/distance-between-objects.cc: addObstacle, obstacles, computeDistances"])

p("Pairs and requests of continuous validation",
  "A new continuous validation tests the collision pairs active in the robot, each once, grouped by pair of joints, and nothing else; whatever has been added, removed or set between validations, a path is validated with exactly the present interval validations; all collision requests use the break distance of the validation.",
  "all robots and all histories of additions, removals, settings, initializations and validations",
  "Histories are unbounded; the pool of copies shows stale contents only after some interleavings.",
  ["src/continuous-validation.cc: Initialize::doExecute, AddObstacle::doExecute, validate, breakDistance, addIntervalValidation, removeObstacleFromJoint", "src/continuous-validation/solid-solid-collision.cc: addCollisionPair, breakDistance, removeObjectTo_b"])
p("Compression of velocities by a projector",
  "uncompressVector followed by compressVector gives the vector back, and conversely on the free variables; uncompressing leaves the outputs of explicit constraints untouched; the same holds for matrices, and the product of a compressed jacobian by a compressed velocity is the product of the full ones.",
  "all sets of free variables, vectors and matrices of any size",
  "Sizes and sets of free variables are unbounded.",
  ["src/config-projector.cc: compressVector, uncompressVector, compressMatrix, uncompressMatrix"])
p("Settings and right hand sides of projectors",
  "A copy of a projector has the settings and right hand sides of the original and is independent of it; the error threshold applies to equalities and inequalities; setting the right hand side of a constraint changes only this one, and throws if the constraint is not in the projector.",
  "all histories of creations, copies and settings on any number of projectors",
  "Histories are unbounded and involve a default setting common to all projectors.",
  ["src/config-projector.cc: create, createCopy, errorThreshold, maxIterations, lineSearchType, defaultLineSearch, rightHandSide, rightHandSideFromConfig"])
p("Limits and interruption of path optimizers",
  "An optimization loop ends at the first iteration at which the number of iterations allowed is reached, the time allowed is elapsed, an interruption has been asked for since the call to optimize, or the algorithm has finished, and not before.",
  "all limits, sequences of interruptions from other threads, clocks and bodies of the loop",
  "The moment of an interruption and the durations are arbitrary.",
  ["src/path-optimizer.cc: monitorExecution, shouldStop, maxIterations, timeOut", "include/hpp/core/path-optimizer.hh: interrupt, endIteration", "src/path-optimization/random-shortcut.cc: RandomShortcut::optimize"])

p("Default weights of the distance bound the velocities of the bodies",
"The default weight of a joint in the weighed distance is computed from the radius of the bodies it carries so that, for a unit velocity of the joint, every point of these bodies moves at most as fast as the weight; joints without degree of freedom get weight one.  (The code squares the distance between joints before adding it to radii: the bound always holds up to a factor two, holds exactly when lengths are at least one, and fails for short links.)",
"every kinematic tree, every set of radii and offsets of bodies, every point of every body, every joint velocity",
"The bound relates a loop over joints with the norm of all the columns of the Jacobian at every point of every body; a test evaluates a few robots whose links happen to be long enough.",
["src/weighed-distance.cc: ComputeWeightStep, computeWeights"])
p("Copies of steering methods and distances behave like the originals",
"Copying a steering method or a distance gives an independent object with the same parameters: it steers, resp. measures, like the original, changing the copy never changes the original, and parameters of the problem are read at creation.  (The copy of a kinodynamic distance has uninitialized bounds, copies of car steering methods have no wheels, and one parameter of the kinodynamic steering method has no effect.)",
"every object, every parameter value, every sequence of later changes of the copy or of the original",
"Unit tests call methods on the object they created; the copies are made inside planners and path projectors and a lost field shows only on inputs that depend on it.",
["include/hpp/core/steering-method.hh: SteeringMethod", "src/steering-method/car-like.cc: CarLike", "src/steering-method/steering-kinodynamic.cc: Kinodynamic", "src/kinodynamic-distance.cc: KinodynamicDistance", "src/weighed-distance.cc: WeighedDistance", "src/distance/reeds-shepp.cc: ReedsShepp", "src/path-projector.cc: PathProjector"])

p("Roadmaps edited by hand through the problem solver",
"Adding a configuration makes it a node of the roadmap and loses nothing.  Adding an edge between two configurations succeeds exactly when each of them is nearer than the accuracy to some node; then one directed edge holding the given path is added between nearest nodes and nothing else changes; otherwise an exception names the first unknown configuration and the roadmap is unchanged.  In a roadmap built this way every edge joins nodes next to the ends of its path.  (The ends of the path are not checked by the code.)",
"every session of additions of configurations and edges, accepted or refused, every distance and every path",
"The nearest node depends on all nodes inserted before, and refused calls may come anywhere in the session.",
["src/problem-solver.cc: ProblemSolver::addConfigToRoadmap, ProblemSolver::addEdgeToRoadmap", "src/roadmap.cc: Roadmap::nearestNode, Roadmap::addEdge"])

p("A path keeps the level set of its constraints",
"What a path returns at a parameter depends only on the path and on the right-hand sides of its own constraints: building, copying, evaluating and checking other paths, even paths sharing its constraints, changes nothing.  A copy is independent of its original.  A path returned by the straight steering method keeps forever the level set of its own initial configuration; constraints given as functions of the parameter have the value of the function at this parameter.  End configurations are accepted exactly when they satisfy the constraints in force at the ends.  (Copies with given constraints share them, projecting a path sets the right-hand sides of this path, and pieces of a path restart functions of the parameter at zero.)",
"every history of constructions, copies, evaluations, checks and changes of right-hand sides over any number of paths and constraint sets",
"Constraint sets are mutable objects held through pointers; interference needs a particular interleaving of calls on several paths.",
["src/path.cc: Path::Path, Path::applyConstraints, Path::checkPath", "include/hpp/core/path.hh: Path::eval", "src/steering-method/straight.cc: Straight::impl_compute", "src/config-projector.cc: ConfigProjector::rightHandSideAt, ConfigProjector::rightHandSideFromConfig", "src/constraint-set.cc: ConstraintSet::copy", "src/path-projector/dichotomy.cc: Dichotomy::applyToStraightPath"])

p("Solutions of planners are free of collision all along, from the calls of the planner down to the distances between bodies",
"On a problem without constraints in a vector space, with the straight steering method, any distance that vanishes only between equal configurations, and continuous validation (progressive or by dichotomy) or discretized validation (collisions, the default, or joint bounds and collisions, at samples) with any finite set of pairs of bodies: whatever the configurations shot, the limits, the interruptions and the number of iterations, if solve() of the diffusing planner, Visibility-PRM, BiRRT, k-PRM* or BiRRT* returns a path from a free initial configuration, then that path vector starts at the initial configuration, ends at one of the goals, is defined and Lipschitz continuous on its whole range, and at no parameter do two objects penetrate each other by more than twice the tolerance (continuous validation), or by more than the bodies can move relative to each other in half a step (discretized validation), joints being within their bounds when these are checked. The diffusing planner and Visibility-PRM throw only for the limits and for interrupt().",
"all finite dimensions, all distances, all sets of pairs of bodies with Lipschitz signed distances, all tolerances, all sequences of shots, all settings, all goals, all parameters of the returned path",
"a test samples configurations of a few returned paths; the statement concerns all the parameters of all the paths that five planners can return for all the sequences of random configurations",
["src/path-planner.cc:PathPlanner::solve","src/diffusing-planner.cc:DiffusingPlanner::oneStep","src/visibility-prm-planner.cc","src/bi-rrt-planner.cc","src/path-planner/k-prm-star.cc","src/path-planner/bi-rrt-star.cc","src/continuous-validation/progressive.cc","src/continuous-validation/dichotomy.cc","src/continuous-validation/body-pair-collision.cc","src/path-validation/discretized.cc","src/joint-bound-validation.cc","src/collision-validation.cc","src/straight-path.cc","src/path-vector.cc:PathVector::impl_compute","src/astar.hh"])

p("Planning followed by any sequence of shortcut optimizers returns a path free of collision",
"On the problems of C126 (vector space, no constraints, straight paths, continuous or discretized validation): if one of the five planners returns a path from a free initial configuration and RandomShortcut and SimpleShortcut are then run in any order, any number of times, with any random draws and any interruptions, the final path vector starts at the initial configuration, ends at one of the goals, is defined and Lipschitz continuous on its range, and at none of its parameters do two objects penetrate each other by more than the bound of C126.",
"all problems of C126, all paths that the planners return, all finite sequences of optimizers with all their parameters, draws and interruptions, all parameters of the final path",
"the composition of random planners and random optimizers has infinitely many outcomes; a test looks at a few of them at sampled parameters",
["src/problem-solver.cc:ProblemSolver::solve","src/problem-solver.cc:ProblemSolver::optimizePath","src/path-optimization/random-shortcut.cc:RandomShortcut::optimize","src/path-optimization/simple-shortcut.cc:SimpleShortcut::optimize","src/path-optimizer.cc:PathOptimizer::steer","src/continuous-validation/progressive.cc","src/continuous-validation/dichotomy.cc"])

p("Straight paths of robots with rotation joints",
"For a robot whose joints are bounded, translation or unbounded rotation joints, a straight path moves each joint at constant speed, equal in absolute value to its velocity bound, and the part of the path between two parameters, in either order, goes through the configurations of the path; in particular the reverse of a path goes through the same configurations, so that the reverse of a collision-free path, which planners insert in the roadmap without validating it, is collision-free.",
"all numbers and kinds of joints, all pairs of configurations, all ranges, all pairs of parameters; for the reversal of half turns: all groups and all choices of a logarithm",
"the reversal fails only for pairs of configurations that differ by exactly half a turn, which random tests do not meet",
["src/straight-path.cc:StraightPath::impl_compute","src/straight-path.cc:StraightPath::impl_extract","src/straight-path.cc:StraightPath::impl_velocityBound","src/path.cc:Path::reverse","src/roadmap.cc:Roadmap::addEdges","src/diffusing-planner.cc:DiffusingPlanner::oneStep"])

p("Collision constraints of the spline optimizer",
"When a candidate path of the spline optimizer collides, the constraint added to the quadratic program is satisfied by the current, collision-free, path and excludes the collision: no path that satisfies it passes by the reported configuration at the same parameter. The constraint does not depend on the choice of the world frame. Updates of the constraint keep a configuration without collision and one in collision, twice closer each time. A constraint is built for any report of collision.",
"all robots (positions of joints given by arbitrary functions), all pairs of objects, all contact points, all splines, all numbers of updates, all world frames",
"tests check that optimization ends without collision, which the final validation ensures anyway; that a constraint does nothing shows only as a slower or failed optimization",
["src/path-optimization/spline-gradient-based/collision-constraint.hh:CollisionFunction","src/path-optimization/spline-gradient-based.cc:addCollisionConstraint","src/path-optimization/spline-gradient-based.cc:findNewConstraint","src/path-optimization/spline-gradient-based.cc:CollisionFunctions::linearize"])

p("Planned paths stay within the joint bounds",
  "With straight paths and any path validation, including the continuous ones, which do not check joint bounds: when the initial configuration, the goals and the configurations returned by the shooter are within the joint bounds (or in any convex set), every configuration of the path returned by solve() is, for each planner. More generally, any property of configurations and of paths that is kept by the steering method, the path projector, the path validation, extraction, reversal and the projection of configurations holds for all nodes and edges of the roadmap at any time, and for the path returned.",
  "all robots whose configurations form a vector space, all convex sets of configurations, all distances, obstacles and path validations, all sequences of random configurations, limits, interruptions and numbers of steps, the five planners; the general part: all steering methods, projectors and validations, all properties of configurations and paths",
  "an execution visits a few nodes; the statement is about all nodes that any sequence of draws can create and all parameters of the path",
  ["src/diffusing-planner.cc: DiffusingPlanner::oneStep", "src/path-planner/bi-rrt-star.cc: BiRrtStar::sample", "src/bi-rrt-planner.cc: oneStep", "src/path-planner/k-prm-star.cc", "src/visibility-prm-planner.cc", "src/path-planner.cc: solve", "src/steering-method/straight.cc"])

p("Planning with constraints: how far a solution leaves the level set of its start",
  "With constraints, the straight steering method and no path projector, every configuration that the solution of the diffusing planner, Visibility-PRM, kPRM* or BiRRT* evaluates with success satisfies the constraints whose right-hand side cannot be set up to the error threshold; for the constraints with a settable right-hand side, its value differs from the value at the initial configuration by at most 2k+2 thresholds on the piece of rank k, and a goal is reached only if its value differs by at most twice the number of pieces.  (The errors of the pieces do add up: a goal that the steering method refuses to join because it is not on the level set can be reached by a node between; and once its trees are connected, BiRRT* does not project the configurations it draws, those that do not satisfy the constraints are lost.)",
  "every configuration space, constraints, projector that is sound up to its threshold, path validation, shooter, parameters and number of steps",
  "the bound concerns all roadmaps and sums errors over solutions of any length; a test meets one projector and one solution",
  ["src/steering-method/straight.cc: Straight::impl_compute","src/path.cc: Path::checkPath, Path::applyConstraints","src/straight-path.cc: StraightPath::impl_extract","src/diffusing-planner.cc: DiffusingPlanner::extend","src/path-planner/bi-rrt-star.cc: BiRrtStar::improve"])

p("Spline optimization does not break the constraints of paths",
  "On each path that holds constraints, the optimizer changes only degrees of freedom that are neither outputs of explicit constraints nor used by the implicit ones.  Whatever it returns, a path can thus be evaluated at a parameter exactly when the initial one can, with the same values of the degrees of freedom used by implicit constraints, the other ones being left by the projection as the optimizer put them.  (With a non-negative guess threshold, degrees of freedom with a null column in the jacobian at the beginning of the path are freed: right for affine constraints, wrong in general.)",
  "every robot, set of constraints, vector of splines, validation and sequence of answers of the quadratic program, every parameter",
  "a statement about all optimized paths at all parameters, and about the sets of degrees of freedom of all solvers",
  ["src/path-optimization/spline-gradient-based.cc: computeActiveParameters, addProblemConstraintOnPath","src/path.cc: Path::applyConstraints"])

p("Parameters are values",
  "Whatever the history of constructions, copies, assignments (including to itself and between types), readings and destructions of parameters: a reading with the right type returns the value given last to this parameter, with another type it throws std::invalid_argument, changing a parameter does not change its copies, no memory is released twice nor read after its release, and when all parameters are destroyed no memory remains allocated.  (If memory is exhausted during an assignment, the parameter keeps a pointer to the released value, which the destructor releases again.)",
  "every history of operations on any number of parameters, every allocation that fails",
  "ownership is a statement about all histories; allocation failures cannot be triggered by ordinary tests",
  ["src/parameter.cc: Parameter::deleteValue, copyValue, operator=","include/hpp/core/parameter.hh: Parameter"])

p("Continuous validation by several threads",
  "When several threads validate paths with the same continuous validation: two threads never use the same collision pairs at the same time; as long as no validation throws and the pairs are not changed during validations, no set of threads blocks, every validation under way ends whatever the schedule, and there are never more copies of the pairs than threads; every validation uses pairs up to date.",
  "all numbers of threads, all interleavings of their steps, all sequences of validations, exceptions and changes of the pairs",
  "Interleavings cannot be enumerated, the faulty ones are rare, and a run that ends says nothing of other schedules.",
  ["src/continuous-validation.cc: ContinuousValidation::validate, addIntervalValidation, breakDistance, filterCollisionPairs", "include/hpp/core/continuous-validation.hh: bodyPairCollisionPool_"])

p("Collision tests read the present shape of the obstacles","After every history of calls that add, cut and remove obstacles, change the validations and reset the problem, and of shared pointers to geometries that the user makes and drops, every collision test of the validations of the problem is made with a registered obstacle, at its position, and reads the shape that the obstacle has at this moment, which still exists in memory.","all histories of calls and all lifetimes of the geometries, any number of obstacles and validations, any shapes","The pointer in a collision pair is taken when the pair is made; whether it is the pointer of the present shape depends on the whole history of calls and of the shared pointers. Reading destroyed memory usually goes unnoticed in a test.",["include/hpp/core/collision-pair.hh: CollisionPair","src/problem-solver.cc: cutObstacle, removeObstacle, addObstacle, resetProblem, initValidations","src/obstacle-user.cc: addObstacleToJoint","src/continuous-validation/solid-solid-collision.cc: addCollisionPair","src/distance-between-objects.cc: computeDistances"])

p("A resolution interrupted from another thread stops",
  "A call of ProblemSolver::interrupt made by another thread while ProblemSolver::solve runs lets the resolution begin at most one more unit of work (step of the planner, iteration of an optimizer); a call made before solve is called has no effect on it.",
  "every list of selected path optimizers, every interleaving of the two threads, every place where the resolution is when interrupt is called",
  "tests call interrupt after a delay: they see the schedules the machine produces, not the windows between the reset of a flag and its test",
  ["src/problem-solver.cc:ProblemSolver::interrupt", "src/problem-solver.cc:ProblemSolver::solve", "src/problem-solver.cc:ProblemSolver::createPathOptimizers", "src/path-planner.cc:PathPlanner::solve", "src/path-optimizer.cc:PathOptimizer::monitorExecution", "src/path-optimizer.cc:PathOptimizer::shouldStop"])

p("Velocity bounds of paths of robots with ball joints",
  "Along a straight path or a spline, a point of a body carried by a ball joint moves between two parameters of an interval by at most its distance to the joint, times the norm of the velocityBound of the joint on this interval, times the difference of the parameters (what continuous validation relies on); each component of the angular velocity is within the component of velocityBound.",
  "all paths, bases, control points, ranks of the joint, intervals, parameters and points",
  "Bounds over a continuum of parameters in a curved configuration space; the control points are tangent vectors at the base and the angular velocity is another vector.",
  ["src/path/spline.cc: impl_compute, impl_velocityBound, maxVelocity", "src/straight-path.cc: impl_compute, impl_velocityBound", "src/continuous-validation/solid-solid-collision.cc: computeMaximalVelocity"])

p("Solutions of planners are free of collision all along, for robots with joints of any kind",
  "On a problem without constraints, for a robot whose joints may be translations, unbounded rotations and ball joints, with the straight steering method, any distance that vanishes only between equal configurations, and continuous or discretized validation with any finite set of pairs of bodies: if solve() of the diffusing planner, Visibility-PRM, BiRRT, k-PRM* or BiRRT* returns a path from a free initial configuration, then that path vector starts at the initial configuration, ends at one of the goals, is defined on its whole range, and at no parameter do two objects penetrate each other by more than the bounds of C126.",
  "all robots made of such joints, all distances, all sets of pairs of bodies whose distances are Lipschitz in the displacement of the joints, all tolerances, all sequences of shots, all settings, all goals, all parameters of the returned path",
  "a test samples configurations of a few returned paths; the statement concerns all the parameters of all the paths that five planners can return, and fails for pairs of configurations that a random shooter draws with probability 0 but that users give as goals",
  ["src/path-planner.cc: PathPlanner::solve", "src/diffusing-planner.cc: DiffusingPlanner::oneStep", "src/visibility-prm-planner.cc", "src/bi-rrt-planner.cc", "src/path-planner/k-prm-star.cc", "src/path-planner/bi-rrt-star.cc", "src/straight-path.cc: StraightPath::impl_compute, StraightPath::impl_extract", "src/path.cc: Path::extract, Path::reverse", "src/roadmap.cc: Roadmap::addEdges"])

p("Path optimizers keep paths free of collision, for robots with joints of any kind",
  "On a problem without constraints, for a robot whose joints may be translations, unbounded rotations and ball joints, with the straight steering method and continuous or discretized validation: any sequence of RandomShortcut and SimpleShortcut applied to a path vector of straight paths free of collision that goes from q0 to q1 gives a path vector that goes from q0 to q1, is defined on its whole range, and along which no two objects penetrate each other by more than the bounds of C126. Hence the path returned by solve() of the diffusing planner, Visibility-PRM, BiRRT, k-PRM* or BiRRT*, then by any sequence of these optimizers, is one from the initial configuration to a goal that is free of collision.",
  "all robots made of such joints, all distances that vanish exactly between equal configurations, all sets of pairs of bodies, all tolerances, all sequences of optimizers, all random parameters, all interruptions, all parameters of the returned path",
  "a shortcut glues a new segment between pieces cut at random parameters; that the pieces remain on the path they come from depends on the interpolation of rotations, and a wrong one is visible only for some cuts",
  ["src/path-optimization/random-shortcut.cc: RandomShortcut::optimize", "src/path-optimization/simple-shortcut.cc: SimpleShortcut::optimize", "src/straight-path.cc: StraightPath::impl_compute, StraightPath::impl_extract", "src/path-vector.cc: PathVector::impl_extract", "src/path-planner.cc: PathPlanner::solve"])

p("Planning, optimizing and time-parameterizing gives an executable trajectory, for robots with joints of any kind",
  "On a problem without constraints, for a robot whose joints may be translations, unbounded rotations and ball joints: SimpleTimeParameterization applied to a path vector of straight paths free of collision from q0 to q1 gives a trajectory from q0 to q1 that goes through the same configurations in the same order, along which no two objects penetrate each other more than along the path, on which the displacement of every degree of freedom with a velocity limit between two times of a piece is at most the limit times the safety factor times the elapsed time, and which for orders 1 and 2 is at rest at the ends of every piece. Hence so is what comes out of solve() of the diffusing planner, Visibility-PRM, BiRRT, k-PRM* or BiRRT*, then any sequence of RandomShortcut and SimpleShortcut, then SimpleTimeParameterization. The path itself is returned only when its length is zero.",
  "all robots made of such joints, all velocity limits and safety factors, all orders, all planners and sequences of optimizers, all pairs of times",
  "the limits hold between all pairs of times of a continuous trajectory, and the trajectory must follow a path that is the outcome of a random search",
  ["src/path-optimization/simple-time-parameterization.cc: SimpleTimeParameterization::optimize", "src/straight-path.cc: StraightPath::impl_velocityBound, StraightPath::impl_derivative", "include/hpp/core/path.hh: Path::timeParameterization, Path::eval", "src/path-vector.cc: PathVector::appendPath, PathVector::rankAtParam", "src/path-planner.cc: PathPlanner::solve"])

p("Joint bounds hold along planned, optimized and time-parameterized paths, for robots with joints of any kind",
  "On a problem without constraints, for a robot whose joints may be translations or rotations with bounds, unbounded rotations and ball joints: if the initial configuration, the goals and the configurations that are drawn are within the joint bounds, so is every configuration of the path returned by solve() of the diffusing planner, Visibility-PRM, BiRRT or k-PRM*, even with a path validation that does not check the bounds, and even where the planner has reversed half a turn. Any sequence of RandomShortcut and SimpleShortcut, and SimpleTimeParameterization, keep paths within the bounds. The same holds of any set of configurations that contains the interpolations between its elements. BiRRT* goes out of the bounds when it draws near its best path.",
  "all such robots, all bounds (all sets closed by interpolation), all draws, all planners, sequences of optimizers and interruptions, all parameters of the path",
  "a violation can be anywhere along a path found by a random search and then shortened at random, and continuous path validations never look at the bounds",
  ["src/path-planner.cc: PathPlanner::solve", "src/diffusing-planner.cc: DiffusingPlanner::oneStep", "src/path-planner/bi-rrt-star.cc: BiRrtStar::sample", "src/path-optimization/random-shortcut.cc: RandomShortcut::optimize", "src/path-optimization/simple-shortcut.cc: SimpleShortcut::optimize", "src/path-optimization/simple-time-parameterization.cc: SimpleTimeParameterization::optimize", "src/joint-bound-validation.cc: JointBoundValidation::validate"])

p("Memory of roadmaps: no dangling pointer, no double release, no leak",
"Roadmaps own their nodes, edges and nearest neighbour object through raw pointers. For every program that creates, fills, merges, clears and destroys any number of roadmaps, and replaces their nearest neighbour objects, no call accesses or releases an object that has been released, every object belongs to exactly one roadmap (or is a nearest neighbour object not given yet), a call on one roadmap leaves the objects of the others unchanged, pointers to nodes and edges stay valid (same configuration, same ends) until the roadmap is cleared or destroyed, clear and the destructor release all the objects of the roadmap and nothing else, and nothing is left once the roadmaps are destroyed.",
"all sequences of calls of any length on any number of roadmaps, all configurations, all behaviours of the allocator (released addresses may be given again), all results of nearest neighbour searches",
"Memory errors depend on the history and on the addresses returned by the allocator; a test exercises a few histories, and a dangling pointer often goes unnoticed.",
["src/roadmap.cc: Roadmap::Roadmap, Roadmap::~Roadmap, Roadmap::nearestNeighbor, Roadmap::clear, Roadmap::addNode, Roadmap::addEdge, Roadmap::addEdges, Roadmap::addNodeAndEdge, Roadmap::addNodeAndEdges, Roadmap::merge, Roadmap::insertPathVector, Roadmap::addGoalNode, Roadmap::pathExists","src/node.cc: Node::addOutEdge, Node::addInEdge, Node::isOutNeighbor, Node::isInNeighbor","src/nearest-neighbor/k-d-tree.cc: KDTree::addNode, KDTree::clear","include/hpp/core/roadmap.hh: initNode, resetGoalNodes"])

p("Paths returned by a later resolution meet the present requirements",
"The problem solver keeps its roadmap from one resolution to the next. Whatever calls add, cut or remove obstacles, change the path validation or the constraints, reset the problem or the roadmap, add edges by hand and solve, the path returned by solve is free of the collision obstacles registered at that moment, as the path validation then selected can tell, and satisfies the constraints then in force, although it may be made of edges built by former resolutions.",
"all sessions: sequences of calls of any length, all obstacles, constraints and path validations, all edges built by planners that validate what they build",
"The property depends on the whole history of settings since the roadmap was created; a test solves one problem with one list of settings.",
["src/problem-solver.cc: ProblemSolver::solve, ProblemSolver::initProblem, ProblemSolver::initializeProblem, ProblemSolver::resetRoadmap, ProblemSolver::addObstacle, ProblemSolver::removeObstacle, ProblemSolver::cutObstacle, ProblemSolver::pathValidationType, ProblemSolver::addConstraint, ProblemSolver::resetConstraints, ProblemSolver::addEdgeToRoadmap"])

p("Path vectors and discretized validation keep their guarantees under rounding",
"Whatever the rounding of additions and subtractions, as long as it is monotone with a bounded relative error: a path vector that is not empty gives for every parameter of its range one of its paths and a parameter in the time range of this path, never goes back when the parameter grows, is at the parameter asked for up to a small error, and at the end of its range is the end of its last path; the discretized validation ends, checks both ends exactly and leaves no gap longer than the step and a rounding error.",
"all vectors of any number of paths, all parameters, all monotone roundings with a relative error bound (among them numbers with p bits for every p), all steps, ranges and directions",
"Rounding errors depend on the magnitudes and on the number of paths; a test sees the few vectors and steps it tries, for which errors are invisible.",
["src/path-vector.cc: PathVector::rankAtParam, PathVector::appendPath", "include/hpp/core/path.hh: Path::length", "include/hpp/core/path-vector.hh: PathVector::end", "src/path-validation/discretized.cc: Discretized::validate"])

p("Extraction and shortcuts of path vectors join exactly under rounding",
"Whatever the rounding of the arithmetic, a part extracted from a path vector of straight paths between two parameters, in either order, exists, its paths join exactly, and it leads exactly from the configuration of the vector at the first parameter to its configuration at the second one. The random shortcut, whatever it draws and however long it runs, returns paths that join exactly from the initial to the final configuration of the path it is given.",
"all vectors of any number of straight paths, all pairs of parameters, all interpolations, all monotone odd roundings with a relative error below 1, all sequences of draws of any length",
"Rounding errors would show as gaps at junctions for particular values only, after many iterations; a test compares within a tolerance on a few paths.",
["src/path-vector.cc: PathVector::impl_extract, PathVector::impl_compute, PathVector::rankAtParam", "src/straight-path.cc: StraightPath::impl_compute, StraightPath::impl_extract", "src/path.cc: Path::reverse", "src/path-optimization/random-shortcut.cc: RandomShortcut::optimize"])

p("Joint bounds hold exactly along interpolated paths under rounding",
"With arithmetic rounded to the nearest, a path vector made of straight paths between configurations that the joint bound validation accepts is accepted by it at every parameter, without any tolerance; so is everything extracted from it, and everything the random shortcut returns after any number of iterations.",
"all vectors of any number of straight paths in vector spaces of any dimension, all bounds, all parameters that are floating point numbers, all precisions, all sequences of draws of any length",
"A violation would be of one unit in the last place at some parameter; the validation has no tolerance and would reject the path, but a test cannot try all parameters.",
["src/straight-path.cc: StraightPath::impl_compute, StraightPath::impl_extract", "src/path-vector.cc: PathVector::impl_compute, PathVector::impl_extract", "src/joint-bound-validation.cc: JointBoundValidation::validate", "src/path-optimization/random-shortcut.cc: RandomShortcut::optimize"])
p("Shots of extra degrees of freedom are within bounds under rounding",
"With arithmetic rounded to the nearest, the value that the uniform configuration shooter draws for an extra degree of freedom is accepted by the joint bound validation.",
"all bounds, all values returned by the random number generator, all precisions",
"Only some bounds and one value of the random number generator out of two billion are concerned.",
["src/configuration-shooter/uniform.cc: Uniform::impl_shoot", "src/joint-bound-validation.cc: JointBoundValidation::validate"])

p("Continuous collision checking with floating-point arithmetic","With every operation on path parameters rounded, a straight path accepted by continuous collision checking (progressive or dichotomy, either direction) has, at every one of its parameters, no pair of objects penetrating more than twice the tolerance plus an explicit bound of the rounding errors; on rejection the parameter reported is one at which a test failed, the part returned ends at or before it and satisfies the same bound.  If the advance allowed by the tolerance and the distances exceeds the rounding errors, the check ends after a bounded number of evaluations.","all monotone idempotent roundings with bounded relative error (in particular binary arithmetic with any number of bits), all lists of pairs of bodies with distances bounded by Lipschitz estimates, all time ranges, both directions, both algorithms","the certified intervals are computed from divisions and sums whose rounding depends on the distances; a test sees one path with comfortable distances, not the path on which the rounded half-length is longer than the true one or is lost when added to the parameter",["src/continuous-validation/body-pair-collision.cc: BodyPairCollision::validateConfiguration, setupPath, collisionFreeInterval","src/continuous-validation/progressive.cc: Progressive::validateStraightPath","src/continuous-validation/dichotomy.cc: Dichotomy::validateStraightPath","src/continuous-validation.cc: ContinuousValidation::validateConfiguration"])

p("Search of a roadmap with floating-point arithmetic","Whatever the rounding of additions, the search of the solution in a roadmap built by any history of calls ends, raises an exception exactly when no goal can be reached from the initial node, and returns otherwise a chain of edges from the initial node to a goal. The computed length of the path vector returned, and the exact length of its paths, exceed the length of the shortest chain of edges to a goal by a relative error of a few units of rounding per edge only, in spite of the errors on the costs from the start, on the estimates that order the search and on the distance used as heuristic, though nodes once expanded are never expanded again.","All histories of calls to the roadmap, all edge lengths, all heuristics consistent up to a relative error (in particular distances computed with a relative error), all roundings with a bounded relative error, roadmaps of any size.","Errors of rounding depend on all the lengths and on the order in which nodes are expanded; a heuristic that is not consistent may make the search return a much longer path, whether errors of rounding may do so cannot be seen on examples.",["src/astar.hh: findPath, solution, heuristic, edgeCost","src/path-vector.cc: appendPath"])

p("Distances keep their meaning with floating-point arithmetic",
  "With arithmetic rounded at each operation, the distance computed between two configurations of a robot with k joints is within the factors (1-e)(1-u)^(k+3) and (1+e)(1+u)^(k+3) of the exact weighed distance, where u is the unit roundoff and e the relative accuracy of the squared distance of a joint. It stays non negative, null between equal configurations, exactly symmetric and positive between configurations at positive exact distance; it satisfies the triangle inequality up to the ratio of these factors. For robots whose joints are prismatic, bounded revolute or translations, with any extra degrees of freedom, e is (1+u)^(m+4)-1 where m is the largest number of coordinates and nothing else is assumed. The node returned as nearest to a configuration is at most this ratio times farther, in exact distance, than any other node of the roadmap, and the search of the roadmap loses at most (1+u)^2/(1-u) times this ratio per edge of a shortest chain.",
  "all robots, weights, configurations, roadmaps built by any history and rounding functions that are monotone, idempotent and of relative error u",
  "The error of a distance depends on the operands; a test compares with a tolerance chosen by hand and does not tell whether symmetry or the choice of the nearest node can break for other values.",
  ["src/weighed-distance.cc: WeighedDistance::impl_distance", "src/roadmap.cc: Roadmap::nearestNode", "src/nearest-neighbor/basic.cc: Basic::search", "src/astar.hh: Astar"])

p("Validation of one configuration by a path validation",
  "`PathValidation::validate(q, report)` answers for every configuration. With the progressive and dichotomy validations the answer is true exactly when no pair of objects collides at `q`, whatever was validated before with the same object, and the bodies are placed once. With the validation by sampling it is true exactly when all the configuration validations accept `q`, which is also the answer for the path reduced to `q`. With several path validations it is true exactly when all accept. When a continuous validation refuses a path that can be evaluated, the configuration at the parameter of its report, validated alone, is refused. A configuration refused alone is not on an accepted path.",
  "all configurations, pairs of bodies, orders of the pairs, tolerances, paths and validations",
  "The agreement between the two entry points ranges over all configurations and all histories of the validation object.",
  ["src/path-validation.cc: PathValidation::validate", "src/path-validations.cc: PathValidations::validate", "src/path-validation/discretized.cc: Discretized::validate", "src/continuous-validation/progressive.cc", "src/continuous-validation/dichotomy.cc"])

p("The diffusing planner finds the paths that its random configurations suggest",
  "If the configurations that are shot contain, in order and possibly among others, a chain that leads from the init configuration to a goal by steps of length at most R, such that an extension of length at most R towards a configuration of the chain is always accepted, and if the last one is not yet a node when it is shot, then `DiffusingPlanner::solve` returns a path from the init configuration to a goal, whatever the other configurations that are shot, unless a limit or an interruption stops it before the end of the chain. If the shots come back infinitely often near each point of some sequence of close configurations with enough clearance from the init configuration to a goal, the planner without limit ends with a path. On problems without constraints with straight paths and with any of the path validations, it is enough that no pair of objects collides along the segments of length at most R that end at the chain.",
  "all roadmaps, distances, sequences of random configurations, chains, radii, extension parameters and limits",
  "Completeness ranges over infinite sequences of random configurations.",
  ["src/diffusing-planner.cc: DiffusingPlanner::oneStep, extend", "src/path-planner.cc: PathPlanner::solve", "src/roadmap.cc: addNodeAndEdges, addNode"])

p("BiRRT finds the paths that its random configurations suggest",
  "Without constraints and from an empty roadmap, if the configurations that are shot contain, in order and possibly among others, a chain that leads from the init configuration to a goal by steps of length at most R, such that a path of length at most R towards a configuration of the chain, or that leaves the last one, is always accepted by the path validation, if no direct valid path links two goals and if no configuration is already a node when it is shot, then `BiRRTPlanner::solve` returns a path from the init configuration to a goal, whatever the other configurations that are shot, unless a limit or an interruption stops it before the end of the chain. If the shots come back infinitely often near each point of some sequence of close configurations with enough clearance from the init configuration to a goal, BiRRT without limit ends with a path. With straight paths and with any of the path validations, it is enough that no pair of objects collides along the segments of length at most R that end at the chain or start from its end.",
  "all distances, sequences of random configurations, chains, radii, steering methods and path validations that satisfy their contracts, and limits",
  "Completeness ranges over infinite sequences of random configurations.",
  ["src/bi-rrt-planner.cc: BiRRTPlanner::startSolve, oneStep, extendInternal", "src/path-planner.cc: PathPlanner::solve", "src/roadmap.cc: addNodeAndEdge, nearestNode"])

p("kPRM* finds the paths between neighbours of its nodes",
  "From an empty roadmap, the nodes of kPRM* are exactly the init and goal configurations and the first valid configurations that are shot, each once, up to the number of nodes. If the shots contain enough valid configurations, and if a chain of these nodes leads from the init configuration to a goal, such that of two successive nodes one is among the k nearest of the other (at most k nodes are as close) and the path from the latter to the former is accepted, then `solve` returns a path from the init configuration to a goal, after at most M + N (k + 1) + 3 steps (M shots, N nodes), unless a limit or an interruption stops it before. With straight paths and with any of the path validations, it is enough that no pair of objects collides along the segments of the chain.",
  "all distances that separate configurations, sequences of random configurations, numbers of nodes and of neighbours, chains, steering methods and path validations that satisfy their contracts, and limits",
  "Completeness ranges over all sequences of random configurations and roadmaps.",
  ["src/path-planner/k-prm-star.cc: startSolve, oneStep, generateRandomConfig, linkNodes, connectNodeToClosestNeighbors, connectInitAndGoal", "src/path-planner.cc: PathPlanner::solve", "src/nearest-neighbor/basic.cc: KnearestSearch"])

p("An obstacle is removed from a joint by name",
  "After every history of calls that add and remove obstacles, remove obstacles from joints, filter the collision pairs, choose validations and reset the problem, `removeObstacleFromJoint (jointName, obstacleName)` of the solver, for a joint of the robot and a registered obstacle, makes the path validation and the config validations of the problem forget the tests between the bodies of this joint and this obstacle and no others; it throws only if a validation does not test them, or if a name is unknown; a reset of the problem brings the tests back.",
  "all robots, names and histories of calls of the solver",
  "Depends on the identity of the objects that the solver makes during the history and on the kind of validation.",
  ["src/problem-solver.cc: ProblemSolver::removeObstacleFromJoint, ProblemSolver::obstacle, ProblemSolver::addObstacle, ProblemSolver::removeObstacle", "include/hpp/core/problem-solver.hh: removeObstacleFromJoint", "src/problem.cc: Problem::removeObstacleFromJoint", "src/obstacle-user.cc: CollisionPairComparision", "src/continuous-validation/solid-solid-collision.cc: removeObjectTo_b"])

p("A device is added as obstacles",
  "After every history of calls that add and remove obstacles, add devices as obstacles and set the robot, adding a device registers each of its objects, under the name of the device followed by the name of the object, for collision and distance as asked, or throws and changes nothing if a name is used already; `obstacleFramePosition` then gives the position at which each frame of the device was when it was added last, and throws for a frame that was not given since the robot was set; the reference it returns can be read until the robot is set again.",
  "all devices, names and histories of calls of the solver",
  "The result depends on all names given before, and on the order of the calls.",
  ["src/problem-solver.cc: ProblemSolver::addObstacle, ProblemSolver::obstacleFramePosition, ProblemSolver::robot, ProblemSolver::ProblemSolver"])

p("Paths of all steering methods satisfy the constraints of the problem",
  "Whatever configuration is returned with success by a path that a steering method built between two configurations satisfies the constraints of the steering method, those with a settable right-hand side on the level set of the first configuration. If both configurations are on this level set, the path goes from the first to the second one, and its elements are joined end to end.",
  "all steering methods, constraints, right-hand sides, configurations and parameters",
  "Constraints, level sets and parameters range over infinite sets.",
  ["src/steering-method/straight.cc: Straight::impl_compute", "include/hpp/core/steering-method/hermite.hh: impl_compute", "src/steering-method/spline.cc: impl_compute", "src/reeds-shepp-path.cc: reedsSheppPathOrDistance", "src/dubins-path.cc: DubinsPath::DubinsPath, dubins_init", "src/steering-method/dubins.cc: impl_compute", "src/steering-method/snibud.cc: impl_compute", "src/steering-method/steering-kinodynamic.cc: impl_compute", "src/path.cc: applyConstraints"])

p("Planned paths respect steering methods that go one way only",
  "If the steering method of the problem goes one way only (Dubins drives forward, Snibud backward), each part of the path returned by a planner can be followed: it is driven in this direction.",
  "all problems, steering methods, drawn configurations, settings and interruptions",
  "The path depends on the history of the random draws; the directions of all the edges of all roadmaps that can be built have to be considered.",
  ["src/bi-rrt-planner.cc: BiRRTPlanner::oneStep, extendInternal", "src/path-planner.cc: tryConnectInitAndGoals", "src/diffusing-planner.cc: DiffusingPlanner::oneStep", "src/visibility-prm-planner.cc: visibleFromCC, oneStep", "src/path-planner/k-prm-star.cc: connectNodeToClosestNeighbors", "src/path-planner/bi-rrt-star.cc: extend, improve", "src/steering-method/dubins.cc: impl_compute", "src/steering-method/snibud.cc: impl_compute", "src/steering-method/constant-curvature.cc: impl_extract, reverse"])

p("Continuous validation of the paths of cars",
  "A path of a car-like robot (a vector of paths of constant curvature, as returned by the Reeds and Shepp, Dubins and Snibud steering methods) that is accepted by continuous validation, progressive or by dichotomy, contains no configuration where two objects penetrate more than twice the tolerance; the part returned of a path that is refused is free too; a path is refused only if one of its configurations is in collision; validation ends.",
  "all vectors of arcs, curvatures, directions, coefficients of pairs of bodies, positive tolerances and answers of the collision library",
  "The refinement of the velocity bound and the bound of arcs are each wrong in general (C34, C86); whether they are together wrong cannot be told from a finite number of paths.",
  ["src/continuous-validation/body-pair-collision.cc: validateConfiguration, setupPath, collisionFreeInterval", "src/continuous-validation/solid-solid-collision.cc: computeMaximalVelocity", "src/steering-method/constant-curvature.cc: impl_velocityBound, absCosineMax, absSineMax", "src/continuous-validation.cc: validate", "src/continuous-validation/progressive.cc", "src/continuous-validation/dichotomy.cc"])

p("Planning for cars is free of collision",
  "For a car-like robot steered by Dubins or Snibud, with continuous validation (progressive or by dichotomy), a path returned by the diffusing planner, Visibility-PRM or k-PRM* starts at the initial configuration, ends at a goal, is made of arcs that are straight or of the minimal turning radius, each one starting where the previous one ends, and contains no configuration where two objects penetrate by more than twice the tolerance.",
  "all worlds, turning radii, initial and goal configurations, sequences of random configurations, limits, interruptions, parameters of the planners, tolerances",
  "The statement is about every configuration of every path that can be returned, over all random sequences; it relies on the steering methods, the vectors of paths, the validation and the planners agreeing on their contracts.",
  ["src/steering-method/dubins.cc: impl_compute", "src/steering-method/snibud.cc: impl_compute", "src/steering-method/constant-curvature.cc: impl_compute, impl_extract, reverse", "src/path-vector.cc: impl_extract, reverse, rankAtParam", "src/continuous-validation.cc: validate", "src/diffusing-planner.cc: oneStep, extend", "src/visibility-prm-planner.cc: oneStep", "src/path-planner/k-prm-star.cc: oneStep"])

p("Path optimizers keep the paths of cars feasible and free of collision",
  "For a car-like robot steered by Dubins or Snibud, with continuous validation, any sequence of RandomShortcut and SimpleShortcut applied to a path returned by the diffusing planner, Visibility-PRM or k-PRM* gives a path from the initial configuration to the same goal, made of arcs that are straight or of the minimal turning radius, each one starting where the previous one ends, without any configuration where two objects penetrate by more than twice the tolerance. SimpleShortcut always returns a path. A path driven in the direction of the steering method (forward for Dubins, backward for Snibud) is still driven in this direction after the optimization.",
  "all worlds, turning radii, initial and goal configurations, random sequences and interruptions of the planner and of each optimizer, lists of optimizers",
  "Shortcuts cut arcs inside of vectors nested in vectors at random parameters; that every configuration of every result is on an arc that has been validated, for all random sequences, cannot be observed on samples.",
  ["src/path-optimization/random-shortcut.cc: optimize", "src/path-optimization/simple-shortcut.cc: optimize", "src/path-optimizer.cc: steer", "src/path-vector.cc: impl_extract, concatenate", "src/steering-method/constant-curvature.cc: impl_extract", "src/problem-solver.cc: optimizePath"])

p("Planning for cars with discretized validation is safe and one-way",
  "For a car-like robot steered by Dubins or Snibud, with discretized path validation and from a configuration free of collision, a path returned by BiRRT, the diffusing planner, Visibility-PRM or k-PRM* starts at the initial configuration, ends at a goal, is made of arcs that are straight or of the minimal turning radius, each one starting where the previous one ends, and at no parameter do two objects penetrate by more than the relative displacement possible during half a step. With BiRRT the car never changes direction: it only drives forward with Dubins and only backward with Snibud. The validation accepts, from both ends, the paths without collision.",
  "all worlds, turning radii, discretization steps, initial and goal configurations, random sequences, limits and interruptions of the planners",
  "The guarantee is about all the configurations between the samples, of all paths that can be cut, reversed or concatenated by all runs of randomized planners.",
  ["src/path-validation/discretized.cc: validate", "src/bi-rrt-planner.cc: oneStep", "src/diffusing-planner.cc: oneStep", "src/visibility-prm-planner.cc: oneStep", "src/path-planner/k-prm-star.cc: oneStep", "src/steering-method/dubins.cc: impl_compute", "src/steering-method/snibud.cc: impl_compute"])
p("A direct path to a goal is returned without any random step",
  "From an empty roadmap, if the initial configuration is not a goal and the path of the steering method from the initial configuration to a goal is accepted by the projector and by the path validation with a positive length, then BiRRT, the diffusing planner, Visibility-PRM and BiRRT* return a path that solves the problem without any step, whatever the random configurations and the limits of iterations and of time, unless they are interrupted; if there is one goal, the path returned is this direct path. For a car with discretized validation, BiRRT returns the path of Dubins (of Snibud) when it is without collision.",
  "all problems, sets of goals, random sequences, limits, heuristics of the search",
  "The answer must not depend on the random generator nor on the limits; a test runs a few seeds.",
  ["src/path-planner.cc: solve, tryConnectInitAndGoals, computePath", "src/bi-rrt-planner.cc: startSolve", "src/path-planner/bi-rrt-star.cc: startSolve", "src/astar.hh: solution"])

p("Planning then optimizing for cars with discretized validation is safe and one-way",
  "For a car-like robot steered by Dubins or Snibud, with discretized path validation and from a configuration free of collision, any sequence of RandomShortcut and SimpleShortcut applied to a path returned by BiRRT, the diffusing planner, Visibility-PRM or k-PRM* gives a path from the initial configuration to a goal, made of arcs that are straight or of the minimal turning radius, each one starting where the previous one ends, along which two objects never penetrate by more than the relative displacement possible during half a step. After BiRRT the optimized path still never changes direction: only forward with Dubins, only backward with Snibud. SimpleShortcut always returns a path.",
  "all worlds, turning radii, discretization steps, initial and goal configurations, random sequences and interruptions of the planner and of each optimizer, lists of optimizers",
  "Shortcuts cut arcs at random parameters, so the samples validated are not those of the final path; the bound must nevertheless hold at each parameter of each result.",
  ["src/path-optimization/random-shortcut.cc: optimize", "src/path-optimization/simple-shortcut.cc: optimize", "src/path-optimizer.cc: steer", "src/path-validation/discretized.cc: validate", "src/bi-rrt-planner.cc: oneStep", "src/problem-solver.cc: optimizePath"])

p("Trajectories of cars are safe and within velocity limits",
  "For a car-like robot steered by Dubins or Snibud, when SimpleTimeParameterization turns the path returned by a planner and any sequence of RandomShortcut and SimpleShortcut into a trajectory, the trajectory visits the configurations of the path, in the same order and without going back, from the initial configuration at time 0 to a goal at the end, so without more collision than the path; after BiRRT the car never changes direction; between any two times, the car moves by no more than the limit of its linear velocity, turns by no more than the limit of its angular velocity, and each other joint moves by no more than its limit, times the safety factor, times the duration. The optimizer returns a trajectory for each path of positive length along which a joint with a limit moves.",
  "all worlds, turning radii, paths, lists of optimizers, orders of the polynomials, safety factors, velocity and acceleration limits, pairs of times",
  "The limits hold between all pairs of times, on paths with any number of arcs; the velocity bound of an arc depends on the angles it sweeps, with a wrong value only in some quadrants.",
  ["src/path-optimization/simple-time-parameterization.cc: optimize", "src/steering-method/constant-curvature.cc: impl_velocityBound", "src/path-vector.cc: flatten", "src/problem-solver.cc: optimizePath"])

p("Planned paths of cars stay within joint bounds",
  "For a car-like robot steered by Dubins or Snibud, with discretized collision validation, if the joint bounds are met at the initial configuration, at the goals and at all configurations that are shot, they are met at each parameter of the path returned by BiRRT, the diffusing planner, Visibility-PRM or k-PRM*, and then by any sequence of RandomShortcut and SimpleShortcut.",
  "all worlds, turning radii, convex sets of bounds, configurations that are shot, limits, interruptions, numbers of iterations, parameters of the path",
  "The bounds hold at all parameters of paths assembled from any number of parts of arcs, extracted, reversed and shortened by the planners; a test samples some parameters of some paths.",
  ["src/steering-method/dubins.cc: impl_compute", "src/steering-method/snibud.cc: impl_compute", "src/steering-method/constant-curvature.cc: impl_compute, impl_extract, impl_reverse", "src/bi-rrt-planner.cc: oneStep", "src/path-planner/k-prm-star.cc: generateRandomConfig", "src/problem-solver.cc: pathValidations"])

with open("/verif/properties.jsonl","w") as f:
    for x in P: f.write(json.dumps(x, ensure_ascii=False)+"\n")
print(len(P))
